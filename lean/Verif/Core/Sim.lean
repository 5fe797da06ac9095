import Verif.Core.Sem
import Verif.Core.View

/-
Relational reasoning about two runs: of the same function on views at other places in other memories, with other element types, or with
other user code.  `Sim.P p₁ p₂ R` says that from related states the runs of `p₁` and `p₂` end in the same way, with results related by `R`
and in related states.
-/

namespace NdSlice

variable {α₁ ι₁ ω₁ σ₁ α₂ ι₂ ω₂ σ₂ : Type}

/-- What is to be related: addresses (one to one), elements, and the states and histories of the user code. -/
structure Sim (α₁ ι₁ ω₁ σ₁ α₂ ι₂ ω₂ σ₂ : Type) where
  o₁ : Oracle σ₁ ι₁ ω₁
  o₂ : Oracle σ₂ ι₂ ω₂
  A : Addr → Addr → Prop
  inj : ∀ {a b a' b'}, A a b → A a' b' → (a' = a ↔ b' = b)
  /-- A relation of views on top of related addresses. -/
  G : View → View → Prop
  sub : ∀ {v w}, G v w → ∀ i n, G (v.sub i n) (w.sub i n)
  V : α₁ → α₂ → Prop
  S : σ₁ → List (ι₁ × Option ω₁) → σ₂ → List (ι₂ × Option ω₂) → Prop
  flip : ∀ {e₁ l₁ e₂ l₂}, S e₁ l₁ e₂ l₂ → (o₁.flip e₁).1 = (o₂.flip e₂).1 ∧ S (o₁.flip e₁).2 l₁ (o₂.flip e₂).2 l₂

/-- Runs that end in the same way. -/
inductive OutRel {β₁ β₂ : Type} (R : β₁ → β₂ → Prop) : Out β₁ → Out β₂ → Prop where
  | ok {b₁ b₂} : R b₁ b₂ → OutRel R (.ok b₁) (.ok b₂)
  | panic (e) : OutRel R (.panic e) (.panic e)
  | ub : OutRel R .ub .ub
  | diverge : OutRel R .diverge .diverge

/-- What happens after the run of the first part of a sequence. -/
theorem run_bind {α ι ω σ β γ : Type} (o : Oracle σ ι ω) (p : Prog α ι ω β) (f : β → Prog α ι ω γ) (s : St α ι ω σ) :
    run o (p >>= f) s = match run o p s with
      | (.ok b, s') => run o (f b) s'
      | (.panic e, s') => (.panic e, s')
      | (.ub, s') => (.ub, s')
      | (.diverge, s') => (.diverge, s') := by
  show run o (p.bind f) s = _
  induction p generalizing s with
  | ret b => rfl
  | get a k ih => exact ih _ _ _
  | set a x k ih => exact ih _ _
  | call q k ih => exact ih _ _ _
  | choose k ih => exact ih _ _ _
  | throw e => rfl
  | ub => rfl
  | diverge => rfl
  | join p q k _ _ ih =>
    simp only [Prog.bind, run]
    rcases run o p s with ⟨_ | _ | _ | _, s1⟩ <;> dsimp only
    · rcases run o q s1 with ⟨_ | _ | _ | _, s2⟩ <;> dsimp only <;> exact ih _ _ _ _
    · rcases run o q s1 with ⟨_ | _ | _ | _, s2⟩ <;> dsimp only <;> exact ih _ _ _ _

theorem run_onPanic {α ι ω σ β : Type} (o : Oracle σ ι ω) (p : Prog α ι ω β) (h : Prog α ι ω Unit) (s : St α ι ω σ) :
    run o (p.onPanic h) s = match run o p s with
      | (.panic e, s') => run o (h >>= fun _ => .throw e) s'
      | r => r := by
  induction p generalizing s with
  | ret b => rfl
  | get a k ih => exact ih _ _
  | set a x k ih => exact ih _
  | call q k ih => exact ih _ _
  | choose k ih => exact ih _ _
  | throw e => rfl
  | ub => rfl
  | diverge => rfl
  | join p q k _ _ ih =>
    simp only [Prog.onPanic, run]
    rcases run o p s with ⟨_ | _ | _ | _, s1⟩ <;> dsimp only
    · rcases run o q s1 with ⟨_ | _ | _ | _, s2⟩ <;> dsimp only <;> exact ih _ _ _
    · rcases run o q s1 with ⟨_ | _ | _ | _, s2⟩ <;> dsimp only <;> exact ih _ _ _

namespace Sim

variable (D : Sim α₁ ι₁ ω₁ σ₁ α₂ ι₂ ω₂ σ₂)

/-- Related states. -/
def Rel (s₁ : St α₁ ι₁ ω₁ σ₁) (s₂ : St α₂ ι₂ ω₂ σ₂) : Prop :=
  (∀ a b, D.A a b → D.V (s₁.mem a) (s₂.mem b)) ∧ D.S s₁.env s₁.log s₂.env s₂.log

/-- From related states both programs end in the same way, with results related by `R`, in related states. -/
def P {β₁ β₂ : Type} (p₁ : Prog α₁ ι₁ ω₁ β₁) (p₂ : Prog α₂ ι₂ ω₂ β₂) (R : β₁ → β₂ → Prop) : Prop :=
  ∀ s₁ s₂, D.Rel s₁ s₂ → OutRel R (run D.o₁ p₁ s₁).1 (run D.o₂ p₂ s₂).1 ∧ D.Rel (run D.o₁ p₁ s₁).2 (run D.o₂ p₂ s₂).2

/-- Views of the same length at related addresses. -/
structure VRel (v₁ v₂ : View) : Prop where
  len : v₁.len = v₂.len
  addr : ∀ i, i < v₂.len → D.A (v₁.addr i) (v₂.addr i)
  geo : D.G v₁ v₂

/-- Comparators that behave in the same way on related elements. -/
structure LessRel (less₁ : α₁ → α₁ → Prog α₁ ι₁ ω₁ Bool) (less₂ : α₂ → α₂ → Prog α₂ ι₂ ω₂ Bool) : Prop where
  less : ∀ {x₁ x₂ y₁ y₂}, D.V x₁ x₂ → D.V y₁ y₂ → D.P (less₁ x₁ y₁) (less₂ x₂ y₂) Eq

/-- Both or none. -/
def OptR {β₁ β₂ : Type} (R : β₁ → β₂ → Prop) : Option β₁ → Option β₂ → Prop
  | none, none => True
  | some x, some y => R x y
  | _, _ => False

/-- Both the same alternative. -/
def SumR {β₁ β₂ γ₁ γ₂ : Type} (R : β₁ → β₂ → Prop) (T : γ₁ → γ₂ → Prop) : β₁ ⊕ γ₁ → β₂ ⊕ γ₂ → Prop
  | .inl x, .inl y => R x y
  | .inr x, .inr y => T x y
  | _, _ => False

/-- Componentwise. -/
def ProdR {β₁ β₂ γ₁ γ₂ : Type} (R : β₁ → β₂ → Prop) (T : γ₁ → γ₂ → Prop) (x : β₁ × γ₁) (y : β₂ × γ₂) : Prop := R x.1 y.1 ∧ T x.2 y.2

variable {D} {β₁ β₂ γ₁ γ₂ : Type} {R : β₁ → β₂ → Prop} {T : γ₁ → γ₂ → Prop}

/-! ### Programs -/

theorem P.mono {p₁ : Prog α₁ ι₁ ω₁ β₁} {p₂ : Prog α₂ ι₂ ω₂ β₂} {R' : β₁ → β₂ → Prop} (h : D.P p₁ p₂ R) (hR : ∀ a b, R a b → R' a b) :
    D.P p₁ p₂ R' := by
  intro s₁ s₂ hs
  obtain ⟨h1, h2⟩ := h s₁ s₂ hs
  refine ⟨?_, h2⟩
  generalize (run D.o₁ p₁ s₁).1 = r₁ at h1 ⊢
  generalize (run D.o₂ p₂ s₂).1 = r₂ at h1 ⊢
  cases h1 with
  | ok h => exact .ok (hR _ _ h)
  | panic => exact .panic _
  | ub => exact .ub
  | diverge => exact .diverge

theorem P.pure {b₁ : β₁} {b₂ : β₂} (h : R b₁ b₂) : D.P (Pure.pure b₁) (Pure.pure b₂) R := fun _ _ hs => ⟨.ok h, hs⟩
theorem P.pureEq {b : β₁} : D.P (Pure.pure b) (Pure.pure b) Eq := P.pure rfl
theorem P.pureL {b₁ : β₁} {b₂ : β₂} (h : R b₁ b₂) : D.P (Pure.pure (Sum.inl b₁)) (Pure.pure (Sum.inl b₂)) (SumR R T) := P.pure h
theorem P.pureR {b₁ : γ₁} {b₂ : γ₂} (h : T b₁ b₂) : D.P (Pure.pure (Sum.inr b₁)) (Pure.pure (Sum.inr b₂)) (SumR R T) := P.pure h
theorem P.pureP {b₁ : β₁} {b₂ : β₂} {c₁ : γ₁} {c₂ : γ₂} (h : R b₁ b₂) (h' : T c₁ c₂) :
    D.P (Pure.pure (b₁, c₁)) (Pure.pure (b₂, c₂)) (ProdR R T) := P.pure ⟨h, h'⟩
theorem P.throw (e : Panic) : D.P (.throw e) (.throw e) R := fun _ _ hs => ⟨.panic e, hs⟩
theorem P.ub : D.P .ub .ub R := fun _ _ hs => ⟨.ub, hs⟩
theorem P.diverge : D.P .diverge .diverge R := fun _ _ hs => ⟨.diverge, hs⟩

theorem P.get {a b : Addr} (h : D.A a b) : D.P (.get a .ret) (.get b .ret) D.V := fun _ _ hs => ⟨.ok (hs.1 a b h), hs⟩

theorem P.set {a b : Addr} {x : α₁} {y : α₂} (h : D.A a b) (hx : D.V x y) : D.P (.set a x (.ret ())) (.set b y (.ret ())) Eq := by
  intro s₁ s₂ hs
  refine ⟨.ok rfl, ?_, hs.2⟩
  intro a' b' h'
  show D.V (upd s₁.mem a x a') (upd s₂.mem b y b')
  unfold upd
  by_cases hc : a' = a
  · rw [if_pos hc, if_pos ((D.inj h h').mp hc)]
    exact hx
  · rw [if_neg hc, if_neg (fun h'' => hc ((D.inj h h').mpr h''))]
    exact hs.1 a' b' h'

theorem P.choose {k₁ : Bool → Prog α₁ ι₁ ω₁ β₁} {k₂ : Bool → Prog α₂ ι₂ ω₂ β₂} (h : ∀ b, D.P (k₁ b) (k₂ b) R) : D.P (.choose k₁) (.choose k₂) R := by
  intro s₁ s₂ hs
  show OutRel R (run D.o₁ (k₁ (D.o₁.flip s₁.env).1) _).1 (run D.o₂ (k₂ (D.o₂.flip s₂.env).1) _).1 ∧
    D.Rel (run D.o₁ (k₁ (D.o₁.flip s₁.env).1) _).2 (run D.o₂ (k₂ (D.o₂.flip s₂.env).1) _).2
  obtain ⟨h1, h2⟩ := D.flip hs.2
  rw [h1]
  exact h _ _ _ ⟨hs.1, h2⟩

theorem P.bind {p₁ : Prog α₁ ι₁ ω₁ β₁} {p₂ : Prog α₂ ι₂ ω₂ β₂} {f₁ : β₁ → Prog α₁ ι₁ ω₁ γ₁} {f₂ : β₂ → Prog α₂ ι₂ ω₂ γ₂}
    (h : D.P p₁ p₂ R) (hf : ∀ b₁ b₂, R b₁ b₂ → D.P (f₁ b₁) (f₂ b₂) T) : D.P (p₁ >>= f₁) (p₂ >>= f₂) T := by
  intro s₁ s₂ hs
  have := h s₁ s₂ hs
  rw [run_bind, run_bind]
  revert this
  rcases run D.o₁ p₁ s₁ with ⟨r₁, t₁⟩
  rcases run D.o₂ p₂ s₂ with ⟨r₂, t₂⟩
  rintro ⟨h1, h2⟩
  cases h1 with
  | ok h => exact hf _ _ h _ _ h2
  | panic => exact ⟨.panic _, h2⟩
  | ub => exact ⟨.ub, h2⟩
  | diverge => exact ⟨.diverge, h2⟩

theorem P.onPanic {p₁ : Prog α₁ ι₁ ω₁ β₁} {p₂ : Prog α₂ ι₂ ω₂ β₂} {h₁ : Prog α₁ ι₁ ω₁ Unit} {h₂ : Prog α₂ ι₂ ω₂ Unit}
    (h : D.P p₁ p₂ R) (hh : D.P h₁ h₂ Eq) : D.P (p₁.onPanic h₁) (p₂.onPanic h₂) R := by
  intro s₁ s₂ hs
  have := h s₁ s₂ hs
  rw [run_onPanic, run_onPanic]
  revert this
  rcases run D.o₁ p₁ s₁ with ⟨r₁, t₁⟩
  rcases run D.o₂ p₂ s₂ with ⟨r₂, t₂⟩
  rintro ⟨h1, h2⟩
  cases h1 with
  | ok h => exact ⟨.ok h, h2⟩
  | panic e => exact P.bind hh (fun _ _ _ => P.throw e) _ _ h2
  | ub => exact ⟨.ub, h2⟩
  | diverge => exact ⟨.diverge, h2⟩

theorem P.ite {c : Prop} [i₁ : Decidable c] [i₂ : Decidable c] {p₁ q₁ : Prog α₁ ι₁ ω₁ β₁} {p₂ q₂ : Prog α₂ ι₂ ω₂ β₂}
    (h : c → D.P p₁ p₂ R) (h' : ¬ c → D.P q₁ q₂ R) : D.P (@_root_.ite _ c i₁ p₁ q₁) (@_root_.ite _ c i₂ p₂ q₂) R := by
  by_cases hc : c
  · rw [if_pos hc, if_pos hc]; exact h hc
  · rw [if_neg hc, if_neg hc]; exact h' hc

theorem P.join {p₁ : Prog α₁ ι₁ ω₁ β₁} {p₂ : Prog α₂ ι₂ ω₂ β₂} {q₁ : Prog α₁ ι₁ ω₁ γ₁} {q₂ : Prog α₂ ι₂ ω₂ γ₂} (h : D.P p₁ p₂ R)
    (h' : D.P q₁ q₂ T) : D.P (Prog.rayonJoin p₁ q₁) (Prog.rayonJoin p₂ q₂) (ProdR R T) := by
  intro s₁ s₂ hs
  unfold Prog.rayonJoin
  have := h s₁ s₂ hs
  simp only [run]
  revert this
  rcases run D.o₁ p₁ s₁ with ⟨r₁, t₁⟩
  rcases run D.o₂ p₂ s₂ with ⟨r₂, t₂⟩
  rintro ⟨h1, h2⟩
  have := h' t₁ t₂ h2
  cases h1 with
  | ub => exact ⟨.ub, h2⟩
  | diverge => exact ⟨.diverge, h2⟩
  | ok hb =>
    dsimp only
    revert this
    rcases run D.o₁ q₁ t₁ with ⟨r₁, u₁⟩
    rcases run D.o₂ q₂ t₂ with ⟨r₂, u₂⟩
    rintro ⟨h3, h4⟩
    cases h3 with
    | ub => exact ⟨.ub, h4⟩
    | diverge => exact ⟨.diverge, h4⟩
    | ok hc => exact ⟨.ok ⟨hb, hc⟩, h4⟩
    | panic e => exact ⟨.panic e, h4⟩
  | panic e =>
    dsimp only
    revert this
    rcases run D.o₁ q₁ t₁ with ⟨r₁, u₁⟩
    rcases run D.o₂ q₂ t₂ with ⟨r₂, u₂⟩
    rintro ⟨h3, h4⟩
    cases h3 with
    | ub => exact ⟨.ub, h4⟩
    | diverge => exact ⟨.diverge, h4⟩
    | ok hc => exact ⟨.panic e, h4⟩
    | panic e' => exact ⟨.panic e, h4⟩

theorem P.loop {body₁ : β₁ → Prog α₁ ι₁ ω₁ (β₁ ⊕ γ₁)} {body₂ : β₂ → Prog α₂ ι₂ ω₂ (β₂ ⊕ γ₂)}
    (h : ∀ x y, R x y → D.P (body₁ x) (body₂ y) (SumR R T)) {n : Nat} {x : β₁} {y : β₂} (hx : R x y) :
    D.P (Prog.loop body₁ n x) (Prog.loop body₂ n y) T := by
  induction n generalizing x y with
  | zero => exact P.diverge
  | succ n ih =>
    unfold Prog.loop
    refine P.bind (h x y hx) ?_
    rintro (a | a) (b | b) hab
    · exact ih hab
    · exact hab.elim
    · exact hab.elim
    · exact P.pure hab

theorem P.loopEq {body₁ : β₁ → Prog α₁ ι₁ ω₁ (β₁ ⊕ γ₁)} {body₂ : β₁ → Prog α₂ ι₂ ω₂ (β₁ ⊕ γ₁)}
    (h : ∀ x, D.P (body₁ x) (body₂ x) (SumR Eq Eq)) {n : Nat} {x : β₁} : D.P (Prog.loop body₁ n x) (Prog.loop body₂ n x) Eq :=
  P.loop (R := Eq) (fun x y hxy => by cases hxy; exact h x) rfl

theorem P.forUp {body₁ : Nat → Prog α₁ ι₁ ω₁ Unit} {body₂ : Nat → Prog α₂ ι₂ ω₂ Unit} {n : Nat} {i : Nat}
    (h : ∀ j, i ≤ j → j < i + n → D.P (body₁ j) (body₂ j) Eq) : D.P (Prog.forUp body₁ i n) (Prog.forUp body₂ i n) Eq := by
  induction n generalizing i with
  | zero => exact P.pure rfl
  | succ n ih =>
    unfold Prog.forUp
    exact P.bind (h i (by omega) (by omega)) fun _ _ _ => ih fun j h1 h2 => h j (by omega) (by omega)

theorem P.forDown {body₁ : Nat → Prog α₁ ι₁ ω₁ Unit} {body₂ : Nat → Prog α₂ ι₂ ω₂ Unit} {i n : Nat}
    (h : ∀ j, i ≤ j → j < i + n → D.P (body₁ j) (body₂ j) Eq) : D.P (Prog.forDown body₁ i n) (Prog.forDown body₂ i n) Eq := by
  induction n with
  | zero => exact P.pure rfl
  | succ n ih =>
    unfold Prog.forDown
    exact P.bind (h (i + n) (by omega) (by omega)) fun _ _ _ => ih fun j h1 h2 => h j h1 (by omega)

/-! ### Views -/

variable {v₁ v₂ : View} {cfg : Cfg} {i j n : Nat} {x : α₁} {y : α₂}

theorem VRel.sub (hv : D.VRel v₁ v₂) (h : i + n ≤ v₂.len) : D.VRel (v₁.sub i n) (v₂.sub i n) := by
  refine ⟨rfl, fun j hj => ?_, D.sub hv.geo i n⟩
  have hj : j < n := hj
  have := hv.addr (i + j) (by omega)
  have e : ∀ v : View, (v.sub i n).addr j = v.addr (i + j) := by
    intro v
    unfold View.sub View.addr
    push_cast
    rw [Int.mul_add, Int.add_assoc]
  rw [e, e]
  exact this

theorem vget (hv : D.VRel v₁ v₂) : D.P (v₁.get i) (v₂.get i) D.V := by
  unfold View.get
  rw [hv.len]
  exact P.ite (fun h => P.get (hv.addr i h)) (fun _ => P.ub)

theorem vset (hv : D.VRel v₁ v₂) (hx : D.V x y) : D.P (v₁.set i x) (v₂.set i y) Eq := by
  unfold View.set
  rw [hv.len]
  exact P.ite (fun h => P.set (hv.addr i h) hx) (fun _ => P.ub)

theorem vidx (hv : D.VRel v₁ v₂) : D.P (v₁.idx i) (v₂.idx i) D.V := by
  unfold View.idx
  rw [hv.len]
  exact P.ite (fun h => P.get (hv.addr i h)) (fun _ => P.throw _)

theorem vref (hv : D.VRel v₁ v₂) : D.P (v₁.ref i) (v₂.ref i) D.A := by
  unfold View.ref
  rw [hv.len]
  exact P.ite (fun h => P.pure (hv.addr i h)) (fun _ => P.throw _)

theorem vcset (hv : D.VRel v₁ v₂) (hx : D.V x y) : D.P (v₁.cset i x) (v₂.cset i y) Eq := by
  unfold View.cset
  rw [hv.len]
  exact P.ite (fun h => P.set (hv.addr i h) hx) (fun _ => P.throw _)

theorem vswap (hv : D.VRel v₁ v₂) : D.P (v₁.swap i j) (v₂.swap i j) Eq :=
  P.bind (vidx hv) fun _ _ h => P.bind (vidx hv) fun _ _ h' => P.bind (vset hv h') fun _ _ _ => vset hv h

theorem vuswap (hv : D.VRel v₁ v₂) : D.P (v₁.uswap i j) (v₂.uswap i j) Eq :=
  P.bind (vget hv) fun _ _ h => P.bind (vget hv) fun _ _ h' => P.bind (vset hv h') fun _ _ _ => vset hv h

theorem vslice (hv : D.VRel v₁ v₂) : D.P (v₁.slice i j) (v₂.slice i j) D.VRel := by
  unfold View.slice
  rw [hv.len]
  refine P.ite (fun h => P.pure (hv.sub ?_)) (fun _ => P.throw _)
  split at h <;> split <;> omega

theorem vsplitAt (hv : D.VRel v₁ v₂) : D.P (v₁.splitAt i) (v₂.splitAt i) (ProdR D.VRel D.VRel) := by
  unfold View.splitAt
  rw [hv.len]
  exact P.ite (fun h => P.pure ⟨hv.sub (by omega), hv.sub (by omega)⟩) (fun _ => P.throw _)

theorem deref {a b : Addr} (h : D.A a b) : D.P (NdSlice.deref a) (NdSlice.deref b) D.V := P.get h

theorem debugAssert {c : Bool} : D.P (NdSlice.debugAssert cfg c) (NdSlice.debugAssert cfg c) Eq := by
  unfold NdSlice.debugAssert
  exact P.ite (fun _ => P.throw _) (fun _ => P.pure rfl)

theorem assertP {c : Bool} : D.P (NdSlice.assertP c) (NdSlice.assertP c) Eq := by
  unfold NdSlice.assertP
  exact P.ite (fun _ => P.pure rfl) (fun _ => P.throw _)

theorem usub {a b : Nat} : D.P (NdSlice.usub cfg a b) (NdSlice.usub cfg a b) Eq := by
  unfold NdSlice.usub
  exact P.ite (fun _ => P.pure rfl) (fun _ => P.ite (fun _ => P.throw _) (fun _ => P.pure rfl))

theorem whenP {c : Bool} {p₁ : Prog α₁ ι₁ ω₁ Unit} {p₂ : Prog α₂ ι₂ ω₂ Unit} (h : D.P p₁ p₂ Eq) : D.P (NdSlice.whenP c p₁) (NdSlice.whenP c p₂) Eq := by
  unfold NdSlice.whenP
  exact P.ite (fun _ => h) (fun _ => P.pure rfl)

theorem P.less {less₁ : α₁ → α₁ → Prog α₁ ι₁ ω₁ Bool} {less₂ : α₂ → α₂ → Prog α₂ ι₂ ω₂ Bool} (h : D.LessRel less₁ less₂) {x₁ x₂ y₁ y₂}
    (hx : D.V x₁ x₂) (hy : D.V y₁ y₂) : D.P (less₁ x₁ y₁) (less₂ x₂ y₂) Eq := h.less hx hy

/-! ### Rules for `sim`, by the type of the result of the first part -/

theorem P.bindEq {p₁ : Prog α₁ ι₁ ω₁ β₁} {p₂ : Prog α₂ ι₂ ω₂ β₁} {f₁ : β₁ → Prog α₁ ι₁ ω₁ γ₁} {f₂ : β₁ → Prog α₂ ι₂ ω₂ γ₂}
    (h : D.P p₁ p₂ Eq) (hf : ∀ b, D.P (f₁ b) (f₂ b) T) : D.P (p₁ >>= f₁) (p₂ >>= f₂) T :=
  P.bind h fun a b h => by cases h; exact hf a

theorem P.bindEq2 {δ ε : Type} {p₁ : Prog α₁ ι₁ ω₁ (δ × ε)} {p₂ : Prog α₂ ι₂ ω₂ (δ × ε)} {f₁ : δ × ε → Prog α₁ ι₁ ω₁ γ₁}
    {f₂ : δ × ε → Prog α₂ ι₂ ω₂ γ₂} (h : D.P p₁ p₂ Eq) (hf : ∀ a b, D.P (f₁ (a, b)) (f₂ (a, b)) T) : D.P (p₁ >>= f₁) (p₂ >>= f₂) T :=
  P.bindEq h fun ⟨a, b⟩ => hf a b

theorem P.bindEq3 {δ ε ζ : Type} {p₁ : Prog α₁ ι₁ ω₁ (δ × ε × ζ)} {p₂ : Prog α₂ ι₂ ω₂ (δ × ε × ζ)} {f₁ : δ × ε × ζ → Prog α₁ ι₁ ω₁ γ₁}
    {f₂ : δ × ε × ζ → Prog α₂ ι₂ ω₂ γ₂} (h : D.P p₁ p₂ Eq) (hf : ∀ a b c, D.P (f₁ (a, b, c)) (f₂ (a, b, c)) T) : D.P (p₁ >>= f₁) (p₂ >>= f₂) T :=
  P.bindEq h fun ⟨a, b, c⟩ => hf a b c

theorem P.bindEq4 {δ ε ζ η : Type} {p₁ : Prog α₁ ι₁ ω₁ (δ × ε × ζ × η)} {p₂ : Prog α₂ ι₂ ω₂ (δ × ε × ζ × η)}
    {f₁ : δ × ε × ζ × η → Prog α₁ ι₁ ω₁ γ₁} {f₂ : δ × ε × ζ × η → Prog α₂ ι₂ ω₂ γ₂} (h : D.P p₁ p₂ Eq)
    (hf : ∀ a b c d, D.P (f₁ (a, b, c, d)) (f₂ (a, b, c, d)) T) : D.P (p₁ >>= f₁) (p₂ >>= f₂) T :=
  P.bindEq h fun ⟨a, b, c, d⟩ => hf a b c d

theorem P.bindV {p₁ : Prog α₁ ι₁ ω₁ α₁} {p₂ : Prog α₂ ι₂ ω₂ α₂} {f₁ : α₁ → Prog α₁ ι₁ ω₁ γ₁} {f₂ : α₂ → Prog α₂ ι₂ ω₂ γ₂}
    (h : D.P p₁ p₂ D.V) (hf : ∀ x y, D.V x y → D.P (f₁ x) (f₂ y) T) : D.P (p₁ >>= f₁) (p₂ >>= f₂) T := P.bind h hf

theorem P.bindA {p₁ : Prog α₁ ι₁ ω₁ Addr} {p₂ : Prog α₂ ι₂ ω₂ Addr} {f₁ : Addr → Prog α₁ ι₁ ω₁ γ₁} {f₂ : Addr → Prog α₂ ι₂ ω₂ γ₂}
    (h : D.P p₁ p₂ D.A) (hf : ∀ x y, D.A x y → D.P (f₁ x) (f₂ y) T) : D.P (p₁ >>= f₁) (p₂ >>= f₂) T := P.bind h hf

/-- Related views, destructured. -/
theorem VRel.elim {C : View → View → Prop} (h : ∀ o₁ s₁ o₂ s₂ n, D.VRel ⟨o₁, s₁, n⟩ ⟨o₂, s₂, n⟩ → C ⟨o₁, s₁, n⟩ ⟨o₂, s₂, n⟩) {v₁ v₂ : View}
    (hv : D.VRel v₁ v₂) : C v₁ v₂ := by
  obtain ⟨o₁, s₁, n⟩ := v₁
  obtain ⟨o₂, s₂, m⟩ := v₂
  obtain rfl : n = m := hv.len
  exact h _ _ _ _ _ hv

theorem P.bindVw {p₁ : Prog α₁ ι₁ ω₁ View} {p₂ : Prog α₂ ι₂ ω₂ View} {f₁ : View → Prog α₁ ι₁ ω₁ γ₁} {f₂ : View → Prog α₂ ι₂ ω₂ γ₂}
    (h : D.P p₁ p₂ D.VRel)
    (hf : ∀ o₁ s₁ o₂ s₂ n, D.VRel ⟨o₁, s₁, n⟩ ⟨o₂, s₂, n⟩ → D.P (f₁ ⟨o₁, s₁, n⟩) (f₂ ⟨o₂, s₂, n⟩) T) : D.P (p₁ >>= f₁) (p₂ >>= f₂) T :=
  P.bind h fun _ _ hv => VRel.elim (C := fun v w => D.P (f₁ v) (f₂ w) T) hf hv

theorem P.bindVw2 {p₁ : Prog α₁ ι₁ ω₁ (View × View)} {p₂ : Prog α₂ ι₂ ω₂ (View × View)} {f₁ : View × View → Prog α₁ ι₁ ω₁ γ₁}
    {f₂ : View × View → Prog α₂ ι₂ ω₂ γ₂} (h : D.P p₁ p₂ (ProdR D.VRel D.VRel))
    (hf : ∀ o₁ s₁ o₂ s₂ n o₁' s₁' o₂' s₂' n', D.VRel ⟨o₁, s₁, n⟩ ⟨o₂, s₂, n⟩ → D.VRel ⟨o₁', s₁', n'⟩ ⟨o₂', s₂', n'⟩ →
      D.P (f₁ (⟨o₁, s₁, n⟩, ⟨o₁', s₁', n'⟩)) (f₂ (⟨o₂, s₂, n⟩, ⟨o₂', s₂', n'⟩)) T) : D.P (p₁ >>= f₁) (p₂ >>= f₂) T :=
  P.bind h fun ⟨v₁, w₁⟩ ⟨v₂, w₂⟩ ⟨hv, hw⟩ => by
    revert hv
    refine VRel.elim (C := fun v w => D.P (f₁ (v, w₁)) (f₂ (w, w₂)) T) ?_
    intro o₁ s₁ o₂ s₂ n hv
    revert hw
    refine VRel.elim (C := fun v w => D.P (f₁ (_, v)) (f₂ (_, w)) T) ?_
    intro o₁' s₁' o₂' s₂' n' hw
    exact hf _ _ _ _ _ _ _ _ _ _ hv hw

end Sim

/-- The rules for the functions of the model: to be extended. -/
syntax "sim_lemma" : tactic

open Sim in
macro_rules | `(tactic| sim_lemma) => `(tactic| with_reducible first
  | exact P.ub | exact P.diverge | exact P.throw _ | exact P.pureEq
  | exact vget ‹_› | exact vset ‹_› ‹_› | exact vidx ‹_› | exact vref ‹_› | exact vcset ‹_› ‹_› | exact vswap ‹_› | exact vuswap ‹_›
  | exact vslice ‹_› | exact vsplitAt ‹_› | exact Sim.deref ‹_› | exact Sim.debugAssert | exact Sim.assertP | exact Sim.usub
  | exact P.less (less₁ := _) (less₂ := _) ‹LessRel _ _ _› ‹_› ‹_›)

open Sim in
/-- One step of `sim`. -/
macro "sim1" : tactic => `(tactic| first
  | sim_lemma
  | with_reducible refine P.onPanic ?_ ?_
  | with_reducible refine P.ite (fun _ => ?_) (fun _ => ?_)
  | with_reducible refine Sim.whenP ?_
  | with_reducible refine P.forUp (fun _ _ _ => ?_)
  | with_reducible refine P.forDown (fun _ _ _ => ?_)
  | with_reducible refine P.choose (fun _ => ?_)
  | with_reducible refine P.loopEq (fun _ => ?_)
  | with_reducible refine P.bindVw2 ?_ (fun _ _ _ _ _ _ _ _ _ _ _ _ => ?_)
  | with_reducible refine P.bindVw ?_ (fun _ _ _ _ _ _ => ?_)
  | with_reducible refine P.bindV ?_ (fun _ _ _ => ?_)
  | with_reducible refine P.bindA ?_ (fun _ _ _ => ?_)
  | with_reducible refine P.bindEq4 ?_ (fun _ _ _ _ => ?_)
  | with_reducible refine P.bindEq3 ?_ (fun _ _ _ => ?_)
  | with_reducible refine P.bindEq2 ?_ (fun _ _ => ?_)
  | with_reducible refine P.bindEq ?_ (fun _ => ?_)
  | with_reducible refine P.pureL ?_
  | with_reducible refine P.pureR ?_
  | with_reducible refine P.pureP ?_ ?_
  | with_reducible exact rfl
  | with_reducible assumption
  | dsimp only)

end NdSlice
