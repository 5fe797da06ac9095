import Verif.Core.Init

/-
Programs all of whose cells are initialised from the beginning: rules and a tactic.
-/

namespace NdSlice

variable {α ι ω : Type} {β γ δ ε ζ η : Type} {X : α → Prop} {ok : ι → Prop} {I : Addr → Prop}

/-- With the cells in `I` initialised (and any others), `p` reads initialised cells only; its result is in `Q`. -/
def In (X : α → Prop) (ok : ι → Prop) (I : Addr → Prop) (p : Prog α ι ω β) (Q : β → Prop) : Prop :=
  ∀ J, Sub I J → Init X ok p (fun b _ => Q b) (fun _ => True) J

/-- A view all of whose cells are in `I`. -/
def VIn (I : Addr → Prop) (v : View) : Prop := ∀ i, i < v.len → I (v.addr i)

/-- Nothing to be said about the result. -/
def Any (_ : β) : Prop := True

/-- A comparator that may be shown values in `X`. -/
def LessIn (X : α → Prop) (ok : ι → Prop) (less : α → α → Prog α ι ω Bool) : Prop := ∀ {I x y}, X x → X y → In X ok I (less x y) Any

/-- An optional reference to a cell in `I`. -/
def OptIn (I : Addr → Prop) (a : Option Addr) : Prop := ∀ b, a = some b → I b

theorem OptIn.none : OptIn I Option.none := fun _ h => by cases h
theorem OptIn.some {a : Addr} (h : I a) : OptIn I (Option.some a) := fun _ e => by cases e; exact h

theorem VIn.sub {v : View} (hv : VIn I v) {i n : Nat} (h : i + n ≤ v.len) : VIn I (v.sub i n) := by
  intro j hj
  have hj : j < n := hj
  have := hv (i + j) (by omega)
  have e : (v.sub i n).addr j = v.addr (i + j) := by
    unfold View.sub View.addr
    push_cast
    rw [Int.mul_add, Int.add_assoc]
  rw [e]
  exact this

namespace In

variable {Q : β → Prop} {T : γ → Prop} {p : Prog α ι ω β}

theorem more {J : Addr → Prop} (h : In X ok I p Q) (hI : Sub I J) : In X ok J p Q := fun K hK => h K (hI.trans hK)

theorem mono {Q' : β → Prop} (h : In X ok I p Q) (hQ : ∀ b, Q b → Q' b) : In X ok I p Q' :=
  fun J hJ => (h J hJ).conseq (fun b _ _ => hQ b) fun _ _ h => h

theorem any (h : In X ok I p Q) : In X ok I p Any := h.mono fun _ _ => trivial

theorem bind {f : β → Prog α ι ω γ} (h : In X ok I p Q) (hf : ∀ b, Q b → In X ok I (f b) T) : In X ok I (p >>= f) T :=
  fun J hJ => Init.seq (h J hJ) fun b K hK hb => hf b hb K (hJ.trans hK)

theorem pure {b : β} (h : Q b) : In X ok I (Pure.pure b : Prog α ι ω β) Q := fun _ _ => h
theorem pureT {b : β} : In X ok I (Pure.pure b : Prog α ι ω β) Any := fun _ _ => trivial
theorem throw {e : Panic} : In X ok I (.throw e : Prog α ι ω β) Q := fun _ _ => trivial
theorem ub : In X ok I (.ub : Prog α ι ω β) Q := fun _ _ => trivial
theorem diverge : In X ok I (.diverge : Prog α ι ω β) Q := fun _ _ => trivial
theorem get {a : Addr} (h : I a) : In X ok I (.get a .ret : Prog α ι ω α) X := fun _ hJ => ⟨hJ a h, fun _ hx => hx⟩
theorem set {a : Addr} {x : α} (hx : X x) : In X ok I (.set a x (.ret ()) : Prog α ι ω Unit) Any := fun _ _ => ⟨hx, trivial⟩
theorem choose {k : Bool → Prog α ι ω β} (h : ∀ b, In X ok I (k b) Q) : In X ok I (.choose k) Q := fun J hJ b => h b J hJ

theorem onPanic {g : Prog α ι ω Unit} (h : In X ok I p Q) (hg : In X ok I g Any) : In X ok I (p.onPanic g) Q :=
  fun J hJ => Init.onPanic (h J hJ) fun K hK _ => (hg K (hJ.trans hK)).conseq (fun _ _ _ _ => trivial) fun _ _ h => h

theorem ite {c : Prop} [Decidable c] {q : Prog α ι ω β} (h : c → In X ok I p Q) (h' : ¬ c → In X ok I q Q) :
    In X ok I (if c then p else q) Q := by
  by_cases hc : c
  · rw [if_pos hc]; exact h hc
  · rw [if_neg hc]; exact h' hc

theorem join {q : Prog α ι ω γ} (h : In X ok I p Q) (h' : In X ok I q T) : In X ok I (Prog.rayonJoin p q) (fun b => Q b.1 ∧ T b.2) :=
  fun J hJ => Init.rayonJoin (h J hJ) (h' J hJ) (fun _ _ _ _ _ _ _ _ h h' => ⟨h, h'⟩) fun _ _ _ _ _ _ _ _ => trivial

theorem loop {body : β → Prog α ι ω (β ⊕ γ)} (h : ∀ x, Q x → In X ok I (body x) (fun y => Sum.elim Q T y)) {n : Nat} {x : β} (hx : Q x) :
    In X ok I (Prog.loop body n x) T :=
  fun J hJ => Init.loop (Inv := fun x _ => Q x) (T := fun y _ => T y)
    (fun x K hK hx => (h x hx K (hJ.trans hK)).conseq (fun b _ _ hb => by cases b <;> exact hb) fun _ _ h => h) (Sub.refl J) hx

theorem loopT {body : β → Prog α ι ω (β ⊕ γ)} (h : ∀ x, In X ok I (body x) Any) {n : Nat} {x : β} : In X ok I (Prog.loop body n x) Any :=
  loop (Q := Any) (fun x _ => (h x).mono fun b _ => by cases b <;> trivial) trivial

theorem forUp {body : Nat → Prog α ι ω Unit} {n : Nat} {i : Nat} (h : ∀ j, i ≤ j → j < i + n → In X ok I (body j) Any) :
    In X ok I (Prog.forUp body i n) Any := by
  induction n generalizing i with
  | zero => exact pureT
  | succ n ih =>
    unfold Prog.forUp
    exact bind (h i (by omega) (by omega)) fun _ _ => ih fun j h1 h2 => h j (by omega) (by omega)

theorem forDown {body : Nat → Prog α ι ω Unit} {i n : Nat} (h : ∀ j, i ≤ j → j < i + n → In X ok I (body j) Any) :
    In X ok I (Prog.forDown body i n) Any := by
  induction n with
  | zero => exact pureT
  | succ n ih =>
    unfold Prog.forDown
    exact bind (h (i + n) (by omega) (by omega)) fun _ _ => ih fun j h1 h2 => h j h1 (by omega)

/-! ### Views -/

variable {v : View} {cfg : Cfg} {i j : Nat} {x y : α}

theorem vget (hv : VIn I v) : In X ok I (v.get i : Prog α ι ω α) X := ite (fun h => get (hv i h)) fun _ => ub
theorem vset (hx : X x) : In X ok I (v.set i x : Prog α ι ω Unit) Any := ite (fun _ => set hx) fun _ => ub
theorem vidx (hv : VIn I v) : In X ok I (v.idx i : Prog α ι ω α) X := ite (fun h => get (hv i h)) fun _ => throw
theorem vref (hv : VIn I v) : In X ok I (v.ref i : Prog α ι ω Addr) I := ite (fun h => pure (hv i h)) fun _ => throw
theorem vcset (hx : X x) : In X ok I (v.cset i x : Prog α ι ω Unit) Any := ite (fun _ => set hx) fun _ => throw
theorem vswap (hv : VIn I v) : In X ok I (v.swap i j : Prog α ι ω Unit) Any := bind (vidx hv) fun _ h => bind (vidx hv) fun _ h' => bind (vset h') fun _ _ => vset h
theorem vuswap (hv : VIn I v) : In X ok I (v.uswap i j : Prog α ι ω Unit) Any := bind (vget hv) fun _ h => bind (vget hv) fun _ h' => bind (vset h') fun _ _ => vset h

theorem vslice (hv : VIn I v) : In X ok I (v.slice i j : Prog α ι ω View) (VIn I) := by
  unfold View.slice
  refine ite (fun h => pure (hv.sub ?_)) fun _ => throw
  split at h <;> split <;> omega

theorem vsplitAt (hv : VIn I v) : In X ok I (v.splitAt i : Prog α ι ω (View × View)) (fun w => VIn I w.1 ∧ VIn I w.2) :=
  ite (fun h => pure ⟨hv.sub (by omega), hv.sub (by omega)⟩) fun _ => throw

theorem deref {a : Addr} (h : I a) : In X ok I (NdSlice.deref a : Prog α ι ω α) X := get h
theorem debugAssert {c : Bool} : In X ok I (NdSlice.debugAssert cfg c : Prog α ι ω Unit) Any := ite (fun _ => throw) fun _ => pureT
theorem assertP {c : Bool} : In X ok I (NdSlice.assertP c : Prog α ι ω Unit) Any := ite (fun _ => pureT) fun _ => throw
theorem usub {a b : Nat} : In X ok I (NdSlice.usub cfg a b : Prog α ι ω Nat) Any := ite (fun _ => pureT) fun _ => ite (fun _ => throw) fun _ => pureT
theorem whenP {c : Bool} {p : Prog α ι ω Unit} (h : In X ok I p Any) : In X ok I (NdSlice.whenP c p) Any := ite (fun _ => h) fun _ => pureT
theorem less {less : α → α → Prog α ι ω Bool} (h : LessIn X ok less) (hx : X x) (hy : X y) : In X ok I (less x y) Any := h hx hy

/-! ### Rules for the tactic, by the type of the result of the first part -/

theorem bindT {f : β → Prog α ι ω γ} (h : In X ok I p Any) (hf : ∀ b, In X ok I (f b) T) : In X ok I (p >>= f) T := bind h fun b _ => hf b

theorem bindT2 {p : Prog α ι ω (δ × ε)} {f : δ × ε → Prog α ι ω γ} (h : In X ok I p Any) (hf : ∀ a b, In X ok I (f (a, b)) T) :
    In X ok I (p >>= f) T := bindT h fun ⟨a, b⟩ => hf a b

theorem bindT3 {p : Prog α ι ω (δ × ε × ζ)} {f : δ × ε × ζ → Prog α ι ω γ} (h : In X ok I p Any) (hf : ∀ a b c, In X ok I (f (a, b, c)) T) :
    In X ok I (p >>= f) T := bindT h fun ⟨a, b, c⟩ => hf a b c

theorem bindT4 {p : Prog α ι ω (δ × ε × ζ × η)} {f : δ × ε × ζ × η → Prog α ι ω γ} (h : In X ok I p Any)
    (hf : ∀ a b c d, In X ok I (f (a, b, c, d)) T) : In X ok I (p >>= f) T := bindT h fun ⟨a, b, c, d⟩ => hf a b c d

theorem bindV {p : Prog α ι ω α} {f : α → Prog α ι ω γ} (h : In X ok I p X) (hf : ∀ x, X x → In X ok I (f x) T) : In X ok I (p >>= f) T := bind h hf
theorem bindA {p : Prog α ι ω Addr} {f : Addr → Prog α ι ω γ} (h : In X ok I p I) (hf : ∀ x, I x → In X ok I (f x) T) : In X ok I (p >>= f) T :=
  bind h hf
theorem bindVw {p : Prog α ι ω View} {f : View → Prog α ι ω γ} (h : In X ok I p (VIn I)) (hf : ∀ v, VIn I v → In X ok I (f v) T) :
    In X ok I (p >>= f) T := bind h hf
theorem bindVw2 {p : Prog α ι ω (View × View)} {f : View × View → Prog α ι ω γ} (h : In X ok I p (fun w => VIn I w.1 ∧ VIn I w.2))
    (hf : ∀ v w, VIn I v → VIn I w → In X ok I (f (v, w)) T) : In X ok I (p >>= f) T := bind h fun ⟨v, w⟩ ⟨h, h'⟩ => hf v w h h'

end In

/-- The rules for the functions of the model: to be extended. -/
syntax "in_lemma" : tactic

macro_rules | `(tactic| in_lemma) => `(tactic| with_reducible first
  | exact In.ub | exact In.diverge | exact In.throw | exact In.pureT
  | exact In.vget ‹_› | exact In.vset ‹_› | exact In.vidx ‹_› | exact In.vref ‹_› | exact In.vcset ‹_› | exact In.vswap ‹_› | exact In.vuswap ‹_›
  | exact In.vslice ‹_› | exact In.vsplitAt ‹_› | exact In.deref ‹_› | exact In.debugAssert | exact In.assertP | exact In.usub
  | exact In.less (less := _) ‹LessIn _ _ _› ‹_› ‹_›)

/-- One step. -/
macro "in1" : tactic => `(tactic| first
  | in_lemma
  | with_reducible refine In.onPanic ?_ ?_
  | with_reducible refine In.ite (fun _ => ?_) (fun _ => ?_)
  | with_reducible refine In.whenP ?_
  | with_reducible refine In.forUp (fun _ _ _ => ?_)
  | with_reducible refine In.forDown (fun _ _ _ => ?_)
  | with_reducible refine In.choose (fun _ => ?_)
  | with_reducible refine In.loopT (fun _ => ?_)
  | with_reducible refine In.bindVw2 ?_ (fun _ _ _ _ => ?_)
  | with_reducible refine In.bindVw ?_ (fun _ _ => ?_)
  | with_reducible refine In.bindV ?_ (fun _ _ => ?_)
  | with_reducible refine In.bindA ?_ (fun _ _ => ?_)
  | with_reducible refine In.bindT4 ?_ (fun _ _ _ _ => ?_)
  | with_reducible refine In.bindT3 ?_ (fun _ _ _ => ?_)
  | with_reducible refine In.bindT2 ?_ (fun _ _ => ?_)
  | with_reducible refine In.bindT ?_ (fun _ => ?_)
  | with_reducible assumption
  | dsimp only)

/-- Steps as far as possible. -/
macro "in_all" : tactic => `(tactic| repeat' in1)

end NdSlice
