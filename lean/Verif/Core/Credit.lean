import Verif.Core.Adequacy
import Verif.Core.View

/-
Counting steps: `Credit K p B Q` says that `p` can be run with `B` units of credit, whatever is in memory and whatever is answered.  Each step
(a read, a write, a choice of the environment, the end of a `join`) uses one unit, and each call of user code yields `K` units.  If `p`
returns `b` with a credit of `r` left then `Q b r`.  (Partial correctness, but runs which panic keep to the credit as well.)

Hence a run with `c` calls takes at most `B + (K + 1) * c` steps.
-/

namespace NdSlice

variable {α ι ω σ β γ : Type}

/-- See the top of this file. -/
def Credit (K : Nat) {β : Type} : Prog α ι ω β → Nat → (β → Nat → Prop) → Prop
  | .ret b, B, Q => Q b B
  | .get _ k, B, Q => ∃ B', B = B' + 1 ∧ ∀ x, Credit K (k x) B' Q
  | .set _ _ k, B, Q => ∃ B', B = B' + 1 ∧ Credit K k B' Q
  | .call _ k, B, Q => ∀ r, Credit K (k r) (B + K) Q
  | .choose k, B, Q => ∃ B', B = B' + 1 ∧ ∀ b, Credit K (k b) B' Q
  | .throw _, _, _ => True
  | .ub, _, _ => True
  | .diverge, _, _ => True
  | .join (β := β) (γ := γ) p q k, B, Q => ∃ B1 B2 B3, B = B1 + B2 + B3 + 1 ∧ ∃ (Q1 : β → Nat → Prop) (Q2 : γ → Nat → Prop),
    Credit K p B1 Q1 ∧ Credit K q B2 Q2 ∧ ∀ r t x y, (∀ b, r = .ok b → Q1 b x) → (∀ b, t = .ok b → Q2 b y) → Credit K (k r t) (B3 + (x + y)) Q

/-- Some number of steps, under any schedule. -/
inductive StepsN (o : Oracle σ ι ω) {β : Type} : Nat → Prog α ι ω β → St α ι ω σ → Prog α ι ω β → St α ι ω σ → Prop where
  | refl (p : Prog α ι ω β) (s : St α ι ω σ) : StepsN o 0 p s p s
  | tail {n p s p' s' p'' s''} : StepsN o n p s p' s' → Step o p' s' p'' s'' → StepsN o (n + 1) p s p'' s''

theorem StepsN.steps {o : Oracle σ ι ω} {n : Nat} {p p' : Prog α ι ω β} {s s' : St α ι ω σ} (h : StepsN o n p s p' s') : Steps o p s p' s' := by
  induction h with
  | refl => exact .refl _ _
  | tail _ hs ih => exact .tail ih hs

theorem Steps.stepsN {o : Oracle σ ι ω} {p p' : Prog α ι ω β} {s s' : St α ι ω σ} (h : Steps o p s p' s') : ∃ n, StepsN o n p s p' s' := by
  induction h with
  | refl => exact ⟨0, .refl _ _⟩
  | tail _ hs ih =>
    obtain ⟨n, h⟩ := ih
    exact ⟨n + 1, .tail h hs⟩

namespace Credit

variable {K B : Nat} {p : Prog α ι ω β} {Q : β → Nat → Prop}

theorem mono {Q' : β → Nat → Prop} (h : Credit K p B Q) (hQ : ∀ b r, Q b r → Q' b r) : Credit K p B Q' := by
  induction p generalizing B with
  | ret b => exact hQ _ _ h
  | get a k ih =>
    obtain ⟨B', rfl, h⟩ := h
    exact ⟨B', rfl, fun x => ih x (h x) hQ⟩
  | set a x k ih =>
    obtain ⟨B', rfl, h⟩ := h
    exact ⟨B', rfl, ih h hQ⟩
  | call q k ih => exact fun r => ih r (h r) hQ
  | choose k ih =>
    obtain ⟨B', rfl, h⟩ := h
    exact ⟨B', rfl, fun x => ih x (h x) hQ⟩
  | throw => trivial
  | ub => trivial
  | diverge => trivial
  | join p q k _ _ ih =>
    obtain ⟨B1, B2, B3, hB, Q1, Q2, h1, h2, h3⟩ := h
    exact ⟨B1, B2, B3, hB, Q1, Q2, h1, h2, fun r t x y hx hy => ih r t (h3 r t x y hx hy) hQ⟩

theorem bind {f : β → Prog α ι ω γ} {Q' : β → Nat → Prop} {Q : γ → Nat → Prop} (h : Credit K p B Q') (hf : ∀ b r, Q' b r → Credit K (f b) r Q) :
    Credit K (p >>= f) B Q := by
  show Credit K (p.bind f) B Q
  induction p generalizing B with
  | ret b => exact hf _ _ h
  | get a k ih =>
    obtain ⟨B', rfl, h⟩ := h
    exact ⟨B', rfl, fun x => ih x (h x) hf⟩
  | set a x k ih =>
    obtain ⟨B', rfl, h⟩ := h
    exact ⟨B', rfl, ih h hf⟩
  | call q k ih => exact fun r => ih r (h r) hf
  | choose k ih =>
    obtain ⟨B', rfl, h⟩ := h
    exact ⟨B', rfl, fun x => ih x (h x) hf⟩
  | throw => trivial
  | ub => trivial
  | diverge => trivial
  | join p q k _ _ ih =>
    obtain ⟨B1, B2, B3, hB, Q1, Q2, h1, h2, h3⟩ := h
    exact ⟨B1, B2, B3, hB, Q1, Q2, h1, h2, fun r t x y hx hy => ih r t (h3 r t x y hx hy) hf⟩

/-- What is not needed is left. -/
theorem frame (h : Credit K p B Q) (F : Nat) : Credit K p (B + F) (fun b r => ∃ r', r = r' + F ∧ Q b r') := by
  induction p generalizing B with
  | ret b => exact ⟨B, rfl, h⟩
  | get a k ih =>
    obtain ⟨B', rfl, h⟩ := h
    exact ⟨B' + F, by omega, fun x => ih x (h x)⟩
  | set a x k ih =>
    obtain ⟨B', rfl, h⟩ := h
    exact ⟨B' + F, by omega, ih h⟩
  | call q k ih =>
    intro r
    have := ih r (h r)
    rwa [show B + F + K = B + K + F by omega]
  | choose k ih =>
    obtain ⟨B', rfl, h⟩ := h
    exact ⟨B' + F, by omega, fun x => ih x (h x)⟩
  | throw => trivial
  | ub => trivial
  | diverge => trivial
  | join p q k _ _ ih =>
    obtain ⟨B1, B2, B3, hB, Q1, Q2, h1, h2, h3⟩ := h
    refine ⟨B1, B2, B3 + F, by omega, Q1, Q2, h1, h2, fun r t x y hx hy => ?_⟩
    have := ih r t (h3 r t x y hx hy)
    rwa [show B3 + F + (x + y) = B3 + (x + y) + F by omega]

/-- A bigger credit, the rest of which is left. -/
theorem more {B' : Nat} {Q' : β → Nat → Prop} (h : Credit K p B Q) (hB : B ≤ B') (hQ : ∀ b r, Q b r → Q' b (r + (B' - B))) :
    Credit K p B' Q' := by
  have := h.frame (B' - B)
  rw [show B + (B' - B) = B' by omega] at this
  refine this.mono ?_
  rintro b _ ⟨r, rfl, h⟩
  exact hQ b r h

/-- A bigger credit, the rest of which is wasted. -/
theorem weaken {B' : Nat} (h : Credit K p B Q) (hB : B ≤ B') : Credit K p B' (fun b r => ∃ r', r' ≤ r ∧ Q b r') :=
  more h hB fun _ r h => ⟨r, by omega, h⟩

/-- The cleanup after a panic is paid from what is left then. -/
theorem onPanic {g : Prog α ι ω Unit} {n : Nat} (h : Credit K p B Q) (hg : ∀ B, n ≤ B → Credit K g B fun _ _ => True) :
    Credit K (p.onPanic g) (B + n) (fun b r => ∃ r', r = r' + n ∧ Q b r') := by
  induction p generalizing B with
  | ret b => exact ⟨B, rfl, h⟩
  | get a k ih =>
    obtain ⟨B', rfl, h⟩ := h
    exact ⟨B' + n, by omega, fun x => ih x (h x)⟩
  | set a x k ih =>
    obtain ⟨B', rfl, h⟩ := h
    exact ⟨B' + n, by omega, ih h⟩
  | call q k ih =>
    intro r
    have := ih r (h r)
    rwa [show B + n + K = B + K + n by omega]
  | choose k ih =>
    obtain ⟨B', rfl, h⟩ := h
    exact ⟨B' + n, by omega, fun x => ih x (h x)⟩
  | throw e => exact bind (hg (B + n) (by omega)) fun _ _ _ => trivial
  | ub => trivial
  | diverge => trivial
  | join p q k _ _ ih =>
    obtain ⟨B1, B2, B3, hB, Q1, Q2, h1, h2, h3⟩ := h
    refine ⟨B1, B2, B3 + n, by omega, Q1, Q2, h1, h2, fun r t x y hx hy => ?_⟩
    have := ih r t (h3 r t x y hx hy)
    rwa [show B3 + n + (x + y) = B3 + (x + y) + n by omega]

/-! ### Adequacy -/

/-- Every step of every schedule keeps to the credit. -/
theorem step {o : Oracle σ ι ω} {p' : Prog α ι ω β} {s s' : St α ι ω σ} (h : Credit K p B Q) (hs : Step o p s p' s') :
    ∃ B', Credit K p' B' Q ∧ B' + 1 + (K + 1) * s.log.length = B + (K + 1) * s'.log.length := by
  induction hs generalizing B with
  | get a k s =>
    obtain ⟨B', rfl, h⟩ := h
    exact ⟨B', h _, rfl⟩
  | set a x k s =>
    obtain ⟨B', rfl, h⟩ := h
    exact ⟨B', h, rfl⟩
  | call q k s =>
    refine ⟨B + K, h _, ?_⟩
    rw [List.length_append]
    simp only [List.length_cons, List.length_nil]
    rw [Nat.mul_add]
    omega
  | choose k s =>
    obtain ⟨B', rfl, h⟩ := h
    exact ⟨B', h _, rfl⟩
  | joinL p p' q k s s' hs ih =>
    obtain ⟨B1, B2, B3, rfl, Q1, Q2, h1, h2, h3⟩ := h
    obtain ⟨B', h4, h5⟩ := ih h1
    exact ⟨B' + B2 + B3 + 1, ⟨B', B2, B3, rfl, Q1, Q2, h4, h2, h3⟩, by omega⟩
  | joinR p q q' k s s' hs ih =>
    obtain ⟨B1, B2, B3, rfl, Q1, Q2, h1, h2, h3⟩ := h
    obtain ⟨B', h4, h5⟩ := ih h2
    exact ⟨B1 + B' + B3 + 1, ⟨B1, B', B3, rfl, Q1, Q2, h1, h4, h3⟩, by omega⟩
  | joinEnd p q k s r t hp hq =>
    obtain ⟨B1, B2, B3, rfl, Q1, Q2, h1, h2, h3⟩ := h
    refine ⟨B3 + (B1 + B2), h3 r t B1 B2 ?_ ?_, by omega⟩
    · rintro b rfl; cases hp; exact h1
    · rintro b rfl; cases hq; exact h2

/-- Every schedule keeps to the credit, at every time. -/
theorem steps {o : Oracle σ ι ω} {p' : Prog α ι ω β} {s s' : St α ι ω σ} {n : Nat} (h : Credit K p B Q) (hs : StepsN o n p s p' s') :
    ∃ B', Credit K p' B' Q ∧ B' + n + (K + 1) * s.log.length = B + (K + 1) * s'.log.length := by
  induction hs with
  | refl => exact ⟨B, h, rfl⟩
  | tail _ hs ih =>
    obtain ⟨B', h1, h2⟩ := ih h
    obtain ⟨B'', h3, h4⟩ := h1.step hs
    exact ⟨B'', h3, by omega⟩

/-! ### Rules -/

theorem pure {b : β} (h : Q b B) : Credit K (Pure.pure b : Prog α ι ω β) B Q := h
theorem throw {e : Panic} : Credit K (Prog.throw e : Prog α ι ω β) B Q := trivial
theorem ub : Credit K (Prog.ub : Prog α ι ω β) B Q := trivial
theorem diverge : Credit K (Prog.diverge : Prog α ι ω β) B Q := trivial

theorem pureB {b : β} {f : β → Prog α ι ω γ} {Q : γ → Nat → Prop} (h : Credit K (f b) B Q) :
    Credit K ((Pure.pure b : Prog α ι ω β) >>= f) B Q := h

theorem ite {d : Prop} [Decidable d] {q : Prog α ι ω β} (h1 : d → Credit K p B Q) (h2 : ¬ d → Credit K q B Q) :
    Credit K (if d then p else q) B Q := by
  split
  · exact h1 ‹_›
  · exact h2 ‹_›

theorem loop {s r : Type} {body : s → Prog α ι ω (s ⊕ r)} {Inv : s → Nat → Prop} {Q : r → Nat → Prop} {n : Nat} {x : s} {B : Nat}
    (hI : Inv x B)
    (hb : ∀ x B, Inv x B → Credit K (body x) B (fun o r => match o with | .inl x' => Inv x' r | .inr y => Q y r)) :
    Credit K (Prog.loop body n x) B Q := by
  induction n generalizing x B with
  | zero => exact diverge
  | succ n ih =>
    refine bind (hb x B hI) ?_
    intro o r h
    cases o with
    | inl x' => exact ih h
    | inr y => exact pure h

theorem forUp {body : Nat → Prog α ι ω Unit} {Inv : Nat → Nat → Prop} {n a B : Nat} (hI : Inv a B)
    (hb : ∀ i B, a ≤ i → i < a + n → Inv i B → Credit K (body i) B (fun _ r => Inv (i + 1) r)) :
    Credit K (Prog.forUp body a n) B (fun _ r => Inv (a + n) r) := by
  induction n generalizing a B with
  | zero => exact pure hI
  | succ n ih =>
    refine bind (hb a B (Nat.le_refl _) (by omega) hI) ?_
    intro _ r h
    have := ih h (fun i B h1 h2 => hb i B (by omega) (by omega))
    rwa [show a + 1 + n = a + (n + 1) by omega] at this

theorem forDown {body : Nat → Prog α ι ω Unit} {Inv : Nat → Nat → Prop} {n a B : Nat} (hI : Inv (a + n) B)
    (hb : ∀ i B, a ≤ i → i < a + n → Inv (i + 1) B → Credit K (body i) B (fun _ r => Inv i r)) :
    Credit K (Prog.forDown body a n) B (fun _ r => Inv a r) := by
  induction n generalizing B with
  | zero => exact pure hI
  | succ n ih =>
    refine bind (hb (a + n) B (by omega) (by omega) hI) ?_
    intro _ r h
    exact ih h (fun i B h1 h2 => hb i B (by omega) (by omega))

theorem rayonJoin {p : Prog α ι ω β} {q : Prog α ι ω γ} {Q : β × γ → Nat → Prop} {B1 B2 : Nat} {Q1 : β → Nat → Prop} {Q2 : γ → Nat → Prop}
    (hB : B = B1 + B2 + 1) (h1 : Credit K p B1 Q1) (h2 : Credit K q B2 Q2) (hQ : ∀ b d r t, Q1 b r → Q2 d t → Q (b, d) (r + t)) :
    Credit K (Prog.rayonJoin p q) B Q := by
  refine ⟨B1, B2, 0, by omega, _, _, h1, h2, ?_⟩
  intro r t x y hx hy
  cases r with
  | ok b =>
    cases t with
    | ok d =>
      show Q (b, d) (0 + (x + y))
      rw [Nat.zero_add]
      exact hQ _ _ _ _ (hx b rfl) (hy d rfl)
    | panic => trivial
  | panic => trivial

/-- The common form: with a credit of at least `n` the program can be run. -/
theorem bindN {f : β → Prog α ι ω γ} {n B' : Nat} {Q' : β → Nat → Prop} {Q : γ → Nat → Prop} (h : Credit K p n Q') (hB : B = n + B')
    (hf : ∀ b r, Q' b r → Credit K (f b) (r + B') Q) : Credit K (p >>= f) B Q := by
  subst hB
  refine bind (h.frame B') ?_
  rintro b _ ⟨r, rfl, h⟩
  exact hf b r h

variable {v : View}

theorem vget {i : Nat} {k : α → Prog α ι ω β} (hB : 1 ≤ B) (h : ∀ x, i < v.len → Credit K (k x) (B - 1) Q) : Credit K (v.get i >>= k) B Q := by
  unfold View.get
  split
  · rename_i hi; exact ⟨B - 1, by omega, fun x => h x hi⟩
  · trivial

theorem vidx {i : Nat} {k : α → Prog α ι ω β} (hB : 1 ≤ B) (h : ∀ x, i < v.len → Credit K (k x) (B - 1) Q) : Credit K (v.idx i >>= k) B Q := by
  unfold View.idx
  split
  · rename_i hi; exact ⟨B - 1, by omega, fun x => h x hi⟩
  · trivial

theorem vset {i : Nat} {x : α} {k : Unit → Prog α ι ω β} (hB : 1 ≤ B) (h : i < v.len → Credit K (k ()) (B - 1) Q) :
    Credit K (v.set i x >>= k) B Q := by
  unfold View.set
  split
  · rename_i hi; exact ⟨B - 1, by omega, h hi⟩
  · trivial

theorem vcset {i : Nat} {x : α} {k : Unit → Prog α ι ω β} (hB : 1 ≤ B) (h : i < v.len → Credit K (k ()) (B - 1) Q) :
    Credit K (v.cset i x >>= k) B Q := by
  unfold View.cset
  split
  · rename_i hi; exact ⟨B - 1, by omega, h hi⟩
  · trivial

theorem vset' {i : Nat} {x : α} {Q : Unit → Nat → Prop} (hB : 1 ≤ B) (h : Q () (B - 1)) : Credit K (v.set i x : Prog α ι ω Unit) B Q := by
  unfold View.set
  split
  · exact ⟨B - 1, by omega, h⟩
  · trivial

theorem vcset' {i : Nat} {x : α} {Q : Unit → Nat → Prop} (hB : 1 ≤ B) (h : Q () (B - 1)) : Credit K (v.cset i x : Prog α ι ω Unit) B Q := by
  unfold View.cset
  split
  · exact ⟨B - 1, by omega, h⟩
  · trivial

theorem vget' {i : Nat} {Q : α → Nat → Prop} (hB : 1 ≤ B) (h : ∀ x, Q x (B - 1)) : Credit K (v.get i : Prog α ι ω α) B Q := by
  unfold View.get
  split
  · exact ⟨B - 1, by omega, h⟩
  · trivial

theorem vidx' {i : Nat} {Q : α → Nat → Prop} (hB : 1 ≤ B) (h : ∀ x, Q x (B - 1)) : Credit K (v.idx i : Prog α ι ω α) B Q := by
  unfold View.idx
  split
  · exact ⟨B - 1, by omega, h⟩
  · trivial

theorem deref {a : Addr} {k : α → Prog α ι ω β} (hB : 1 ≤ B) (h : ∀ x, Credit K (k x) (B - 1) Q) : Credit K (NdSlice.deref a >>= k) B Q :=
  ⟨B - 1, by omega, h⟩

theorem swap' {i j : Nat} {Q : Unit → Nat → Prop} (hB : 4 ≤ B) (h : i < v.len → j < v.len → Q () (B - 4)) :
    Credit K (v.swap i j : Prog α ι ω Unit) B Q := by
  unfold View.swap
  refine vidx (by omega) fun _ h1 => vidx (by omega) fun _ h2 => vset (by omega) fun _ => vset' (by omega) ?_
  rw [show B - 1 - 1 - 1 - 1 = B - 4 by omega]
  exact h h1 h2

theorem uswap' {i j : Nat} {Q : Unit → Nat → Prop} (hB : 4 ≤ B) (h : i < v.len → j < v.len → Q () (B - 4)) :
    Credit K (v.uswap i j : Prog α ι ω Unit) B Q := by
  unfold View.uswap
  refine vget (by omega) fun _ h1 => vget (by omega) fun _ h2 => vset (by omega) fun _ => vset' (by omega) ?_
  rw [show B - 1 - 1 - 1 - 1 = B - 4 by omega]
  exact h h1 h2

theorem swap {i j : Nat} {k : Unit → Prog α ι ω β} (hB : 4 ≤ B) (h : i < v.len → j < v.len → Credit K (k ()) (B - 4) Q) :
    Credit K (v.swap i j >>= k) B Q :=
  bind (swap' (Q := fun _ r => r = B - 4 ∧ i < v.len ∧ j < v.len) hB fun h1 h2 => ⟨rfl, h1, h2⟩) (by
    rintro _ _ ⟨rfl, h1, h2⟩
    exact h h1 h2)

theorem uswap {i j : Nat} {k : Unit → Prog α ι ω β} (hB : 4 ≤ B) (h : i < v.len → j < v.len → Credit K (k ()) (B - 4) Q) :
    Credit K (v.uswap i j >>= k) B Q :=
  bind (uswap' (Q := fun _ r => r = B - 4 ∧ i < v.len ∧ j < v.len) hB fun h1 h2 => ⟨rfl, h1, h2⟩) (by
    rintro _ _ ⟨rfl, h1, h2⟩
    exact h h1 h2)

theorem vref {i : Nat} {k : Addr → Prog α ι ω β} (h : i < v.len → Credit K (k (v.addr i)) B Q) : Credit K (v.ref i >>= k) B Q := by
  unfold View.ref
  split
  · rename_i hi; exact h hi
  · trivial

theorem usub {cfg : Cfg} {a b : Nat} {k : Nat → Prog α ι ω β} (hab : b ≤ a) (h : Credit K (k (a - b)) B Q) :
    Credit K (NdSlice.usub cfg a b >>= k) B Q := by
  unfold NdSlice.usub
  rw [if_pos hab]
  exact h

/-- Whatever the difference is. -/
theorem usubAny {cfg : Cfg} {a b : Nat} {k : Nat → Prog α ι ω β} (h : ∀ d, (b ≤ a → d = a - b) → Credit K (k d) B Q) :
    Credit K (NdSlice.usub cfg a b >>= k) B Q := by
  unfold NdSlice.usub
  split
  · exact h _ fun _ => rfl
  · split
    · trivial
    · exact h _ fun h => absurd h ‹_›

theorem usub' {cfg : Cfg} {a b : Nat} {Q : Nat → Nat → Prop} (h : ∀ d, (b ≤ a → d = a - b) → Q d B) :
    Credit K (NdSlice.usub cfg a b : Prog α ι ω Nat) B Q := by
  unfold NdSlice.usub
  split
  · exact h _ fun _ => rfl
  · split
    · trivial
    · exact h _ fun h => absurd h ‹_›

theorem debugAssert {cfg : Cfg} {d : Bool} {k : Unit → Prog α ι ω β} (h : Credit K (k ()) B Q) :
    Credit K (NdSlice.debugAssert cfg d >>= k) B Q := by
  unfold NdSlice.debugAssert
  split
  · trivial
  · exact h

theorem assertP {d : Bool} {k : Unit → Prog α ι ω β} (h : d = true → Credit K (k ()) B Q) : Credit K (NdSlice.assertP d >>= k) B Q := by
  unfold NdSlice.assertP
  split
  · rename_i hd; exact h hd
  · trivial

theorem splitAt {a : Nat} {k : View × View → Prog α ι ω β} (h : a ≤ v.len → Credit K (k (v.sub 0 a, v.sub a (v.len - a))) B Q) :
    Credit K (v.splitAt a >>= k) B Q := by
  unfold View.splitAt
  split
  · rename_i ha; exact h ha
  · trivial

theorem slice {a b : Nat} {k : View → Prog α ι ω β} (hab : a ≤ b) (h : b ≤ v.len → Credit K (k (v.sub a (b - a))) B Q) :
    Credit K (v.slice a b >>= k) B Q := by
  unfold View.slice
  rw [if_neg (Nat.not_lt.2 hab)]
  dsimp only
  split
  · rename_i ha; exact h ha.2
  · trivial

end Credit

/-- A comparison yields at least `K` units and touches no element. -/
def Yields (K : Nat) (less : α → α → Prog α ι ω Bool) : Prop := ∀ x y B, Credit K (less x y) B fun _ r => B + K ≤ r

namespace Credit

variable {K B : Nat} {Q : β → Nat → Prop} {less : α → α → Prog α ι ω Bool}

theorem lessB (hl : Yields K less) {x y : α} {k : Bool → Prog α ι ω β} (h : ∀ b r, B + K ≤ r → Credit K (k b) r Q) :
    Credit K (less x y >>= k) B Q := bind (hl x y B) h

end Credit

end NdSlice
