import Verif.Core.Path

/-
Runs with a known end: `PathW R m p b n m'` says that with memory `m` the program `p` makes no choices and starts no tasks, returns `b` with memory
`m'` and asks exactly `n` questions, whatever is answered (as long as `R` allows it).
-/

namespace NdSlice

variable {α ι ω σ β γ : Type} {R : ι → Option ω → Prop} {m m1 m2 : Mem α}

/-- See the top of this file. -/
def PathW (R : ι → Option ω → Prop) : Mem α → Prog α ι ω β → β → Nat → Mem α → Prop
  | m, .ret b', b, n, m' => b' = b ∧ n = 0 ∧ m' = m
  | m, .get a k, b, n, m' => PathW R m (k (m a)) b n m'
  | m, .set a x k, b, n, m' => PathW R (upd m a x) k b n m'
  | m, .call q k, b, n, m' => ∃ n', n = n' + 1 ∧ ∀ r, R q r → PathW R m (k r) b n' m'
  | _, _, _, _, _ => False

namespace PathW

theorem of_path {p : Prog α ι ω β} {b : β} {n : Nat} (h : Path R m p b n) : PathW R m p b n m := by
  induction p generalizing n with
  | ret b' => exact ⟨h.1, h.2, rfl⟩
  | get a k ih => exact ih _ h
  | call q k ih =>
    obtain ⟨n', rfl, h⟩ := h
    exact ⟨n', rfl, fun r hr => ih r (h r hr)⟩
  | set => exact h.elim
  | choose => exact h.elim
  | throw => exact h.elim
  | ub => exact h.elim
  | diverge => exact h.elim
  | join => exact h.elim

theorem bind {p : Prog α ι ω β} {f : β → Prog α ι ω γ} {b : β} {c : γ} {n k : Nat} (h : PathW R m p b n m1) (hf : PathW R m1 (f b) c k m2) :
    PathW R m (p >>= f) c (n + k) m2 := by
  show PathW R m (p.bind f) c (n + k) m2
  induction p generalizing n m with
  | ret b' => obtain ⟨rfl, rfl, rfl⟩ := h; rw [Nat.zero_add]; exact hf
  | get a k' ih => exact ih _ h hf
  | set a x k' ih => exact ih h hf
  | call q k' ih =>
    obtain ⟨n', rfl, h⟩ := h
    exact ⟨n' + k, by omega, fun r hr => ih r (h r hr) hf⟩
  | choose => exact h.elim
  | throw => exact h.elim
  | ub => exact h.elim
  | diverge => exact h.elim
  | join => exact h.elim

/-- With the count on the right side computed first. -/
theorem seq {p : Prog α ι ω β} {f : β → Prog α ι ω γ} {b : β} {c : γ} {n k l : Nat} (h : PathW R m p b n m1) (hf : PathW R m1 (f b) c k m2)
    (hl : l = n + k) : PathW R m (p >>= f) c l m2 := hl ▸ bind h hf

theorem onPanic {p : Prog α ι ω β} {g : Prog α ι ω Unit} {b : β} {n : Nat} (h : PathW R m p b n m1) : PathW R m (p.onPanic g) b n m1 := by
  induction p generalizing n m with
  | ret b' => exact h
  | get a k' ih => exact ih _ h
  | set a x k' ih => exact ih h
  | call q k' ih =>
    obtain ⟨n', rfl, h⟩ := h
    exact ⟨n', rfl, fun r hr => ih r (h r hr)⟩
  | choose => exact h.elim
  | throw => exact h.elim
  | ub => exact h.elim
  | diverge => exact h.elim
  | join => exact h.elim

/-- The sequential run. -/
theorem run {o : Oracle σ ι ω} (ho : o.Sat R) {p : Prog α ι ω β} {b : β} {n : Nat} {s : St α ι ω σ} (h : PathW R s.mem p b n m1) :
    ∃ s', NdSlice.run o p s = (.ok b, s') ∧ s'.mem = m1 ∧ s'.log.length = s.log.length + n := by
  induction p generalizing n s with
  | ret b' => obtain ⟨rfl, rfl, rfl⟩ := h; exact ⟨s, rfl, rfl, rfl⟩
  | get a k ih => exact ih _ h
  | set a x k ih => exact ih (s := { s with mem := upd s.mem a x }) h
  | call q k ih =>
    obtain ⟨n', rfl, h⟩ := h
    obtain ⟨s', h1, h2, h3⟩ := ih (o.ask s.env q).1 (s := { s with env := (o.ask s.env q).2, log := s.log ++ [(q, (o.ask s.env q).1)] })
      (h _ (ho _ _))
    refine ⟨s', h1, h2, ?_⟩
    rw [h3, List.length_append]
    simp only [List.length_cons, List.length_nil]
    omega
  | choose => exact h.elim
  | throw => exact h.elim
  | ub => exact h.elim
  | diverge => exact h.elim
  | join => exact h.elim

/-- One step of any schedule. -/
theorem step {o : Oracle σ ι ω} (ho : o.Sat R) {p p' : Prog α ι ω β} {b : β} {n : Nat} {s s' : St α ι ω σ} (h : PathW R s.mem p b n m1)
    (hs : Step o p s p' s') : ∃ n', PathW R s'.mem p' b n' m1 ∧ s'.log.length + n' = s.log.length + n := by
  cases hs with
  | get => exact ⟨n, h, rfl⟩
  | call q k =>
    obtain ⟨n', rfl, h⟩ := h
    refine ⟨n', h _ (ho _ _), ?_⟩
    rw [List.length_append]
    simp only [List.length_cons, List.length_nil]
    omega
  | set => exact ⟨n, h, rfl⟩
  | choose => exact h.elim
  | joinL => exact h.elim
  | joinR => exact h.elim
  | joinEnd => exact h.elim

/-- Every schedule. -/
theorem steps {o : Oracle σ ι ω} (ho : o.Sat R) {p p' : Prog α ι ω β} {b : β} {n : Nat} {s s' : St α ι ω σ} (h : PathW R s.mem p b n m1)
    (hs : Steps o p s p' s') : ∃ n', PathW R s'.mem p' b n' m1 ∧ s'.log.length + n' = s.log.length + n := by
  induction hs with
  | refl => exact ⟨n, h, rfl⟩
  | tail _ hs ih =>
    obtain ⟨n', h2, h3⟩ := ih
    obtain ⟨n'', h5, h6⟩ := step ho h2 hs
    exact ⟨n'', h5, by omega⟩

end PathW

/-- The program asks nothing, makes no choices and starts no tasks. -/
def Prog.Silent : Prog α ι ω β → Prop
  | .ret _ => True
  | .get _ k => ∀ x, Silent (k x)
  | .set _ _ k => Silent k
  | .throw _ => True
  | .ub => True
  | .diverge => True
  | _ => False

namespace Prog.Silent

theorem pure {b : β} : Silent (Pure.pure b : Prog α ι ω β) := trivial

theorem bind {p : Prog α ι ω β} {f : β → Prog α ι ω γ} (h : Silent p) (hf : ∀ b, Silent (f b)) : Silent (p >>= f) := by
  show Silent (p.bind f)
  induction p with
  | ret b => exact hf b
  | get a k ih => exact fun x => ih x (h x) hf
  | set a x k ih => exact ih h hf
  | throw e => trivial
  | ub => trivial
  | diverge => trivial
  | call q k ih => exact h.elim
  | choose k ih => exact h.elim
  | join p q k ihp ihq ihk => exact h.elim

variable {v : View} {cfg : Cfg} {i : Nat} {x : α}

theorem vidx : Silent (v.idx i : Prog α ι ω α) := by unfold View.idx; split <;> simp [Silent]
theorem vcset : Silent (v.cset i x : Prog α ι ω Unit) := by unfold View.cset; split <;> simp [Silent]
theorem vsplitAt : Silent (v.splitAt i : Prog α ι ω (View × View)) := by unfold View.splitAt; split <;> trivial
theorem debugAssert {c : Bool} : Silent (NdSlice.debugAssert cfg c : Prog α ι ω Unit) := by unfold NdSlice.debugAssert; split <;> trivial
theorem usub {a b : Nat} : Silent (NdSlice.usub cfg a b : Prog α ι ω Nat) := by unfold NdSlice.usub; repeat (first | exact pure | trivial | split)

/-- What is known about the end of a silent program. -/
theorem path {p : Prog α ι ω β} (h : Silent p) {F : Addr → Prop} {Q : β → Mem α → List (ι × Option ω) → Prop}
    {E : Panic → Mem α → List (ι × Option ω) → Prop} {lg : List (ι × Option ω)} (hw : wp R p F Q E m lg) (hE : ∀ e m' l, ¬ E e m' l) :
    ∃ b m', PathW R m p b 0 m' ∧ Q b m' lg := by
  induction p generalizing m F E with
  | ret b => exact ⟨b, m, ⟨rfl, rfl, rfl⟩, hw⟩
  | get a k ih => exact ih _ (h _) hw.2 hE
  | set a x k ih => exact ih h hw.2 hE
  | throw e => exact (hE _ _ _ hw).elim
  | ub => exact hw.elim
  | diverge => exact hw.elim
  | call q k ih => exact h.elim
  | choose k ih => exact h.elim
  | join p q k ihp ihq ihk => exact h.elim

end Prog.Silent

end NdSlice
