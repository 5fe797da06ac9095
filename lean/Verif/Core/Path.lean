import Verif.Core.Adequacy
import Verif.Core.View

/-
Runs which only read: `Path R m p b n` says that with memory `m` the program `p` writes nothing, makes no choices and starts no
tasks, returns `b` and asks exactly `n` questions, whatever is answered (as long as `R` allows it).
-/

namespace NdSlice

variable {α ι ω σ β γ : Type} {R : ι → Option ω → Prop} {m : Mem α}

/-- See the top of this file. -/
def Path (R : ι → Option ω → Prop) (m : Mem α) : Prog α ι ω β → β → Nat → Prop
  | .ret b', b, n => b' = b ∧ n = 0
  | .get a k, b, n => Path R m (k (m a)) b n
  | .call q k, b, n => ∃ n', n = n' + 1 ∧ ∀ r, R q r → Path R m (k r) b n'
  | _, _, _ => False

namespace Path

theorem pure {b : β} : Path R m (Pure.pure b : Prog α ι ω β) b 0 := ⟨rfl, rfl⟩

theorem bind {p : Prog α ι ω β} {f : β → Prog α ι ω γ} {b : β} {c : γ} {n k : Nat} (h : Path R m p b n) (hf : Path R m (f b) c k) :
    Path R m (p >>= f) c (n + k) := by
  show Path R m (p.bind f) c (n + k)
  induction p generalizing n with
  | ret b' => obtain ⟨rfl, rfl⟩ := h; rw [Nat.zero_add]; exact hf
  | get a k' ih => exact ih _ h hf
  | call q k' ih =>
    obtain ⟨n', rfl, h⟩ := h
    exact ⟨n' + k, by omega, fun r hr => ih r (h r hr) hf⟩
  | set => exact h.elim
  | choose => exact h.elim
  | throw => exact h.elim
  | ub => exact h.elim
  | diverge => exact h.elim
  | join => exact h.elim

/-- With the count on the right side computed first. -/
theorem seq {p : Prog α ι ω β} {f : β → Prog α ι ω γ} {b : β} {c : γ} {n k l : Nat} (h : Path R m p b n) (hf : Path R m (f b) c k)
    (hl : l = n + k) : Path R m (p >>= f) c l := hl ▸ bind h hf

theorem onPanic {p : Prog α ι ω β} {g : Prog α ι ω Unit} {b : β} {n : Nat} (h : Path R m p b n) : Path R m (p.onPanic g) b n := by
  induction p generalizing n with
  | ret b' => exact h
  | get a k' ih => exact ih _ h
  | call q k' ih =>
    obtain ⟨n', rfl, h⟩ := h
    exact ⟨n', rfl, fun r hr => ih r (h r hr)⟩
  | set => exact h.elim
  | choose => exact h.elim
  | throw => exact h.elim
  | ub => exact h.elim
  | diverge => exact h.elim
  | join => exact h.elim

theorem vget {v : View} {i : Nat} (hi : i < v.len) : Path (ι := ι) (ω := ω) R m (v.get i) (m (v.addr i)) 0 := by
  unfold View.get
  rw [if_pos hi]
  exact ⟨rfl, rfl⟩

theorem usub {cfg : Cfg} {a b : Nat} (h : b ≤ a) : Path (ι := ι) (ω := ω) R m (NdSlice.usub cfg a b) (a - b) 0 := by
  unfold NdSlice.usub
  rw [if_pos h]
  exact ⟨rfl, rfl⟩

theorem debugAssert {cfg : Cfg} {c : Bool} (h : c = true) : Path (ι := ι) (ω := ω) R m (NdSlice.debugAssert cfg c) () 0 := by
  subst h
  unfold NdSlice.debugAssert
  simp only [Bool.not_true, Bool.and_false]
  exact ⟨rfl, rfl⟩

theorem assertP {c : Bool} (h : c = true) : Path (ι := ι) (ω := ω) R m (NdSlice.assertP c) () 0 := by
  subst h
  exact ⟨rfl, rfl⟩

theorem slice {v : View} {a b : Nat} (hab : a ≤ b) (hb : b ≤ v.len) :
    Path (ι := ι) (ω := ω) R m (v.slice a b) (v.sub a (b - a)) 0 := by
  unfold View.slice
  dsimp only
  rw [if_neg (Nat.not_lt.mpr hab), if_pos ⟨by omega, hb⟩]
  exact ⟨rfl, rfl⟩

/-- The sequential run. -/
theorem run {o : Oracle σ ι ω} (ho : o.Sat R) {p : Prog α ι ω β} {b : β} {n : Nat} {s : St α ι ω σ} (h : Path R s.mem p b n) :
    ∃ s', NdSlice.run o p s = (.ok b, s') ∧ s'.mem = s.mem ∧ s'.log.length = s.log.length + n := by
  induction p generalizing n s with
  | ret b' => obtain ⟨rfl, rfl⟩ := h; exact ⟨s, rfl, rfl, rfl⟩
  | get a k ih => exact ih _ h
  | call q k ih =>
    obtain ⟨n', rfl, h⟩ := h
    obtain ⟨s', h1, h2, h3⟩ := ih (o.ask s.env q).1 (s := { s with env := (o.ask s.env q).2, log := s.log ++ [(q, (o.ask s.env q).1)] })
      (h _ (ho _ _))
    refine ⟨s', h1, h2, ?_⟩
    rw [h3, List.length_append]
    simp only [List.length_cons, List.length_nil]
    omega
  | set => exact h.elim
  | choose => exact h.elim
  | throw => exact h.elim
  | ub => exact h.elim
  | diverge => exact h.elim
  | join => exact h.elim

/-- One step of any schedule. -/
theorem step {o : Oracle σ ι ω} (ho : o.Sat R) {p p' : Prog α ι ω β} {b : β} {n : Nat} {s s' : St α ι ω σ} (h : Path R s.mem p b n)
    (hs : Step o p s p' s') : s'.mem = s.mem ∧ ∃ n', Path R s'.mem p' b n' ∧ s'.log.length + n' = s.log.length + n := by
  cases hs with
  | get => exact ⟨rfl, n, h, rfl⟩
  | call q k =>
    obtain ⟨n', rfl, h⟩ := h
    refine ⟨rfl, n', h _ (ho _ _), ?_⟩
    rw [List.length_append]
    simp only [List.length_cons, List.length_nil]
    omega
  | set => exact h.elim
  | choose => exact h.elim
  | joinL => exact h.elim
  | joinR => exact h.elim
  | joinEnd => exact h.elim

/-- Every schedule. -/
theorem steps {o : Oracle σ ι ω} (ho : o.Sat R) {p p' : Prog α ι ω β} {b : β} {n : Nat} {s s' : St α ι ω σ} (h : Path R s.mem p b n)
    (hs : Steps o p s p' s') : s'.mem = s.mem ∧ ∃ n', Path R s'.mem p' b n' ∧ s'.log.length + n' = s.log.length + n := by
  induction hs with
  | refl => exact ⟨rfl, n, h, rfl⟩
  | tail _ hs ih =>
    obtain ⟨h1, n', h2, h3⟩ := ih
    obtain ⟨h4, n'', h5, h6⟩ := step ho h2 hs
    exact ⟨h4.trans h1, n'', h5, by omega⟩

end Path

end NdSlice
