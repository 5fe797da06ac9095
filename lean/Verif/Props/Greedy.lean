import Verif.Props.Span
import Verif.Props.ParStable
import Verif.Core.Greedy

/-
C72: `par_sort*` on `P` processors.
-/

namespace NdSlice

open Style

variable {α κ ι ω σ β : Type} {st : Style} {cfg : Cfg} {v : View}

/-- Every run on `P` processors can be continued to its end. -/
theorem Greedy.ends {o : Oracle σ ι ω} {P t b : Nat} (hP : 0 < P) {p₀ p : Prog α ι ω β} {c : Clock} {s₀ s : St α ι ω σ} (hn : NoDeadlock o p₀ s₀)
    (h : Greedy o P p₀ s₀ p c s t b) : ∃ p' c' s' t' b' r, Greedy o P p₀ s₀ p' c' s' t' b' ∧ Ended p' r := by
  have ha := sched_terminates o p
  induction ha generalizing c s t b with
  | intro p _ ih =>
    rcases hn p s h.steps with ⟨r, he⟩ | ⟨p', s', hs⟩
    · exact ⟨p, c, s, t, b, r, h, he⟩
    · rcases h.goes_on hP hs with ⟨p', c', s', n, hw, -, h'⟩ | h'
      · exact ih _ ⟨_, _, hw.step⟩ h'
      · have hc := h'.clock
        obtain ⟨c', n, hw⟩ := hs.work (c := c) (t := t + 1) (by omega)
        have := hw.now (by omega)
        exact ih _ ⟨_, _, hw.step⟩ (h'.work hw (by omega))

/-- C72: `P` processors sort `n` elements with `par_sort*` in the time of at most
`8 n log2 n / P + n / 2000 + 102001 + log2 n (5000 + 3 (log2 n + 1) ^ 2)` comparisons, whatever the user code answers (inconsistent answers and panics
included), if no processor is idle while there is a task to go on with.  `t` is the time and `b` the number of calls of user code going on;
`ho` says that no chunk is put off till the others are done. -/
theorem par_sort_processors {o : Oracle σ (st.Q α κ) (st.A κ)} (ho : ∀ e, (o.flip e).1 = false) (heap : Addr) {P t b : Nat}
    {s s' : St α (st.Q α κ) (st.A κ) σ} {p' : Prog α (st.Q α κ) (st.A κ) Unit} {c' : Clock}
    (h : Greedy o P (parSortStable st cfg v heap) s p' c' s' t b) :
    P * t + b ≤ st.calls * (8 * (v.len * Nat.log2 v.len)) +
      P * (st.calls * (v.len / 2000 + 102001 + Nat.log2 v.len * (5000 + 3 * (Nat.log2 v.len + 1) ^ 2))) := by
  have h1 := Greedy.time ho (parMergeSort_span (cfg := cfg) (v := v) (buf := ⟨heap, 1, v.len⟩) (Style.asks (st := st) (α := α) (κ := κ))
    (Style.less_noJoin st)) h
  have h2 := par_sort_comparisons o heap h.steps
  rw [Nat.mul_assoc 3, ← Nat.pow_two] at h1
  omega

/-- C72: such runs exist and every one can be continued till the sort has ended. -/
theorem par_sort_processors_end {o : Oracle σ (st.Q α κ) (st.A κ)} (hz : cfg.zst = true → Subsingleton α) (hv : v.WF) {heap : Addr}
    (hf : Fresh v (scratch heap v.len)) {P t b : Nat} (hP : 0 < P) {s s' : St α (st.Q α κ) (st.A κ) σ} {p' : Prog α (st.Q α κ) (st.A κ) Unit}
    {c' : Clock} (h : Greedy o P (parSortStable st cfg v heap) s p' c' s' t b) :
    ∃ p c s' t b r, Greedy o P (parSortStable st cfg v heap) s p c s' t b ∧ Ended p r :=
  h.ends hP (par_sort_ends o hz hv hf s).2

/-- C72: what such a run does, the sequence of steps, is one of the schedules all other theorems are about. -/
theorem par_sort_processors_steps {o : Oracle σ (st.Q α κ) (st.A κ)} {heap : Addr} {P t b : Nat} {s s' : St α (st.Q α κ) (st.A κ) σ}
    {p' : Prog α (st.Q α κ) (st.A κ) Unit} {c' : Clock} (h : Greedy o P (parSortStable st cfg v heap) s p' c' s' t b) :
    Steps o (parSortStable st cfg v heap) s p' s' := h.steps

/-! ### The hypotheses can be met -/

example (st : Style) := par_sort_processors (st := st) (cfg := Sample.cfg) (v := Sample.huge)
  (o := { Sample.nonsense st with flip := fun e => (false, e) }) (fun _ => rfl) (-1) (P := 8)
  (s := Sample.nstate st) .start

example (st : Style) := par_sort_processors_end (st := st) (cfg := Sample.cfg) (o := Sample.nonsense st) Sample.notZst Sample.long_wf Sample.long_fresh
  (P := 8) (by decide) (s := Sample.nstate st) .start

/-- For four billion elements 1000 processors need at most a 990th of the time of `8 n log2 n` comparisons. -/
example (t b : Nat)
    (h : 1000 * t + b ≤ 1 * (8 * (Sample.huge.len * Nat.log2 Sample.huge.len)) + 1000 * (1 * (Sample.huge.len / 2000 + 102001 +
      Nat.log2 Sample.huge.len * (5000 + 3 * (Nat.log2 Sample.huge.len + 1) ^ 2)))) :
    990 * t ≤ 8 * (Sample.huge.len * Nat.log2 Sample.huge.len) := by
  have e : Nat.log2 Sample.huge.len = 32 := by decide
  have e' : Sample.huge.len = 4294967296 := rfl
  rw [e, e'] at h ⊢
  omega

end NdSlice
