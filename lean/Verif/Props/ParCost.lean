import Verif.Props.Cost
import Verif.Props.Parallel
import Verif.Proof.CostPar
import Verif.Proof.CostQuickAny
import Verif.Proof.SelectAny

/-
C56-C58: how many comparisons the sorts and selections make whatever the user code answers; for the parallel ones, at every moment of every schedule.
-/

namespace NdSlice

open Style

variable {α κ σ : Type} {st : Style} {cfg : Cfg} {v : View}

/-- C56: `par_sort*` makes at most `8 n log2 n` comparisons on `n` elements, whatever the user code answers (inconsistent answers and
panics included): never more at any moment of any schedule. -/
theorem par_sort_comparisons (o : Oracle σ (st.Q α κ) (st.A κ)) (heap : Addr) {s s' : St α (st.Q α κ) (st.A κ) σ}
    {p' : Prog α (st.Q α κ) (st.A κ) Unit} (h : Steps o (parSortStable st cfg v heap) s p' s') :
    s'.log.length ≤ s.log.length + st.calls * (8 * (v.len * Nat.log2 v.len)) := by
  obtain ⟨B', -, h⟩ := Spend.steps (parMergeSort_cost (cfg := cfg) (v := v) (buf := ⟨heap, 1, v.len⟩) (Style.asks (st := st) (α := α) (κ := κ))) h
  omega

/-- C57: `sort_unstable*` makes at most `7 n ^ 2` comparisons on `n` elements, whatever the user code answers. -/
theorem sort_unstable_comparisons_any (o : Oracle σ (st.Q α κ) (st.A κ)) (s : St α (st.Q α κ) (st.A κ) σ) :
    (run o (sortUnstable st cfg v) s).2.log.length ≤ s.log.length + st.calls * (7 * v.len ^ 2) := by
  obtain ⟨B', h, _⟩ := Spend.run (o := o) (s := s) (quickSort_costA (cfg := cfg) (v := v) (Style.asks (st := st) (α := α) (κ := κ)))
  unfold sortUnstable
  rw [Nat.pow_two]
  omega

/-- C57: `par_sort_unstable*` makes at most `7 n ^ 2` comparisons on `n` elements, whatever the user code answers: never more at any
moment of any schedule.  (So the lower bound of C54 is tight up to a constant.) -/
theorem par_sort_unstable_comparisons_any (o : Oracle σ (st.Q α κ) (st.A κ)) {s s' : St α (st.Q α κ) (st.A κ) σ}
    {p' : Prog α (st.Q α κ) (st.A κ) Unit} (h : Steps o (parSortUnstable st cfg v) s p' s') :
    s'.log.length ≤ s.log.length + st.calls * (7 * v.len ^ 2) := by
  obtain ⟨B', -, h⟩ := Spend.steps (parQuickSort_costA (cfg := cfg) (v := v) (Style.asks (st := st) (α := α) (κ := κ))) h
  rw [Nat.pow_two]
  omega

/-- C58: `select_nth_unstable*` makes at most `24 (n + 1) ^ (log2 n + 2)` comparisons on `n` elements, whatever the user code answers.  (By C52
no polynomial bounds the comparisons.) -/
theorem select_nth_comparisons_any (o : Oracle σ (st.Q α κ) (st.A κ)) (index : Nat) (s : St α (st.Q α κ) (st.A κ) σ) :
    (run o (selectNthUnstable st cfg v index) s).2.log.length ≤
      s.log.length + st.calls * (24 * (v.len + 1) ^ (Nat.log2 v.len + 2)) := by
  obtain ⟨B', h, _⟩ := Spend.run (o := o) (s := s)
    (partitionAtIndex_costA (cfg := cfg) (v := v) (k := index) (Style.asks (st := st) (α := α) (κ := κ)))
  unfold selectNthUnstable
  unfold selAny at h
  omega

/-- C58: the same for `select_many_nth_unstable*`, per index. -/
theorem select_many_comparisons_any (o : Oracle σ (st.Q α κ) (st.A κ)) (is : List Nat) (s : St α (st.Q α κ) (st.A κ) σ) :
    (run o (selectManyNthUnstable st cfg v is) s).2.log.length ≤
      s.log.length + st.calls * (is.length * (24 * (v.len + 1) ^ (Nat.log2 v.len + 2))) := by
  obtain ⟨B', h, _⟩ := Spend.run (o := o) (s := s)
    (partitionAtIndices_costA (cfg := cfg) (v := v) (n := is.length + 1) (off := 0) (is := is) (Style.asks (st := st) (α := α) (κ := κ))
      (Nat.le_refl _))
  unfold selectManyNthUnstable selectMany
  unfold selAny at h
  omega

/-- C58: the same for `par_select_many_nth_unstable*`, at every moment of every schedule. -/
theorem par_select_many_comparisons_any (o : Oracle σ (st.Q α κ) (st.A κ)) (is : List Nat) (extra : Nat) {s s' : St α (st.Q α κ) (st.A κ) σ}
    {p' : Prog α (st.Q α κ) (st.A κ) (List (Nat × Addr))} (h : Steps o (parSelectManyNthUnstable st cfg v is extra) s p' s') :
    s'.log.length ≤ s.log.length + st.calls * (is.length * (24 * (v.len + 1) ^ (Nat.log2 v.len + 2))) := by
  obtain ⟨B', -, h⟩ := Spend.steps
    (parPartitionAtIndices_costA (cfg := cfg) (v := v) (n := is.length + 1) (off := 0) (is := is) (vs := 0) (vl := is.length + extra)
      (Style.asks (st := st) (α := α) (κ := κ)) (Nat.le_refl _)) h
  unfold selAny at h
  omega

/-! ### The hypotheses can be met -/

example (st : Style) := par_sort_comparisons (st := st) (cfg := Sample.cfg) (v := Sample.view) (Sample.nonsense st) 300
  (s := Sample.nstate st) (.refl _ _)
example (st : Style) := sort_unstable_comparisons_any (st := st) (cfg := Sample.cfg) (v := Sample.view) (Sample.nonsense st) (Sample.nstate st)
example (st : Style) := par_sort_unstable_comparisons_any (st := st) (cfg := Sample.cfg) (v := Sample.view) (Sample.nonsense st)
  (s := Sample.nstate st) (.refl _ _)
example (st : Style) (index : Nat) := select_nth_comparisons_any (st := st) (cfg := Sample.cfg) (v := Sample.view) (Sample.nonsense st) index (Sample.nstate st)
example (st : Style) := select_many_comparisons_any (st := st) (cfg := Sample.cfg) (v := Sample.view) (Sample.nonsense st) [3, 17, 40] (Sample.nstate st)
example (st : Style) := par_select_many_comparisons_any (st := st) (cfg := Sample.cfg) (v := Sample.view) (Sample.nonsense st) [3, 17, 40] 1
  (s := Sample.nstate st) (.refl _ _)

end NdSlice
