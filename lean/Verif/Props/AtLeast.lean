import Verif.Proof.DuePar
import Verif.Props.Lag
import Verif.Props.Stable
import Verif.Props.ParSorted
import Verif.Props.ParStable

/-
C82: the stable sorts make at least one comparison less than there are elements.
-/

namespace NdSlice

open Style

variable {α κ σ ι ω β : Type} {st : Style} {cfg : Cfg} {v : View}

/-- C82: `sort*` on `n` elements returns only after `n - 1` comparisons, whatever the comparator answers and whatever the allocator does. -/
theorem sort_at_least {o : Oracle σ (st.Q α κ) (st.A κ)} (hz : cfg.zst = false) {al : Alloc} {heap : Addr} {s s' : St α (st.Q α κ) (st.A κ) σ}
    (h : run o (sortStable st cfg v al heap) s = (.ok (), s')) : s.log.length + st.calls * (v.len - 1) ≤ s'.log.length :=
  (stableSort_owe Style.takes hz).run h

/-- C82: `par_sort*` on `n` elements returns only after `n - 1` comparisons, those of all threads together, under every schedule. -/
theorem par_sort_at_least {o : Oracle σ (st.Q α κ) (st.A κ)} (hz : cfg.zst = false) {heap : Addr} {s s' : St α (st.Q α κ) (st.A κ) σ}
    (h : Steps o (parSortStable st cfg v heap) s (.ret ()) s') : s.log.length + st.calls * (v.len - 1) ≤ s'.log.length :=
  (parMergeSort_debt Style.takes hz).steps h

/-- C82: the bound cannot be raised.  On a sorted array it is what the sorts need. -/
theorem sort_at_least_attained {o : Oracle σ (st.Q α κ) (st.A κ)} {lt : α → α → Bool} (ho : Agrees st o lt) (hz : cfg.zst = false)
    {al : Alloc} (hal : al.Succeeds) (heap : Addr) (s : St α (st.Q α κ) (st.A κ) σ) (hs : Sorted lt (v.contents s.mem)) :
    ∃ s', run o (sortStable st cfg v al heap) s = (.ok (), s') ∧ s'.log.length = s.log.length + st.calls * (v.len - 1) := by
  obtain ⟨s', h1, -, h2⟩ := sort_already_sorted ho hz hal heap s hs
  exact ⟨s', h1, by rw [h2, Nat.mul_comm]⟩

/-! ### The hypotheses can be met -/

example (st : Style) : ∃ s', run (Sample.oracle st) (sortStable st Sample.cfg Sample.view Sample.alloc 300) (Sample.state st) = (.ok (), s') ∧
    (Sample.state st).log.length + st.calls * 59 ≤ s'.log.length := by
  obtain ⟨s', h, _⟩ := sort_sorts (cfg := Sample.cfg) Sample.swo (Sample.agrees st) Sample.notZst Sample.wf Sample.alloc_succeeds
    (Sample.fresh (n := 30)) (Sample.state st)
  exact ⟨s', h, sort_at_least rfl h⟩

/-- More than two chunks. -/
example (st : Style) : ∃ s', Steps (Sample.oracle st) (parSortStable st Sample.cfg Sample.long 300) (Sample.state st) (.ret ()) s' ∧
    (Sample.state st).log.length + st.calls * 5002 ≤ s'.log.length := by
  obtain ⟨b, c', s', h⟩ := (par_sort_sorts (cfg := Sample.cfg) Sample.swo (Sample.agrees st) Sample.notZst Sample.long_wf Sample.long_fresh
    (Sample.state st)).returns
  exact ⟨s', h.steps, par_sort_at_least rfl h.steps⟩

/-- A comparator without any consistency. -/
example (st : Style) : ∃ s', run (Sample.stubborn st) (sortStable st Sample.cfg Sample.view Sample.alloc 300) (Sample.state st) = (.ok (), s') ∧
    (Sample.state st).log.length + st.calls * 59 ≤ s'.log.length := by
  obtain ⟨s', h, _⟩ := sort_returns (cfg := Sample.cfg) (Sample.stubborn_noPanic st) Sample.notZst Sample.wf Sample.alloc_succeeds
    (Sample.fresh (n := 30)) (Sample.state st)
  exact ⟨s', h, sort_at_least rfl h⟩

example (st : Style) := sort_at_least_attained (st := st) (cfg := Sample.cfg) (v := Sample.view) (Sample.agrees st) rfl
  Sample.alloc_succeeds 300 ⟨Sample.ascending, (), []⟩ Sample.ascending_sorted

end NdSlice
