import Verif.Props.AlreadySorted
import Verif.Proof.Descending

/-
C60: sorting a strictly descending array is cheap.
-/

namespace NdSlice

open Style

variable {α κ σ : Type} {st : Style} {cfg : Cfg} {v : View}

/-- C60: `sort*` on a strictly descending array of more than 20 elements returns with the array reversed and nothing else changed, after exactly
`len - 1` comparisons. -/
theorem sort_descending {o : Oracle σ (st.Q α κ) (st.A κ)} {lt : α → α → Bool} (ho : Agrees st o lt) (hz : cfg.zst = false)
    (hv : v.WF) (h20 : 20 < v.len) {al : Alloc} (hal : al.Succeeds) (heap : Addr) (s : St α (st.Q α κ) (st.A κ) σ)
    (hs : (v.contents s.mem).Pairwise fun a b => lt b a = true) :
    ∃ s', run o (sortStable st cfg v al heap) s = (.ok (), s') ∧ v.contents s'.mem = (v.contents s.mem).reverse ∧
      (∀ a, a ∉ v.region → s'.mem a = s.mem a) ∧ s'.log.length = s.log.length + (v.len - 1) * st.calls := by
  obtain ⟨m', h1, h2, h3⟩ := reverse_path (R := rel o) (cfg := cfg) hv s.mem
  obtain ⟨s', h4, rfl, h6⟩ := (stableSort_falling (Style.compares ho) (falling_of_pairwise hs) ⟨hal.1, hal.2 _⟩ hz _ h20 h1).run (rel_sat o)
  exact ⟨s', h4, h2, h3, h6⟩

/-- C60: `sort_unstable*` on a strictly descending array of at least 50 elements returns with the array reversed and nothing else changed, after
exactly `len - 1` comparisons and 12 of the pivot choice. -/
theorem sort_unstable_descending {o : Oracle σ (st.Q α κ) (st.A κ)} {lt : α → α → Bool} (ho : Agrees st o lt) (so : SWO lt)
    (hz : cfg.zst = false) (hv : v.WF) (h50 : 50 ≤ v.len) (s : St α (st.Q α κ) (st.A κ) σ)
    (hs : (v.contents s.mem).Pairwise fun a b => lt b a = true) :
    ∃ s', run o (sortUnstable st cfg v) s = (.ok (), s') ∧ v.contents s'.mem = (v.contents s.mem).reverse ∧
      (∀ a, a ∉ v.region → s'.mem a = s.mem a) ∧ s'.log.length = s.log.length + (v.len - 1 + 12) * st.calls := by
  obtain ⟨m', h1, h2, h3⟩ := reverse_path (R := rel o) (cfg := cfg) hv s.mem
  obtain ⟨s', h4, rfl, h6⟩ := (quickSort_falling (Style.compares ho) (falling_of_pairwise hs) hz h50 h1
    (inOrder_of_sorted (h2 ▸ sorted_reverse so hs))).run (rel_sat o)
  exact ⟨s', h4, h2, h3, by rw [h6]; congr 2; omega⟩

/-- C60 for `par_sort_unstable*`, on every schedule (there is nothing to do in parallel). -/
theorem par_sort_unstable_descending {o : Oracle σ (st.Q α κ) (st.A κ)} {lt : α → α → Bool} (ho : Agrees st o lt) (so : SWO lt)
    (hz : cfg.zst = false) (hv : v.WF) (h50 : 50 ≤ v.len) (s : St α (st.Q α κ) (st.A κ) σ)
    (hs : (v.contents s.mem).Pairwise fun a b => lt b a = true) {p' s' r} (h : Steps o (parSortUnstable st cfg v) s p' s') (hr : Ended p' r) :
    r = .ok () ∧ v.contents s'.mem = (v.contents s.mem).reverse ∧
      (∀ a, a ∉ v.region → s'.mem a = s.mem a) ∧ s'.log.length = s.log.length + (v.len - 1 + 12) * st.calls := by
  obtain ⟨m', h1, h2, h3⟩ := reverse_path (R := rel o) (cfg := cfg) hv s.mem
  obtain ⟨n, h4, h5⟩ := (parQuickSort_falling (Style.compares ho) (falling_of_pairwise hs) hz h50 h1
    (inOrder_of_sorted (h2 ▸ sorted_reverse so hs))).steps (rel_sat o) h
  cases hr with
  | ret b =>
    obtain ⟨rfl, rfl, rfl⟩ := h4
    exact ⟨rfl, h2, h3, by rw [Nat.add_zero] at h5; rw [h5]; congr 2; omega⟩
  | throw => exact h4.elim

/-! ### The hypotheses can be met -/

namespace Sample

/-- Memory in which `view` (which goes backwards) shows a strictly descending array. -/
def descending : Mem Nat := fun a => (1000 + a).toNat

theorem descending_falls : (view.contents descending).Pairwise fun a b => lt b a = true := by
  unfold View.contents View.region
  rw [List.map_map]
  refine List.Pairwise.map _ (R := fun i j => i < j ∧ j < 60) ?_ ?_
  · intro i j hij
    show decide ((1000 + (200 + -2 * (j : Int))).toNat < (1000 + (200 + -2 * (i : Int))).toNat) = true
    rw [decide_eq_true_iff]
    omega
  · rw [List.pairwise_iff_getElem]
    intro i j hi hj hij
    rw [List.getElem_range, List.getElem_range]
    exact ⟨hij, by simpa [view] using hj⟩

end Sample

example (st : Style) := sort_descending (st := st) (cfg := Sample.cfg) (v := Sample.view) (Sample.agrees st) rfl Sample.wf (by decide)
  Sample.alloc_succeeds 300 ⟨Sample.descending, (), []⟩ Sample.descending_falls

example (st : Style) := sort_unstable_descending (st := st) (cfg := Sample.cfg) (v := Sample.view) (Sample.agrees st) Sample.swo rfl Sample.wf
  (by decide) ⟨Sample.descending, (), []⟩ Sample.descending_falls

example (st : Style) {p' s' r} := par_sort_unstable_descending (st := st) (cfg := Sample.cfg) (v := Sample.view) (Sample.agrees st) Sample.swo rfl
  Sample.wf (by decide) ⟨Sample.descending, (), []⟩ Sample.descending_falls (p' := p') (s' := s') (r := r)

end NdSlice
