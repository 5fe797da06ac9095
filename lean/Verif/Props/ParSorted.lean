import Verif.Props.Descending
import Verif.Props.Adaptive
import Verif.Proof.ParSorted

/-
C35, C60 for `par_sort*`: sorted and strictly descending arrays.
-/

namespace NdSlice

open Style

variable {α κ σ : Type} {st : Style} {cfg : Cfg} {v : View}

/-- C35: on every schedule `par_sort*` on a sorted array changes no memory at all, at any moment (nor does it use its buffer), and when it ends, it
returns after exactly `len - 1` comparisons.  Excluded are more than 2000 elements in the case that the last chunk has one element only: the sort of this
chunk does not tell that it is sorted, so that the chunk is merged with the others.  What is known then is `par_sort_adaptive`. -/
theorem par_sort_already_sorted {o : Oracle σ (st.Q α κ) (st.A κ)} {lt : α → α → Bool} (ho : Agrees st o lt) (hz : cfg.zst = false)
    (h1 : v.len % 2000 ≠ 1 ∨ v.len ≤ 2000) (heap : Addr) (s : St α (st.Q α κ) (st.A κ) σ) (hs : Sorted lt (v.contents s.mem)) {p' s'}
    (h : Steps o (parSortStable st cfg v heap) s p' s') :
    s'.mem = s.mem ∧ ∀ r, Ended p' r → r = .ok () ∧ s'.log.length = s.log.length + (v.len - 1) * st.calls := by
  have hp := parMergeSort_trend (buf := ⟨heap, 1, v.len⟩) (Style.compares ho s.mem) (inOrder_of_sorted hs).trend hz (fun h => absurd h (by decide)) h1
    (m1 := s.mem) (.pure ⟨rfl, rfl⟩)
  obtain ⟨-, -, -, h3⟩ := hp.steps (rel_sat o) h
  refine ⟨h3 rfl, fun r hr => ?_⟩
  obtain ⟨_, d, rfl, h4, rfl, -⟩ := hp.ended (rel_sat o) h hr
  exact ⟨rfl, h4⟩

/-- C60: on every schedule `par_sort*` on a strictly descending array of more than 20 elements returns with the array reversed and nothing else
changed, not even the buffer, after exactly `len - 1` comparisons; with the exception of C35. -/
theorem par_sort_descending {o : Oracle σ (st.Q α κ) (st.A κ)} {lt : α → α → Bool} (ho : Agrees st o lt) (hz : cfg.zst = false)
    (hv : v.WF) (h20 : 20 < v.len) (h1 : v.len % 2000 ≠ 1 ∨ v.len ≤ 2000) (heap : Addr) (s : St α (st.Q α κ) (st.A κ) σ)
    (hs : (v.contents s.mem).Pairwise fun a b => lt b a = true) {p' s' r} (h : Steps o (parSortStable st cfg v heap) s p' s') (hr : Ended p' r) :
    r = .ok () ∧ v.contents s'.mem = (v.contents s.mem).reverse ∧
      (∀ a, a ∉ v.region → s'.mem a = s.mem a) ∧ s'.log.length = s.log.length + (v.len - 1) * st.calls := by
  obtain ⟨m', e1, e2, e3⟩ := reverse_path (R := rel o) (cfg := cfg) hv s.mem
  obtain ⟨_, d, rfl, h4, rfl, rfl⟩ := (parMergeSort_trend (buf := ⟨heap, 1, v.len⟩) (Style.compares ho s.mem) (falling_of_pairwise hs).trend hz
    (fun _ => h20) h1 (m1 := m') ((PathP.of_pathW e1).mono fun _ _ _ h => h.2)).ended (rel_sat o) h hr
  exact ⟨rfl, e2, e3, h4⟩

/-! ### The hypotheses can be met -/

example (st : Style) := fun p' s' => par_sort_already_sorted (st := st) (cfg := Sample.cfg) (v := Sample.view) (Sample.agrees st) rfl (by decide) 300
  ⟨Sample.ascending, (), []⟩ Sample.ascending_sorted (p' := p') (s' := s')

example (st : Style) := fun p' s' => par_sort_already_sorted (st := st) (cfg := Sample.cfg) (v := ⟨0, 1, 100000⟩) (o := Sample.oracle st)
  (Sample.agrees st) rfl (by decide) 100000 ⟨fun a => a.toNat, (), []⟩
  (by rw [Sample.long_sorted, List.flatten_cons, List.flatten_nil, List.append_nil]; exact Sample.range_sorted_any _) (p' := p') (s' := s')

example (st : Style) := fun p' s' r => par_sort_descending (st := st) (cfg := Sample.cfg) (v := Sample.view) (Sample.agrees st) rfl
  Sample.wf (by decide) (by decide) 300 ⟨Sample.descending, (), []⟩ Sample.descending_falls (p' := p') (s' := s') (r := r)

/-- A descending array of several chunks. -/
theorem Sample.long_falls : ((⟨0, 1, 100000⟩ : View).contents (fun a => (200000 - a).toNat)).Pairwise fun a b => Sample.lt b a = true := by
  unfold View.contents View.region
  rw [List.map_map]
  refine List.Pairwise.map _ (R := fun i j => i < j ∧ j < 100000) ?_ ?_
  · intro i j hij
    show decide ((200000 - (0 + 1 * (j : Int))).toNat < (200000 - (0 + 1 * (i : Int))).toNat) = true
    rw [decide_eq_true_iff]
    omega
  · rw [List.pairwise_iff_getElem]
    intro i j hi hj hij
    rw [List.getElem_range, List.getElem_range]
    exact ⟨hij, by simpa using hj⟩

example (st : Style) := fun p' s' r => par_sort_descending (st := st) (cfg := Sample.cfg) (v := ⟨0, 1, 100000⟩) (o := Sample.oracle st)
  (Sample.agrees st) rfl (.inl (by decide)) (by decide) (by decide) 100000 ⟨fun a => (200000 - a).toNat, (), []⟩ Sample.long_falls
  (p' := p') (s' := s') (r := r)

end NdSlice
