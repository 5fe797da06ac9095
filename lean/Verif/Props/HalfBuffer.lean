import Verif.Proof.HalfBuffer
import Verif.Props.ParStable

/-
C87: `par_sort*` on at most 2000 elements uses the first half of its buffer only.
-/

namespace NdSlice

open Style Prog

variable {α κ σ : Type} {st : Style} {cfg : Cfg} {v : View}

theorem parSort_below {heap : Addr} (h2000 : v.len ≤ 2000) :
    Below (parMergeSort cfg (st.less (α := α) (κ := κ)) v (scratch heap (v.len / 2))) (parSortStable st cfg v heap) := by
  unfold parSortStable
  exact Below.parMergeSort ⟨rfl, rfl, Nat.div_le_self v.len 2⟩ h2000

/-- C87: with at most 2000 elements, `par_sort*` has the same run if every access to the second half of its buffer counts as undefined behaviour;
and this run has none.  So the second half is neither read nor written, whatever user code does. -/
theorem par_sort_half_buffer (o : Oracle σ (st.Q α κ) (st.A κ)) (hz : cfg.zst = true → Subsingleton α) (hv : v.WF) (h2000 : v.len ≤ 2000)
    {heap : Addr} (hf : Fresh v (scratch heap (v.len / 2))) (s : St α (st.Q α κ) (st.A κ) σ) :
    run o (parSortStable st cfg v heap) s = run o (parMergeSort cfg st.less v (scratch heap (v.len / 2))) s ∧
      (run o (parMergeSort cfg st.less v (scratch heap (v.len / 2))) s).1 ≠ .ub := by
  have hu : (run o (parMergeSort cfg st.less v (scratch heap (v.len / 2))) s).1 ≠ .ub := by
    rcases TriS.ends (rel_sat o) hv scratch_wf hf (s := s) (parMergeSort_half (C := st.toCmp (rel o)) (cfg := cfg) (v := v)
      (buf := scratch heap (v.len / 2)) (v.contents_length s.mem) hz h2000 (Nat.le_refl _)) with ⟨b, s', h, -⟩ | ⟨e, s', h, -⟩
    · intro hc
      have := (congrArg Prod.fst h).symm.trans hc
      cases this
    · intro hc
      have := (congrArg Prod.fst h).symm.trans hc
      cases this
  exact ⟨(parSort_below h2000).run hu, hu⟩

/-- C87: `par_sort*` on at most 2000 elements with a consistent comparator sorts stably on every schedule, and what is behind the first half of its buffer may
be anything, even part of the array. -/
theorem par_sort_half_buffer_sorts {o : Oracle σ (st.Q α κ) (st.A κ)} {lt : α → α → Bool} (so : SWO lt) (ho : Agrees st o lt)
    (hz : cfg.zst = true → Subsingleton α) (hv : v.WF) (h2000 : v.len ≤ 2000) {heap : Addr} (hf : Fresh v (scratch heap (v.len / 2)))
    (s : St α (st.Q α κ) (st.A κ) σ) :
    Always o (parSortStable st cfg v heap) s
      (fun _ m => StableSortOf lt (v.contents s.mem) (v.contents m) ∧ ∀ a, a ∉ v.region → a ∉ (scratch heap (v.len / 2)).region → m a = s.mem a)
      (fun _ _ => False) :=
  (TriS.always (rel_sat o) hv scratch_wf hf (Below.triS (parSort_below h2000)
    (parMergeSort_half (C := st.toCmp (rel o)) (cfg := cfg) (v := v) (buf := scratch heap (v.len / 2)) (v.contents_length s.mem) hz h2000
      (Nat.le_refl _)))).mono
      (fun _ _ h => by
        have := h.1.2 lt (good_of_agrees ho so)
        exact ⟨⟨this.1, h.1.1, this.2⟩, h.2⟩)
      (fun _ _ h => pan_iff (noPanic_of_agrees ho) h.1.2.1)

/-- C87: the same with arbitrary user code: the array is permuted and nothing but the array and the first half of the buffer is changed. -/
theorem par_sort_half_buffer_safe (o : Oracle σ (st.Q α κ) (st.A κ)) (hz : cfg.zst = true → Subsingleton α) (hv : v.WF) (h2000 : v.len ≤ 2000)
    {heap : Addr} (hf : Fresh v (scratch heap (v.len / 2))) (s : St α (st.Q α κ) (st.A κ) σ) :
    Always o (parSortStable st cfg v heap) s
      (fun _ m => (v.contents m).Perm (v.contents s.mem) ∧ ∀ a, a ∉ v.region → a ∉ (scratch heap (v.len / 2)).region → m a = s.mem a)
      (fun e m => e = .user ∧ ¬ NoPanic o ∧ (v.contents m).Perm (v.contents s.mem) ∧
        ∀ a, a ∉ v.region → a ∉ (scratch heap (v.len / 2)).region → m a = s.mem a) :=
  (TriS.always (rel_sat o) hv scratch_wf hf (Below.triS (parSort_below h2000)
    (parMergeSort_half (C := st.toCmp (rel o)) (cfg := cfg) (v := v) (buf := scratch heap (v.len / 2)) (v.contents_length s.mem) hz h2000
      (Nat.le_refl _)))).mono
      (fun _ _ h => ⟨h.1.1, h.2⟩) (fun _ _ h => ⟨h.1.1, fun hn => pan_iff hn h.1.2.1, h.1.2.2, h.2⟩)

/-! ### The hypotheses can be met -/

namespace Sample

/-- A buffer the second half of which lies on the array. -/
theorem half_fresh : Fresh view (scratch 52 (view.len / 2)) := by
  intro a ha hv
  simp only [View.region, scratch, view, List.mem_map, List.mem_range, View.addr] at ha hv
  obtain ⟨i, hi, rfl⟩ := ha
  obtain ⟨j, hj, h⟩ := hv
  have h : (200 : Int) + -2 * (j : Int) = 52 + 1 * (i : Int) := h
  omega

theorem whole_not_fresh : ¬ Fresh view (scratch 52 view.len) := by
  intro h
  exact h 82 (List.mem_map.mpr ⟨30, List.mem_range.mpr (by decide), rfl⟩) (List.mem_map.mpr ⟨59, List.mem_range.mpr (by decide), rfl⟩)

end Sample

example (st : Style) := par_sort_half_buffer (cfg := Sample.cfg) (Sample.nonsense st) Sample.notZst Sample.wf (by decide) Sample.half_fresh
  (Sample.nstate st)

example (st : Style) := par_sort_half_buffer_sorts (cfg := Sample.cfg) Sample.swo (Sample.agrees st) Sample.notZst Sample.wf (by decide)
  Sample.half_fresh (Sample.state st)

example (st : Style) := par_sort_half_buffer_safe (cfg := Sample.cfg) (Sample.nonsense st) Sample.notZst Sample.wf (by decide) Sample.half_fresh
  (Sample.nstate st)

end NdSlice
