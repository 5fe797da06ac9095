import Verif.Props.Stable
import Verif.Props.Parallel
import Verif.Proof.ParMergeSort

/-
Properties of `par_sort`, `par_sort_by`, `par_sort_by_key`: C27, C28, and the parts of C09, C31, C33 and C34 about them.
-/

namespace NdSlice

open Style

variable {α κ σ : Type} {st : Style} {cfg : Cfg} {v : View}

/-- C27: with a consistent comparator every schedule of `par_sort*` is free of data races and undefined behaviour, ends, and ends
normally with the stable sort of the array: sorted, a permutation, elements that compare equal in their original order.
C09, C34: nothing outside the view and the allocated `len` elements changed. -/
theorem par_sort_sorts {o : Oracle σ (st.Q α κ) (st.A κ)} {lt : α → α → Bool} (so : SWO lt) (ho : Agrees st o lt)
    (hz : cfg.zst = true → Subsingleton α) (hv : v.WF) {heap : Addr} (hf : Fresh v (scratch heap v.len))
    (s : St α (st.Q α κ) (st.A κ) σ) :
    Always o (parSortStable st cfg v heap) s
      (fun _ m => StableSortOf lt (v.contents s.mem) (v.contents m) ∧
        ∀ a, a ∉ v.region → a ∉ (scratch heap v.len).region → m a = s.mem a)
      (fun _ _ => False) :=
  (TriS.always (rel_sat o) hv scratch_wf hf (parMergeSort_spec (C := st.toCmp (rel o)) (cfg := cfg) (v := v)
    (v.contents_length s.mem) hz rfl)).mono
      (fun _ _ h => by
        have := h.1.2 lt (good_of_agrees ho so)
        exact ⟨⟨this.1, h.1.1, this.2⟩, h.2⟩)
      (fun _ _ h => pan_iff (noPanic_of_agrees ho) h.1.2.1)

/-- C27: with a consistent comparator every schedule of `par_sort*` that ended has the array that `sort*` would have left. -/
theorem par_sort_eq_sort {o : Oracle σ (st.Q α κ) (st.A κ)} {lt : α → α → Bool} (so : SWO lt) (ho : Agrees st o lt)
    (hz : cfg.zst = true → Subsingleton α) (hv : v.WF) {al : Alloc} (hal : al.Succeeds) {heap heap' : Addr}
    (hf : Fresh v (scratch heap v.len)) (hf' : Fresh v (scratch heap' (v.len / 2)))
    (s : St α (st.Q α κ) (st.A κ) σ) {p' s' r} (h : Steps o (parSortStable st cfg v heap) s p' s') (he : Ended p' r) :
    r = .ok () ∧ v.contents s'.mem = v.contents (run o (sortStable st cfg v al heap') s).2.mem := by
  obtain ⟨s1, h1, h2, -⟩ := sort_sorts (cfg := cfg) so ho hz hv hal hf' s
  obtain ⟨-, -, h3⟩ := (par_sort_sorts (cfg := cfg) so ho hz hv hf s).1 p' s' h
  rw [h1]
  rcases h3 with ⟨p'', s'', h3⟩ | ⟨b, rfl, h3, -⟩ | ⟨e, rfl, h3⟩
  · cases he <;> cases h3
  · cases he
    exact ⟨rfl, StableSortOf.unique so h3 h2⟩
  · exact h3.elim

/-- C28: with arbitrary user code (inconsistent, stateful, panicking) every schedule of `par_sort*` is free of data races and undefined
behaviour, in particular accesses nothing but the array and the `len` elements of the buffer, and ends; either normally or because
user code panicked, and in both cases the array is a permutation of the input.
C09, C34: nothing outside the view and the allocated `len` elements changed. -/
theorem par_sort_safe (o : Oracle σ (st.Q α κ) (st.A κ))
    (hz : cfg.zst = true → Subsingleton α) (hv : v.WF) {heap : Addr} (hf : Fresh v (scratch heap v.len))
    (s : St α (st.Q α κ) (st.A κ) σ) :
    Always o (parSortStable st cfg v heap) s
      (fun _ m => (v.contents m).Perm (v.contents s.mem) ∧
        ∀ a, a ∉ v.region → a ∉ (scratch heap v.len).region → m a = s.mem a)
      (fun e m => e = .user ∧ ¬ NoPanic o ∧ (v.contents m).Perm (v.contents s.mem) ∧
        ∀ a, a ∉ v.region → a ∉ (scratch heap v.len).region → m a = s.mem a) :=
  (TriS.always (rel_sat o) hv scratch_wf hf (parMergeSort_spec (C := st.toCmp (rel o)) (cfg := cfg) (v := v)
    (v.contents_length s.mem) hz rfl)).mono
      (fun _ _ h => ⟨h.1.1, h.2⟩) (fun _ _ h => ⟨h.1.1, fun hn => pan_iff hn h.1.2.1, h.1.2.2, h.2⟩)

/-- C31 for `par_sort*`. -/
theorem par_sort_race_free (o : Oracle σ (st.Q α κ) (st.A κ))
    (hz : cfg.zst = true → Subsingleton α) (hv : v.WF) {heap : Addr} (hf : Fresh v (scratch heap v.len))
    (s : St α (st.Q α κ) (st.A κ) σ) {p' s'} (h : Steps o (parSortStable st cfg v heap) s p' s') : ¬ Race p' :=
  ((par_sort_safe o hz hv hf s).1 p' s' h).1

/-- C33 for `par_sort*`. -/
theorem par_sort_ends (o : Oracle σ (st.Q α κ) (st.A κ))
    (hz : cfg.zst = true → Subsingleton α) (hv : v.WF) {heap : Addr} (hf : Fresh v (scratch heap v.len))
    (s : St α (st.Q α κ) (st.A κ) σ) :
    NoInfinite o (parSortStable st cfg v heap) ∧ NoDeadlock o (parSortStable st cfg v heap) s :=
  ⟨noInfinite _ _, (par_sort_safe o hz hv hf s).noDeadlock⟩

/-! ### The hypotheses can be met -/

namespace Sample

/-- An array of more than two chunks, with stride -3. -/
def long : View := ⟨-1, -3, 5003⟩

theorem long_wf : long.WF := .inl (by decide)

theorem long_fresh {n : Nat} : Fresh long (scratch 300 n) := by
  intro a ha hv
  simp only [View.region, scratch, long, List.mem_map, List.mem_range, View.addr] at ha hv
  obtain ⟨i, hi, rfl⟩ := ha
  obtain ⟨j, hj, h⟩ := hv
  have h : (-1 : Int) + -3 * (j : Int) = 300 + 1 * (i : Int) := h
  omega

end Sample

example (st : Style) := par_sort_sorts (st := st) (cfg := Sample.cfg) Sample.swo (Sample.agrees st) Sample.notZst Sample.long_wf
  Sample.long_fresh (Sample.state st)
example (st : Style) {p' s' r} (h : Steps _ (parSortStable st Sample.cfg Sample.long 300) (Sample.state st) p' s') (he : Ended p' r) :=
  par_sort_eq_sort (st := st) (cfg := Sample.cfg) Sample.swo (Sample.agrees st) Sample.notZst Sample.long_wf Sample.alloc_succeeds
    Sample.long_fresh (Sample.long_fresh (n := 2501)) (Sample.state st) h he
example (st : Style) := par_sort_safe (st := st) (cfg := Sample.cfg) (Sample.nonsense st) Sample.notZst Sample.long_wf
  Sample.long_fresh (Sample.nstate st)
example (st : Style) {p' s'} (h : Steps (Sample.nonsense st) (parSortStable st Sample.cfg Sample.long 300) (Sample.nstate st) p' s') :
    ¬ Race p' := par_sort_race_free _ Sample.notZst Sample.long_wf Sample.long_fresh _ h
example (st : Style) := par_sort_ends (st := st) (cfg := Sample.cfg) (Sample.nonsense st) Sample.notZst Sample.long_wf
  Sample.long_fresh (Sample.nstate st)

end NdSlice
