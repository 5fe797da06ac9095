import Verif.Props.ParStable

/-
Property C73: the memory that the stable sorts need besides the array.
-/

namespace NdSlice

open Style

variable {α κ σ : Type} {st : Style} {cfg : Cfg} {v : View}

/-- The insertion sort of a short array. -/
theorem sort_short_tri (C : Cmp α (st.Q α κ) (st.A κ)) (hC : C.less = st.less) (hz : cfg.zst = true → Subsingleton α) (h20 : v.len ≤ 20)
    {al : Alloc} {heap : Addr} {xs : List α} (hx : xs.length = v.len) :
    Tri C.R v.region (sortStable st cfg v al heap) xs
      (fun _ ys => ys.Perm xs ∧ ∀ lt, C.Good lt → Sorted lt ys ∧ StableArr lt xs ys) (EP C xs) := by
  unfold sortStable stableSort
  split
  · rename_i h
    have := hz h
    exact Tri.pure ⟨.refl _, fun lt hg => ⟨sorted_of_subsingleton hg.1 _, .refl _⟩⟩
  · rename_i h
    unfold mergeSort mergeSortWatch
    refine Tri.debugAssert (by simpa using h) ?_
    rw [if_pos h20, ← hC]
    split
    · refine Tri.mono (insertionSortShiftLeft_spec C (by decide) (by omega) hx) ?_ (fun _ _ _ h => h)
      rintro _ ys _ ⟨h1, h2⟩
      refine ⟨h1, fun lt hg => h2 lt hg ?_⟩
      match xs, hx with
      | [], _ => exact Sorted.nil
      | x :: xs, _ => exact Sorted.single _
    · exact Tri.pure ⟨.refl _, fun lt hg => ⟨by
        match xs, hx with
        | [], _ => exact Sorted.nil
        | [x], _ => exact Sorted.single _
        | x :: y :: xs, hx => simp at hx; omega, .refl _⟩⟩

/-- C73: on up to 20 elements `sort*` does not depend on the allocator or on where a buffer would be. -/
theorem sort_short_any_alloc (h20 : v.len ≤ 20) (al al' : Alloc) (heap heap' : Addr) :
    (sortStable st cfg v al heap : Prog α (st.Q α κ) (st.A κ) Unit) = sortStable st cfg v al' heap' := by
  unfold sortStable stableSort mergeSort mergeSortWatch
  rw [if_pos h20, if_pos h20]

/-- C73: up to 20 elements are sorted, even if no memory can be allocated: `sort*` returns with the stable sort of the array, and has
changed nothing but the array. -/
theorem sort_short_in_place {o : Oracle σ (st.Q α κ) (st.A κ)} {lt : α → α → Bool} (so : SWO lt) (ho : Agrees st o lt)
    (hz : cfg.zst = true → Subsingleton α) (hv : v.WF) (h20 : v.len ≤ 20) (al : Alloc) (heap : Addr) (s : St α (st.Q α κ) (st.A κ) σ) :
    ∃ s', run o (sortStable st cfg v al heap) s = (.ok (), s') ∧
      StableSortOf lt (v.contents s.mem) (v.contents s'.mem) ∧ ∀ a, a ∉ v.region → s'.mem a = s.mem a := by
  obtain ⟨b, s', h1, ⟨h2, h3⟩, h4⟩ := (Tri.ends (rel_sat o) hv
    (sort_short_tri (cfg := cfg) (st.toCmp (rel o)) rfl hz h20 (al := al) (heap := heap) (v.contents_length s.mem))).ok
      (fun e m h => pan_iff (noPanic_of_agrees ho) h.1.2.1)
  have hg := h3 lt (good_of_agrees ho so)
  exact ⟨s', h1, ⟨hg.1, h2, hg.2⟩, h4⟩

/-- C73: with arbitrary user code `sort*` of up to 20 elements accesses nothing but the array, and panics only if user code does. -/
theorem sort_short_safe (o : Oracle σ (st.Q α κ) (st.A κ))
    (hz : cfg.zst = true → Subsingleton α) (hv : v.WF) (h20 : v.len ≤ 20) (al : Alloc) (heap : Addr) (s : St α (st.Q α κ) (st.A κ) σ) :
    Ends o (sortStable st cfg v al heap) s
      (fun _ m => (v.contents m).Perm (v.contents s.mem) ∧ ∀ a, a ∉ v.region → m a = s.mem a)
      (fun e m => e = .user ∧ ¬ NoPanic o ∧ (v.contents m).Perm (v.contents s.mem) ∧ ∀ a, a ∉ v.region → m a = s.mem a) :=
  (Tri.ends (rel_sat o) hv
    (sort_short_tri (cfg := cfg) (st.toCmp (rel o)) rfl hz h20 (al := al) (heap := heap) (v.contents_length s.mem))).mono
      (fun _ _ h => ⟨h.1.1, h.2⟩) (fun _ _ h => ⟨h.1.1, fun hn => pan_iff hn h.1.2.1, h.1.2.2, h.2⟩)

/-- C73: every schedule of `par_sort*` on up to 20 elements sorts in place, wherever a buffer would be. -/
theorem par_sort_short_in_place {o : Oracle σ (st.Q α κ) (st.A κ)} {lt : α → α → Bool} (so : SWO lt) (ho : Agrees st o lt)
    (hz : cfg.zst = true → Subsingleton α) (hv : v.WF) (h20 : v.len ≤ 20) (heap : Addr) (s : St α (st.Q α κ) (st.A κ) σ) :
    Always o (parSortStable st cfg v heap) s
      (fun _ m => StableSortOf lt (v.contents s.mem) (v.contents m) ∧ ∀ a, a ∉ v.region → m a = s.mem a)
      (fun _ _ => False) :=
  (Tri.always (rel_sat o) hv (parMergeSort_short (C := st.toCmp (rel o)) (cfg := cfg) (v := v)
    (v.contents_length s.mem) hz h20)).mono
      (fun _ _ h => by
        have := h.1.2 lt (good_of_agrees ho so)
        exact ⟨⟨this.1, h.1.1, this.2⟩, h.2⟩)
      (fun _ _ h => pan_iff (noPanic_of_agrees ho) h.1.2.1)

/-- C73: with arbitrary user code every schedule of `par_sort*` on up to 20 elements accesses nothing but the array. -/
theorem par_sort_short_safe (o : Oracle σ (st.Q α κ) (st.A κ))
    (hz : cfg.zst = true → Subsingleton α) (hv : v.WF) (h20 : v.len ≤ 20) (heap : Addr) (s : St α (st.Q α κ) (st.A κ) σ) :
    Always o (parSortStable st cfg v heap) s
      (fun _ m => (v.contents m).Perm (v.contents s.mem) ∧ ∀ a, a ∉ v.region → m a = s.mem a)
      (fun e m => e = .user ∧ ¬ NoPanic o ∧ (v.contents m).Perm (v.contents s.mem) ∧ ∀ a, a ∉ v.region → m a = s.mem a) :=
  (Tri.always (rel_sat o) hv (parMergeSort_short (C := st.toCmp (rel o)) (cfg := cfg) (v := v)
    (v.contents_length s.mem) hz h20)).mono
      (fun _ _ h => ⟨h.1.1, h.2⟩) (fun _ _ h => ⟨h.1.1, fun hn => pan_iff hn h.1.2.1, h.1.2.2, h.2⟩)

/-- What is in the array and in the buffer after every schedule of a sort of more than 2000 elements. -/
theorem par_sort_buffer (o : Oracle σ (st.Q α κ) (st.A κ)) (hz : cfg.zst = false) (hv : v.WF) {heap : Addr}
    (hf : Fresh v (scratch heap v.len)) (hlen : 2000 < v.len) (s : St α (st.Q α κ) (st.A κ) σ) :
    Always o (parSortStable st cfg v heap) s
      (fun _ m => MsOk (st.toCmp (rel o)) (v.contents s.mem) (v.contents m) ∧
        (∀ lt, (st.toCmp (rel o)).Good lt → Overlap lt (v.contents s.mem) → ((scratch heap v.len).contents m).Perm (v.contents s.mem)) ∧
        (v.len % 2000 = 1 → ((scratch heap v.len).contents m).Perm (v.contents s.mem)))
      (fun e m => e = .user ∧ ¬ NoPanic o ∧ (v.contents m).Perm (v.contents s.mem)) := by
  have ht := parMergeSortChunks_full (C := st.toCmp (rel o)) (cfg := cfg) (v := v) (buf := scratch heap v.len)
    (v.contents_length s.mem) (by omega) (Nat.le_refl _) ((scratch heap v.len).contents_length s.mem)
  rw [show (scratch heap v.len).sub 0 v.len = scratch heap v.len from View.sub_self _] at ht
  have he : (parSortStable st cfg v heap : Prog α (st.Q α κ) (st.A κ) Unit) = parMergeSortChunks cfg st.less v (scratch heap v.len) := by
    unfold parSortStable parMergeSort
    rw [if_neg (by simp [hz]), if_neg (by omega), if_neg (by omega)]
    rfl
  rw [he]
  refine ⟨fun p' s' hs => ?_, sched_terminates o _⟩
  obtain ⟨g1, g2, -, g4⟩ := sched_sound (rel_sat o) hs
    (ht s.mem s.log (hf.nodup hv scratch_wf) (by rw [List.map_append]; rfl))
  refine ⟨g1, g2, ?_⟩
  rcases g4 with g4 | ⟨b, lg, rfl, -, X', W', g5, g6, -, g7, g8, g9⟩ | ⟨e, lg, rfl, -, X', W', g6, -, g7, g5⟩
  · exact .inl g4
  · rw [List.map_append] at g5
    obtain ⟨rfl, rfl⟩ := List.append_inj g5 (by simp [g6])
    exact .inr (.inl ⟨b, rfl, g7, g8, g9 hlen⟩)
  · rw [List.map_append] at g7
    obtain ⟨rfl, rfl⟩ := List.append_inj g7 (by simp [g6, View.contents])
    exact .inr (.inr ⟨e, rfl, g5.1, fun hn => pan_iff hn g5.2.1, g5.2.2⟩)

/-- C73: with a consistent comparator, if one of the first 2000 elements is greater than one of the other ones, and one is not greater than
one of the other ones, every schedule of `par_sort*` ends with all of the elements in the buffer too: it uses `len` elements of
temporary storage, not half as many as the documentation says. -/
theorem par_sort_fills_buffer {o : Oracle σ (st.Q α κ) (st.A κ)} {lt : α → α → Bool} (so : SWO lt) (ho : Agrees st o lt)
    (hz : cfg.zst = false) (hv : v.WF) {heap : Addr} (hf : Fresh v (scratch heap v.len))
    (s : St α (st.Q α κ) (st.A κ) σ)
    (h1 : ∃ x ∈ (v.contents s.mem).take 2000, ∃ y ∈ (v.contents s.mem).drop 2000, lt y x = true)
    (h2 : ∃ x ∈ (v.contents s.mem).take 2000, ∃ y ∈ (v.contents s.mem).drop 2000, lt y x = false) :
    Always o (parSortStable st cfg v heap) s
      (fun _ m => StableSortOf lt (v.contents s.mem) (v.contents m) ∧
        ((scratch heap v.len).contents m).Perm (v.contents s.mem))
      (fun _ _ => False) := by
  have hlen : 2000 < v.len := by
    obtain ⟨x, _, y, hy, _⟩ := h1
    by_contra h
    rw [List.drop_eq_nil_of_le (by rw [View.contents_length]; omega)] at hy
    cases hy
  have hg := good_of_agrees ho so
  refine (par_sort_buffer o hz hv hf hlen s).mono (fun _ _ h => ?_) (fun _ _ h => h.2.1 (noPanic_of_agrees ho))
  have := h.1.2 lt hg
  exact ⟨⟨this.1, h.1.1, this.2⟩, h.2.1 lt hg ⟨h1, h2⟩⟩

/-- C73: if there are more than 2000 elements and the last of the chunks of 2000 elements consists of one element, every schedule of `par_sort*`
ends with all of the elements in the buffer too, with whatever comparator, unless it panics. -/
theorem par_sort_single_fills_buffer (o : Oracle σ (st.Q α κ) (st.A κ)) (hz : cfg.zst = false) (hv : v.WF) {heap : Addr}
    (hf : Fresh v (scratch heap v.len)) (hlen : 2000 < v.len) (h1 : v.len % 2000 = 1) (s : St α (st.Q α κ) (st.A κ) σ) :
    Always o (parSortStable st cfg v heap) s
      (fun _ m => (v.contents m).Perm (v.contents s.mem) ∧ ((scratch heap v.len).contents m).Perm (v.contents s.mem))
      (fun e m => e = .user ∧ ¬ NoPanic o ∧ (v.contents m).Perm (v.contents s.mem)) :=
  (par_sort_buffer o hz hv hf hlen s).mono (fun _ _ h => ⟨h.1.1, h.2.2 h1⟩) (fun _ _ h => h)

/-- C73: even an array of such a length which is already sorted is copied to the buffer; it is the same afterwards. -/
theorem par_sort_sorted_single_copied {o : Oracle σ (st.Q α κ) (st.A κ)} {lt : α → α → Bool} (so : SWO lt) (ho : Agrees st o lt)
    (hz : cfg.zst = false) (hv : v.WF) {heap : Addr} (hf : Fresh v (scratch heap v.len)) (hlen : 2000 < v.len) (h1 : v.len % 2000 = 1)
    (s : St α (st.Q α κ) (st.A κ) σ) (hs : Sorted lt (v.contents s.mem)) :
    Always o (parSortStable st cfg v heap) s
      (fun _ m => v.contents m = v.contents s.mem ∧
        ∀ a ∈ (scratch heap v.len).region, s.mem a ∉ v.contents s.mem → m a ≠ s.mem a)
      (fun _ _ => False) := by
  refine (par_sort_buffer o hz hv hf hlen s).mono (fun _ _ h => ⟨?_, fun _ ha hn he => hn (he ▸ (h.2.2 h1).mem_iff.mp (List.mem_map_of_mem ha))⟩)
    (fun _ _ h => h.2.1 (noPanic_of_agrees ho))
  have := h.1.2 lt (good_of_agrees ho so)
  exact StableSortOf.unique so ⟨this.1, h.1.1, this.2⟩ ⟨hs, .refl _, fun _ => rfl⟩

/-- C73: every element of the buffer is overwritten: whatever was there and is not in the array is gone. -/
theorem par_sort_overwrites_buffer {o : Oracle σ (st.Q α κ) (st.A κ)} {lt : α → α → Bool} (so : SWO lt) (ho : Agrees st o lt)
    (hz : cfg.zst = false) (hv : v.WF) {heap : Addr} (hf : Fresh v (scratch heap v.len))
    (s : St α (st.Q α κ) (st.A κ) σ)
    (h1 : ∃ x ∈ (v.contents s.mem).take 2000, ∃ y ∈ (v.contents s.mem).drop 2000, lt y x = true)
    (h2 : ∃ x ∈ (v.contents s.mem).take 2000, ∃ y ∈ (v.contents s.mem).drop 2000, lt y x = false) :
    Always o (parSortStable st cfg v heap) s
      (fun _ m => ∀ a ∈ (scratch heap v.len).region, s.mem a ∉ v.contents s.mem → m a ≠ s.mem a)
      (fun _ _ => False) :=
  (par_sort_fills_buffer so ho hz hv hf s h1 h2).mono
    (fun _ _ h _ ha hn he => hn (he ▸ h.2.mem_iff.mp (List.mem_map_of_mem ha))) (fun _ _ h => h)

/-! ### The hypotheses can be met -/

namespace Sample

/-- An allocator without memory. -/
def noMemory : Alloc := ⟨false, fun _ => false⟩

/-- The first 17 elements of the view. -/
def shortView : View := ⟨200, -2, 17⟩

theorem shortView_wf : shortView.WF := .inl (by decide)

/-- The array starts with 5 and 0 and goes on with 3. -/
def fivesMem : Mem Nat := fun a => if a = -1 then 5 else if a = -4 then 0 else 3

/-- A state with this memory. -/
def fives (st : Style) : St Nat (st.Q Nat Nat) (st.A Nat) Unit := ⟨fivesMem, (), []⟩

theorem mem_take {v : View} {m : Mem Nat} {n i : Nat} (h : i < n) (hi : i < v.len) : m (v.addr i) ∈ (v.contents m).take n := by
  refine List.mem_iff_getElem?.mpr ⟨i, ?_⟩
  rw [List.getElem?_take_of_lt h]
  simp [View.contents, View.region, hi]

theorem mem_drop {v : View} {m : Mem Nat} {n i : Nat} (h : n ≤ i) (hi : i < v.len) : m (v.addr i) ∈ (v.contents m).drop n := by
  refine List.mem_iff_getElem?.mpr ⟨i - n, ?_⟩
  rw [List.getElem?_drop, show n + (i - n) = i by omega]
  simp [View.contents, View.region, hi]

/-- The last of the three chunks has one element. -/
def single : View := ⟨-1, -3, 4001⟩

theorem single_wf : single.WF := .inl (by decide)

theorem single_fresh {n : Nat} : Fresh single (scratch 300 n) := by
  intro a ha hv
  simp only [View.region, scratch, single, List.mem_map, List.mem_range, View.addr] at ha hv
  obtain ⟨i, hi, rfl⟩ := ha
  obtain ⟨j, hj, h⟩ := hv
  have h : (-1 : Int) + -3 * (j : Int) = 300 + 1 * (i : Int) := h
  omega

/-- Every address has its distance to 0 as contents, so the array ascends. -/
def upMem : Mem Nat := fun a => Int.natAbs a

/-- A state with this memory. -/
def up (st : Style) : St Nat (st.Q Nat Nat) (st.A Nat) Unit := ⟨upMem, (), []⟩

theorem up_sorted : Sorted lt (single.contents upMem) := by
  unfold Sorted View.contents View.region
  rw [List.map_map, List.pairwise_map]
  refine List.Pairwise.imp_of_mem ?_ List.pairwise_lt_range
  intro i j _ _ h
  show decide (Int.natAbs (-1 + -3 * (j : Int)) < Int.natAbs (-1 + -3 * (i : Int))) = false
  rw [decide_eq_false_iff_not]
  omega

theorem fives_overlap1 : ∃ x ∈ (long.contents fivesMem).take 2000, ∃ y ∈ (long.contents fivesMem).drop 2000, lt y x = true :=
  ⟨_, mem_take (i := 0) (by decide) (by decide), _, mem_drop (i := 2000) (by decide) (by decide), by decide⟩

theorem fives_overlap2 : ∃ x ∈ (long.contents fivesMem).take 2000, ∃ y ∈ (long.contents fivesMem).drop 2000, lt y x = false :=
  ⟨_, mem_take (i := 1) (by decide) (by decide), _, mem_drop (i := 2000) (by decide) (by decide), by decide⟩

end Sample

example (st : Style) := sort_short_any_alloc (α := Int) (κ := Int) (st := st) (cfg := Sample.cfg) (v := Sample.shortView) (by decide)
  Sample.noMemory Sample.alloc 300 0
example (st : Style) := sort_short_in_place (st := st) (cfg := Sample.cfg) Sample.swo (Sample.agrees st) Sample.notZst Sample.shortView_wf
  (by decide) Sample.noMemory 200 (Sample.state st)
example (st : Style) := sort_short_safe (st := st) (cfg := Sample.cfg) (Sample.nonsense st) Sample.notZst Sample.shortView_wf
  (by decide) Sample.noMemory 200 (Sample.nstate st)
example (st : Style) := par_sort_short_in_place (st := st) (cfg := Sample.cfg) Sample.swo (Sample.agrees st) Sample.notZst Sample.shortView_wf
  (by decide) 200 (Sample.state st)
example (st : Style) := par_sort_short_safe (st := st) (cfg := Sample.cfg) (Sample.nonsense st) Sample.notZst Sample.shortView_wf
  (by decide) 200 (Sample.nstate st)
example (st : Style) := par_sort_fills_buffer (st := st) (cfg := Sample.cfg) Sample.swo (Sample.agrees st) rfl Sample.long_wf
  Sample.long_fresh (Sample.fives st) Sample.fives_overlap1 Sample.fives_overlap2
example (st : Style) := par_sort_overwrites_buffer (st := st) (cfg := Sample.cfg) Sample.swo (Sample.agrees st) rfl Sample.long_wf
  Sample.long_fresh (Sample.fives st) Sample.fives_overlap1 Sample.fives_overlap2
example (st : Style) := par_sort_single_fills_buffer (st := st) (cfg := Sample.cfg) (Sample.nonsense st) rfl Sample.single_wf
  Sample.single_fresh (by decide) (by decide) (Sample.nstate st)
example (st : Style) := par_sort_sorted_single_copied (st := st) (cfg := Sample.cfg) Sample.swo (Sample.agrees st) rfl Sample.single_wf
  Sample.single_fresh (by decide) (by decide) (Sample.up st) Sample.up_sorted

end NdSlice
