import Verif.Props.Base
import Verif.Props.Sample
import Verif.Proof.MergeSort

/-
Properties of `sort`, `sort_by`, `sort_by_key`: C01, C02, C03, C04, C05, C34 and the part of C09 about them.
-/

namespace NdSlice

open Style

variable {α κ σ : Type} {st : Style} {cfg : Cfg} {v : View}

/-- The allocator has memory. -/
def Alloc.Succeeds (al : Alloc) : Prop := al.elem = true ∧ ∀ c, al.run c = true

theorem Alloc.Succeeds.grows {al : Alloc} (h : al.Succeeds) (n : Nat) : al.Grows n := fun _ _ => h.2 _

/-- The element buffer of `n` elements at `heap`. -/
def scratch (heap : Addr) (n : Nat) : View := ⟨heap, 1, n⟩

theorem scratch_wf {heap : Addr} {n : Nat} : (scratch heap n).WF := .inl (by show (1 : Int) ≠ 0; decide)

/-- C01, C02, C03: with a consistent comparator `sort*` returns and leaves the stable sort of the array: sorted, a
permutation, elements that compare equal in their original order.
C09: nothing outside the view (and the freshly allocated buffer) changed. -/
theorem sort_sorts {o : Oracle σ (st.Q α κ) (st.A κ)} {lt : α → α → Bool} (so : SWO lt) (ho : Agrees st o lt)
    (hz : cfg.zst = true → Subsingleton α) (hv : v.WF) {al : Alloc} (hal : al.Succeeds) {heap : Addr}
    (hf : Fresh v (scratch heap (v.len / 2))) (s : St α (st.Q α κ) (st.A κ) σ) :
    ∃ s', run o (sortStable st cfg v al heap) s = (.ok (), s') ∧
      StableSortOf lt (v.contents s.mem) (v.contents s'.mem) ∧
      ∀ a, a ∉ v.region → a ∉ (scratch heap (v.len / 2)).region → s'.mem a = s.mem a := by
  obtain ⟨b, s', h1, ⟨h2, h3⟩, h4⟩ := (TriS.ends (rel_sat o) hv scratch_wf hf
    (stableSort_spec (C := st.toCmp (rel o)) (cfg := cfg) (v := v) (hal.grows _) hz (v.contents_length s.mem) (Nat.le_refl _))).ok
      (fun e m h => by
        rcases h.1 with h | ⟨-, -, h | h, -⟩
        · exact pan_iff (noPanic_of_agrees ho) h.2.1
        · rw [hal.1] at h; cases h
        · rw [hal.2] at h; cases h)
  have hg := h3 lt (good_of_agrees ho so)
  exact ⟨s', h1, ⟨hg.1, h2, hg.2⟩, h4⟩

/-- C02, C04, C05, C34: with an arbitrary comparator (inconsistent, stateful, panicking) `sort*` ends without undefined
behaviour, in particular without accessing anything but the array and the `len / 2` elements of the buffer; either normally or
because the comparator panicked, and in both cases the array is a permutation of the input.
C09: nothing outside the view and the buffer changed. -/
theorem sort_safe (o : Oracle σ (st.Q α κ) (st.A κ))
    (hz : cfg.zst = true → Subsingleton α) (hv : v.WF) {al : Alloc} (hal : al.Succeeds) {heap : Addr}
    (hf : Fresh v (scratch heap (v.len / 2))) (s : St α (st.Q α κ) (st.A κ) σ) :
    Ends o (sortStable st cfg v al heap) s
      (fun _ m => (v.contents m).Perm (v.contents s.mem) ∧
        ∀ a, a ∉ v.region → a ∉ (scratch heap (v.len / 2)).region → m a = s.mem a)
      (fun e m => e = .user ∧ (v.contents m).Perm (v.contents s.mem) ∧
        ∀ a, a ∉ v.region → a ∉ (scratch heap (v.len / 2)).region → m a = s.mem a) :=
  (TriS.ends (rel_sat o) hv scratch_wf hf
    (stableSort_spec (C := st.toCmp (rel o)) (cfg := cfg) (v := v) (hal.grows _) hz (v.contents_length s.mem) (Nat.le_refl _))).mono
      (fun _ _ h => ⟨h.1.1, h.2⟩)
      (fun e m h => by
        rcases h.1 with h' | ⟨-, -, h' | h', -⟩
        · exact ⟨h'.1, h'.2.2, h.2⟩
        · rw [hal.1] at h'; cases h'
        · rw [hal.2] at h'; cases h')

/-- C04: a comparator that does not panic makes `sort*` return normally, however inconsistent it is. -/
theorem sort_returns {o : Oracle σ (st.Q α κ) (st.A κ)} (ho : NoPanic o)
    (hz : cfg.zst = true → Subsingleton α) (hv : v.WF) {al : Alloc} (hal : al.Succeeds) {heap : Addr}
    (hf : Fresh v (scratch heap (v.len / 2))) (s : St α (st.Q α κ) (st.A κ) σ) :
    ∃ s', run o (sortStable st cfg v al heap) s = (.ok (), s') ∧ (v.contents s'.mem).Perm (v.contents s.mem) := by
  obtain ⟨b, s', h1, ⟨h2, h3⟩, h4⟩ := (TriS.ends (rel_sat o) hv scratch_wf hf
    (stableSort_spec (C := st.toCmp (rel o)) (cfg := cfg) (v := v) (hal.grows _) hz (v.contents_length s.mem) (Nat.le_refl _))).ok
      (fun e m h => by
        rcases h.1 with h | ⟨-, -, h | h, -⟩
        · exact pan_iff ho h.2.1
        · rw [hal.1] at h; cases h
        · rw [hal.2] at h; cases h)
  exact ⟨s', h1, h2⟩

/-- C01 and C03 with an allocator that may fail: `sort*` sorts stably, or the allocation of one of the two buffers failed and `sort*`
panics with the array untouched.  This is so as long as the allocator does not fail to grow the stack of runs, from room for `h = 16 * 2 ^ i`
runs to twice as many, which is only asked for by arrays of more than `11 * fib h + 12 * fib (h + 1) - 12 - h` elements.  (It cannot be
left out for any longer array: `sort_alloc_failure_ub`.) -/
theorem sort_alloc_partial {o : Oracle σ (st.Q α κ) (st.A κ)} {lt : α → α → Bool} (so : SWO lt) (ho : Agrees st o lt)
    (hz : cfg.zst = true → Subsingleton α) (hv : v.WF) {al : Alloc}
    (hal : ∀ i, 11 * Nat.fib (16 * 2 ^ i) + 12 * Nat.fib (16 * 2 ^ i + 1) < v.len + 12 + 16 * 2 ^ i → al.run (16 * 2 ^ (i + 1)) = true)
    {heap : Addr} (hf : Fresh v (scratch heap (v.len / 2))) (s : St α (st.Q α κ) (st.A κ) σ) :
    Ends o (sortStable st cfg v al heap) s
      (fun _ m => StableSortOf lt (v.contents s.mem) (v.contents m) ∧
        ∀ a, a ∉ v.region → a ∉ (scratch heap (v.len / 2)).region → m a = s.mem a)
      (fun e m => e = .alloc ∧ 20 < v.len ∧ (al.elem = false ∨ al.run 16 = false) ∧ v.contents m = v.contents s.mem ∧
        ∀ a, a ∉ v.region → a ∉ (scratch heap (v.len / 2)).region → m a = s.mem a) := by
  have hg : al.Grows v.len := by
    intro i hi
    have := (cover_eq (16 * 2 ^ i)).1
    exact hal i (by omega)
  refine (TriS.ends (rel_sat o) hv scratch_wf hf
    (stableSort_spec (C := st.toCmp (rel o)) (cfg := cfg) (v := v) hg hz (v.contents_length s.mem) (Nat.le_refl _))).mono ?_ ?_
  · rintro _ m ⟨⟨h1, h2⟩, h3⟩
    have := h2 lt (good_of_agrees ho so)
    exact ⟨⟨this.1, h1, this.2⟩, h3⟩
  · rintro e m ⟨h | ⟨h1, h2, h3, h4⟩, h5⟩
    · exact (pan_iff (noPanic_of_agrees ho) h.2.1).elim
    · rw [View.contents_length] at h2
      exact ⟨h1, h2, h3, h4, h5⟩

/-- Up to 29993 elements the stack of runs is never made larger. -/
theorem sort_alloc_short {o : Oracle σ (st.Q α κ) (st.A κ)} {lt : α → α → Bool} (so : SWO lt) (ho : Agrees st o lt)
    (hz : cfg.zst = true → Subsingleton α) (hv : v.WF) {al : Alloc} (hl : v.len ≤ 29993)
    {heap : Addr} (hf : Fresh v (scratch heap (v.len / 2))) (s : St α (st.Q α κ) (st.A κ) σ) :
    Ends o (sortStable st cfg v al heap) s
      (fun _ m => StableSortOf lt (v.contents s.mem) (v.contents m) ∧
        ∀ a, a ∉ v.region → a ∉ (scratch heap (v.len / 2)).region → m a = s.mem a)
      (fun e m => e = .alloc ∧ 20 < v.len ∧ (al.elem = false ∨ al.run 16 = false) ∧ v.contents m = v.contents s.mem ∧
        ∀ a, a ∉ v.region → a ∉ (scratch heap (v.len / 2)).region → m a = s.mem a) := by
  refine sort_alloc_partial so ho hz hv (fun i hi => ?_) hf s
  exfalso
  have h0 : 0 < 2 ^ i := Nat.two_pow_pos i
  have h1 := (cover_eq (16 * 2 ^ i)).1
  have h2 := cover_le (show 16 ≤ 16 * 2 ^ i by omega)
  have h3 : cover 16 = 29993 := by decide
  omega

/-! ### The hypotheses can be met -/

namespace Sample

/-- An allocator which always succeeds. -/
def alloc : Alloc := ⟨true, fun _ => true⟩

theorem alloc_succeeds : alloc.Succeeds := ⟨rfl, fun _ => rfl⟩

/-- The buffer is above the array. -/
theorem fresh {n : Nat} : Fresh view (scratch 300 n) := by
  intro a ha hv
  simp only [View.region, scratch, view, List.mem_map, List.mem_range, View.addr] at ha hv
  obtain ⟨i, hi, rfl⟩ := ha
  obtain ⟨j, hj, h⟩ := hv
  have h : (200 : Int) + -2 * (j : Int) = 300 + 1 * (i : Int) := h
  omega

end Sample

example (st : Style) := sort_sorts (st := st) (cfg := Sample.cfg) Sample.swo (Sample.agrees st) Sample.notZst Sample.wf
  Sample.alloc_succeeds (Sample.fresh (n := 30)) (Sample.state st)

example (st : Style) := sort_safe (st := st) (cfg := Sample.cfg) (Sample.nonsense st) Sample.notZst Sample.wf
  Sample.alloc_succeeds (Sample.fresh (n := 30)) (Sample.nstate st)

example (st : Style) := sort_returns (st := st) (cfg := Sample.cfg) (Sample.stubborn_noPanic st) Sample.notZst Sample.wf
  Sample.alloc_succeeds (Sample.fresh (n := 30)) (Sample.state st)

example (st : Style) := sort_alloc_partial (st := st) (cfg := Sample.cfg) Sample.swo (Sample.agrees st) Sample.notZst Sample.wf
  (al := ⟨true, fun c => decide (c ≠ 16)⟩) (fun i _ => decide_eq_true (by have := Nat.two_pow_pos i; rw [Nat.pow_succ]; omega))
  (Sample.fresh (n := 30)) (Sample.state st)

example (st : Style) := sort_alloc_short (st := st) (cfg := Sample.cfg) Sample.swo (Sample.agrees st) Sample.notZst Sample.wf
  (al := ⟨true, fun _ => false⟩) (by decide) (Sample.fresh (n := 30)) (Sample.state st)

end NdSlice
