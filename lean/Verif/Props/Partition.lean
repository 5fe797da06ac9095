import Verif.Props.Sample
import Verif.Proof.Blocks

/-
Properties of the partition steps of unstable sorting and selection (C45).
-/

namespace NdSlice

open Style

variable {α κ σ : Type} {st : Style} {cfg : Cfg} {v : View}

/-- C45: with any function as comparator (it need not be an order) `partition` around the element `p` at position `pivot` returns,
and the array consists of exactly the elements less than `p`, then `p` at the position returned, then the others. -/
theorem partition_partitions {o : Oracle σ (st.Q α κ) (st.A κ)} {lt : α → α → Bool} (ho : Agrees st o lt) (hv : v.WF)
    {pivot : Nat} (hp : pivot < v.len) (s : St α (st.Q α κ) (st.A κ) σ) :
    ∃ was s' p A B, run o (partition cfg st.less v pivot) s = (.ok (A.length, was), s') ∧ (v.contents s.mem)[pivot]? = some p ∧
      v.contents s'.mem = A ++ p :: B ∧ (∀ a ∈ A, lt a p = true) ∧ (∀ b ∈ B, lt b p = false) ∧
      (A ++ p :: B).Perm (v.contents s.mem) ∧ ∀ a, a ∉ v.region → s'.mem a = s.mem a := by
  obtain ⟨⟨mid, was⟩, s', h1, ⟨h2, p, A, B, h3, h4, rfl, h5, h6⟩, h7⟩ := (Tri.ends (rel_sat o) hv
    (partition_spec (C := st.toCmp (rel o)) (cfg := cfg) (v := v) (v.contents_length s.mem) hp)).ok
      (fun e m h => pan_iff (noPanic_of_agrees ho) h.1.2.1)
  exact ⟨was, s', p, A, B, h1, h3, h4, fun a ha => (ans_of_agrees ho (h5 a ha)).symm, fun b hb => (ans_of_agrees ho (h6 b hb)).symm,
    h4 ▸ h2, h7⟩

/-- C45: with arbitrary user code `partition` ends in bounds and without undefined behaviour; the array is a permutation of the input, and at a
normal end the position returned is one of the array and holds the pivot. -/
theorem partition_safe (o : Oracle σ (st.Q α κ) (st.A κ)) (hv : v.WF) {pivot : Nat} (hp : pivot < v.len) (s : St α (st.Q α κ) (st.A κ) σ) :
    Ends o (partition cfg st.less v pivot) s
      (fun r m => (v.contents m).Perm (v.contents s.mem) ∧ r.1 < v.len ∧ (v.contents m)[r.1]? = (v.contents s.mem)[pivot]? ∧
        ∀ a, a ∉ v.region → m a = s.mem a)
      (fun e m => e = .user ∧ (v.contents m).Perm (v.contents s.mem) ∧ ∀ a, a ∉ v.region → m a = s.mem a) := by
  refine (Tri.ends (rel_sat o) hv
    (partition_spec (C := st.toCmp (rel o)) (cfg := cfg) (v := v) (v.contents_length s.mem) hp)).mono ?_
      (fun _ _ h => ⟨h.1.1, h.1.2.2, h.2⟩)
  rintro ⟨mid, was⟩ m ⟨⟨h2, p, A, B, h3, h4, rfl, h5, h6⟩, h7⟩
  refine ⟨h2, ?_, by rw [h3, h4]; simp, h7⟩
  rw [← v.contents_length m, h4]; simp

/-- C45: with any function as comparator `partition_equal` around the element `p` at position `pivot` returns, and the array starts
with `p` and all elements that `p` is not less than; there are as many of them as the number returned. -/
theorem partition_equal_partitions {o : Oracle σ (st.Q α κ) (st.A κ)} {lt : α → α → Bool} (ho : Agrees st o lt) (hv : v.WF)
    {pivot : Nat} (h2 : 2 ≤ v.len) (hp : pivot < v.len) (s : St α (st.Q α κ) (st.A κ) σ) :
    ∃ s' p A B, run o (partitionEqual cfg st.less v pivot) s = (.ok (A.length + 1), s') ∧ (v.contents s.mem)[pivot]? = some p ∧
      v.contents s'.mem = p :: A ++ B ∧ (∀ a ∈ A, lt p a = false) ∧ (∀ b ∈ B, lt p b = true) ∧
      (p :: A ++ B).Perm (v.contents s.mem) ∧ ∀ a, a ∉ v.region → s'.mem a = s.mem a := by
  obtain ⟨k, s', h1, ⟨h2, p, A, B, h3, h4, rfl, h5, h6⟩, h7⟩ := (Tri.ends (rel_sat o) hv
    (partitionEqual_spec (C := st.toCmp (rel o)) (cfg := cfg) (v := v) (v.contents_length s.mem) h2 hp)).ok
      (fun e m h => pan_iff (noPanic_of_agrees ho) h.1.2.1)
  exact ⟨s', p, A, B, h1, h3, h4, fun a ha => (ans_of_agrees ho (h5 a ha)).symm, fun b hb => (ans_of_agrees ho (h6 b hb)).symm,
    h4 ▸ h2, h7⟩

/-- C45: with arbitrary user code `partition_equal` ends in bounds and without undefined behaviour; the array is a permutation of the
input, and at a normal end the number returned is one of `1..=len`. -/
theorem partition_equal_safe (o : Oracle σ (st.Q α κ) (st.A κ)) (hv : v.WF) {pivot : Nat} (h2 : 2 ≤ v.len) (hp : pivot < v.len)
    (s : St α (st.Q α κ) (st.A κ) σ) :
    Ends o (partitionEqual cfg st.less v pivot) s
      (fun k m => (v.contents m).Perm (v.contents s.mem) ∧ 1 ≤ k ∧ k ≤ v.len ∧ ∀ a, a ∉ v.region → m a = s.mem a)
      (fun e m => e = .user ∧ (v.contents m).Perm (v.contents s.mem) ∧ ∀ a, a ∉ v.region → m a = s.mem a) := by
  refine (Tri.ends (rel_sat o) hv
    (partitionEqual_spec (C := st.toCmp (rel o)) (cfg := cfg) (v := v) (v.contents_length s.mem) h2 hp)).mono ?_
      (fun _ _ h => ⟨h.1.1, h.1.2.2, h.2⟩)
  rintro k m ⟨⟨h2, p, A, B, h3, h4, rfl, h5, h6⟩, h7⟩
  refine ⟨h2, by omega, ?_, h7⟩
  rw [← v.contents_length m, h4]; simp

/-- C45: with any function as comparator `partition_in_blocks` returns, and the array consists of exactly the elements less than
`pivot` (there are as many of them as the number returned) and then the others. -/
theorem partition_in_blocks_partitions {o : Oracle σ (st.Q α κ) (st.A κ)} {lt : α → α → Bool} (ho : Agrees st o lt) (hv : v.WF)
    (pivot : α) (s : St α (st.Q α κ) (st.A κ) σ) :
    ∃ s' A B, run o (partitionInBlocks cfg st.less v pivot) s = (.ok A.length, s') ∧
      v.contents s'.mem = A ++ B ∧ (∀ a ∈ A, lt a pivot = true) ∧ (∀ b ∈ B, lt b pivot = false) ∧
      (A ++ B).Perm (v.contents s.mem) ∧ ∀ a, a ∉ v.region → s'.mem a = s.mem a := by
  obtain ⟨k, s', h1, ⟨h2, h3, h4⟩, h7⟩ := (Tri.ends (rel_sat o) hv
    (partitionInBlocks_spec (C := st.toCmp (rel o)) (cfg := cfg) (v := v) (p := pivot) (v.contents_length s.mem))).ok
      (fun e m h => pan_iff (noPanic_of_agrees ho) h.1.2.1)
  have hl := v.contents_length s'.mem
  refine ⟨s', (v.contents s'.mem).take k, (v.contents s'.mem).drop k, ?_, (List.take_append_drop _ _).symm, ?_, ?_, ?_, h7⟩
  · rw [List.length_take, Nat.min_eq_left (by omega)]; exact h1
  · exact fun a ha => (ans_of_agrees ho (mem_take_of_AtP h4.left a ha)).symm
  · exact fun b hb => (ans_of_agrees ho (mem_drop_of_AtP (fun i h5 h6 => h4.right i h5 (by omega)) b hb)).symm
  · rw [List.take_append_drop]; exact h2

/-- C45: with arbitrary user code `partition_in_blocks` ends in bounds and without undefined behaviour; the array is a permutation of the
input, and at a normal end the number returned is at most `len`. -/
theorem partition_in_blocks_safe (o : Oracle σ (st.Q α κ) (st.A κ)) (hv : v.WF) (pivot : α) (s : St α (st.Q α κ) (st.A κ) σ) :
    Ends o (partitionInBlocks cfg st.less v pivot) s
      (fun k m => (v.contents m).Perm (v.contents s.mem) ∧ k ≤ v.len ∧ ∀ a, a ∉ v.region → m a = s.mem a)
      (fun e m => e = .user ∧ (v.contents m).Perm (v.contents s.mem) ∧ ∀ a, a ∉ v.region → m a = s.mem a) :=
  (Tri.ends (rel_sat o) hv
    (partitionInBlocks_spec (C := st.toCmp (rel o)) (cfg := cfg) (v := v) (p := pivot) (v.contents_length s.mem))).mono
      (fun _ _ h => ⟨h.1.1, h.1.2.1, h.2⟩) (fun _ _ h => ⟨h.1.1, h.1.2.2, h.2⟩)

/-! ### The hypotheses can be met -/

namespace Sample

/-- More than two blocks, backwards. -/
def blocks : View := ⟨-7, -1, 600⟩

theorem blocks_wf : blocks.WF := .inl (by decide)

end Sample

example (st : Style) := partition_partitions (st := st) (cfg := Sample.cfg) (Sample.agrees st) Sample.blocks_wf (pivot := 599) (by decide)
  (Sample.state st)
example (st : Style) := partition_safe (st := st) (cfg := Sample.cfg) (Sample.nonsense st) Sample.blocks_wf (pivot := 599) (by decide)
  (Sample.nstate st)
example (st : Style) := partition_equal_partitions (st := st) (cfg := Sample.cfg) (Sample.agrees st) Sample.blocks_wf (pivot := 599) (by decide)
  (by decide) (Sample.state st)
example (st : Style) := partition_equal_safe (st := st) (cfg := Sample.cfg) (Sample.nonsense st) Sample.blocks_wf (pivot := 599) (by decide)
  (by decide) (Sample.nstate st)
example (st : Style) := partition_in_blocks_partitions (st := st) (cfg := Sample.cfg) (Sample.agrees st) Sample.blocks_wf 11 (Sample.state st)
example (st : Style) := partition_in_blocks_safe (st := st) (cfg := Sample.cfg) (Sample.nonsense st) Sample.blocks_wf 11 (Sample.nstate st)

end NdSlice
