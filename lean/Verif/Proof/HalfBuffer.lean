import Verif.Core.Below
import Verif.Proof.ParMergeSort

/-
The sort of up to 2000 elements by `par_merge_sort`, given half of the buffer.
-/

namespace NdSlice

open Prog

variable {α ι ω : Type} {cfg : Cfg} {less : α → α → Prog α ι ω Bool} {v b b' : View}

namespace Prog.Below

theorem mergeHoleDrop (h : b.off = b'.off ∧ b.stride = b'.stride ∧ b.len ≤ b'.len) {start fin dest : Nat} :
    Below (mergeHoleDrop cfg v b start fin dest : Prog α ι ω Unit) (mergeHoleDrop cfg v b' start fin dest) :=
  bind (refl _) fun _ => forUp fun _ => bind (vget h) fun _ => refl _

theorem pick {rd : View → Nat → Prog α ι ω α} (h : b.off = b'.off ∧ b.stride = b'.stride ∧ b.len ≤ b'.len) {i j : Nat} {c : Bool} :
    Below (pick rd v b i j c) (pick rd v b' i j c) := by
  cases c
  · exact vget h
  · exact refl _

theorem mergeFwdBody {rd : View → Nat → Prog α ι ω α} (h : b.off = b'.off ∧ b.stride = b'.stride ∧ b.len ≤ b'.len) {fin : Nat} {x : Nat × Nat × Nat} :
    Below (mergeFwdBody cfg less rd v b fin x) (mergeFwdBody cfg less rd v b' fin x) := by
  obtain ⟨l, r, o⟩ := x
  unfold NdSlice.mergeFwdBody
  refine ite ?_ ?_
  · exact bind (refl _) fun _ => bind (vget h) fun _ => bind (onPanic (refl _) (mergeHoleDrop h)) fun _ => bind (pick h) fun _ => refl _
  · exact refl _

theorem mergeBwdBody {rd : View → Nat → Prog α ι ω α} (h : b.off = b'.off ∧ b.stride = b'.stride ∧ b.len ≤ b'.len) {x : Nat × Nat × Nat} :
    Below (mergeBwdBody cfg less rd v b x) (mergeBwdBody cfg less rd v b' x) := by
  obtain ⟨l, r, o⟩ := x
  unfold NdSlice.mergeBwdBody
  refine ite ?_ ?_
  · exact bind (vget h) fun _ => bind (refl _) fun _ => bind (onPanic (refl _) (mergeHoleDrop h)) fun _ => bind (pick h) fun _ => refl _
  · exact refl _

theorem copyToBuf (h : b.off = b'.off ∧ b.stride = b'.stride ∧ b.len ≤ b'.len) {a n : Nat} :
    Below (copyToBuf v b a n : Prog α ι ω Unit) (copyToBuf v b' a n) :=
  forUp fun _ => bind (refl _) fun _ => vset h

theorem merge {rd : View → Nat → Prog α ι ω α} (h : b.off = b'.off ∧ b.stride = b'.stride ∧ b.len ≤ b'.len) {mid : Nat} :
    Below (merge cfg less rd v mid b) (merge cfg less rd v mid b') := by
  unfold NdSlice.merge
  refine bind (refl _) fun rest => ?_
  split
  · exact bind (copyToBuf h) fun _ => bind (loop fun _ => mergeFwdBody h) fun _ => mergeHoleDrop h
  · exact bind (copyToBuf h) fun _ => bind (loop fun _ => mergeBwdBody h) fun _ => mergeHoleDrop h

theorem parCollapseBody (h : b.off = b'.off ∧ b.stride = b'.stride ∧ b.len ≤ b'.len) {rs : List TimRun} :
    Below (parCollapseBody cfg less v b rs) (parCollapseBody cfg less v b' rs) := by
  unfold NdSlice.parCollapseBody
  split
  · exact refl _
  · exact bind (refl _) fun _ => bind (refl _) fun _ => bind (refl _) fun _ => bind (merge h) fun _ => refl _

theorem parMergeSortBody (h : b.off = b'.off ∧ b.stride = b'.stride ∧ b.len ≤ b'.len) {x : Nat × List TimRun} :
    Below (parMergeSortBody cfg less v b x) (parMergeSortBody cfg less v b' x) := by
  obtain ⟨e, rs⟩ := x
  unfold NdSlice.parMergeSortBody
  refine ite ?_ ?_
  · refine bind (refl _) ?_
    rintro (res | start)
    · exact refl _
    · exact bind (loop fun _ => parCollapseBody h) fun _ => refl _
  · exact refl _

theorem parMergeSortSeq (h : b.off = b'.off ∧ b.stride = b'.stride ∧ b.len ≤ b'.len) :
    Below (parMergeSortSeq cfg less v b) (parMergeSortSeq cfg less v b') :=
  bind (loop fun _ => parMergeSortBody h) fun _ => refl _

/-- `par_merge_sort` of at most 2000 elements, with a shorter and with a longer buffer. -/
theorem parMergeSort (h : b.off = b'.off ∧ b.stride = b'.stride ∧ b.len ≤ b'.len) (hv : v.len ≤ 2000) :
    Below (parMergeSort cfg less v b) (parMergeSort cfg less v b') := by
  unfold NdSlice.parMergeSort
  split
  · exact refl _
  split
  · exact refl _
  exact bind (parMergeSortSeq h) fun _ => refl _

end Prog.Below

variable {C : Cmp α ι ω} {buf : View}

/-- The sort of up to 2000 elements with a buffer for half of them. -/
theorem parMergeSort_half {xs : List α} (hx : xs.length = v.len) (hz : cfg.zst = true → Subsingleton α) (hv : v.len ≤ 2000) (hb : v.len / 2 ≤ buf.len) :
    TriS C.R v.region buf.region (parMergeSort cfg C.less v buf) xs (fun _ ys => MsOk C xs ys) (EP C xs) := by
  by_cases h20 : v.len ≤ 20
  · exact TriS.of_tri (parMergeSort_short hx hz h20)
  unfold parMergeSort
  split
  · rename_i h
    have := hz h
    exact TriS.pure ⟨.refl _, fun lt hg => ⟨sorted_of_subsingleton hg.1 _, .refl _⟩⟩
  refine TriS.bind (parMergeSortSeq_spec hx (by omega) hb) ?_
  rintro res ys hy ⟨⟨hr, -⟩, -⟩
  cases res with
  | nonDescending =>
    obtain ⟨rfl, h⟩ := hr
    exact TriS.pure ⟨.refl _, fun lt hg => ⟨h lt hg, .refl _⟩⟩
  | sorted => exact TriS.pure hr
  | descending =>
    obtain ⟨rfl, h⟩ := hr
    simp only [beq_self_eq_true, if_true]
    refine TriS.of_tri (Tri.mono (reverse_spec (E := fun _ _ => False) hx) ?_ (fun _ _ _ h => h.elim))
    rintro _ ys _ rfl
    exact ⟨List.reverse_perm _, fun lt hg => StrictDesc.reverse hg.1 (h lt hg)⟩

end NdSlice
