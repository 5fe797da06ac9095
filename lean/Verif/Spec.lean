import Mathlib.Data.List.Perm.Basic
import Mathlib.Data.List.Pairwise
import Mathlib.Data.List.Sort

/-
Specification vocabulary on plain lists.  Nothing here refers to the model.
-/

namespace NdSlice

variable {α : Type}

/-- `lt` is a strict weak order: what `Ord` (or a comparator that is a total preorder) gives. -/
structure SWO (lt : α → α → Bool) : Prop where
  irrefl : ∀ x, lt x x = false
  trans : ∀ x y z, lt x y = true → lt y z = true → lt x z = true
  /-- "not less" is transitive -/
  ntrans : ∀ x y z, lt x y = false → lt y z = false → lt x z = false

/-- Non-descending order: no later element is less than an earlier one. -/
def Sorted (lt : α → α → Bool) (xs : List α) : Prop := xs.Pairwise (fun a b => lt b a = false)

/-- Neither is less. -/
def eqv (lt : α → α → Bool) (x y : α) : Bool := !lt x y && !lt y x

/-- Elements that compare equal keep their order (and none is lost or invented). -/
def StableArr (lt : α → α → Bool) (xs ys : List α) : Prop :=
  ∀ x, ys.filter (eqv lt x) = xs.filter (eqv lt x)

/-- `ys` is the result of a stable sort of `xs`. -/
structure StableSortOf (lt : α → α → Bool) (xs ys : List α) : Prop where
  sorted : Sorted lt ys
  perm : ys.Perm xs
  stable : StableArr lt xs ys

/-- The element at position `k` is where sorting would put it: nothing before it is greater, nothing after it
is less. -/
def SelectedAt (lt : α → α → Bool) (k : Nat) (ys : List α) : Prop :=
  ∃ A p B, ys = A ++ p :: B ∧ A.length = k ∧ (∀ a ∈ A, lt p a = false) ∧ (∀ b ∈ B, lt b p = false)

/-- Drop what is the same as the last kept element. -/
def keep (same : α → α → Bool) : α → List α → List α
  | _, [] => []
  | l, x :: xs => if same x l then keep same l xs else x :: keep same x xs

/-- The first element and then every element which is not the same as the last kept one. -/
def dedupOf (same : α → α → Bool) : List α → List α
  | [] => []
  | x :: xs => x :: keep same x xs

end NdSlice
