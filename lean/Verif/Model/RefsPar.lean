import Verif.Model.Refs

/-
The parallel methods on places: as `Verif.Model.Refs`, with a cell on the stack for each task.  `t 0` is the cell of the current task; the two tasks of a
`rayon::join` get the cells with odd and with even numbers.
-/

namespace NdSlice.Refs

variable {α ι ω : Type} (cfg : Cfg) (less : Addr → Addr → Prog α ι ω Bool)

/-- The stacks of the left task of a `rayon::join` (/repo/src/par/quick_sort.rs:136, /repo/src/par/partition.rs:60, /repo/src/par/merge_sort.rs:625
and 760). -/
def stackL (t : Nat → Addr) : Nat → Addr := fun n => t (2 * n + 1)
/-- The stacks of the right task of a `rayon::join` (/repo/src/par/quick_sort.rs:136, /repo/src/par/partition.rs:60,
/repo/src/par/merge_sort.rs:625 and 760). -/
def stackR (t : Nat → Addr) : Nat → Addr := fun n => t (2 * n + 2)

/-! ### Quick sort -/

/-- /repo/src/par/quick_sort.rs:122-141: sort both sides, in parallel if one is long; `MAX_SEQUENTIAL = 2000`. -/
def parQuickDescend (t : Nat → Addr) (rec : (Nat → Addr) → View → Option Addr → Nat → Prog α ι ω Unit)
    (left right : View) (pred : Option Addr) (piv : Addr) (limit : Nat) (bal wasP : Bool) : Prog α ι ω (QSt ⊕ Unit) :=
  if max left.len right.len ≤ 2000 then
    if left.len < right.len then do
      rec t left pred limit
      pure (.inl ⟨right, some piv, limit, bal, wasP⟩)
    else do
      rec t right (some piv) limit
      pure (.inl ⟨left, pred, limit, bal, wasP⟩)
  else do
    let _ ← Prog.rayonJoin (rec (stackL t) left pred limit) (rec (stackR t) right (some piv) limit)
    pure (.inr ())

/-- /repo/src/par/quick_sort.rs:112-141: partition, split and go on. -/
def parQuickSplit (t : Nat → Addr) (rec : (Nat → Addr) → View → Option Addr → Nat → Prog α ι ω Unit)
    (s : QSt) (limit pivot : Nat) : Prog α ι ω (QSt ⊕ Unit) := do
  let v := s.v
  let (mid, wasP) ← partition cfg less (t 0) v pivot
  let d ← usub cfg v.len mid
  let (left, right) ← v.splitAt mid
  let (pv, right) ← right.splitAt 1
  let piv ← pv.ref 0
  parQuickDescend t rec left right s.pred piv limit (decide (min mid d ≥ v.len / 8)) wasP

/-- One iteration of the loop of `recurse`: /repo/src/par/quick_sort.rs:60-142. -/
def parQuickStep (t : Nat → Addr) (rec : (Nat → Addr) → View → Option Addr → Nat → Prog α ι ω Unit) (s : QSt) : Prog α ι ω (QSt ⊕ Unit) :=
  let v := s.v
  if v.len ≤ 20 then do
    if v.len ≥ 2 then insertionSortShiftLeft cfg less (t 0) v 1 else pure ()
    pure (.inr ())
  else if s.limit = 0 then do
    heapSort less v
    pure (.inr ())
  else do
    let limit ← (if !s.bal then do
        breakPatterns cfg v
        usub cfg s.limit 1
      else pure s.limit)
    let (pivot, likely) ← choosePivot cfg less v
    let done ← (if s.bal && s.part && likely then partialInsertionSort cfg less (t 0) v else pure false)
    if done then pure (.inr ())
    else do
      let c ← predCheck less v pivot s.pred
      if c then do
        let mid ← partitionEqual cfg less (t 0) v pivot
        let (_, w) ← v.splitAt mid
        pure (.inl ⟨w, s.pred, limit, s.bal, s.part⟩)
      else parQuickSplit cfg less t rec s limit pivot

/-- /repo/src/par/quick_sort.rs:40-143 `recurse` with a bound on the recursion depth. -/
def parQuickRecurse : Nat → (Nat → Addr) → View → Option Addr → Nat → Prog α ι ω Unit
  | 0, _, _, _, _ => .diverge
  | d + 1, t, v, pred, limit =>
    Prog.loop (parQuickStep cfg less t (parQuickRecurse d)) (v.len + 1) ⟨v, pred, limit, true, true⟩

/-- /repo/src/par/quick_sort.rs:18-32 `par_quick_sort`. -/
def parQuickSort (t : Nat → Addr) (v : View) : Prog α ι ω Unit :=
  if cfg.zst then pure ()
  else parQuickRecurse cfg less (v.len + 1) t v none (bitLen v.len)

/-! ### Selection -/

/-- /repo/src/par/partition.rs:25-81 `par_partition_at_indices`; `MAX_SEQUENTIAL = 2000`.  The slice `values` of slots is given by the number `vs` of its
first slot and its length `vl`; the result lists the writes into slots. -/
def parPartitionAtIndices : Nat → (Nat → Addr) → View → Nat → List Nat → Nat → Nat → Prog α ι ω (List (Nat × Addr))
  | 0, _, _, _, _, _, _ => .diverge
  | n + 1, t, v, offset, indices, vs, vl =>
    match indices[indices.length / 2]? with
    | none => pure []
    | some pivot => do
      let i ← usub cfg pivot offset
      let (left, value, right) ← partitionAtIndex cfg less (t 0) v i
      assertP (decide (indices.length / 2 < vl))
      assertP (decide (indices.length / 2 ≤ vl))
      assertP (decide (1 ≤ vl - indices.length / 2))
      let i ← usub cfg pivot offset
      if indices.length / 2 = 0 ∨ i ≤ 2000 then do
        let xs ← parPartitionAtIndices n t left offset (indices.take (indices.length / 2)) vs (indices.length / 2)
        let ys ← parPartitionAtIndices n t right (pivot + 1) (indices.drop (indices.length / 2 + 1))
          (vs + indices.length / 2 + 1) (vl - indices.length / 2 - 1)
        pure ((vs + indices.length / 2, value) :: (xs ++ ys))
      else do
        let (xs, ys) ← Prog.rayonJoin
          (parPartitionAtIndices n (stackL t) left offset (indices.take (indices.length / 2)) vs (indices.length / 2))
          (parPartitionAtIndices n (stackR t) right (pivot + 1) (indices.drop (indices.length / 2 + 1))
            (vs + indices.length / 2 + 1) (vl - indices.length / 2 - 1))
        pure ((vs + indices.length / 2, value) :: (xs ++ ys))

/-! ### The methods -/

variable (t : Nat → Addr)

/-- /repo/src/lib.rs:1892-1921 `par_sort_unstable`, `par_sort_unstable_by`, `par_sort_unstable_by_key`. -/
def parSortUnstable (v : View) : Prog α (α × α) (α × α × Option Bool) Unit := parQuickSort cfg callAt t v

/-- /repo/src/lib.rs:1972-2036 `par_select_many_nth_unstable`, `par_select_many_nth_unstable_by`, `par_select_many_nth_unstable_by_key`.  `extra` is
what `reserve_exact` reserved on top of the number of indices. -/
def parSelectManyNthUnstable (v : View) (indices : List Nat) (extra : Nat) : Prog α (α × α) (α × α × Option Bool) (List (Nat × Addr)) :=
  parPartitionAtIndices cfg callAt (indices.length + 1) t v 0 indices 0 (indices.length + extra)

end NdSlice.Refs
