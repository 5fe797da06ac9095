import Verif.Core.View

/-
Model of /repo/src/insertion_sort.rs (and of /repo/src/par/insertion_sort.rs, which is the same code
with `is_less: &F` instead of `is_less: &mut F`).
-/

namespace NdSlice

variable {α ι ω : Type} (cfg : Cfg) (less : α → α → Prog α ι ω Bool)

/-- /repo/src/insertion_sort.rs:83-92: the shifting loop of `insert_tail` with the hole at `h`.
The drop of `InsertionHole` (31-40) is the write of `tmp` to the hole, on leaving the loop and on a
panic of `is_less`. -/
def insertTailLoop (v : View) (tmp : α) : Nat → Prog α ι ω Unit
  | 0 => v.set 0 tmp
  | h + 1 => do
    let x ← v.get h
    let b ← (less tmp x).onPanic (v.set (h + 1) tmp)
    if !b then
      v.set (h + 1) tmp
    else do
      v.set (h + 1) x
      insertTailLoop v tmp h

/-- /repo/src/insertion_sort.rs:45-95 `insert_tail`. -/
def insertTail (v : View) : Prog α ι ω Unit := do
  debugAssert cfg (decide (v.len ≥ 2))
  let i ← usub cfg v.len 1
  let j ← usub cfg i 1
  let x ← v.get i
  let y ← v.get j
  let b ← less x y
  if b then do
    let tmp ← v.get i
    let z ← v.get j
    v.set i z
    insertTailLoop less v tmp j
  else pure ()

/-- /repo/src/insertion_sort.rs:148-156: the shifting loop of `insert_head` with the hole at `d`
(`d = i - 1` for the loop variable `i`) and `n` iterations left. -/
def insertHeadLoop (v : View) (tmp : α) : Nat → Nat → Prog α ι ω Unit
  | d, 0 => v.set d tmp
  | d, n + 1 => do
    let x ← v.get (d + 1)
    let b ← (less x tmp).onPanic (v.set d tmp)
    if !b then
      v.set d tmp
    else do
      v.set d x
      insertHeadLoop v tmp (d + 1) n

/-- /repo/src/insertion_sort.rs:101-159 `insert_head`. -/
def insertHead (v : View) : Prog α ι ω Unit := do
  debugAssert cfg (decide (v.len ≥ 2))
  let x ← v.get 1
  let y ← v.get 0
  let b ← less x y
  if b then do
    let tmp ← v.get 0
    let z ← v.get 1
    v.set 0 z
    insertHeadLoop less v tmp 1 (v.len - 2)
  else pure ()

/-- /repo/src/insertion_sort.rs:166-187 `insertion_sort_shift_left`. -/
def insertionSortShiftLeft (v : View) (offset : Nat) : Prog α ι ω Unit := do
  assertP (decide (offset ≠ 0) && decide (offset ≤ v.len))
  Prog.forUp (fun i => do
    let w ← v.slice 0 (i + 1)
    insertTail cfg less w) offset (v.len - offset)

/-- /repo/src/insertion_sort.rs:194-216 `insertion_sort_shift_right`. -/
def insertionSortShiftRight (v : View) (offset : Nat) : Prog α ι ω Unit := do
  assertP (decide (offset ≠ 0) && decide (offset ≤ v.len) && decide (v.len ≥ 2))
  Prog.forDown (fun i => do
    let w ← v.slice i v.len
    insertHead cfg less w) 0 offset

/-- /repo/src/insertion_sort.rs:240-242: the loop looking for the next adjacent out-of-order pair from
`i` on, with `n` elements left (`n = len - i`, or 0 if `i` is beyond `len`). -/
def findOutOfOrder (v : View) : Nat → Nat → Prog α ι ω Nat
  | i, 0 => pure i
  | i, n + 1 => do
    let j ← usub cfg i 1
    let x ← v.get i
    let y ← v.get j
    let b ← less x y
    if b then pure i else findOutOfOrder v (i + 1) n

/-- /repo/src/insertion_sort.rs:234-268: the outer loop of `partial_insertion_sort` with `n` of the
`MAX_STEPS` iterations left.  `SHORTEST_SHIFTING = 50`. -/
def partialInsertionLoop (v : View) : Nat → Nat → Prog α ι ω Bool
  | 0, _ => pure false
  | n + 1, i => do
    let i ← findOutOfOrder cfg less v i (v.len - i)
    if i == v.len then pure true
    else if v.len < 50 then pure false
    else do
      let j ← usub cfg i 1
      v.swap j i
      if i ≥ 2 then do
        let w ← v.slice 0 i
        insertionSortShiftLeft cfg less w j
        let w ← v.slice 0 i
        insertionSortShiftRight cfg less w 1
        partialInsertionLoop v n i
      else partialInsertionLoop v n i

/-- /repo/src/insertion_sort.rs:222-269 `partial_insertion_sort`; `MAX_STEPS = 5`. -/
def partialInsertionSort (v : View) : Prog α ι ω Bool :=
  partialInsertionLoop cfg less v 5 1

end NdSlice
