import Verif.Model.Insertion
import Verif.Model.Partition

/-
Model of /repo/src/merge_sort.rs and /repo/src/stable_sort.rs.

`merge` is also that of /repo/src/par/merge_sort.rs:124-311, which differs in how the element to copy is accessed
after the comparison (`rd`): `uget` here, the checked `view_mut().index()` there.
-/

namespace NdSlice

variable {α ι ω : Type} (cfg : Cfg) (less : α → α → Prog α ι ω Bool)

/-! ### Merging two runs -/

/-- /repo/src/merge_sort.rs:181-193: the drop of `MergeHole`: copies `buf[start..fin]` to `v[dest..]`. -/
def mergeHoleDrop (v buf : View) (start fin dest : Nat) : Prog α ι ω Unit := do
  let n ← usub cfg fin start
  Prog.forUp (fun i => do
    let x ← buf.get (start + i)
    v.cset (dest + i) x) 0 n

/-- The element which is copied, from `v` or from `buf`: /repo/src/merge_sort.rs:80-84 and 129-133. -/
def pick (rd : View → Nat → Prog α ι ω α) (v buf : View) (i j : Nat) (b : Bool) : Prog α ι ω α :=
  if b then rd v i else buf.get j

/-- /repo/src/merge_sort.rs:72-93: one iteration of the loop merging forwards; the loop state is
`(left, right, out)` and `fin` is `hole.end`.  A panic of `is_less` drops `hole`. -/
def mergeFwdBody (rd : View → Nat → Prog α ι ω α) (v buf : View) (fin : Nat) :
    Nat × Nat × Nat → Prog α ι ω ((Nat × Nat × Nat) ⊕ (Nat × Nat × Nat))
  | (left, right, out) =>
    if left < fin && right < v.len then do
      let x ← v.get right
      let y ← buf.get left
      let b ← (less x y).onPanic (mergeHoleDrop cfg v buf left fin out)
      let z ← pick rd v buf right left b
      v.cset out z
      pure (.inl (if b then left else left + 1, if b then right + 1 else right, out + 1))
    else pure (.inr (left, right, out))

/-- /repo/src/merge_sort.rs:116-137: one iteration of the loop merging backwards; the loop state is
`(left, right, out)` with `left = hole.dest` and `right = hole.end`. -/
def mergeBwdBody (rd : View → Nat → Prog α ι ω α) (v buf : View) :
    Nat × Nat × Nat → Prog α ι ω ((Nat × Nat × Nat) ⊕ (Nat × Nat × Nat))
  | (left, right, out) =>
    if 0 < left && 0 < right then do
      let y ← buf.get (right - 1)
      let x ← v.get (left - 1)
      let b ← (less y x).onPanic (mergeHoleDrop cfg v buf 0 right left)
      let z ← pick rd v buf (left - 1) (right - 1) b
      let out ← usub cfg out 1
      v.cset out z
      pure (.inl (if b then left - 1 else left, if b then right else right - 1, out))
    else pure (.inr (left, right, out))

/-- /repo/src/merge_sort.rs:55-57 and 99-101, 102-104: copies `n` elements of `v` from `a` on to the buffer. -/
def copyToBuf (v buf : View) (a n : Nat) : Prog α ι ω Unit :=
  Prog.forUp (fun i => do
    let x ← v.idx (a + i)
    buf.set i x) 0 n

/-- /repo/src/merge_sort.rs:20-194 `merge`.  `buf` is the allocated buffer with its capacity. -/
def merge (rd : View → Nat → Prog α ι ω α) (v : View) (mid : Nat) (buf : View) : Prog α ι ω Unit := do
  let rest ← usub cfg v.len mid
  if mid ≤ rest then do
    copyToBuf v buf 0 mid
    let (left, _, out) ← Prog.loop (mergeFwdBody cfg less rd v buf mid) (v.len + 1) (0, mid, 0)
    mergeHoleDrop cfg v buf left mid out
  else do
    copyToBuf v buf mid rest
    let (left, right, _) ← Prog.loop (mergeBwdBody cfg less rd v buf) (v.len + 1) (mid, rest, v.len)
    mergeHoleDrop cfg v buf 0 right left

/-! ### The stack of runs -/

/-- /repo/src/merge_sort.rs:498-501 `TimSortRun`. -/
structure TimRun where
  len : Nat
  start : Nat
  deriving DecidableEq, Repr

/-- One allocation for runs (/repo/src/merge_sort.rs:389 and 403): the number of runs it was allocated for, whether it has not been freed yet, and its
cells (`none`: not initialised). -/
structure Block where
  cap : Nat
  live : Bool
  cells : List (Option TimRun)
  deriving DecidableEq, Repr

/-- /repo/src/merge_sort.rs:367-377 `RunVec`.  `heap` lists all allocations ever made for it; `buf` (the pointer) is
a position in this list. -/
structure RunVec where
  heap : List Block
  buf : Nat
  cap : Nat
  len : Nat
  deriving DecidableEq, Repr

/-- What the allocator does (/repo/src/stable_sort.rs:28-51, /repo/src/merge_sort.rs:351, 389 and 403): whether the allocation of the element buffer succeeds, and whether that of a
run buffer succeeds, by its capacity (no capacity is requested twice). -/
structure Alloc where
  elem : Bool
  run : Nat → Bool

namespace RunVec

/-- /repo/src/merge_sort.rs:384-395 `RunVec::new`, if the allocation succeeds; `START_RUN_CAPACITY = 16`. -/
def new : RunVec := ⟨[⟨16, true, List.replicate 16 none⟩], 0, 16, 0⟩

/-- Reading cell `i` through `buf_ptr` (/repo/src/merge_sort.rs:408, 432, 439, 458): `none` is undefined behaviour. -/
def cell (rv : RunVec) (i : Nat) : Option TimRun :=
  match rv.heap[rv.buf]? with
  | none => none
  | some b => if b.live then (b.cells[i]?).join else none

/-- /repo/src/merge_sort.rs:488-492, 411: `run_dealloc_fn(ptr, cap)`: undefined unless `ptr` is an allocation which has not
been freed and was allocated with this capacity.  Yields the heap afterwards. -/
def dealloc (heap : List Block) (ptr cap : Nat) : Option (List Block) :=
  match heap[ptr]? with
  | none => none
  | some b => if b.live && b.cap == cap then some (heap.set ptr { b with live := false }) else none

/-- /repo/src/merge_sort.rs:483-493: the drop of `RunVec`. -/
def dropHeap (rv : RunVec) : Option (List Block) := dealloc rv.heap rv.buf rv.cap

/-- The drop as a program (/repo/src/merge_sort.rs:488-492): undefined behaviour if the allocation is not freed with the layout it was allocated with. -/
def drop (rv : RunVec) : Prog α ι ω Unit :=
  match rv.dropHeap with
  | some _ => pure ()
  | none => .ub

/-- /repo/src/merge_sort.rs:415-418: `buf_ptr.add(len).write(val)`, `len += 1`. -/
def write (rv : RunVec) (val : TimRun) : Option RunVec :=
  match rv.heap[rv.buf]? with
  | none => none
  | some b =>
    if b.live && decide (rv.len < b.cap) then
      some { rv with heap := rv.heap.set rv.buf { b with cells := b.cells.set rv.len (some val) }, len := rv.len + 1 }
    else none

/-- /repo/src/merge_sort.rs:398-412: growing to twice the capacity, if the allocation succeeds: a new allocation, the copy of
`old_capacity` cells, the deallocation of the old one. -/
def grow (rv : RunVec) : Option RunVec :=
  match rv.heap[rv.buf]? with
  | none => none
  | some b =>
    if b.live && decide (rv.cap ≤ b.cap) then
      match dealloc (rv.heap ++ [⟨rv.cap * 2, true, b.cells.take rv.cap ++ List.replicate rv.cap none⟩]) rv.buf rv.cap with
      | some heap => some ⟨heap, rv.heap.length, rv.cap * 2, rv.len⟩
      | none => none
    else none

/-- /repo/src/merge_sort.rs:397-419 `push`.  If the new allocation fails `unwrap` panics while the capacity has already been
doubled and the pointer is still the old one; the panic then drops the `RunVec` in this state.
(`capacity *= 2` does not overflow: the allocation of that many runs would have failed before.) -/
def push (al : Alloc) (rv : RunVec) (val : TimRun) : Prog α ι ω RunVec :=
  if rv.len == rv.cap then
    if al.run (rv.cap * 2) then
      match rv.grow with
      | some rv => match rv.write val with
        | some rv => pure rv
        | none => .ub
      | none => .ub
    else do
      drop { rv with cap := rv.cap * 2 }
      .throw .alloc
  else match rv.write val with
    | some rv => pure rv
    | none => .ub

/-- /repo/src/merge_sort.rs:447-464: `runs[i]`. -/
def idx (rv : RunVec) (i : Nat) : Prog α ι ω TimRun :=
  if i < rv.len then
    match rv.cell i with
    | some r => pure r
    | none => .ub
  else .throw .check

/-- /repo/src/merge_sort.rs:466-481: `runs[i] = r`. -/
def setIdx (rv : RunVec) (i : Nat) (r : TimRun) : Prog α ι ω RunVec :=
  if i < rv.len then
    match rv.heap[rv.buf]? with
    | some b =>
      if b.live && decide (i < b.cap) then
        pure { rv with heap := rv.heap.set rv.buf { b with cells := b.cells.set i (some r) } }
      else .ub
    | none => .ub
  else .throw .check

/-- /repo/src/merge_sort.rs:421-435 `remove`: `ptr::copy` of the `len - index - 1` cells behind `index` one cell down. -/
def remove (rv : RunVec) (i : Nat) : Prog α ι ω RunVec :=
  if i ≥ rv.len then .throw .check
  else match rv.heap[rv.buf]? with
    | some b =>
      if b.live && decide (rv.len ≤ b.cap) then
        pure { rv with
          heap := rv.heap.set rv.buf { b with
            cells := b.cells.take i ++ (b.cells.drop (i + 1)).take (rv.len - i - 1) ++ b.cells.drop (rv.len - 1) }
          len := rv.len - 1 }
      else .ub
    | none => .ub

/-- /repo/src/merge_sort.rs:437-440 `as_slice`: undefined if one of the first `len` cells is not there or not initialised. -/
def asSlice (rv : RunVec) : Prog α ι ω (List TimRun) :=
  match (List.range rv.len).mapM rv.cell with
  | some rs => pure rs
  | none => .ub

end RunVec

/-- Length of the run at a position, `runs[i].len` in /repo/src/merge_sort.rs:311-316 (in bounds wherever `collapse` uses it). -/
def runLen (rs : List TimRun) (i : Nat) : Nat := (rs[i]?.getD ⟨0, 0⟩).len

/-- Start of the run at a position, `runs[i].start` in /repo/src/merge_sort.rs:311. -/
def runStart (rs : List TimRun) (i : Nat) : Nat := (rs[i]?.getD ⟨0, 0⟩).start

/-- /repo/src/merge_sort.rs:308-324 `collapse`; evaluation order as written, so that every index is in bounds. -/
def collapse (rs : List TimRun) (stop : Nat) : Option Nat :=
  let n := rs.length
  if n ≥ 2 && (runStart rs (n - 1) + runLen rs (n - 1) == stop
      || decide (runLen rs (n - 2) ≤ runLen rs (n - 1))
      || (decide (n ≥ 3) && decide (runLen rs (n - 3) ≤ runLen rs (n - 2) + runLen rs (n - 1)))
      || (decide (n ≥ 4) && decide (runLen rs (n - 4) ≤ runLen rs (n - 3) + runLen rs (n - 2)))) then
    if n ≥ 3 && decide (runLen rs (n - 3) < runLen rs (n - 1)) then some (n - 3) else some (n - 2)
  else none

/-! ### Runs -/

/-- /repo/src/merge_sort.rs:561-563 (`rev`), 567-569 (not `rev`): the loop of `find_streak` with `n = len - end`. -/
def streakLoop (v : View) (rev : Bool) : Nat → Nat → Prog α ι ω Nat
  | e, 0 => pure e
  | e, n + 1 => do
    let x ← v.get e
    let y ← v.get (e - 1)
    let b ← less x y
    if b == rev then streakLoop v rev (e + 1) n else pure e

/-- /repo/src/merge_sort.rs:541-573 `find_streak`. -/
def findStreak (v : View) : Prog α ι ω (Nat × Bool) :=
  if v.len < 2 then pure (v.len, false)
  else do
    let x ← v.get 1
    let y ← v.get 0
    let rev ← less x y
    let e ← streakLoop less v rev 2 (v.len - 2)
    pure (e, rev)

/-- /repo/src/merge_sort.rs:505-536 `provide_sorted_batch`; `MIN_INSERTION_RUN = 10`. -/
def provideSortedBatch (v : View) (start e : Nat) : Prog α ι ω Nat := do
  assertP (decide (e ≥ start) && decide (e ≤ v.len))
  let diff ← usub cfg e start
  if diff < 10 && e < v.len then do
    let e := min (start + 10) v.len
    let w ← v.slice start e
    insertionSortShiftLeft cfg less w (max diff 1)
    pure e
  else pure e

/-- /repo/src/merge_sort.rs:255-264: finding the next run from `start` on; yields its end. -/
def nextRun (v : View) (start : Nat) : Prog α ι ω Nat := do
  let w ← v.slice start v.len
  let (streak, rev) ← findStreak less w
  let e := start + streak
  if rev then do
    let w ← v.slice start e
    reverse cfg w
    provideSortedBatch cfg less v start e
  else provideSortedBatch cfg less v start e

/-- /repo/src/merge_sort.rs:273-287: one iteration of the loop merging runs.  A panic drops `runs`. -/
def collapseBody (v buf : View) (rv : RunVec) : Prog α ι ω (RunVec ⊕ RunVec) := do
  let rs ← rv.asSlice
  match collapse rs v.len with
  | none => pure (.inr rv)
  | some r => do
    let rv ← (do
      let left ← rv.idx r
      let right ← rv.idx (r + 1)
      let w ← v.slice left.start (right.start + right.len)
      merge cfg less View.get w left.len buf
      let rv ← rv.setIdx (r + 1) ⟨left.len + right.len, left.start⟩
      rv.remove r).onPanic rv.drop
    pure (.inl rv)

/-- /repo/src/merge_sort.rs:254-288: one iteration of the main loop; `end = start` at its beginning.
`watch` is not in the code: it sees the stack of runs after each iteration and does nothing in `mergeSort`. -/
def mergeSortBody (watch : RunVec → Prog α ι ω Unit) (al : Alloc) (v buf : View) :
    Nat × RunVec → Prog α ι ω ((Nat × RunVec) ⊕ RunVec)
  | (start, rv) =>
    if start < v.len then do
      let e ← (nextRun cfg less v start).onPanic rv.drop
      let n ← usub cfg e start
      let rv ← rv.push al ⟨n, start⟩
      let rv ← Prog.loop (collapseBody cfg less v buf) (rv.len + 1) rv
      watch rv
      pure (.inl (e, rv))
    else pure (.inr rv)

/-- /repo/src/merge_sort.rs:209-494 `merge_sort`; `MAX_INSERTION = 20`.  `buf` is the allocated buffer.  If its allocation or
that of `runs` fails, `unwrap` panics.  The drop of `BufGuard` (358-365) frees `buf` with the unchanged capacity and is not
modelled. -/
def mergeSortWatch (watch : RunVec → Prog α ι ω Unit) (al : Alloc) (v buf : View) : Prog α ι ω Unit := do
  debugAssert cfg (!cfg.zst)
  if v.len ≤ 20 then
    if v.len ≥ 2 then insertionSortShiftLeft cfg less v 1 else pure ()
  else if !al.elem then .throw .alloc
  else if !al.run 16 then .throw .alloc
  else do
    let rv ← Prog.loop (mergeSortBody cfg less watch al v buf) (v.len + 1) (0, RunVec.new)
    if cfg.dbg then do
      let n := rv.len
      let r ← rv.idx 0
      debugAssert cfg (n == 1 && r.start == 0 && r.len == v.len)
      rv.drop
    else rv.drop

/-- /repo/src/merge_sort.rs:209-494 `merge_sort`. -/
def mergeSort (al : Alloc) (v buf : View) : Prog α ι ω Unit :=
  mergeSortWatch cfg less (fun _ => pure ()) al v buf

/-- /repo/src/stable_sort.rs:19-72 `stable_sort`. -/
def stableSort (al : Alloc) (v buf : View) : Prog α ι ω Unit :=
  if cfg.zst then pure ()
  else mergeSort cfg less al v buf

end NdSlice
