import Verif.Model.Api

/-
A second model of the sequential sorts and selections, in which user code is given references.

In the other model files `is_less` gets the values of two elements and cannot change them.  Here it gets the addresses of two cells, reads
both, and may leave other values there (interior mutability, e.g. elements with a `Cell`).  Copies of elements on the stack (`tmp`, made by
`ptr::read`) are in a cell `t` of their own, so that it matters which copy user code sees and which copy is written back.  At most one such
copy is alive at a time, so one cell is enough; in the code each call has a variable of its own.

Each `ptr::copy_nonoverlapping` of an element is checked here (`apart`): it is undefined behaviour if source and destination are the same cell.
In the other model files it is a read and a write.

The functions which neither call user code nor use `ptr::copy_nonoverlapping` (`reverse`, `break_patterns`, `RunVec`, ...) are those of the other files.
-/

namespace NdSlice.Refs

variable {α ι ω : Type} (cfg : Cfg)

/-! ### References -/

/-- Reference `uget(i)` (e.g. /repo/src/insertion_sort.rs:241) or a raw pointer to the `i`-th element: undefined if out of bounds. -/
def uref (v : View) (i : Nat) : Prog α ι ω Addr :=
  if i < v.len then pure (v.addr i) else .ub

/-- `ptr::copy_nonoverlapping` to a cell (e.g. /repo/src/merge_sort.rs:135), or the initialisation of a local variable. -/
def store (a : Addr) (x : α) : Prog α ι ω Unit := .set a x (.ret ())

/-- What `ptr::copy_nonoverlapping(src, dst, 1)` (e.g. /repo/src/merge_sort.rs:85) demands besides valid pointers: the two cells are not the
same one. -/
def apart (src dst : Addr) : Prog α ι ω Unit := if src = dst then .ub else pure ()

/-- The drop of `InsertionHole` (/repo/src/insertion_sort.rs:31-40): copies the cell `src` to the `dest`-th element. -/
def holeDrop (v : View) (dest : Nat) (src : Addr) : Prog α ι ω Unit := do
  let x ← deref src
  apart src (v.addr dest)
  v.set dest x

/-- User code called with references to two cells, e.g. `is_less(v.uget(end), v.uget(end - 1))` (/repo/src/merge_sort.rs:561).  It may change what is in the cells, also if
it panics afterwards.  (The answer `none` is a panic without a change.) -/
def callAt (a b : Addr) : Prog α (α × α) (α × α × Option Bool) Bool :=
  .get a fun x => .get b fun y => .call (x, y) fun
    | none => .throw .user
    | some r => .set a r.1 (.set b r.2.1 (match r.2.2 with
      | none => .throw .user
      | some c => .ret c))

variable (less : Addr → Addr → Prog α ι ω Bool) (t : Addr)

/-! ### Insertion sorts -/

/-- /repo/src/insertion_sort.rs:83-92: the shifting loop of `insert_tail` with the hole at `h`. -/
def insertTailLoop (v : View) : Nat → Prog α ι ω Unit
  | 0 => holeDrop v 0 t
  | h + 1 => do
    let a ← uref v h
    let b ← (less t a).onPanic (holeDrop v (h + 1) t)
    if !b then
      holeDrop v (h + 1) t
    else do
      let x ← deref a
      apart a (v.addr (h + 1))
      v.set (h + 1) x
      insertTailLoop v h

/-- /repo/src/insertion_sort.rs:45-95 `insert_tail`. -/
def insertTail (v : View) : Prog α ι ω Unit := do
  debugAssert cfg (decide (v.len ≥ 2))
  let i ← usub cfg v.len 1
  let j ← usub cfg i 1
  let a ← uref v i
  let b ← uref v j
  let c ← less a b
  if c then do
    let x ← v.get i
    store t x
    let z ← v.get j
    apart (v.addr j) (v.addr i)
    v.set i z
    insertTailLoop less t v j
  else pure ()

/-- /repo/src/insertion_sort.rs:148-156: the shifting loop of `insert_head` with the hole at `d`. -/
def insertHeadLoop (v : View) : Nat → Nat → Prog α ι ω Unit
  | d, 0 => holeDrop v d t
  | d, n + 1 => do
    let a ← uref v (d + 1)
    let b ← (less a t).onPanic (holeDrop v d t)
    if !b then
      holeDrop v d t
    else do
      let x ← deref a
      apart a (v.addr d)
      v.set d x
      insertHeadLoop v (d + 1) n

/-- /repo/src/insertion_sort.rs:101-159 `insert_head`. -/
def insertHead (v : View) : Prog α ι ω Unit := do
  debugAssert cfg (decide (v.len ≥ 2))
  let a ← uref v 1
  let b ← uref v 0
  let c ← less a b
  if c then do
    let x ← v.get 0
    store t x
    let z ← v.get 1
    apart (v.addr 1) (v.addr 0)
    v.set 0 z
    insertHeadLoop less t v 1 (v.len - 2)
  else pure ()

/-- /repo/src/insertion_sort.rs:166-187 `insertion_sort_shift_left`. -/
def insertionSortShiftLeft (v : View) (offset : Nat) : Prog α ι ω Unit := do
  assertP (decide (offset ≠ 0) && decide (offset ≤ v.len))
  Prog.forUp (fun i => do
    let w ← v.slice 0 (i + 1)
    insertTail cfg less t w) offset (v.len - offset)

/-- /repo/src/insertion_sort.rs:194-216 `insertion_sort_shift_right`. -/
def insertionSortShiftRight (v : View) (offset : Nat) : Prog α ι ω Unit := do
  assertP (decide (offset ≠ 0) && decide (offset ≤ v.len) && decide (v.len ≥ 2))
  Prog.forDown (fun i => do
    let w ← v.slice i v.len
    insertHead cfg less t w) 0 offset

/-- /repo/src/insertion_sort.rs:240-242: the loop looking for the next adjacent out-of-order pair. -/
def findOutOfOrder (v : View) : Nat → Nat → Prog α ι ω Nat
  | i, 0 => pure i
  | i, n + 1 => do
    let j ← usub cfg i 1
    let a ← uref v i
    let b ← uref v j
    let c ← less a b
    if c then pure i else findOutOfOrder v (i + 1) n

/-- /repo/src/insertion_sort.rs:234-268: the outer loop of `partial_insertion_sort`. -/
def partialInsertionLoop (v : View) : Nat → Nat → Prog α ι ω Bool
  | 0, _ => pure false
  | n + 1, i => do
    let i ← findOutOfOrder cfg less v i (v.len - i)
    if i == v.len then pure true
    else if v.len < 50 then pure false
    else do
      let j ← usub cfg i 1
      v.swap j i
      if i ≥ 2 then do
        let w ← v.slice 0 i
        insertionSortShiftLeft cfg less t w j
        let w ← v.slice 0 i
        insertionSortShiftRight cfg less t w 1
        partialInsertionLoop v n i
      else partialInsertionLoop v n i

/-- /repo/src/insertion_sort.rs:222-269 `partial_insertion_sort`. -/
def partialInsertionSort (v : View) : Prog α ι ω Bool :=
  partialInsertionLoop cfg less t v 5 1

/-! ### Heap sort -/

/-- /repo/src/heap_sort.rs:15-38: one iteration of the loop of `sift_down` at `node`. -/
def siftDownStep (v : View) (node : Nat) : Prog α ι ω (Nat ⊕ Unit) := do
  let child := 2 * node + 1
  if child ≥ v.len then pure (.inr ())
  else do
    let child ← (if child + 1 < v.len then do
        let a ← v.ref child
        let b ← v.ref (child + 1)
        let c ← less a b
        pure (if c then child + 1 else child)
      else pure child)
    let a ← v.ref node
    let b ← v.ref child
    let c ← less a b
    if !c then pure (.inr ())
    else do
      v.swap node child
      pure (.inl child)

/-- /repo/src/heap_sort.rs:14-39 `sift_down`. -/
def siftDown (v : View) (node : Nat) : Prog α ι ω Unit :=
  Prog.loop (siftDownStep less v) (v.len + 1) node

/-- /repo/src/heap_sort.rs:9-51 `heap_sort`. -/
def heapSort (v : View) : Prog α ι ω Unit := do
  Prog.forDown (fun i => siftDown less v i) 0 (v.len / 2)
  Prog.forDown (fun i => do
    v.swap 0 i
    let w ← v.slice 0 i
    siftDown less w 0) 1 (v.len - 1)

/-! ### Partitioning -/

/-- /repo/src/partition.rs:874-879 `sort2`. -/
def sort2 (v : View) (a b swaps : Nat) : Prog α ι ω (Nat × Nat × Nat) := do
  let x ← uref v b
  let y ← uref v a
  let r ← less x y
  if r then pure (b, a, swaps + 1) else pure (a, b, swaps)

/-- /repo/src/partition.rs:882-886 `sort3`. -/
def sort3 (v : View) (a b c swaps : Nat) : Prog α ι ω (Nat × Nat × Nat × Nat) := do
  let (a, b, swaps) ← sort2 less v a b swaps
  let (b, c, swaps) ← sort2 less v b c swaps
  let (a, b, swaps) ← sort2 less v a b swaps
  pure (a, b, c, swaps)

/-- /repo/src/partition.rs:890-893 `sort_adjacent`. -/
def sortAdjacent (v : View) (a swaps : Nat) : Prog α ι ω (Nat × Nat) := do
  let l ← usub cfg a 1
  let (_, b, _, swaps) ← sort3 less v l a (a + 1) swaps
  pure (b, swaps)

/-- /repo/src/partition.rs:865-903: the choice of the three indices. -/
def chooseMedian (v : View) : Prog α ι ω (Nat × Nat) := do
  let a := v.len / 4
  let b := v.len / 4 * 2
  let c := v.len / 4 * 3
  if v.len ≥ 8 then do
    let (a, b, c, swaps) ← (if v.len ≥ 50 then do
        let (a, s) ← sortAdjacent cfg less v a 0
        let (b, s) ← sortAdjacent cfg less v b s
        let (c, s) ← sortAdjacent cfg less v c s
        pure (a, b, c, s)
      else pure (a, b, c, 0))
    let (_, b, _, swaps) ← sort3 less v a b c swaps
    pure (b, swaps)
  else pure (b, 0)

/-- /repo/src/partition.rs:845-913 `choose_pivot`. -/
def choosePivot (v : View) : Prog α ι ω (Nat × Bool) := do
  let (b, swaps) ← chooseMedian cfg less v
  if swaps < 12 then pure (b, swaps == 0)
  else do
    reverse cfg v
    let p ← usub cfg v.len 1
    let p ← usub cfg p b
    pure (p, true)

/-- /repo/src/partition.rs:364-392: one iteration of the main loop of `partition_equal`; the pivot is in the cell `t`. -/
def partitionEqualStep (w : View) : Nat × Nat → Prog α ι ω ((Nat × Nat) ⊕ Nat)
  | (l, r) => do
    let l ← scanUp (fun i => do
      let a ← uref w i
      let b ← less t a
      pure !b) (r - l) l
    let r ← usub cfg r 1
    let r ← scanEqual cfg (fun i => do
      let a ← uref w i
      less t a) (r - l) r
    if l ≥ r then pure (.inr l)
    else do
      w.uswap l r
      pure (.inl (l + 1, r))

/-- /repo/src/partition.rs:337-398 `partition_equal`. -/
def partitionEqual (v : View) (pivot : Nat) : Prog α ι ω Nat := do
  v.swap 0 pivot
  let (p, w) ← v.splitAt 1
  let x ← p.idx 0
  store t x
  let r ← (if w.len == 0 then pure 0
    else do
      let l ← Prog.loop (partitionEqualStep cfg less t w) (w.len + 1) (0, w.len)
      pure (l + 1)).onPanic (holeDrop p 0 t)
  holeDrop p 0 t
  pure r

/-- /repo/src/partition.rs:576-593: trace elements from the left. -/
def traceL (v : View) (l : Nat) : Nat → Nat → List Nat → Prog α ι ω (List Nat)
  | 0, _, acc => pure acc
  | n + 1, i, acc =>
    if acc.length < BLOCK then do
      let a ← v.ref (l + i)
      let b ← less a t
      traceL v l n (i + 1) (if !b then acc ++ [i % 256] else acc)
    else .ub

/-- /repo/src/partition.rs:607-627: trace elements from the right. -/
def traceR (v : View) : Nat → Nat → Nat → List Nat → Prog α ι ω (List Nat)
  | 0, _, _, acc => pure acc
  | n + 1, elem, i, acc =>
    if acc.length < BLOCK then do
      let elem ← usub cfg elem 1
      let a ← v.ref elem
      let b ← less a t
      traceR v n elem (i + 1) (if b then acc ++ [i % 256] else acc)
    else .ub

/-- `ptr::copy_nonoverlapping(&v[i], &mut v[j], 1)` on checked indices: /repo/src/partition.rs:666-672. -/
def copyIdx (v : View) (i j : Nat) : Prog α ι ω Unit := do
  let x ← v.idx i
  apart (v.addr i) (v.addr j)
  v.cset j x

/-- /repo/src/partition.rs:668-673: the loop of the cyclic permutation with `n` iterations left. -/
def cycleLoop (v : View) (l r : Nat) : Nat → List Nat → List Nat → Prog α ι ω (List Nat × List Nat)
  | 0, ol, or => pure (ol, or)
  | n + 1, ol, or => do
    let ol := ol.tail
    let i ← leftIdx l ol
    let j ← rightIdx cfg r or
    copyIdx v i j
    let or := or.tail
    let j ← rightIdx cfg r or
    let i ← leftIdx l ol
    copyIdx v j i
    cycleLoop v l r n ol or

/-- /repo/src/partition.rs:664-679: the cyclic permutation of `count > 0` pairs.  (`tmp` is on the stack, away from
the array, and not seen by user code: it is a value here.) -/
def cycle (v : View) (l r count : Nat) (ol or : List Nat) : Prog α ι ω (List Nat × List Nat) := do
  let i ← leftIdx l ol
  let tmp ← v.idx i
  let j ← rightIdx cfg r or
  copyIdx v j i
  let (ol, or) ← cycleLoop cfg v l r (count - 1) ol or
  let j ← rightIdx cfg r or
  v.cset j tmp
  pure (ol.tail, or.tail)

/-- /repo/src/partition.rs:534-705: one round. -/
def blockStep (v : View) (s : BlockSt) : Prog α ι ω (BlockSt ⊕ BlockSt) := do
  let width ← usub cfg s.r s.l
  let isDone := decide (width ≤ 2 * BLOCK)
  let s ← blockSizes cfg s
  let ol ← (if s.ol = [] then traceL less t v s.l s.bl 0 [] else pure s.ol)
  let or ← (if s.or = [] then traceR cfg less t v s.br s.r 0 [] else pure s.or)
  let count := min ol.length or.length
  let (ol, or) ← (if count > 0 then cycle cfg v s.l s.r count ol or else pure (ol, or))
  let l := if ol = [] then s.l + s.bl else s.l
  let r ← (if or = [] then usub cfg s.r s.br else pure s.r)
  let s : BlockSt := { s with l := l, ol := ol, r := r, or := or }
  if isDone then pure (.inr s) else pure (.inl s)

/-- /repo/src/partition.rs:474-751 `partition_in_blocks`; the pivot is in the cell `t`. -/
def partitionInBlocks (v : View) : Prog α ι ω Nat :=
  if v.len = 0 then pure 0
  else do
    let s ← Prog.loop (blockStep cfg less t v) (v.len + 1) ⟨0, BLOCK, [], v.len, BLOCK, []⟩
    if s.ol ≠ [] then do
      let w ← usub cfg s.r s.l
      debugAssert cfg (w == s.bl)
      moveRemL cfg v s.l s.ol.length s.ol s.r
    else if s.or ≠ [] then do
      let w ← usub cfg s.r s.l
      debugAssert cfg (w == s.br)
      moveRemR cfg v s.r s.or.length s.or s.l
    else pure s.l

/-- /repo/src/partition.rs:407-463 `partition`. -/
def partition (v : View) (pivot : Nat) : Prog α ι ω (Nat × Bool) := do
  v.swap 0 pivot
  let (p, w) ← v.splitAt 1
  let x ← p.idx 0
  store t x
  let (mid, was) ← (do
    let l ← scanUp (fun i => do
      let a ← uref w i
      less a t) w.len 0
    let r ← scanDown (fun i => do
      let a ← uref w i
      let b ← less a t
      pure !b) (w.len - l) w.len
    let u ← w.slice l r
    let k ← partitionInBlocks cfg less t u
    pure (l + k, decide (l ≥ r))).onPanic (holeDrop p 0 t)
  holeDrop p 0 t
  v.swap 0 mid
  pure (mid, was)

/-! ### Quick sort -/

/-- /repo/src/quick_sort.rs:94-95 and /repo/src/partition.rs:141-142: `!is_less(p, &v[pivot])` if there is a predecessor. -/
def predCheck (v : View) (pivot : Nat) : Option Addr → Prog α ι ω Bool
  | none => pure false
  | some p => do
    let a ← v.ref pivot
    let b ← less p a
    pure !b

/-- /repo/src/quick_sort.rs:115-125: which side to recurse into. -/
def quickDescend (rec : View → Option Addr → Nat → Prog α ι ω Unit)
    (left right : View) (pred : Option Addr) (piv : Addr) (limit : Nat) (bal wasP : Bool) : Prog α ι ω (QSt ⊕ Unit) :=
  if left.len < right.len then do
    rec left pred limit
    pure (.inl ⟨right, some piv, limit, bal, wasP⟩)
  else do
    rec right (some piv) limit
    pure (.inl ⟨left, pred, limit, bal, wasP⟩)

/-- /repo/src/quick_sort.rs:105-125: partition, split and go on. -/
def quickSplit (rec : View → Option Addr → Nat → Prog α ι ω Unit)
    (s : QSt) (limit pivot : Nat) : Prog α ι ω (QSt ⊕ Unit) := do
  let v := s.v
  let (mid, wasP) ← partition cfg less t v pivot
  let d ← usub cfg v.len mid
  let (left, right) ← v.splitAt mid
  let (pv, right) ← right.splitAt 1
  let piv ← pv.ref 0
  quickDescend rec left right s.pred piv limit (decide (min mid d ≥ v.len / 8)) wasP

/-- One iteration of the loop of `recurse`: /repo/src/quick_sort.rs:53-126. -/
def quickStep (rec : View → Option Addr → Nat → Prog α ι ω Unit) (s : QSt) : Prog α ι ω (QSt ⊕ Unit) :=
  let v := s.v
  if v.len ≤ 20 then do
    if v.len ≥ 2 then insertionSortShiftLeft cfg less t v 1 else pure ()
    pure (.inr ())
  else if s.limit = 0 then do
    heapSort less v
    pure (.inr ())
  else do
    let limit ← (if !s.bal then do
        breakPatterns cfg v
        usub cfg s.limit 1
      else pure s.limit)
    let (pivot, likely) ← choosePivot cfg less v
    let done ← (if s.bal && s.part && likely then partialInsertionSort cfg less t v else pure false)
    if done then pure (.inr ())
    else do
      let c ← predCheck less v pivot s.pred
      if c then do
        let mid ← partitionEqual cfg less t v pivot
        let (_, w) ← v.splitAt mid
        pure (.inl ⟨w, s.pred, limit, s.bal, s.part⟩)
      else quickSplit cfg less t rec s limit pivot

/-- /repo/src/quick_sort.rs:37-127 `recurse` with a bound on the recursion depth. -/
def recurse : Nat → View → Option Addr → Nat → Prog α ι ω Unit
  | 0, _, _, _ => .diverge
  | d + 1, v, pred, limit =>
    Prog.loop (quickStep cfg less t (recurse d)) (v.len + 1) ⟨v, pred, limit, true, true⟩

/-- /repo/src/quick_sort.rs:16-29 `quick_sort`. -/
def quickSort (v : View) : Prog α ι ω Unit :=
  if cfg.zst then pure ()
  else recurse cfg less t (Nat.log2 v.len + 1) v none (bitLen v.len)

/-! ### Selection -/

/-- /repo/src/partition.rs:66, 84-94: the fold of `max_by`. -/
def maxLoop (v : View) : Nat → Nat → Nat → Prog α ι ω Nat
  | best, _, 0 => pure best
  | best, i, n + 1 => do
    let x ← uref v best
    let y ← uref v i
    let b ← less x y
    maxLoop v (if b then i else best) (i + 1) n

/-- /repo/src/partition.rs:71: the fold of `min_by`. -/
def minLoop (v : View) : Nat → Nat → Nat → Prog α ι ω Nat
  | best, _, 0 => pure best
  | best, i, n + 1 => do
    let x ← uref v best
    let y ← uref v i
    let b ← less x y
    minLoop v (if b then best else i) (i + 1) n

/-- `v.iter().enumerate().max_by(from_is_less(is_less)).unwrap()`: /repo/src/partition.rs:66 and 208. -/
def maxIndex (v : View) : Prog α ι ω Nat :=
  if v.len = 0 then .throw .check else maxLoop less v 0 1 (v.len - 1)

/-- `v.iter().enumerate().min_by(from_is_less(is_less)).unwrap()`: /repo/src/partition.rs:71 and 214. -/
def minIndex (v : View) : Prog α ι ω Nat :=
  if v.len = 0 then .throw .check else minLoop less v 0 1 (v.len - 1)

/-- `is_less(&v[i], &v[j])`: /repo/src/partition.rs:285-305 and 321-327. -/
def lessAt (v : View) (i j : Nat) : Prog α ι ω Bool := do
  let x ← v.ref i
  let y ← v.ref j
  less x y

/-- /repo/src/partition.rs:314-331 `median_idx`. -/
def medianIdx (v : View) (a b c : Nat) : Prog α ι ω Nat := do
  let s ← lessAt less v c a
  let (a, c) := if s then (c, a) else (a, c)
  let s ← lessAt less v c b
  if s then pure c
  else do
    let s ← lessAt less v b a
    if s then pure a else pure b

/-- /repo/src/partition.rs:303-310: the end of `ninther`. -/
def nintherEnd (v : View) (b d e h : Nat) : Prog α ι ω Unit := do
  let s ← lessAt less v d b
  if s then v.swap b e
  else do
    let s ← lessAt less v h d
    if s then v.swap h e else v.swap d e

/-- /repo/src/partition.rs:277-310 `ninther`. -/
def ninther (v : View) (a b c d e f g h i : Nat) : Prog α ι ω Unit := do
  let b ← medianIdx less v a b c
  let h ← medianIdx less v g h i
  let s ← lessAt less v h b
  let (b, h) := if s then (h, b) else (b, h)
  let s ← lessAt less v f d
  let (d, f) := if s then (f, d) else (d, f)
  let s ← lessAt less v e d
  if s then nintherEnd less v b d e h
  else do
    let s ← lessAt less v f e
    if s then nintherEnd less v b f e h
    else do
      let s ← lessAt less v e b
      if s then v.swap e b
      else do
        let s ← lessAt less v h e
        if s then v.swap e h else pure ()

/-- /repo/src/partition.rs:260-268: the loop of `median_of_ninthers`. -/
def nintherLoop (v : View) (frac : Nat) : Nat → Nat → Nat → Nat → Prog α ι ω Unit
  | _, _, _, 0 => pure ()
  | a, i, b, n + 1 => do
    let l ← usub cfg i frac
    ninther less v a l b (a + 1) i (b + 1) (a + 2) (i + frac) (b + 2)
    nintherLoop v frac (a + 3) (i + 1) (b + 3) n

/-- /repo/src/partition.rs:241-272 `median_of_ninthers`. -/
def medianOfNinthers (rec : View → Nat → Prog α ι ω Unit) (v : View) : Prog α ι ω Nat := do
  let frac := fracOf cfg v.len
  let pivot := frac / 2
  let lo ← usub cfg (v.len / 2) pivot
  let hi := frac + lo
  let g ← usub cfg v.len (9 * frac)
  let gap := g / 4
  let a ← usub cfg lo (4 * frac)
  let a ← usub cfg a gap
  let b := hi + gap
  nintherLoop cfg less v frac a lo b (hi - lo)
  let w ← v.slice lo (lo + frac)
  rec w pivot
  let (p, _) ← partition cfg less t v (lo + pivot)
  pure p

/-- /repo/src/partition.rs:195-235: the loop of `median_of_medians`. -/
def momLoop (rec : View → Nat → Prog α ι ω Unit) : Nat → View → Nat → Prog α ι ω Unit
  | 0, _, _ => .diverge
  | n + 1, v, k =>
    if v.len ≤ 10 then
      if v.len > 1 then insertionSortShiftLeft cfg less t v 1 else pure ()
    else do
      let last ← usub cfg v.len 1
      if k = last then do
        let m ← maxIndex less v
        v.swap m k
      else if k = 0 then do
        let m ← minIndex less v
        v.swap m k
      else do
        let p ← medianOfNinthers cfg less t rec v
        if p = k then pure ()
        else if p > k then do
          let (left, _) ← v.splitAt p
          momLoop rec n left k
        else do
          let (_, right) ← v.splitAt (p + 1)
          let k ← usub cfg k (p + 1)
          momLoop rec n right k

/-- /repo/src/partition.rs:183-236 `median_of_medians`. -/
def medianOfMedians : Nat → View → Nat → Prog α ι ω Unit
  | 0, _, _ => .diverge
  | d + 1, v, k => do
    debugAssert cfg (decide (k < v.len))
    debugAssert cfg !cfg.zst
    momLoop cfg less t (medianOfMedians d) (v.len + 1) v k

/-- /repo/src/partition.rs:115-178: the loop of `partition_at_index_loop`. -/
def selLoop : Nat → View → Nat → Option Addr → Nat → Bool → Prog α ι ω Unit
  | 0, _, _, _, _, _ => .diverge
  | n + 1, v, index, pred, limit, bal =>
    if v.len ≤ 10 then
      if v.len ≠ 0 then insertionSortShiftLeft cfg less t v 1 else pure ()
    else if limit = 0 then medianOfMedians cfg less t (Nat.log2 v.len + 1) v index
    else do
      let limit ← (if !bal then do
          breakPatterns cfg v
          usub cfg limit 1
        else pure limit)
      let (pivot, _) ← choosePivot cfg less v
      let c ← predCheck less v pivot pred
      if c then do
        let mid ← partitionEqual cfg less t v pivot
        if mid > index then pure ()
        else do
          let (_, w) ← v.splitAt mid
          let index ← usub cfg index mid
          selLoop n w index none limit bal
      else do
        let (mid, _) ← partition cfg less t v pivot
        let d ← usub cfg v.len mid
        let (left, right) ← v.splitAt mid
        let (pv, right) ← right.splitAt 1
        let piv ← pv.ref 0
        if mid < index then do
          let i ← usub cfg index mid
          let i ← usub cfg i 1
          selLoop n right i (some piv) limit (decide (min mid d ≥ v.len / 8))
        else if mid > index then selLoop n left index pred limit (decide (min mid d ≥ v.len / 8))
        else pure ()

/-- /repo/src/partition.rs:96-179 `partition_at_index_loop`, called with `pred = None`. -/
def partitionAtIndexLoop (v : View) (index : Nat) : Prog α ι ω Unit :=
  selLoop cfg less t (v.len + 1) v index none 16 true

/-- /repo/src/partition.rs:45-80 `partition_at_index`. -/
def partitionAtIndex (v : View) (index : Nat) : Prog α ι ω (View × Addr × View) := do
  if index ≥ v.len then .throw .index
  else do
    (if cfg.zst then pure ()
      else do
        let last ← usub cfg v.len 1
        if index = last then do
          let m ← maxIndex less v
          v.swap m index
        else if index = 0 then do
          let m ← minIndex less v
          v.swap m index
        else partitionAtIndexLoop cfg less t v index)
    let (left, right) ← v.splitAt index
    let (pv, right) ← right.splitAt 1
    let piv ← pv.ref 0
    pure (left, piv, right)

/-- /repo/src/partition.rs:20-42 `partition_at_indices`. -/
def partitionAtIndices : Nat → View → Nat → List Nat → Prog α ι ω (List (Nat × Addr))
  | 0, _, _, _ => .diverge
  | n + 1, v, offset, indices =>
    match indices[indices.length / 2]? with
    | none => pure []
    | some pivot => do
      let i ← usub cfg pivot offset
      let (left, value, right) ← partitionAtIndex cfg less t v i
      let xs ← partitionAtIndices n left offset (indices.take (indices.length / 2))
      let ys ← partitionAtIndices n right (pivot + 1) (indices.drop (indices.length / 2 + 1))
      pure (xs ++ (pivot, value) :: ys)

/-- `select_many_nth_unstable*` of /repo/src/lib.rs:2038-2093. -/
def selectMany (v : View) (indices : List Nat) : Prog α ι ω (List (Nat × Addr)) :=
  partitionAtIndices cfg less t (indices.length + 1) v 0 indices

/-! ### Merge sort -/

/-- /repo/src/merge_sort.rs:181-193: the drop of `MergeHole`: copies `buf[start..fin]` to `v[dest..]`. -/
def mergeHoleDrop (v buf : View) (start fin dest : Nat) : Prog α ι ω Unit := do
  let n ← usub cfg fin start
  Prog.forUp (fun i => do
    let x ← buf.get (start + i)
    apart (buf.addr (start + i)) (v.addr (dest + i))
    v.cset (dest + i) x) 0 n

/-- /repo/src/merge_sort.rs:55-57 and 99-101: copies `n` elements of `v` from `a` on to the buffer. -/
def copyToBuf (v buf : View) (a n : Nat) : Prog α ι ω Unit :=
  Prog.forUp (fun i => do
    let x ← v.idx (a + i)
    apart (v.addr (a + i)) (buf.addr i)
    buf.set i x) 0 n

/-- /repo/src/merge_sort.rs:72-93: one iteration of the loop merging forwards; the element is copied (from `v` by `rd`) after the comparison. -/
def mergeFwdBody (rd : View → Nat → Prog α ι ω α) (v buf : View) (fin : Nat) : Nat × Nat × Nat → Prog α ι ω ((Nat × Nat × Nat) ⊕ (Nat × Nat × Nat))
  | (left, right, out) =>
    if left < fin && right < v.len then do
      let a ← uref v right
      let c ← uref buf left
      let b ← (less a c).onPanic (mergeHoleDrop cfg v buf left fin out)
      let z ← pick rd v buf right left b
      apart (if b then v.addr right else buf.addr left) (v.addr out)
      v.cset out z
      pure (.inl (if b then left else left + 1, if b then right + 1 else right, out + 1))
    else pure (.inr (left, right, out))

/-- /repo/src/merge_sort.rs:116-137: one iteration of the loop merging backwards. -/
def mergeBwdBody (rd : View → Nat → Prog α ι ω α) (v buf : View) : Nat × Nat × Nat → Prog α ι ω ((Nat × Nat × Nat) ⊕ (Nat × Nat × Nat))
  | (left, right, out) =>
    if 0 < left && 0 < right then do
      let c ← uref buf (right - 1)
      let a ← uref v (left - 1)
      let b ← (less c a).onPanic (mergeHoleDrop cfg v buf 0 right left)
      let z ← pick rd v buf (left - 1) (right - 1) b
      let out ← usub cfg out 1
      apart (if b then v.addr (left - 1) else buf.addr (right - 1)) (v.addr out)
      v.cset out z
      pure (.inl (if b then left - 1 else left, if b then right else right - 1, out))
    else pure (.inr (left, right, out))

/-- /repo/src/merge_sort.rs:20-194 `merge`. -/
def merge (rd : View → Nat → Prog α ι ω α) (v : View) (mid : Nat) (buf : View) : Prog α ι ω Unit := do
  let rest ← usub cfg v.len mid
  if mid ≤ rest then do
    copyToBuf v buf 0 mid
    let (left, _, out) ← Prog.loop (mergeFwdBody cfg less rd v buf mid) (v.len + 1) (0, mid, 0)
    mergeHoleDrop cfg v buf left mid out
  else do
    copyToBuf v buf mid rest
    let (left, right, _) ← Prog.loop (mergeBwdBody cfg less rd v buf) (v.len + 1) (mid, rest, v.len)
    mergeHoleDrop cfg v buf 0 right left

/-- /repo/src/merge_sort.rs:561-563, 567-569: the loop of `find_streak`. -/
def streakLoop (v : View) (rev : Bool) : Nat → Nat → Prog α ι ω Nat
  | e, 0 => pure e
  | e, n + 1 => do
    let x ← uref v e
    let y ← uref v (e - 1)
    let b ← less x y
    if b == rev then streakLoop v rev (e + 1) n else pure e

/-- /repo/src/merge_sort.rs:541-573 `find_streak`. -/
def findStreak (v : View) : Prog α ι ω (Nat × Bool) :=
  if v.len < 2 then pure (v.len, false)
  else do
    let x ← uref v 1
    let y ← uref v 0
    let rev ← less x y
    let e ← streakLoop less v rev 2 (v.len - 2)
    pure (e, rev)

/-- /repo/src/merge_sort.rs:505-536 `provide_sorted_batch`. -/
def provideSortedBatch (v : View) (start e : Nat) : Prog α ι ω Nat := do
  assertP (decide (e ≥ start) && decide (e ≤ v.len))
  let diff ← usub cfg e start
  if diff < 10 && e < v.len then do
    let e := min (start + 10) v.len
    let w ← v.slice start e
    insertionSortShiftLeft cfg less t w (max diff 1)
    pure e
  else pure e

/-- /repo/src/merge_sort.rs:255-264: finding the next run. -/
def nextRun (v : View) (start : Nat) : Prog α ι ω Nat := do
  let w ← v.slice start v.len
  let (streak, rev) ← findStreak less w
  let e := start + streak
  if rev then do
    let w ← v.slice start e
    reverse cfg w
    provideSortedBatch cfg less t v start e
  else provideSortedBatch cfg less t v start e

/-- /repo/src/merge_sort.rs:273-287: one iteration of the loop merging runs. -/
def collapseBody (v buf : View) (rv : RunVec) : Prog α ι ω (RunVec ⊕ RunVec) := do
  let rs ← rv.asSlice
  match collapse rs v.len with
  | none => pure (.inr rv)
  | some r => do
    let rv ← (do
      let left ← rv.idx r
      let right ← rv.idx (r + 1)
      let w ← v.slice left.start (right.start + right.len)
      merge cfg less View.get w left.len buf
      let rv ← rv.setIdx (r + 1) ⟨left.len + right.len, left.start⟩
      rv.remove r).onPanic rv.drop
    pure (.inl rv)

/-- /repo/src/merge_sort.rs:254-288: one iteration of the main loop. -/
def mergeSortBody (al : Alloc) (v buf : View) : Nat × RunVec → Prog α ι ω ((Nat × RunVec) ⊕ RunVec)
  | (start, rv) =>
    if start < v.len then do
      let e ← (nextRun cfg less t v start).onPanic rv.drop
      let n ← usub cfg e start
      let rv ← rv.push al ⟨n, start⟩
      let rv ← Prog.loop (collapseBody cfg less v buf) (rv.len + 1) rv
      pure (.inl (e, rv))
    else pure (.inr rv)

/-- /repo/src/merge_sort.rs:209-494 `merge_sort`. -/
def mergeSort (al : Alloc) (v buf : View) : Prog α ι ω Unit := do
  debugAssert cfg (!cfg.zst)
  if v.len ≤ 20 then
    if v.len ≥ 2 then insertionSortShiftLeft cfg less t v 1 else pure ()
  else if !al.elem then .throw .alloc
  else if !al.run 16 then .throw .alloc
  else do
    let rv ← Prog.loop (mergeSortBody cfg less t al v buf) (v.len + 1) (0, RunVec.new)
    if cfg.dbg then do
      let n := rv.len
      let r ← rv.idx 0
      debugAssert cfg (n == 1 && r.start == 0 && r.len == v.len)
      rv.drop
    else rv.drop

/-- /repo/src/stable_sort.rs:19-72 `stable_sort`. -/
def stableSort (al : Alloc) (v buf : View) : Prog α ι ω Unit :=
  if cfg.zst then pure ()
  else mergeSort cfg less t al v buf

/-! ### Public methods

The `is_less` of each flavour (`A::lt`, `|a, b| compare(a, b) == Less`, `|a, b| f(a).lt(&f(b))`) is, as a whole, the user code here. -/

/-- /repo/src/lib.rs:1810-1837 `sort`, `sort_by`, `sort_by_key`. -/
def sort (v : View) (al : Alloc) (heap : Addr) : Prog α (α × α) (α × α × Option Bool) Unit :=
  stableSort cfg callAt t al v ⟨heap, 1, v.len / 2⟩

/-- /repo/src/lib.rs:1923-1947 `sort_unstable`, `sort_unstable_by`, `sort_unstable_by_key`. -/
def sortUnstable (v : View) : Prog α (α × α) (α × α × Option Bool) Unit := quickSort cfg callAt t v

/-- /repo/src/lib.rs:2095-2132 `select_nth_unstable`, `select_nth_unstable_by`, `select_nth_unstable_by_key`. -/
def selectNthUnstable (v : View) (index : Nat) : Prog α (α × α) (α × α × Option Bool) (View × Addr × View) :=
  partitionAtIndex cfg callAt t v index

/-- /repo/src/lib.rs:2038-2093 `select_many_nth_unstable`, `select_many_nth_unstable_by`, `select_many_nth_unstable_by_key`. -/
def selectManyNthUnstable (v : View) (indices : List Nat) : Prog α (α × α) (α × α × Option Bool) (List (Nat × Addr)) :=
  selectMany cfg callAt t v indices

end NdSlice.Refs
