import Verif.Core.View

/-
Model of the partitioning helpers of /repo/src/partition.rs (and of /repo/src/par/partition.rs, which
has the same code with `is_less: &F` and imports `reverse` and `break_patterns`).
-/

namespace NdSlice

variable {α ι ω : Type} (cfg : Cfg) (less : α → α → Prog α ι ω Bool)

/-- /repo/src/partition.rs:781-790 `revswap` with `i` and the number of iterations left.
`mem::swap(a.view_mut().index(i), b.view_mut().index(n - 1 - i))` on checked indices. -/
def revswap (a b : View) (n : Nat) : Nat → Nat → Prog α ι ω Unit
  | _, 0 => pure ()
  | i, k + 1 => do
    let j ← usub cfg n 1
    let j ← usub cfg j i
    let x ← a.idx i
    let y ← b.idx j
    a.cset i y
    b.cset j x
    revswap a b n (i + 1) k

/-- /repo/src/partition.rs:766-791 `reverse`. -/
def reverse (v : View) : Prog α ι ω Unit := do
  let len := v.len
  let half := v.len / 2
  let at1 ← usub cfg len half
  let (front, back) ← v.splitAt at1
  let (front, _) ← front.splitAt half
  debugAssert cfg (front.len == half)
  debugAssert cfg (back.len == half)
  revswap cfg front back half 0 half

/-- `usize::next_power_of_two`: /repo/src/partition.rs:821. -/
def nextPow2 (n : Nat) : Nat := if n ≤ 1 then 1 else 2 ^ (Nat.log2 (n - 1) + 1)

/-- /repo/src/partition.rs:800-817 `gen_usize`: xorshift on 32 or 64 bits depending on the width of
`usize`. -/
def xorshift (bits seed : Nat) : Nat :=
  if bits ≤ 32 then
    let r := seed % 2 ^ 32
    let r := r ^^^ ((r <<< 13) % 2 ^ 32)
    let r := r ^^^ (r >>> 17)
    let r := r ^^^ ((r <<< 5) % 2 ^ 32)
    r % 2 ^ bits
  else
    let r := seed % 2 ^ 64
    let r := r ^^^ ((r <<< 13) % 2 ^ 64)
    let r := r ^^^ (r >>> 7)
    let r := r ^^^ ((r <<< 17) % 2 ^ 64)
    r % 2 ^ bits

/-- /repo/src/partition.rs:826-838: the loop of `break_patterns` with `i` and the number of iterations
left. -/
def breakPatternsLoop (v : View) (modulus pos : Nat) : Nat → Nat → Nat → Prog α ι ω Unit
  | _, _, 0 => pure ()
  | i, seed, k + 1 => do
    let seed := xorshift cfg.bits seed
    let other := seed &&& (modulus - 1)
    let other := if other ≥ v.len then other - v.len else other
    let p ← usub cfg pos 1
    v.swap (p + i) other
    breakPatternsLoop v modulus pos (i + 1) seed k

/-- /repo/src/partition.rs:796-840 `break_patterns`. -/
def breakPatterns (v : View) : Prog α ι ω Unit :=
  if v.len ≥ 8 then breakPatternsLoop cfg v (nextPow2 v.len) (v.len / 4 * 2) 0 v.len 3
  else pure ()

/-- /repo/src/partition.rs:874-879 `sort2` on indices, with the number of swaps so far. -/
def sort2 (v : View) (a b swaps : Nat) : Prog α ι ω (Nat × Nat × Nat) := do
  let x ← v.get b
  let y ← v.get a
  let r ← less x y
  if r then pure (b, a, swaps + 1) else pure (a, b, swaps)

/-- /repo/src/partition.rs:882-886 `sort3`. -/
def sort3 (v : View) (a b c swaps : Nat) : Prog α ι ω (Nat × Nat × Nat × Nat) := do
  let (a, b, swaps) ← sort2 less v a b swaps
  let (b, c, swaps) ← sort2 less v b c swaps
  let (a, b, swaps) ← sort2 less v a b swaps
  pure (a, b, c, swaps)

/-- /repo/src/partition.rs:890-893 `sort_adjacent`. -/
def sortAdjacent (v : View) (a swaps : Nat) : Prog α ι ω (Nat × Nat) := do
  let l ← usub cfg a 1
  let (_, b, _, swaps) ← sort3 less v l a (a + 1) swaps
  pure (b, swaps)

/-- /repo/src/partition.rs:865-903: the choice of the three indices; yields `b` and the number of
swaps.  `SHORTEST_MEDIAN_OF_MEDIANS = 50`. -/
def chooseMedian (v : View) : Prog α ι ω (Nat × Nat) := do
  let a := v.len / 4
  let b := v.len / 4 * 2
  let c := v.len / 4 * 3
  if v.len ≥ 8 then do
    let (a, b, c, swaps) ← (if v.len ≥ 50 then do
        let (a, s) ← sortAdjacent cfg less v a 0
        let (b, s) ← sortAdjacent cfg less v b s
        let (c, s) ← sortAdjacent cfg less v c s
        pure (a, b, c, s)
      else pure (a, b, c, 0))
    let (_, b, _, swaps) ← sort3 less v a b c swaps
    pure (b, swaps)
  else pure (b, 0)

/-- /repo/src/partition.rs:845-913 `choose_pivot`; `MAX_SWAPS = 12`. -/
def choosePivot (v : View) : Prog α ι ω (Nat × Bool) := do
  let (b, swaps) ← chooseMedian cfg less v
  if swaps < 12 then pure (b, swaps == 0)
  else do
    reverse cfg v
    let p ← usub cfg v.len 1
    let p ← usub cfg p b
    pure (p, true)

/-- `while l < r && test(l) { l += 1; }` with `n = r - l` iterations left: /repo/src/partition.rs:371-373
and 439-441. -/
def scanUp (test : Nat → Prog α ι ω Bool) : Nat → Nat → Prog α ι ω Nat
  | 0, l => pure l
  | n + 1, l => do
    let b ← test l
    if b then scanUp test n (l + 1) else pure l

/-- `while l < r && test(r - 1) { r -= 1; }` with `n = r - l` iterations left: /repo/src/partition.rs:444-446. -/
def scanDown (test : Nat → Prog α ι ω Bool) : Nat → Nat → Prog α ι ω Nat
  | 0, r => pure r
  | n + 1, r => do
    let b ← test (r - 1)
    if b then scanDown test n (r - 1) else pure r

/-- /repo/src/partition.rs:376-381: the loop finding the last element equal to the pivot, after the
first `r -= 1`, with `n` the number of positions between `l` and `r`. -/
def scanEqual (test : Nat → Prog α ι ω Bool) : Nat → Nat → Prog α ι ω Nat
  | 0, r => pure r
  | n + 1, r => do
    let b ← test r
    if b then do
      let r ← usub cfg r 1
      scanEqual test n r
    else pure r

/-- /repo/src/partition.rs:364-392: one iteration of the main loop of `partition_equal` on the slice
`w` without the pivot. -/
def partitionEqualStep (w : View) (pivot : α) : Nat × Nat → Prog α ι ω ((Nat × Nat) ⊕ Nat)
  | (l, r) => do
    let l ← scanUp (fun i => do
      let x ← w.get i
      let b ← less pivot x
      pure !b) (r - l) l
    let r ← usub cfg r 1
    let r ← scanEqual cfg (fun i => do
      let x ← w.get i
      less pivot x) (r - l) r
    if l ≥ r then pure (.inr l)
    else do
      w.uswap l r
      pure (.inl (l + 1, r))

/-- /repo/src/partition.rs:337-398 `partition_equal`.  `_pivot_guard` writes `tmp` back to the first
position on leaving the function and on a panic. -/
def partitionEqual (v : View) (pivot : Nat) : Prog α ι ω Nat := do
  v.swap 0 pivot
  let (p, w) ← v.splitAt 1
  let tmp ← p.idx 0
  let r ← (if w.len == 0 then pure 0
    else do
      let l ← Prog.loop (partitionEqualStep cfg less w tmp) (w.len + 1) (0, w.len)
      pure (l + 1)).onPanic (p.set 0 tmp)
  p.set 0 tmp
  pure r

/-- `BLOCK` of /repo/src/partition.rs:483. -/
def BLOCK : Nat := 128

/-- /repo/src/partition.rs:576-593: trace elements from the left.  `n` iterations are left, `i` is the loop
variable, `acc` the offsets between `start_l` and `end_l`.  The buffer `offsets_l` of `BLOCK` bytes is
represented by this list; `*end_l = i` is undefined if the buffer is full; `i as u8` is `i % 256`. -/
def traceL (v : View) (pivot : α) (l : Nat) : Nat → Nat → List Nat → Prog α ι ω (List Nat)
  | 0, _, acc => pure acc
  | n + 1, i, acc =>
    if acc.length < BLOCK then do
      let x ← v.idx (l + i)
      let b ← less x pivot
      traceL v pivot l n (i + 1) (if !b then acc ++ [i % 256] else acc)
    else .ub

/-- /repo/src/partition.rs:607-627: trace elements from the right, as `traceL`; `elem` is one beyond the
next element. -/
def traceR (v : View) (pivot : α) : Nat → Nat → Nat → List Nat → Prog α ι ω (List Nat)
  | 0, _, _, acc => pure acc
  | n + 1, elem, i, acc =>
    if acc.length < BLOCK then do
      let elem ← usub cfg elem 1
      let x ← v.idx elem
      let b ← less x pivot
      traceR v pivot n elem (i + 1) (if b then acc ++ [i % 256] else acc)
    else .ub

/-- `left!()` of /repo/src/partition.rs:634-638: index of the element `start_l` points to (undefined if
there is none). -/
def leftIdx (l : Nat) : List Nat → Prog α ι ω Nat
  | [] => .ub
  | o :: _ => pure (l + o)

/-- `right!()` of /repo/src/partition.rs:639-643. -/
def rightIdx (r : Nat) : List Nat → Prog α ι ω Nat
  | [] => .ub
  | o :: _ => usub cfg r (o + 1)

/-- `ptr::copy_nonoverlapping(&v[i], &mut v[j], 1)` on checked indices: /repo/src/partition.rs:666-672. -/
def copyIdx (v : View) (i j : Nat) : Prog α ι ω Unit := do
  let x ← v.idx i
  v.cset j x

/-- /repo/src/partition.rs:668-673: the loop of the cyclic permutation with `n` iterations left; the lists
are the offsets from `start_l` and `start_r` on. -/
def cycleLoop (v : View) (l r : Nat) : Nat → List Nat → List Nat → Prog α ι ω (List Nat × List Nat)
  | 0, ol, or => pure (ol, or)
  | n + 1, ol, or => do
    let ol := ol.tail
    let i ← leftIdx l ol
    let j ← rightIdx cfg r or
    copyIdx v i j
    let or := or.tail
    let j ← rightIdx cfg r or
    let i ← leftIdx l ol
    copyIdx v j i
    cycleLoop v l r n ol or

/-- /repo/src/partition.rs:664-679: the cyclic permutation of `count > 0` pairs. -/
def cycle (v : View) (l r count : Nat) (ol or : List Nat) : Prog α ι ω (List Nat × List Nat) := do
  let i ← leftIdx l ol
  let tmp ← v.idx i
  let j ← rightIdx cfg r or
  copyIdx v j i
  let (ol, or) ← cycleLoop cfg v l r (count - 1) ol or
  let j ← rightIdx cfg r or
  v.cset j tmp
  pure (ol.tail, or.tail)

/-- The local variables of `partition_in_blocks` (/repo/src/partition.rs:499-511): `l`, `block_l`, the offsets between `start_l` and `end_l`,
and the same for the right side. -/
structure BlockSt where
  l : Nat
  bl : Nat
  ol : List Nat
  r : Nat
  br : Nat
  or : List Nat

/-- /repo/src/partition.rs:539-561: block sizes for the last round. -/
def blockSizes (s : BlockSt) : Prog α ι ω BlockSt := do
  let width ← usub cfg s.r s.l
  if width ≤ 2 * BLOCK then do
    let rem ← (if s.ol ≠ [] ∨ s.or ≠ [] then usub cfg width BLOCK else pure width)
    let s ← (if s.ol ≠ [] then pure { s with br := rem }
      else if s.or ≠ [] then pure { s with bl := rem }
      else do
        let b ← usub cfg rem (rem / 2)
        pure { s with bl := rem / 2, br := b })
    debugAssert cfg (decide (s.bl ≤ BLOCK) && decide (s.br ≤ BLOCK))
    debugAssert cfg (width == s.bl + s.br)
    pure s
  else pure s

/-- /repo/src/partition.rs:534-705: one round; leaves the loop when `is_done`. -/
def blockStep (v : View) (pivot : α) (s : BlockSt) : Prog α ι ω (BlockSt ⊕ BlockSt) := do
  let width ← usub cfg s.r s.l
  let isDone := decide (width ≤ 2 * BLOCK)
  let s ← blockSizes cfg s
  let ol ← (if s.ol = [] then traceL less v pivot s.l s.bl 0 [] else pure s.ol)
  let or ← (if s.or = [] then traceR cfg less v pivot s.br s.r 0 [] else pure s.or)
  let count := min ol.length or.length
  let (ol, or) ← (if count > 0 then cycle cfg v s.l s.r count ol or else pure (ol, or))
  let l := if ol = [] then s.l + s.bl else s.l
  let r ← (if or = [] then usub cfg s.r s.br else pure s.r)
  let s : BlockSt := { s with l := l, ol := ol, r := r, or := or }
  if isDone then pure (.inr s) else pure (.inl s)

/-- /repo/src/partition.rs:715-732: move the remaining elements of the left block to the far right; the
offsets are taken from the end. -/
def moveRemL (v : View) (l : Nat) : Nat → List Nat → Nat → Prog α ι ω Nat
  | 0, _, r => pure r
  | n + 1, ol, r => do
    let j ← usub cfg r 1
    v.uswap (l + ol.getLastD 0) j
    moveRemL v l n ol.dropLast j

/-- /repo/src/partition.rs:738-745: move the remaining elements of the right block to the far left. -/
def moveRemR (v : View) (r : Nat) : Nat → List Nat → Nat → Prog α ι ω Nat
  | 0, _, l => pure l
  | n + 1, or, l => do
    let j ← usub cfg r (or.getLastD 0 + 1)
    v.uswap l j
    moveRemR v r n or.dropLast (l + 1)

/-- /repo/src/partition.rs:474-751 `partition_in_blocks`. -/
def partitionInBlocks (v : View) (pivot : α) : Prog α ι ω Nat :=
  if v.len = 0 then pure 0
  else do
    let s ← Prog.loop (blockStep cfg less v pivot) (v.len + 1) ⟨0, BLOCK, [], v.len, BLOCK, []⟩
    if s.ol ≠ [] then do
      let w ← usub cfg s.r s.l
      debugAssert cfg (w == s.bl)
      moveRemL cfg v s.l s.ol.length s.ol s.r
    else if s.or ≠ [] then do
      let w ← usub cfg s.r s.l
      debugAssert cfg (w == s.br)
      moveRemR cfg v s.r s.or.length s.or s.l
    else pure s.l

/-- /repo/src/partition.rs:407-463 `partition`. -/
def partition (v : View) (pivot : Nat) : Prog α ι ω (Nat × Bool) := do
  v.swap 0 pivot
  let (p, w) ← v.splitAt 1
  let tmp ← p.idx 0
  let (mid, was) ← (do
    let l ← scanUp (fun i => do
      let x ← w.get i
      less x tmp) w.len 0
    let r ← scanDown (fun i => do
      let x ← w.get i
      let b ← less x tmp
      pure !b) (w.len - l) w.len
    let u ← w.slice l r
    let k ← partitionInBlocks cfg less u tmp
    pure (l + k, decide (l ≥ r))).onPanic (p.set 0 tmp)
  p.set 0 tmp
  v.swap 0 mid
  pure (mid, was)

end NdSlice
