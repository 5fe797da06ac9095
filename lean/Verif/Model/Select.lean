import Verif.Model.Insertion
import Verif.Model.Partition

/-
Model of the selection functions: /repo/src/partition.rs:20-331 and /repo/src/par/partition.rs:25-363.
-/

namespace NdSlice

variable {α ι ω : Type} (cfg : Cfg) (less : α → α → Prog α ι ω Bool)

/-- The fold inside `Iterator::max_by(from_is_less(is_less))` (/repo/src/partition.rs:66 and 84-94): the
current maximum is at `best`, `n` elements from `i` on are left.  `max_by` keeps the earlier element if the
comparison says `Greater`, which `from_is_less` says unless the earlier one is less. -/
def maxLoop (v : View) : Nat → Nat → Nat → Prog α ι ω Nat
  | best, _, 0 => pure best
  | best, i, n + 1 => do
    let x ← v.get best
    let y ← v.get i
    let b ← less x y
    maxLoop v (if b then i else best) (i + 1) n

/-- As `maxLoop` for `min_by` (/repo/src/partition.rs:71): keeps the later element if the comparison says
`Greater`, that is unless the earlier one is less. -/
def minLoop (v : View) : Nat → Nat → Nat → Prog α ι ω Nat
  | best, _, 0 => pure best
  | best, i, n + 1 => do
    let x ← v.get best
    let y ← v.get i
    let b ← less x y
    minLoop v (if b then best else i) (i + 1) n

/-- `v.iter().enumerate().max_by(from_is_less(is_less)).unwrap()`: /repo/src/partition.rs:66 and 208. -/
def maxIndex (v : View) : Prog α ι ω Nat :=
  if v.len = 0 then .throw .check else maxLoop less v 0 1 (v.len - 1)

/-- `v.iter().enumerate().min_by(from_is_less(is_less)).unwrap()`: /repo/src/partition.rs:71 and 214. -/
def minIndex (v : View) : Prog α ι ω Nat :=
  if v.len = 0 then .throw .check else minLoop less v 0 1 (v.len - 1)

/-- `is_less(&v[i], &v[j])`: /repo/src/partition.rs:285-305 and 321-327. -/
def lessAt (v : View) (i j : Nat) : Prog α ι ω Bool := do
  let x ← v.idx i
  let y ← v.idx j
  less x y

/-- /repo/src/partition.rs:314-331 `median_idx`. -/
def medianIdx (v : View) (a b c : Nat) : Prog α ι ω Nat := do
  let s ← lessAt less v c a
  let (a, c) := if s then (c, a) else (a, c)
  let s ← lessAt less v c b
  if s then pure c
  else do
    let s ← lessAt less v b a
    if s then pure a else pure b

/-- /repo/src/partition.rs:303-310: the end of `ninther`. -/
def nintherEnd (v : View) (b d e h : Nat) : Prog α ι ω Unit := do
  let s ← lessAt less v d b
  if s then v.swap b e
  else do
    let s ← lessAt less v h d
    if s then v.swap h e else v.swap d e

/-- /repo/src/partition.rs:277-310 `ninther`. -/
def ninther (v : View) (a b c d e f g h i : Nat) : Prog α ι ω Unit := do
  let b ← medianIdx less v a b c
  let h ← medianIdx less v g h i
  let s ← lessAt less v h b
  let (b, h) := if s then (h, b) else (b, h)
  let s ← lessAt less v f d
  let (d, f) := if s then (f, d) else (d, f)
  let s ← lessAt less v e d
  if s then nintherEnd less v b d e h
  else do
    let s ← lessAt less v f e
    if s then nintherEnd less v b f e h
    else do
      let s ← lessAt less v e b
      if s then v.swap e b
      else do
        let s ← lessAt less v h e
        if s then v.swap e h else pure ()

/-- /repo/src/partition.rs:260-268: the loop of `median_of_ninthers` with `n` iterations left. -/
def nintherLoop (v : View) (frac : Nat) : Nat → Nat → Nat → Nat → Prog α ι ω Unit
  | _, _, _, 0 => pure ()
  | a, i, b, n + 1 => do
    let l ← usub cfg i frac
    ninther less v a l b (a + 1) i (b + 1) (a + 2) (i + frac) (b + 2)
    nintherLoop v frac (a + 3) (i + 1) (b + 3) n

/-- /repo/src/partition.rs:246-252: the sampled fraction.  `128_usize.saturating_mul(1024)` saturates at
`usize::MAX`. -/
def fracOf (n : Nat) : Nat :=
  if n ≤ 1024 then n / 12
  else if n ≤ min (128 * 1024) (2 ^ cfg.bits - 1) then n / 64
  else n / 1024

/-- /repo/src/partition.rs:241-272 `median_of_ninthers`; `rec` is the recursive call of
`median_of_medians`. -/
def medianOfNinthers (rec : View → Nat → Prog α ι ω Unit) (v : View) : Prog α ι ω Nat := do
  let frac := fracOf cfg v.len
  let pivot := frac / 2
  let lo ← usub cfg (v.len / 2) pivot
  let hi := frac + lo
  let g ← usub cfg v.len (9 * frac)
  let gap := g / 4
  let a ← usub cfg lo (4 * frac)
  let a ← usub cfg a gap
  let b := hi + gap
  nintherLoop cfg less v frac a lo b (hi - lo)
  let w ← v.slice lo (lo + frac)
  rec w pivot
  let (p, _) ← partition cfg less v (lo + pivot)
  pure p

/-- /repo/src/partition.rs:195-235: the loop of `median_of_medians`, with a bound on the number of
iterations. -/
def momLoop (rec : View → Nat → Prog α ι ω Unit) : Nat → View → Nat → Prog α ι ω Unit
  | 0, _, _ => .diverge
  | n + 1, v, k =>
    if v.len ≤ 10 then
      if v.len > 1 then insertionSortShiftLeft cfg less v 1 else pure ()
    else do
      let last ← usub cfg v.len 1
      if k = last then do
        let m ← maxIndex less v
        v.swap m k
      else if k = 0 then do
        let m ← minIndex less v
        v.swap m k
      else do
        let p ← medianOfNinthers cfg less rec v
        if p = k then pure ()
        else if p > k then do
          let (left, _) ← v.splitAt p
          momLoop rec n left k
        else do
          let (_, right) ← v.splitAt (p + 1)
          let k ← usub cfg k (p + 1)
          momLoop rec n right k

/-- /repo/src/partition.rs:183-236 `median_of_medians`, with a bound on the depth of the recursion. -/
def medianOfMedians : Nat → View → Nat → Prog α ι ω Unit
  | 0, _, _ => .diverge
  | d + 1, v, k => do
    debugAssert cfg (decide (k < v.len))
    debugAssert cfg !cfg.zst
    momLoop cfg less (medianOfMedians d) (v.len + 1) v k

/-- /repo/src/partition.rs:141-142: `pred` is there and is not less than `v[pivot]`. -/
def selPredCheck (v : View) (pivot : Nat) : Option Addr → Prog α ι ω Bool
  | none => pure false
  | some a => do
    let p ← deref a
    let x ← v.idx pivot
    let b ← less p x
    pure !b

/-- /repo/src/partition.rs:115-178: the loop of `partition_at_index_loop`, with a bound on the number of
iterations. -/
def selLoop : Nat → View → Nat → Option Addr → Nat → Bool → Prog α ι ω Unit
  | 0, _, _, _, _, _ => .diverge
  | n + 1, v, index, pred, limit, bal =>
    if v.len ≤ 10 then
      if v.len ≠ 0 then insertionSortShiftLeft cfg less v 1 else pure ()
    else if limit = 0 then medianOfMedians cfg less (Nat.log2 v.len + 1) v index
    else do
      let limit ← (if !bal then do
          breakPatterns cfg v
          usub cfg limit 1
        else pure limit)
      let (pivot, _) ← choosePivot cfg less v
      let c ← selPredCheck less v pivot pred
      if c then do
        let mid ← partitionEqual cfg less v pivot
        if mid > index then pure ()
        else do
          let (_, w) ← v.splitAt mid
          let index ← usub cfg index mid
          selLoop n w index none limit bal
      else do
        let (mid, _) ← partition cfg less v pivot
        let d ← usub cfg v.len mid
        let (left, right) ← v.splitAt mid
        let (pv, right) ← right.splitAt 1
        let piv ← pv.ref 0
        if mid < index then do
          let i ← usub cfg index mid
          let i ← usub cfg i 1
          selLoop n right i (some piv) limit (decide (min mid d ≥ v.len / 8))
        else if mid > index then selLoop n left index pred limit (decide (min mid d ≥ v.len / 8))
        else pure ()

/-- /repo/src/partition.rs:96-179 `partition_at_index_loop`, called with `pred = None`. -/
def partitionAtIndexLoop (v : View) (index : Nat) : Prog α ι ω Unit :=
  selLoop cfg less (v.len + 1) v index none 16 true

/-- /repo/src/partition.rs:45-80 `partition_at_index`; the reference is an address. -/
def partitionAtIndex (v : View) (index : Nat) : Prog α ι ω (View × Addr × View) := do
  if index ≥ v.len then .throw .index
  else do
    (if cfg.zst then pure ()
      else do
        let last ← usub cfg v.len 1
        if index = last then do
          let m ← maxIndex less v
          v.swap m index
        else if index = 0 then do
          let m ← minIndex less v
          v.swap m index
        else partitionAtIndexLoop cfg less v index)
    let (left, right) ← v.splitAt index
    let (pv, right) ← right.splitAt 1
    let piv ← pv.ref 0
    pure (left, piv, right)

/-- /repo/src/partition.rs:20-42 `partition_at_indices`.  The `while` loop is written as recursion.  The index
array is a list (it is borrowed shared, so it does not change); the result lists the calls of
`collection.extend` in order.  User code in `Extend::extend` is not modelled here but in
Verif/Model/Extend.lean. -/
def partitionAtIndices : Nat → View → Nat → List Nat → Prog α ι ω (List (Nat × Addr))
  | 0, _, _, _ => .diverge
  | n + 1, v, offset, indices =>
    match indices[indices.length / 2]? with
    | none => pure []
    | some pivot => do
      let i ← usub cfg pivot offset
      let (left, value, right) ← partitionAtIndex cfg less v i
      let xs ← partitionAtIndices n left offset (indices.take (indices.length / 2))
      let ys ← partitionAtIndices n right (pivot + 1) (indices.drop (indices.length / 2 + 1))
      pure (xs ++ (pivot, value) :: ys)

/-- `select_many_nth_unstable*` of /repo/src/lib.rs:2038-2093. -/
def selectMany (v : View) (indices : List Nat) : Prog α ι ω (List (Nat × Addr)) :=
  partitionAtIndices cfg less (indices.length + 1) v 0 indices

/-- /repo/src/par/partition.rs:25-81 `par_partition_at_indices`; `MAX_SEQUENTIAL = 2000`.  The slice `values` of slots
is given by the number `vs` of its first slot and its length `vl`; the result lists the writes into slots. -/
def parPartitionAtIndices : Nat → View → Nat → List Nat → Nat → Nat → Prog α ι ω (List (Nat × Addr))
  | 0, _, _, _, _, _ => .diverge
  | n + 1, v, offset, indices, vs, vl =>
    match indices[indices.length / 2]? with
    | none => pure []
    | some pivot => do
      let i ← usub cfg pivot offset
      let (left, value, right) ← partitionAtIndex cfg less v i
      assertP (decide (indices.length / 2 < vl))
      assertP (decide (indices.length / 2 ≤ vl))
      assertP (decide (1 ≤ vl - indices.length / 2))
      let i ← usub cfg pivot offset
      if indices.length / 2 = 0 ∨ i ≤ 2000 then do
        let xs ← parPartitionAtIndices n left offset (indices.take (indices.length / 2)) vs (indices.length / 2)
        let ys ← parPartitionAtIndices n right (pivot + 1) (indices.drop (indices.length / 2 + 1))
          (vs + indices.length / 2 + 1) (vl - indices.length / 2 - 1)
        pure ((vs + indices.length / 2, value) :: (xs ++ ys))
      else do
        let (xs, ys) ← Prog.rayonJoin
          (parPartitionAtIndices n left offset (indices.take (indices.length / 2)) vs (indices.length / 2))
          (parPartitionAtIndices n right (pivot + 1) (indices.drop (indices.length / 2 + 1))
            (vs + indices.length / 2 + 1) (vl - indices.length / 2 - 1))
        pure ((vs + indices.length / 2, value) :: (xs ++ ys))

/-- `par_select_many_nth_unstable*` of /repo/src/lib.rs:1972-2036.  `spare` is the spare capacity of the collection
after `reserve_exact`.  Yields the writes into the spare slots; afterwards the first `indices.len()` of
these slots are declared initialised by `set_len`. -/
def parSelectMany (v : View) (indices : List Nat) (spare : Nat) : Prog α ι ω (List (Nat × Addr)) :=
  parPartitionAtIndices cfg less (indices.length + 1) v 0 indices 0 spare

end NdSlice
