import Verif.Model.Insertion
import Verif.Model.Heap
import Verif.Model.Partition

/-
Model of /repo/src/quick_sort.rs and /repo/src/par/quick_sort.rs.
-/

namespace NdSlice

variable {α ι ω : Type} (cfg : Cfg) (less : α → α → Prog α ι ω Bool)

/-- The local variables of `recurse` that change between iterations (/repo/src/quick_sort.rs:37-51):
the slice, the reference to the predecessor, the limit, `was_balanced` and `was_partitioned`. -/
structure QSt where
  v : View
  pred : Option Addr
  limit : Nat
  bal : Bool
  part : Bool

/-- /repo/src/quick_sort.rs:94-95: `!is_less(p, &v[pivot])` if there is a predecessor. -/
def predCheck (v : View) (pivot : Nat) : Option Addr → Prog α ι ω Bool
  | none => pure false
  | some a => do
    let p ← deref a
    let x ← v.idx pivot
    let b ← less p x
    pure !b

/-- /repo/src/par/quick_sort.rs:122: whether to go on sequentially (always in /repo/src/quick_sort.rs). -/
def goesSeq (maxSeq : Option Nat) (n : Nat) : Bool :=
  match maxSeq with
  | none => true
  | some m => decide (n ≤ m)

/-- /repo/src/quick_sort.rs:115-125 and /repo/src/par/quick_sort.rs:122-141: which side to recurse into.
`maxSeq` is `none` for the sequential function and `some MAX_SEQUENTIAL` for the parallel one.
`rec` is the recursive call (through `maybe_grow`, which only switches stacks). -/
def quickDescend (maxSeq : Option Nat) (rec : View → Option Addr → Nat → Prog α ι ω Unit)
    (left right : View) (pred : Option Addr) (piv : Addr) (limit : Nat) (bal wasP : Bool) :
    Prog α ι ω (QSt ⊕ Unit) :=
  if goesSeq maxSeq (max left.len right.len) then
    if left.len < right.len then do
      rec left pred limit
      pure (.inl ⟨right, some piv, limit, bal, wasP⟩)
    else do
      rec right (some piv) limit
      pure (.inl ⟨left, pred, limit, bal, wasP⟩)
  else do
    let _ ← Prog.rayonJoin (rec left pred limit) (rec right (some piv) limit)
    pure (.inr ())

/-- /repo/src/quick_sort.rs:105-125 and /repo/src/par/quick_sort.rs:112-141: partition, split and go on. -/
def quickSplit (maxSeq : Option Nat) (rec : View → Option Addr → Nat → Prog α ι ω Unit)
    (s : QSt) (limit pivot : Nat) : Prog α ι ω (QSt ⊕ Unit) := do
  let v := s.v
  let (mid, wasP) ← partition cfg less v pivot
  let d ← usub cfg v.len mid
  let (left, right) ← v.splitAt mid
  let (pv, right) ← right.splitAt 1
  let piv ← pv.ref 0
  quickDescend maxSeq rec left right s.pred piv limit (decide (min mid d ≥ v.len / 8)) wasP

/-- One iteration of the loop of `recurse`: /repo/src/quick_sort.rs:53-126 and
/repo/src/par/quick_sort.rs:60-142.  `MAX_INSERTION = 20`. -/
def quickStep (maxSeq : Option Nat) (rec : View → Option Addr → Nat → Prog α ι ω Unit) (s : QSt) :
    Prog α ι ω (QSt ⊕ Unit) :=
  let v := s.v
  if v.len ≤ 20 then do
    if v.len ≥ 2 then insertionSortShiftLeft cfg less v 1 else pure ()
    pure (.inr ())
  else if s.limit = 0 then do
    heapSort less v
    pure (.inr ())
  else do
    let limit ← (if !s.bal then do
        breakPatterns cfg v
        usub cfg s.limit 1
      else pure s.limit)
    let (pivot, likely) ← choosePivot cfg less v
    let done ← (if s.bal && s.part && likely then partialInsertionSort cfg less v else pure false)
    if done then pure (.inr ())
    else do
      let c ← predCheck less v pivot s.pred
      if c then do
        let mid ← partitionEqual cfg less v pivot
        let (_, w) ← v.splitAt mid
        pure (.inl ⟨w, s.pred, limit, s.bal, s.part⟩)
      else quickSplit cfg less maxSeq rec s limit pivot

/-- /repo/src/quick_sort.rs:37-127 and /repo/src/par/quick_sort.rs:40-143 `recurse` with a bound on the recursion depth. -/
def recurse (maxSeq : Option Nat) : Nat → View → Option Addr → Nat → Prog α ι ω Unit
  | 0, _, _, _ => .diverge
  | d + 1, v, pred, limit =>
    Prog.loop (quickStep cfg less maxSeq (recurse maxSeq d)) (v.len + 1) ⟨v, pred, limit, true, true⟩

/-- `usize::BITS - len.leading_zeros()`, the number of bits of `len`: /repo/src/quick_sort.rs:26 and /repo/src/par/quick_sort.rs:29. -/
def bitLen (n : Nat) : Nat := if n = 0 then 0 else Nat.log2 n + 1

/-- /repo/src/quick_sort.rs:16-29 `quick_sort`.  The depth bound is the one of property C38: at most
`floor(log2(len)) + 1` nested calls of `recurse`. -/
def quickSort (v : View) : Prog α ι ω Unit :=
  if cfg.zst then pure ()
  else recurse cfg less none (Nat.log2 v.len + 1) v none (bitLen v.len)

/-- /repo/src/par/quick_sort.rs:18-32 `par_quick_sort`; `MAX_SEQUENTIAL = 2000`. -/
def parQuickSort (v : View) : Prog α ι ω Unit :=
  if cfg.zst then pure ()
  else recurse cfg less (some 2000) (v.len + 1) v none (bitLen v.len)

end NdSlice
