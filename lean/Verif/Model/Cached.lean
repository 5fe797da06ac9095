import Verif.Model.Api

/-
`sort_by_cached_key` and `par_sort_by_cached_key` (/repo/src/lib.rs:1749-1808, 1838-1890).

The vector `indices` of pairs of a key and an index is a list.  It is sorted by `sort_unstable` of the standard library (or
`par_sort_unstable` of rayon), which is not code of this crate: it is a parameter `srt` here, about which only its documented
behaviour is assumed (`SortsPairs` in Verif/Proof/Cached.lean).  The allocation of the vector and the drop of the keys are not modelled.
-/

namespace NdSlice

variable {α κ : Type}

/-- `sort_unstable` on a `Vec<(K, $t)>`: /repo/src/lib.rs:1859 and /repo/src/lib.rs:1781, functions of std and rayon. -/
abbrev PairSort (α κ : Type) := List (κ × Nat) → Prog α (KeyQ α κ) (κ × Bool) (List (κ × Nat))

/-- What the sizes of `(K, u8)`, `(K, u16)`, `(K, u32)` and `(K, usize)` are (/repo/src/lib.rs:1871-1874). -/
structure Sizes where
  u8 : Nat
  u16 : Nat
  u32 : Nat
  usize : Nat

/-- /repo/src/lib.rs:1880-1889 (and 1798-1807): the number of bits of the index type chosen.  `u32::MAX as usize` keeps the low bits. -/
def indexBits (cfg : Cfg) (sz : Sizes) (len : Nat) : Nat :=
  if sz.u8 < sz.u16 ∧ len ≤ (2 ^ 8 - 1) % 2 ^ cfg.bits then 8
  else if sz.u16 < sz.u32 ∧ len ≤ (2 ^ 16 - 1) % 2 ^ cfg.bits then 16
  else if sz.u32 < sz.usize ∧ len ≤ (2 ^ 32 - 1) % 2 ^ cfg.bits then 32
  else cfg.bits

/-- A call `f(x)` of the key function: /repo/src/lib.rs:1852 and /repo/src/lib.rs:1776. -/
def askKeyOf (x : α) : Prog α (KeyQ α κ) (κ × Bool) κ :=
  .call (.key x) fun
    | none => .throw .user
    | some k => .ret k.1

/-- `indices[i]` with the bounds check of `Vec`: /repo/src/lib.rs:1861 and 1863. -/
def pairAt (l : List (κ × Nat)) (i : Nat) : Prog α (KeyQ α κ) (κ × Bool) (κ × Nat) :=
  match l[i]? with
  | some p => pure p
  | none => .throw .index

/-- /repo/src/lib.rs:1852-1854: the pair for position `i`; `i as $t` keeps the low `w` bits. -/
def keyPair (v : View) (w i : Nat) : Prog α (KeyQ α κ) (κ × Bool) (κ × Nat) := do
  let x ← v.get i
  let k ← askKeyOf x
  pure (k, i % 2 ^ w)

/-- /repo/src/lib.rs:1850-1855: the pairs of the `n` positions from `i` on. -/
def keyPairs (v : View) (w : Nat) : Nat → Nat → Prog α (KeyQ α κ) (κ × Bool) (List (κ × Nat))
  | _, 0 => pure []
  | i, n + 1 => do
    let p ← keyPair v w i
    let ps ← keyPairs v w (i + 1) n
    pure (p :: ps)

/-- /repo/src/lib.rs:1862-1864: the body of `while (index as usize) < i { index = indices[index as usize].1 }`. -/
def chaseBody (l : List (κ × Nat)) (i index : Nat) : Prog α (KeyQ α κ) (κ × Bool) (Nat ⊕ Nat) :=
  if index < i then do
    let p ← pairAt l index
    pure (.inl p.2)
  else pure (.inr index)

/-- /repo/src/lib.rs:1860-1867 (and 1782-1789): the `n` rounds from `i` on.  The inner loop is given `len` rounds. -/
def placeAll (v : View) : Nat → Nat → List (κ × Nat) → Prog α (KeyQ α κ) (κ × Bool) Unit
  | _, 0, _ => pure ()
  | i, n + 1, l => do
    let p ← pairAt l i
    let index ← Prog.loop (chaseBody l i) (v.len + 1) p.2
    v.swap i index
    placeAll v (i + 1) n (l.set i (p.1, index))

/-- /repo/src/lib.rs:1838-1890 `sort_by_cached_key`. -/
def sortByCachedKey (cfg : Cfg) (sz : Sizes) (srt : PairSort α κ) (v : View) : Prog α (KeyQ α κ) (κ × Bool) Unit :=
  if v.len < 2 then pure ()
  else do
    let l ← keyPairs v (indexBits cfg sz v.len) 0 v.len
    let l ← srt l
    placeAll v 0 v.len l

/-- /repo/src/lib.rs:1772-1776: `par_bridge` hands out the positions to tasks that run in parallel.  As for the chunks of `par_merge_sort`
(`chunkTasks`), a task may be left out here because another one has panicked; `latePairs` runs it afterwards if nothing has panicked. -/
def parKeyPairs (v : View) (w : Nat) : Nat → Nat → Prog α (KeyQ α κ) (κ × Bool) (List (Option (κ × Nat)))
  | _, 0 => pure []
  | i, n + 1 => do
    let (p, ps) ← Prog.rayonJoin
      (.choose fun late => if late then pure none else do
        let p ← keyPair v w i
        pure (some p))
      (parKeyPairs v w (i + 1) n)
    pure (p :: ps)

/-- The pairs (from position `i` on) left out by `parKeyPairs`: /repo/src/lib.rs:1772-1776. -/
def latePairs (v : View) (w : Nat) : Nat → List (Option (κ × Nat)) → Prog α (KeyQ α κ) (κ × Bool) (List (κ × Nat))
  | _, [] => pure []
  | i, some p :: ps => do
    let ps ← latePairs v w (i + 1) ps
    pure (p :: ps)
  | i, none :: ps => do
    let p ← keyPair v w i
    let ps ← latePairs v w (i + 1) ps
    pure (p :: ps)

/-- Any of the places in `l`, for /repo/src/lib.rs:1777. -/
def insertAny (p : κ × Nat) : List (κ × Nat) → Prog α (KeyQ α κ) (κ × Bool) (List (κ × Nat))
  | [] => pure [p]
  | q :: l => .choose fun here => if here then pure (p :: q :: l) else do
    let l ← insertAny p l
    pure (q :: l)

/-- /repo/src/lib.rs:1777 `collect`: `par_bridge` does not keep the order, so that the vector has the pairs in any order. -/
def collectAny : List (κ × Nat) → Prog α (KeyQ α κ) (κ × Bool) (List (κ × Nat))
  | [] => pure []
  | p :: ps => do
    let l ← collectAny ps
    insertAny p l

/-- /repo/src/lib.rs:1749-1808 `par_sort_by_cached_key`. -/
def parSortByCachedKey (cfg : Cfg) (sz : Sizes) (srt : PairSort α κ) (v : View) : Prog α (KeyQ α κ) (κ × Bool) Unit :=
  if v.len < 2 then pure ()
  else do
    let w := indexBits cfg sz v.len
    let ps ← parKeyPairs v w 0 v.len
    let ps ← latePairs v w 0 ps
    let l ← collectAny ps
    let l ← srt l
    placeAll v 0 v.len l

end NdSlice
