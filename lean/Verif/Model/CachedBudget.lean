import Verif.Model.Cached

/-
The placing of the elements in `sort_by_cached_key` and `par_sort_by_cached_key` with a bound on the number of iterations of the inner loop, those of all
rounds of the outer loop together.
-/

namespace NdSlice

variable {α κ : Type}

/-- /repo/src/lib.rs:1862-1864 (and 1784-1786): `while (index as usize) < i { index = indices[index as usize].1 }` with at most `b` iterations.  Yields the
index and how many iterations are left. -/
def chaseWithin (l : List (κ × Nat)) (i : Nat) : Nat → Nat → Prog α (KeyQ α κ) (κ × Bool) (Nat × Nat)
  | 0, index => if index < i then .diverge else pure (index, 0)
  | b + 1, index =>
    if index < i then do
      let p ← pairAt l index
      chaseWithin l i b p.2
    else pure (index, b + 1)

/-- /repo/src/lib.rs:1860-1867 (and 1782-1789): `placeAll` with at most `b` iterations of the inner loop in all of the rounds. -/
def placeWithin (v : View) : Nat → Nat → Nat → List (κ × Nat) → Prog α (KeyQ α κ) (κ × Bool) Unit
  | _, _, 0, _ => pure ()
  | b, i, n + 1, l => do
    let p ← pairAt l i
    let (index, b) ← chaseWithin l i b p.2
    v.swap i index
    placeWithin v b (i + 1) n (l.set i (p.1, index))

/-- /repo/src/lib.rs:1838-1890 `sort_by_cached_key`, as `sortByCachedKey` but with at most `b` iterations of the inner loop. -/
def sortByCachedKeyWithin (b : Nat) (cfg : Cfg) (sz : Sizes) (srt : PairSort α κ) (v : View) : Prog α (KeyQ α κ) (κ × Bool) Unit :=
  if v.len < 2 then pure ()
  else do
    let l ← keyPairs v (indexBits cfg sz v.len) 0 v.len
    let l ← srt l
    placeWithin v b 0 v.len l

/-- /repo/src/lib.rs:1749-1808 `par_sort_by_cached_key`, as `parSortByCachedKey` but with at most `b` iterations of the inner loop. -/
def parSortByCachedKeyWithin (b : Nat) (cfg : Cfg) (sz : Sizes) (srt : PairSort α κ) (v : View) : Prog α (KeyQ α κ) (κ × Bool) Unit :=
  if v.len < 2 then pure ()
  else do
    let w := indexBits cfg sz v.len
    let ps ← parKeyPairs v w 0 v.len
    let ps ← latePairs v w 0 ps
    let l ← collectAny ps
    let l ← srt l
    placeWithin v b 0 v.len l

end NdSlice
