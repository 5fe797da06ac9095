import Verif.Model.Cached
import Verif.Model.Refs
import Verif.Core.MapAns

/-
`sort_by_cached_key` and `par_sort_by_cached_key` (/repo/src/lib.rs:1749-1808, 1838-1890) once more, with a key function that is given a
reference to the element in the array and may change the element through it (interior mutability), also if it panics afterwards.

Only the calls of the key function differ from Verif/Model/Cached.lean.  What comes after them compares keys and swaps elements, no
user code is given a reference to an element: it is the code of Verif/Model/Cached.lean.
-/

namespace NdSlice.Refs

variable {α κ : Type}

/-- What a call of user code does (/repo/src/lib.rs:1852 and /repo/src/lib.rs:1776): it leaves the element it is given in a new state, and gives a key or (`none`) panics.  A comparison
of keys is given no element; of its answer the second part is looked at. -/
abbrev KeyA (α κ : Type) := α × Option (κ × Bool)

/-- What an answer is if no element is given: for the comparisons of keys at /repo/src/lib.rs:1859 and /repo/src/lib.rs:1781. -/
def plain : Option (KeyA α κ) → Option (κ × Bool)
  | none => none
  | some r => r.2

/-- A call `f(x)` where `x` is a reference to the cell `a`: /repo/src/lib.rs:1852 and /repo/src/lib.rs:1776.  (The answer `none` is a panic without a change.) -/
def callKeyAt (a : Addr) : Prog α (KeyQ α κ) (KeyA α κ) κ :=
  .get a fun x => .call (.key x) fun
    | none => .throw .user
    | some r => .set a r.1 (match r.2 with
      | none => .throw .user
      | some k => .ret k.1)

/-- /repo/src/lib.rs:1852-1854: the pair for position `i`; `i as $t` keeps the low `w` bits. -/
def keyPair (v : View) (w i : Nat) : Prog α (KeyQ α κ) (KeyA α κ) (κ × Nat) := do
  let a ← uref v i
  let k ← callKeyAt a
  pure (k, i % 2 ^ w)

/-- /repo/src/lib.rs:1850-1855: the pairs of the `n` positions from `i` on. -/
def keyPairs (v : View) (w : Nat) : Nat → Nat → Prog α (KeyQ α κ) (KeyA α κ) (List (κ × Nat))
  | _, 0 => pure []
  | i, n + 1 => do
    let p ← keyPair v w i
    let ps ← keyPairs v w (i + 1) n
    pure (p :: ps)

/-- /repo/src/lib.rs:1859-1867 (and 1781-1789): what is done once the keys are known. -/
def sortAndPlace (srt : PairSort α κ) (v : View) (l : List (κ × Nat)) : Prog α (KeyQ α κ) (KeyA α κ) Unit :=
  Prog.mapAns plain (do
    let l ← srt l
    placeAll v 0 v.len l)

/-- /repo/src/lib.rs:1838-1890 `sort_by_cached_key`. -/
def sortByCachedKey (cfg : Cfg) (sz : Sizes) (srt : PairSort α κ) (v : View) : Prog α (KeyQ α κ) (KeyA α κ) Unit :=
  if v.len < 2 then pure ()
  else do
    let l ← keyPairs v (indexBits cfg sz v.len) 0 v.len
    sortAndPlace srt v l

/-- /repo/src/lib.rs:1772-1776, see `NdSlice.parKeyPairs`. -/
def parKeyPairs (v : View) (w : Nat) : Nat → Nat → Prog α (KeyQ α κ) (KeyA α κ) (List (Option (κ × Nat)))
  | _, 0 => pure []
  | i, n + 1 => do
    let (p, ps) ← Prog.rayonJoin
      (.choose fun late => if late then pure none else do
        let p ← keyPair v w i
        pure (some p))
      (parKeyPairs v w (i + 1) n)
    pure (p :: ps)

/-- The pairs (from position `i` on) left out by `parKeyPairs`: /repo/src/lib.rs:1772-1776. -/
def latePairs (v : View) (w : Nat) : Nat → List (Option (κ × Nat)) → Prog α (KeyQ α κ) (KeyA α κ) (List (κ × Nat))
  | _, [] => pure []
  | i, some p :: ps => do
    let ps ← latePairs v w (i + 1) ps
    pure (p :: ps)
  | i, none :: ps => do
    let p ← keyPair v w i
    let ps ← latePairs v w (i + 1) ps
    pure (p :: ps)

/-- /repo/src/lib.rs:1749-1808 `par_sort_by_cached_key`. -/
def parSortByCachedKey (cfg : Cfg) (sz : Sizes) (srt : PairSort α κ) (v : View) : Prog α (KeyQ α κ) (KeyA α κ) Unit :=
  if v.len < 2 then pure ()
  else do
    let w := indexBits cfg sz v.len
    let ps ← parKeyPairs v w 0 v.len
    let ps ← latePairs v w 0 ps
    let l ← Prog.mapAns plain (collectAny ps)
    sortAndPlace srt v l

end NdSlice.Refs
