import Verif.Core.Prog

/-
One-dimensional ndarray views and the operations the crate performs on them.
These definitions give the (documented) meaning of ndarray's API; ndarray itself is trusted.
-/

namespace NdSlice

variable {α ι ω : Type}

/-- Build and element configuration.
* `dbg`: `debug_assert!` and overflow checks are on (a debug build);
* `bits`: width of `usize`;
* `zst`: elements are zero sized (`is_zst`, /repo/src/partition.rs, /repo/src/quick_sort.rs,
  /repo/src/stable_sort.rs). -/
structure Cfg where
  dbg : Bool
  bits : Nat
  zst : Bool
  deriving DecidableEq, Repr

/-- `ArrayView1`/`ArrayViewMut1`: start address, stride (of any sign) and length. -/
structure View where
  off : Int
  stride : Int
  len : Nat
  deriving DecidableEq, Repr

namespace View

/-- Address of the `i`-th element: `ptr.offset(i * stride)`. -/
def addr (v : View) (i : Nat) : Addr := v.off + v.stride * i

/-- The part `a .. a + n` as a view of its own. -/
def sub (v : View) (a n : Nat) : View := ⟨v.addr a, v.stride, n⟩

/-- `uget(i)` or a read through a raw pointer to the `i`-th element: undefined if out of bounds. -/
def get (v : View) (i : Nat) : Prog α ι ω α :=
  if i < v.len then .get (v.addr i) .ret else .ub

/-- `*uget_mut(i) = x`, `ptr::write` or `ptr::copy_nonoverlapping` to the `i`-th element: undefined
if out of bounds. -/
def set (v : View) (i : Nat) (x : α) : Prog α ι ω Unit :=
  if i < v.len then .set (v.addr i) x (.ret ()) else .ub

/-- `v[i]`: panics if out of bounds. -/
def idx (v : View) (i : Nat) : Prog α ι ω α :=
  if i < v.len then .get (v.addr i) .ret else .throw .check

/-- A reference to the `i`-th element obtained by `v.index(i)` (checked): its address. -/
def ref (v : View) (i : Nat) : Prog α ι ω Addr :=
  if i < v.len then pure (v.addr i) else .throw .check

/-- A write through `v.view_mut().index(i)` (ndarray's checked `IndexLonger::index`): panics if out of
bounds. -/
def cset (v : View) (i : Nat) (x : α) : Prog α ι ω Unit :=
  if i < v.len then .set (v.addr i) x (.ret ()) else .throw .check

/-- `v.swap(i, j)`: panics if out of bounds. -/
def swap (v : View) (i j : Nat) : Prog α ι ω Unit := do
  let x ← v.idx i
  let y ← v.idx j
  v.set i y
  v.set j x

/-- `v.uswap(i, j)` or `ptr::swap` on two elements: undefined if out of bounds. -/
def uswap (v : View) (i j : Nat) : Prog α ι ω Unit := do
  let x ← v.get i
  let y ← v.get j
  v.set i y
  v.set j x

/-- `v.slice_mut(s![a..b])` (also `slice_move`, `slice`): an end before the start counts as the
start; panics if start or end is beyond the length. -/
def slice (v : View) (a b : Nat) : Prog α ι ω View :=
  let b := if b < a then a else b
  if a ≤ v.len ∧ b ≤ v.len then pure (v.sub a (b - a)) else .throw .check

/-- `v.split_at(Axis(0), i)`: panics if beyond the length. -/
def splitAt (v : View) (i : Nat) : Prog α ι ω (View × View) :=
  if i ≤ v.len then pure (v.sub 0 i, v.sub i (v.len - i)) else .throw .check

end View

/-- Read through a reference. -/
def deref (a : Addr) : Prog α ι ω α := .get a .ret

/-- `debug_assert!(c)`. -/
def debugAssert (cfg : Cfg) (c : Bool) : Prog α ι ω Unit :=
  if cfg.dbg && !c then .throw .debugAssert else pure ()

/-- `assert!(c)`. -/
def assertP (c : Bool) : Prog α ι ω Unit :=
  if c then pure () else .throw .check

/-- `usize` subtraction: on underflow panics with overflow checks and wraps without. -/
def usub (cfg : Cfg) (a b : Nat) : Prog α ι ω Nat :=
  if b ≤ a then pure (a - b)
  else if cfg.dbg then .throw .overflow
  else pure ((2 ^ cfg.bits - (b - a) % 2 ^ cfg.bits) % 2 ^ cfg.bits)

/-- Run `p` only if `c`. -/
def whenP (c : Bool) (p : Prog α ι ω Unit) : Prog α ι ω Unit :=
  if c then p else pure ()

end NdSlice
