import Verif.Model.Partition
import Verif.Model.Api

/-
Model of the functions of /repo/src/lib.rs which only look at the array (`is_sorted*`, `binary_search*`,
`partition_point`, `contains`), of /repo/src/partition_dedup.rs, and of `reverse`.
-/

namespace NdSlice

variable {α κ ι ω : Type}

/-! ### Algorithms -/

/-- /repo/src/partition.rs:757-762: the loop of `is_sorted` from `i` on, with `n` iterations left. -/
def isSortedFrom (compare : α → α → Prog α ι ω Bool) (v : View) : Nat → Nat → Prog α ι ω Bool
  | _, 0 => pure true
  | i, n + 1 => do
    let a ← v.idx (i - 1)
    let b ← v.idx i
    let c ← compare a b
    if c then isSortedFrom compare v (i + 1) n else pure false

/-- /repo/src/partition.rs:753-764 `is_sorted`. -/
def isSortedBy (compare : α → α → Prog α ι ω Bool) (v : View) : Prog α ι ω Bool :=
  isSortedFrom compare v 1 (v.len - 1)

/-- /repo/src/lib.rs:2169-2192: one iteration of the loop of `binary_search_by`; the state is `(size, left, right)` and
`.ok`/`.error` are `Ok`/`Err`. -/
def binarySearchBody (cfg : Cfg) (f : α → Prog α ι ω Ordering) (v : View) :
    Nat × Nat × Nat → Prog α ι ω ((Nat × Nat × Nat) ⊕ Except Nat Nat)
  | (size, left, right) =>
    if left < right then do
      let mid := left + size / 2
      let x ← v.get mid
      let c ← f x
      let left := if c == .lt then mid + 1 else left
      let right := if c == .gt then mid else right
      if c == .eq then do
        debugAssert cfg (decide (mid < v.len))
        pure (.inr (.ok mid))
      else do
        let size ← usub cfg right left
        pure (.inl (size, left, right))
    else do
      debugAssert cfg (decide (left ≤ v.len))
      pure (.inr (.error left))

/-- /repo/src/lib.rs:2158-2199 `binary_search_by`. -/
def binarySearchBy (cfg : Cfg) (f : α → Prog α ι ω Ordering) (v : View) : Prog α ι ω (Except Nat Nat) :=
  Prog.loop (binarySearchBody cfg f v) (v.len + 1) (v.len, 0, v.len)

/-- /repo/src/lib.rs:2134-2141 `partition_point`. -/
def partitionPointBy (cfg : Cfg) (pred : α → Prog α ι ω Bool) (v : View) : Prog α ι ω Nat := do
  let r ← binarySearchBy cfg (fun x => do
    let b ← pred x
    pure (if b then Ordering.lt else Ordering.gt)) v
  pure (match r with
    | .ok i => i
    | .error i => i)

/-- /repo/src/lib.rs:2148: `self.iter().any(f)` from position `i` on, with `n` elements left.  ndarray's iterator visits the
elements in order. -/
def anyFrom (f : α → Prog α ι ω Bool) (v : View) : Nat → Nat → Prog α ι ω Bool
  | _, 0 => pure false
  | i, n + 1 => do
    let a ← v.get i
    let b ← f a
    if b then pure true else anyFrom f v (i + 1) n

/-- /repo/src/partition_dedup.rs:97-110: one iteration of the loop; the state is `(next_read, next_write)`.
`same` is given the addresses of the two elements, as it may change them. -/
def dedupBody (cfg : Cfg) (same : Addr → Addr → Prog α ι ω Bool) (v : View) :
    Nat × Nat → Prog α ι ω ((Nat × Nat) ⊕ Nat)
  | (read, write) =>
    if read < v.len then do
      let prev ← usub cfg write 1
      let a ← uref v read
      let b ← uref v prev
      let c ← same a b
      if !c then do
        whenP (read != write) (v.uswap read (prev + 1))
        pure (.inl (read + 1, write + 1))
      else pure (.inl (read + 1, write))
    else pure (.inr write)
where
  /-- `uget_mut(i) as *mut T`: undefined if out of bounds. -/
  uref (v : View) (i : Nat) : Prog α ι ω Addr := if i < v.len then pure (v.addr i) else .ub

/-- /repo/src/partition_dedup.rs:7-114 `partition_dedup`. -/
def partitionDedupBy (cfg : Cfg) (same : Addr → Addr → Prog α ι ω Bool) (v : View) : Prog α ι ω (View × View) :=
  if v.len ≤ 1 then do
    let (duplicates, dedup) ← v.splitAt 0
    pure (dedup, duplicates)
  else do
    let write ← Prog.loop (dedupBody cfg same v) (v.len + 1) (1, 1)
    v.splitAt write

/-! ### Methods -/

/-- `is_sorted` and `is_sorted_by` (`rel`: one call of `A::le` or of the closure), `is_sorted_by_key` (`key`):
/repo/src/lib.rs:1949-1970. -/
inductive RelStyle where
  | rel
  | key
  deriving DecidableEq, Repr

/-- What user code is asked (/repo/src/lib.rs:1954, 1961, 1969).  For `key` the question `KeyQ.lt k l` stands for `k <= l`. -/
def RelStyle.Q (α κ : Type) : RelStyle → Type
  | .rel => α × α
  | .key => KeyQ α κ

/-- What user code answers (see `Style.A`; /repo/src/lib.rs:1954, 1961, 1969). -/
def RelStyle.A (κ : Type) : RelStyle → Type
  | .rel => Bool
  | .key => κ × Bool

/-- /repo/src/lib.rs:1954, 1961, 1969: the closures. -/
def RelStyle.test : (st : RelStyle) → α → α → Prog α (st.Q α κ) (st.A κ) Bool
  | .rel, x, y => Prog.call (ι := α × α) (x, y) fun
    | none => .throw .user
    | some b => .ret b
  | .key, x, y => Prog.call (ι := KeyQ α κ) (.key x) fun
    | none => .throw .user
    | some k => .call (.key y) fun
      | none => .throw .user
      | some l => .call (.lt k.1 l.1) fun
        | none => .throw .user
        | some b => .ret b.2

/-- /repo/src/lib.rs:1949-1970 `is_sorted`, `is_sorted_by`, `is_sorted_by_key`. -/
def isSorted (st : RelStyle) (v : View) : Prog α (st.Q α κ) (st.A κ) Bool := isSortedBy st.test v

/-- `binary_search` (`ord`), `binary_search_by` (`fn`), `binary_search_by_key` (`key`): /repo/src/lib.rs:2151-2207. -/
inductive SearchStyle where
  | ord
  | fn
  | key
  deriving DecidableEq, Repr

namespace SearchStyle

/-- What is searched for: /repo/src/lib.rs:2152, 2158 and 2201. -/
def T (α κ : Type) : SearchStyle → Type
  | .ord => α
  | .fn => Unit
  | .key => κ

/-- What user code is asked (/repo/src/lib.rs:2156, 2176, 2206): `p.cmp(x)`, `f(p)`, or `f(p)` and then `k.cmp(b)` (`KeyQ.lt k b`). -/
def Q (α κ : Type) : SearchStyle → Type
  | .ord => α × α
  | .fn => α
  | .key => KeyQ α κ

/-- What user code answers: /repo/src/lib.rs:2156, 2176, 2206. -/
def A (κ : Type) : SearchStyle → Type
  | .ord => Ordering
  | .fn => Ordering
  | .key => κ × Ordering

/-- /repo/src/lib.rs:2156, 2160, 2206: the closures. -/
def ask : (st : SearchStyle) → st.T α κ → α → Prog α (st.Q α κ) (st.A κ) Ordering
  | .ord, x, p => Prog.call (ι := α × α) (p, x) fun
    | none => .throw .user
    | some c => .ret c
  | .fn, _, p => Prog.call (ι := α) p fun
    | none => .throw .user
    | some c => .ret c
  | .key, b, p => Prog.call (ι := KeyQ α κ) (.key p) fun
    | none => .throw .user
    | some k => .call (.lt k.1 b) fun
      | none => .throw .user
      | some c => .ret c.2

end SearchStyle

/-- /repo/src/lib.rs:2151-2207 `binary_search`, `binary_search_by`, `binary_search_by_key`. -/
def binarySearch (st : SearchStyle) (cfg : Cfg) (v : View) (t : st.T α κ) : Prog α (st.Q α κ) (st.A κ) (Except Nat Nat) :=
  binarySearchBy cfg (st.ask t) v

/-- One call of a predicate: /repo/src/lib.rs:2139 and 2148. -/
def askPred (x : α) : Prog α α Bool Bool := .call x fun
  | none => .throw .user
  | some b => .ret b

/-- /repo/src/lib.rs:2134-2141 `partition_point`. -/
def partitionPoint (cfg : Cfg) (v : View) : Prog α α Bool Nat := partitionPointBy cfg askPred v

/-- /repo/src/lib.rs:2143-2149 `contains`: the questions are `a == x`. -/
def contains (v : View) (x : α) : Prog α (α × α) Bool Bool :=
  anyFrom (fun a => .call (a, x) fun
    | none => .throw .user
    | some b => .ret b) v 0 v.len

/-- `partition_dedup` (`eq`), `partition_dedup_by` (`fn`), `partition_dedup_by_key` (`key`): /repo/src/lib.rs:2209-2239. -/
inductive DedupStyle where
  | eq
  | fn
  | key
  deriving DecidableEq, Repr

namespace DedupStyle

/-- What user code is asked (/repo/src/lib.rs:2215, 2226, 2238): `a == b`, `same_bucket(a, b)`, or `key(a)`, `key(b)` and then `k == l` (`KeyQ.lt k l`). -/
def Q (α κ : Type) : DedupStyle → Type
  | .eq => α × α
  | .fn => α × α
  | .key => KeyQ α κ

/-- What user code answers (/repo/src/lib.rs:2215, 2226, 2238).  `fn`: it may change both elements (the first two components), and then panic (`none`) or answer.
`key`: for a `key` question it may change the element (first component) and then panic (`none`) or give a key; the last component answers
the comparison of keys. -/
def A (α κ : Type) : DedupStyle → Type
  | .eq => Bool
  | .fn => α × α × Option Bool
  | .key => α × Option κ × Bool

/-- `key(&mut *a)`, /repo/src/lib.rs:2238. -/
def askKey (a : Addr) : Prog α (KeyQ α κ) (α × Option κ × Bool) κ :=
  .get a fun x => .call (.key x) fun
    | none => .throw .user
    | some r => .set a r.1 (match r.2.1 with
      | none => .throw .user
      | some k => .ret k)

/-- /repo/src/lib.rs:2215, 2225, 2237: the closures. -/
def same : (st : DedupStyle) → Addr → Addr → Prog α (st.Q α κ) (st.A α κ) Bool
  | .eq, a, b => .get a fun x => .get b fun y => Prog.call (ι := α × α) (x, y) fun
    | none => .throw .user
    | some r => .ret r
  | .fn, a, b => .get a fun x => .get b fun y => Prog.call (ι := α × α) (x, y) fun
    | none => .throw .user
    | some (r : α × α × Option Bool) => .set a r.1 (.set b r.2.1 (match r.2.2 with
      | none => .throw .user
      | some c => .ret c))
  | .key, a, b => Prog.bind (askKey a) fun k => Prog.bind (askKey b) fun l => Prog.call (ι := KeyQ α κ) (.lt k l) fun
    | none => .throw .user
    | some (r : α × Option κ × Bool) => .ret r.2.2

end DedupStyle

/-- /repo/src/lib.rs:2209-2239 `partition_dedup`, `partition_dedup_by`, `partition_dedup_by_key`. -/
def partitionDedup (st : DedupStyle) (cfg : Cfg) (v : View) : Prog α (st.Q α κ) (st.A α κ) (View × View) :=
  partitionDedupBy cfg st.same v

end NdSlice
