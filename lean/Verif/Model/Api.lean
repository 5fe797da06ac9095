import Verif.Model.Quick
import Verif.Model.Select
import Verif.Model.Merge
import Verif.Model.ParMerge

/-
The public methods of `Slice1Ext` (/repo/src/lib.rs:1715-2248): how each of them turns the user's closure into the
`is_less` of the algorithms.
-/

namespace NdSlice

variable {α κ : Type}

/-- Questions put to the user code of a `_by_key` method (e.g. /repo/src/lib.rs:1946): the key of an element, and `K::lt` on two keys. -/
inductive KeyQ (α κ : Type) where
  | key (x : α)
  | lt (k l : κ)
  deriving DecidableEq, Repr

/-- The three flavours of every method (e.g. /repo/src/lib.rs:1923-1947): `x()` uses `A::lt`, `x_by(compare)` the closure, `x_by_key(f)` the closure `f` and
`K::lt`. -/
inductive Style where
  | ord
  | cmp
  | key
  deriving DecidableEq, Repr

namespace Style

/-- What user code is asked: the arguments of `A::lt` (/repo/src/lib.rs:1929), of `compare` (/repo/src/lib.rs:1937), of `f` and of `K::lt`
(/repo/src/lib.rs:1946). -/
def Q (α κ : Type) : Style → Type
  | .ord => α × α
  | .cmp => α × α
  | .key => KeyQ α κ

/-- What user code answers (/repo/src/lib.rs:1929, 1937, 1946).  (In the `key` flavour the first component answers the `key` questions and the
second one the `lt` questions.) -/
def A (κ : Type) : Style → Type
  | .ord => Bool
  | .cmp => Ordering
  | .key => κ × Bool

/-- The `is_less` closures: `A::lt` (e.g. /repo/src/lib.rs:1929), `|a, b| compare(a, b) == Less` (e.g.
/repo/src/lib.rs:1937) and `|a, b| f(a).lt(&f(b))` (e.g. /repo/src/lib.rs:1946).  The drop of the keys is not modelled. -/
def less : (st : Style) → α → α → Prog α (st.Q α κ) (st.A κ) Bool
  | .ord, x, y => Prog.call (ι := α × α) (x, y) fun
    | none => .throw .user
    | some b => .ret b
  | .cmp, x, y => Prog.call (ι := α × α) (x, y) fun
    | none => .throw .user
    | some (c : Ordering) => .ret (c == .lt)
  | .key, x, y => Prog.call (ι := KeyQ α κ) (.key x) fun
    | none => .throw .user
    | some k => .call (.key y) fun
      | none => .throw .user
      | some l => .call (.lt k.1 l.1) fun
        | none => .throw .user
        | some b => .ret b.2

end Style

variable (st : Style) (cfg : Cfg) (v : View)

/-- /repo/src/lib.rs:1923-1947 `sort_unstable`, `sort_unstable_by`, `sort_unstable_by_key`. -/
def sortUnstable : Prog α (st.Q α κ) (st.A κ) Unit := quickSort cfg st.less v

/-- /repo/src/lib.rs:1892-1921 `par_sort_unstable`, `par_sort_unstable_by`, `par_sort_unstable_by_key`. -/
def parSortUnstable : Prog α (st.Q α κ) (st.A κ) Unit := parQuickSort cfg st.less v

/-- /repo/src/lib.rs:2095-2132 `select_nth_unstable`, `select_nth_unstable_by`, `select_nth_unstable_by_key`. -/
def selectNthUnstable (index : Nat) : Prog α (st.Q α κ) (st.A κ) (View × Addr × View) :=
  partitionAtIndex cfg st.less v index

/-- /repo/src/lib.rs:2038-2093 `select_many_nth_unstable`, `select_many_nth_unstable_by`,
`select_many_nth_unstable_by_key`: the pairs the collection is extended with, in order. -/
def selectManyNthUnstable (indices : List Nat) : Prog α (st.Q α κ) (st.A κ) (List (Nat × Addr)) :=
  selectMany cfg st.less v indices

/-- /repo/src/lib.rs:1972-2036 `par_select_many_nth_unstable`, `par_select_many_nth_unstable_by`,
`par_select_many_nth_unstable_by_key`.  `Vec::reserve_exact(n)` leaves a spare capacity of at least `n`: here it is
`n + extra` slots.  The result is the list of slot writes; afterwards `set_len` exposes the first `n` slots. -/
def parSelectManyNthUnstable (indices : List Nat) (extra : Nat) : Prog α (st.Q α κ) (st.A κ) (List (Nat × Addr)) :=
  parSelectMany cfg st.less v indices (indices.length + extra)

/-- /repo/src/lib.rs:1810-1837 `sort`, `sort_by`, `sort_by_key`.  `al` is what the allocator does and `heap` the address of the
element buffer it gives, which has room for `len / 2` elements (/repo/src/merge_sort.rs:243). -/
def sortStable (al : Alloc) (heap : Addr) : Prog α (st.Q α κ) (st.A κ) Unit :=
  stableSort cfg st.less al v ⟨heap, 1, v.len / 2⟩

/-- /repo/src/lib.rs:1719-1748 `par_sort`, `par_sort_by`, `par_sort_by_key`.  `heap` is the address of the buffer, which has room for
`len` elements (/repo/src/par/merge_sort.rs:846); a failure of its allocation aborts the process and is not modelled. -/
def parSortStable (heap : Addr) : Prog α (st.Q α κ) (st.A κ) Unit :=
  parMergeSort cfg st.less v ⟨heap, 1, v.len⟩

end NdSlice
