import Verif.Model.Api

/-
`select_many_nth_unstable*` once more, with the user code of the collection: `collection.extend([(pivot, value)])`
(/repo/src/partition.rs:37) calls `Extend::extend`, which is given a mutable reference to the element.  It may keep the reference,
change any element it has been given a reference to so far, and panic.

Simplified: it changes elements while it is called only, not while a comparator runs (a comparator sharing the collection with
`RefCell` could).
-/

namespace NdSlice

variable {α ι ω : Type}

/-- Questions put to user code (/repo/src/partition.rs:35-37): those of the comparator, and calls of `extend` with the index and the elements behind all references given
out so far, the new one last. -/
inductive ExtQ (α ι : Type) where
  | ask (q : ι)
  | extend (i : Nat) (held : List α)
  deriving DecidableEq, Repr

/-- Answers of user code (/repo/src/partition.rs:35-37): the first component answers questions of the comparator; the second one says what `extend` has written
to the elements it has references to, from the first on, and whether it panics thereafter. -/
abbrev ExtA (α ω : Type) : Type := ω × (List α × Bool)

/-- A program asking the comparator only, such as /repo/src/partition.rs:35. -/
def Prog.asking {β : Type} : Prog α ι ω β → Prog α (ExtQ α ι) (ExtA α ω) β
  | .ret b => .ret b
  | .get a k => .get a fun x => (k x).asking
  | .set a x k => .set a x k.asking
  | .call q k => .call (.ask q) fun r => (k (r.map (·.1))).asking
  | .choose k => .choose fun b => (k b).asking
  | .throw e => .throw e
  | .ub => .ub
  | .diverge => .diverge
  | .join p q k => .join p.asking q.asking fun r t => (k r t).asking

/-- Reads the cells (what `extend` may do with the references given out: /repo/src/partition.rs:37). -/
def readAll : List Addr → Prog α ι ω (List α)
  | [] => pure []
  | a :: as => do
    let x ← deref a
    let xs ← readAll as
    pure (x :: xs)

/-- Writes the cells, as many as there are values (what `extend` may do with the references given out: /repo/src/partition.rs:37). -/
def writeAll : List Addr → List α → Prog α ι ω Unit
  | a :: as, x :: xs => .set a x (writeAll as xs)
  | _, _ => pure ()

/-- /repo/src/partition.rs:37: `collection.extend([(pivot, value)])`, where the collection has been given the references `held`. -/
def extendWith (pivot : Nat) (held : List Addr) : Prog α (ExtQ α ι) (ExtA α ω) Unit := do
  let xs ← readAll held
  .call (.extend pivot xs) fun
    | none => .throw .user
    | some r => do
      writeAll held r.2.1
      if r.2.2 then .throw .user else pure ()

/-- /repo/src/partition.rs:20-42 `partition_at_indices` with the collection, which holds the references `held`.  Yields the references
the collection has been given in the end. -/
def partitionAtIndicesExt (cfg : Cfg) (less : α → α → Prog α ι ω Bool) : Nat → View → Nat → List Nat → List Addr →
    Prog α (ExtQ α ι) (ExtA α ω) (List Addr)
  | 0, _, _, _, _ => .diverge
  | n + 1, v, offset, indices, held =>
    match indices[indices.length / 2]? with
    | none => pure held
    | some pivot => do
      let i ← usub cfg pivot offset
      let (left, value, right) ← partitionAtIndex cfg (fun x y => (less x y).asking) v i
      let held ← partitionAtIndicesExt cfg less n left offset (indices.take (indices.length / 2)) held
      let held := held ++ [value]
      extendWith pivot held
      partitionAtIndicesExt cfg less n right (pivot + 1) (indices.drop (indices.length / 2 + 1)) held

/-- `select_many_nth_unstable*` of /repo/src/lib.rs:2038-2093 with a collection which holds no reference in the beginning. -/
def selectManyExt {κ : Type} (st : Style) (cfg : Cfg) (v : View) (indices : List Nat) :
    Prog α (ExtQ α (st.Q α κ)) (ExtA α (st.A κ)) (List Addr) :=
  partitionAtIndicesExt cfg st.less (indices.length + 1) v 0 indices []

end NdSlice
