import Verif.Core.View

/-
Model of /repo/src/heap_sort.rs (and of /repo/src/par/heap_sort.rs, the same code with `Fn`).
-/

namespace NdSlice

variable {α ι ω : Type} (less : α → α → Prog α ι ω Bool)

/-- /repo/src/heap_sort.rs:15-38: one iteration of the loop of `sift_down` at `node`. -/
def siftDownStep (v : View) (node : Nat) : Prog α ι ω (Nat ⊕ Unit) := do
  let child := 2 * node + 1
  if child ≥ v.len then pure (.inr ())
  else do
    let child ← (if child + 1 < v.len then do
        let x ← v.idx child
        let y ← v.idx (child + 1)
        let b ← less x y
        pure (if b then child + 1 else child)
      else pure child)
    let x ← v.idx node
    let y ← v.idx child
    let b ← less x y
    if !b then pure (.inr ())
    else do
      v.swap node child
      pure (.inl child)

/-- /repo/src/heap_sort.rs:14-39 `sift_down`. -/
def siftDown (v : View) (node : Nat) : Prog α ι ω Unit :=
  Prog.loop (siftDownStep less v) (v.len + 1) node

/-- /repo/src/heap_sort.rs:9-51 `heap_sort`. -/
def heapSort (v : View) : Prog α ι ω Unit := do
  Prog.forDown (fun i => siftDown less v i) 0 (v.len / 2)
  Prog.forDown (fun i => do
    v.swap 0 i
    let w ← v.slice 0 i
    siftDown less w 0) 1 (v.len - 1)

end NdSlice
