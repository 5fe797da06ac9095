import Verif.Model.RefsPar

/-
The parallel stable sort on places: as `Verif.Model.RefsPar`.
-/

namespace NdSlice.Refs

variable {α ι ω : Type} (cfg : Cfg) (less : Addr → Addr → Prog α ι ω Bool) (t : Addr)

/-! ### Sequential merge sort of a chunk -/

/-- /repo/src/par/merge_sort.rs:90-96: the shifting loop of `insert_head` with the hole at `d` (`d = i - 1`) and `n` iterations left. -/
def parInsertHeadLoop (v : View) : Nat → Nat → Prog α ι ω Unit
  | d, 0 => holeDrop v d t
  | d, n + 1 => do
    let a ← v.ref (d + 1)
    let b ← (less a t).onPanic (holeDrop v d t)
    if !b then
      holeDrop v d t
    else do
      let x ← deref a
      apart a (v.addr d)
      v.cset d x
      parInsertHeadLoop v (d + 1) n

/-- /repo/src/par/merge_sort.rs:49-114 `insert_head`. -/
def parInsertHead (v : View) : Prog α ι ω Unit :=
  if v.len ≥ 2 then do
    let a ← v.ref 1
    let b ← v.ref 0
    let c ← less a b
    if c then do
      let x ← v.idx 0
      store t x
      let z ← v.idx 1
      apart (v.addr 1) (v.addr 0)
      v.cset 0 z
      parInsertHeadLoop less t v 1 (v.len - 2)
    else pure ()
  else pure ()

/-- /repo/src/par/merge_sort.rs:413-415 (`rev`), 424-426 (not `rev`): going down from `start` while the run goes on. -/
def parStreak (v : View) (rev : Bool) : Nat → Prog α ι ω Nat
  | 0 => pure 0
  | s + 1 => do
    let x ← uref v (s + 1)
    let y ← uref v s
    let b ← less x y
    if b == rev then parStreak v rev s else pure (s + 1)

/-- /repo/src/par/merge_sort.rs:437-440: extending a short run that ends at `e` down from `start`; `MIN_RUN = 10`. -/
def parExtend (v : View) (e : Nat) : Nat → Prog α ι ω Nat
  | 0 => pure 0
  | s + 1 =>
    if e - (s + 1) < 10 then do
      let w ← v.slice s e
      parInsertHead less t w
      parExtend v e s
    else pure (s + 1)

/-- /repo/src/par/merge_sort.rs:405-440: finding the next run ending at `e > 0`: its start, or the result if the run covers everything. -/
def parNextRun (v : View) (e : Nat) : Prog α ι ω (MergesortResult ⊕ Nat) :=
  if e - 1 > 0 then do
    let start := e - 2
    let x ← uref v (start + 1)
    let y ← uref v start
    let b ← less x y
    if b then do
      let start ← parStreak less v true start
      if start == 0 && e == v.len then pure (.inl .descending)
      else do
        let w ← v.slice start e
        reverse cfg w
        let start ← parExtend less t v e start
        pure (.inr start)
    else do
      let start ← parStreak less v false start
      if e - start == v.len then pure (.inl .nonDescending)
      else do
        let start ← parExtend less t v e start
        pure (.inr start)
  else do
    let start ← parExtend less t v e (e - 1)
    pure (.inr start)

/-- /repo/src/par/merge_sort.rs:450-465: one iteration of the loop merging runs; `merge` is 124-311. -/
def parCollapseBody (v buf : View) (rs : List TimRun) : Prog α ι ω (List TimRun ⊕ List TimRun) :=
  match parCollapse rs with
  | none => pure (.inr rs)
  | some r => do
    let left ← runAt rs (r + 1)
    let right ← runAt rs r
    let w ← v.slice left.start (right.start + right.len)
    merge cfg less View.idx w left.len buf
    pure (.inl ((rs.set r ⟨left.len + right.len, left.start⟩).eraseIdx (r + 1)))

/-- /repo/src/par/merge_sort.rs:404-466: one iteration of the main loop; the state is `(end, runs)`. -/
def parMergeSortBody (v buf : View) : Nat × List TimRun → Prog α ι ω ((Nat × List TimRun) ⊕ (MergesortResult ⊕ List TimRun))
  | (e, rs) =>
    if e > 0 then do
      match ← parNextRun cfg less t v e with
      | .inl res => pure (.inr (.inl res))
      | .inr start => do
        let rs ← Prog.loop (parCollapseBody cfg less v buf) (rs.length + 2) (rs ++ [⟨e - start, start⟩])
        pure (.inl (start, rs))
    else pure (.inr (.inr rs))

/-- /repo/src/par/merge_sort.rs:387-474 `merge_sort`. -/
def parMergeSortSeq (v buf : View) : Prog α ι ω MergesortResult := do
  match ← Prog.loop (parMergeSortBody cfg less t v buf) (v.len + 1) (v.len, []) with
  | .inl res => pure res
  | .inr rs =>
    if cfg.dbg then do
      let n := rs.length
      let r ← runAt rs 0
      debugAssert cfg (n == 1 && r.start == 0 && r.len == v.len)
      pure .sorted
    else pure .sorted

/-! ### Merging in parallel -/

/-- /repo/src/par/merge_sort.rs:500-509: the search in `right` for the first element not less than `left[left_mid]`; the state is `(a, b)`. -/
def splitRightBody (left right : View) (leftMid : Nat) : Nat × Nat → Prog α ι ω ((Nat × Nat) ⊕ Nat)
  | (a, b) =>
    if a < b then do
      let m := a + (b - a) / 2
      let x ← right.ref m
      let y ← left.ref leftMid
      let c ← less x y
      pure (.inl (if c then (m + 1, b) else (a, m)))
    else pure (.inr a)

/-- /repo/src/par/merge_sort.rs:516-525: the search in `left` for the first element greater than `right[right_mid]`. -/
def splitLeftBody (left right : View) (rightMid : Nat) : Nat × Nat → Prog α ι ω ((Nat × Nat) ⊕ Nat)
  | (a, b) =>
    if a < b then do
      let m := a + (b - a) / 2
      let x ← right.ref rightMid
      let y ← left.ref m
      let c ← less x y
      pure (.inl (if c then (a, m) else (m + 1, b)))
    else pure (.inr a)

/-- /repo/src/par/merge_sort.rs:485-529 `split_for_merge`. -/
def splitForMerge (left right : View) : Prog α ι ω (Nat × Nat) :=
  if left.len ≥ right.len then do
    let leftMid := left.len / 2
    let a ← Prog.loop (splitRightBody less left right leftMid) (right.len + 1) (0, right.len)
    pure (leftMid, a)
  else do
    let rightMid := right.len / 2
    let a ← Prog.loop (splitLeftBody less left right rightMid) (left.len + 1) (0, left.len)
    pure (a, rightMid)

/-- `for i in 0..n { copy src[i + s] to dest[i + d] }`, with checked indices: /repo/src/par/merge_sort.rs:658-664 and 667-673. -/
def copyUp (src dest : View) (s d n : Nat) : Prog α ι ω Unit :=
  Prog.forUp (fun i => do
    let x ← src.idx (s + i)
    apart (src.addr (s + i)) (dest.addr (d + i))
    dest.cset (d + i) x) 0 n

/-- /repo/src/par/merge_sort.rs:649-676: the drop of `State`. -/
def stateDrop (left right dest : View) (l r d : Nat) : Prog α ι ω Unit := do
  let n ← usub cfg left.len l
  copyUp left dest l d n
  let k ← usub cfg right.len r
  copyUp right dest r (d + n) k

/-- /repo/src/par/merge_sort.rs:588-603: one iteration of the sequential merge; the state is `(left_start, right_start, dest_start)`. -/
def parMergeBody (left right dest : View) : Nat × Nat × Nat → Prog α ι ω ((Nat × Nat × Nat) ⊕ (Nat × Nat × Nat))
  | (l, r, d) =>
    if l < left.len && r < right.len then do
      let x ← right.ref r
      let y ← left.ref l
      let b ← (less x y).onPanic (stateDrop cfg left right dest l r d)
      if b then do
        let z ← right.idx r
        apart (right.addr r) (dest.addr d)
        dest.cset d z
        pure (.inl (l, r + 1, d + 1))
      else do
        let z ← left.idx l
        apart (left.addr l) (dest.addr d)
        dest.cset d z
        pure (.inl (l + 1, r, d + 1))
    else pure (.inr (l, r, d))

/-- /repo/src/par/merge_sort.rs:540-677 `par_merge`; `MAX_SEQUENTIAL = 5000`.  The first argument bounds the recursion. -/
def parMerge : Nat → (left right dest : View) → Prog α ι ω Unit
  | 0, _, _, _ => .diverge
  | n + 1, left, right, dest =>
    if left.len == 0 || right.len == 0 || left.len + right.len < 5000 then do
      let (l, r, d) ← Prog.loop (parMergeBody cfg less left right dest) (left.len + right.len + 1) (0, 0, 0)
      stateDrop cfg left right dest l r d
    else do
      let (ll, lr, rl, rr) ← (do
        let (leftMid, rightMid) ← splitForMerge less left right
        let (ll, lr) ← left.splitAt leftMid
        let (rl, rr) ← right.splitAt rightMid
        pure (ll, lr, rl, rr)).onPanic (stateDrop cfg left right dest 0 0 0)
      let (dl, dr) ← dest.splitAt (ll.len + rl.len)
      let _ ← Prog.rayonJoin (parMerge n ll rl dl) (parMerge n lr rr dr)
      pure ()

/-- /repo/src/par/merge_sort.rs:692-808 `recurse`.  The first argument bounds the recursion. -/
def parRecurse (v buf : View) : Nat → List (Nat × Nat) → Bool → Prog α ι ω Unit
  | 0, _, _ => .diverge
  | k + 1, chunks, intoBuf => do
    debugAssert cfg (decide (chunks.length > 0))
    if chunks.length == 1 then
      if intoBuf then do
        let (start, fin) ← chunkAt chunks 0
        copyUp v buf start start (fin - start)
      else pure ()
    else do
      let (start, _) ← chunkAt chunks 0
      let (mid, _) ← chunkAt chunks (chunks.length / 2)
      let last ← usub cfg chunks.length 1
      let (_, fin) ← chunkAt chunks last
      let src := if intoBuf then v else buf
      let dest := if intoBuf then buf else v
      let n ← usub cfg fin start
      let _ ← (Prog.rayonJoin (parRecurse v buf k (chunks.take (chunks.length / 2)) !intoBuf)
        (parRecurse v buf k (chunks.drop (chunks.length / 2)) !intoBuf)).onPanic (copyUp src dest start start n)
      let sl ← src.slice start mid
      let sr ← src.slice mid fin
      let d ← dest.slice start dest.len
      parMerge cfg less (sl.len + sr.len + 1) sl sr d

/-! ### The parallel sort -/

/-- /repo/src/par/merge_sort.rs:875-882: the task for chunk `i`; `CHUNK_LENGTH = 2000`. -/
def chunkTask (v buf : View) (i : Nat) : Prog α ι ω (Nat × Nat × MergesortResult) := do
  let l := 2000 * i
  let n := min 2000 (v.len - l)
  let res ← parMergeSortSeq cfg less t (v.sub l n) (buf.sub l n)
  pure (l, l + n, res)

/-- /repo/src/par/merge_sort.rs:866-885: `par_bridge().for_each()` on the `n` chunks from `i` on; as in the other model.  Each task has a stack of its own. -/
def chunkTasks (v buf : View) : (Nat → Addr) → Nat → Nat → Prog α ι ω (List (Option (Nat × Nat × MergesortResult)))
  | _, _, 0 => pure []
  | t, i, n + 1 => do
    let (r, rs) ← Prog.rayonJoin
      (.choose fun late => if late then pure none else do
        let r ← chunkTask cfg less (stackL t 0) v buf i
        pure (some r))
      (chunkTasks v buf (stackR t) (i + 1) n)
    pure (r :: rs)

/-- The chunks (numbered from `i` on) left out by `chunkTasks`: /repo/src/par/merge_sort.rs:875-882. -/
def lateChunks (v buf : View) : Nat → List (Option (Nat × Nat × MergesortResult)) → Prog α ι ω (List (Nat × Nat × MergesortResult))
  | _, [] => pure []
  | i, some r :: rs => do
    let rs ← lateChunks v buf (i + 1) rs
    pure (r :: rs)
  | i, none :: rs => do
    let r ← chunkTask cfg less t v buf i
    let rs ← lateChunks v buf (i + 1) rs
    pure (r :: rs)

/-- /repo/src/par/merge_sort.rs:892-895: whether the chunk `(x, y, r)` can be concatenated to one with result `res` before it. -/
def canConcat (v : View) (res : MergesortResult) (x : Nat) (r : MergesortResult) : Prog α ι ω Bool :=
  if res != .sorted && r == res then do
    let p ← usub cfg x 1
    let y ← v.ref x
    let z ← v.ref p
    let c ← less y z
    pure ((r == .descending) == c)
  else pure false

/-- /repo/src/par/merge_sort.rs:887-911: concatenating chunks that were left intact; `(a, b, res)` is the current chunk. -/
def concatChunks (v : View) (a b : Nat) (res : MergesortResult) : List (Nat × Nat × MergesortResult) → Prog α ι ω (List (Nat × Nat))
  | [] => do
    finishChunk cfg v a b res
    pure [(a, b)]
  | (x, y, r) :: rest => do
    let c ← canConcat cfg less v res x r
    if c then concatChunks v a y res rest
    else do
      finishChunk cfg v a b res
      let cs ← concatChunks v x y r rest
      pure ((a, b) :: cs)

/-- /repo/src/par/merge_sort.rs:858-918: the sort of more than one chunk. -/
def parMergeSortChunks (t : Nat → Addr) (v buf : View) : Prog α ι ω Unit := do
  let rs ← chunkTasks cfg less v buf t 0 ((v.len + 1999) / 2000)
  let rs ← lateChunks cfg less (t 0) v buf 0 rs
  let cs ← match rs with
    | [] => pure []
    | (a, b, res) :: rest => concatChunks cfg less v a b res rest
  parRecurse cfg less v buf cs.length cs false

/-- /repo/src/par/merge_sort.rs:814-919 `par_merge_sort`; `MAX_INSERTION = 20`.  `buf` is the allocated buffer. -/
def parMergeSort (t : Nat → Addr) (v buf : View) : Prog α ι ω Unit :=
  if cfg.zst then pure ()
  else if v.len ≤ 20 then
    if v.len ≥ 2 then
      Prog.forDown (fun i => do
        let w ← v.slice i v.len
        parInsertHead less (t 0) w) 0 (v.len - 1)
    else pure ()
  else if v.len ≤ 2000 then do
    let res ← parMergeSortSeq cfg less (t 0) v buf
    if res == .descending then reverse cfg v else pure ()
  else parMergeSortChunks cfg less t v buf

/-! ### The method -/

/-- /repo/src/lib.rs:1719-1748 `par_sort`, `par_sort_by`, `par_sort_by_key`.  `heap` is the address of the buffer. -/
def parSort (t : Nat → Addr) (v : View) (heap : Addr) : Prog α (α × α) (α × α × Option Bool) Unit :=
  parMergeSort cfg callAt t v ⟨heap, 1, v.len⟩

end NdSlice.Refs
