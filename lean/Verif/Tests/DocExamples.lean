import Verif.Model.Search
import Verif.Model.Cached
import Verif.Core.Sem
import Verif.Props.Cached

/-
The examples of the documentation of /repo/src/lib.rs, executed by the model.  These are tests of the model, not proofs about it.
-/

namespace NdSlice.DocExamples

/-- An array at address 0. -/
def memOf {α : Type} [Inhabited α] (xs : List α) : Mem α := fun a => xs[a.toNat]?.getD default

def viewOf {α : Type} (xs : List α) : View := ⟨0, 1, xs.length⟩

def cfg : Cfg := ⟨true, 64, false⟩

def alloc : Alloc := ⟨true, fun _ => true⟩

/-- User code of the three flavours: `a.lt(b)`, `compare(a, b)`, `f(a)` and `k.lt(l)`. -/
def user {α κ : Type} (compare : α → α → Ordering) (f : α → κ) (lt : κ → κ → Bool) (k₀ : κ) : (st : Style) → Oracle Unit (st.Q α κ) (st.A κ)
  | .ord => ⟨fun _ q => (some (compare q.1 q.2 == .lt), ()), fun _ => (true, ())⟩
  | .cmp => ⟨fun _ q => (some (compare q.1 q.2), ()), fun _ => (true, ())⟩
  | .key => ⟨fun _ q => (some (match (q : KeyQ α κ) with | .key x => (f x, true) | .lt k l => (k₀, lt k l)), ()), fun _ => (true, ())⟩

/-- Integers in their order, with absolute values as keys. -/
def ints : (st : Style) → Oracle Unit (st.Q Int Nat) (st.A Nat) := user compare Int.natAbs (fun k l => decide (k < l)) 0

/-- The same in descending order. -/
def rev : (st : Style) → Oracle Unit (st.Q Int Nat) (st.A Nat) := user (fun a b => compare b a) Int.natAbs (fun k l => decide (k < l)) 0

/-- The array afterwards, if the method returned. -/
def after {α ι ω β : Type} [Inhabited α] (o : Oracle Unit ι ω) (p : View → Prog α ι ω β) (xs : List α) : Option (List α) :=
  match run o (p (viewOf xs)) ⟨memOf xs, (), []⟩ with
  | (.ok _, s) => some ((viewOf xs).contents s.mem)
  | _ => none

/-- The result and the memory afterwards. -/
def result {α ι ω β γ : Type} [Inhabited α] (o : Oracle Unit ι ω) (p : View → Prog α ι ω β) (xs : List α) (g : Mem α → β → γ) : Option γ :=
  match run o (p (viewOf xs)) ⟨memOf xs, (), []⟩ with
  | (.ok b, s) => some (g s.mem b)
  | _ => none

/-! ### Sorts -/

/-- /repo/src/lib.rs:9-36: the last column of a matrix. -/
def matrix : List Int := [-5, 4, 1, -3, 2, 8, 3, 2, 4, 8, 38, 9, 3, 0, 3, 4, 9, 0, 8, -1]

example : (match run (ints .ord) (sortUnstable (κ := Nat) .ord cfg ⟨4, 5, 4⟩) ⟨memOf matrix, (), []⟩ with
    | (.ok _, s) => some ((viewOf matrix).contents s.mem)
    | _ => none) = some [-5, 4, 1, -3, -1, 8, 3, 2, 4, 2, 38, 9, 3, 0, 3, 4, 9, 0, 8, 8] := by decide +kernel

/-- /repo/src/lib.rs:162-169. -/
example : after (ints .ord) (fun v => parSortStable (κ := Nat) .ord cfg v 100) [-5, 4, 1, -3, 2] = some [-5, -3, 1, 2, 4] := by decide +kernel
/-- /repo/src/lib.rs:219-228. -/
example : after (ints .cmp) (fun v => parSortStable (κ := Nat) .cmp cfg v 100) [5, 4, 1, 3, 2] = some [1, 2, 3, 4, 5] := by decide +kernel
example : after (rev .cmp) (fun v => parSortStable (κ := Nat) .cmp cfg v 100) [1, 2, 3, 4, 5] = some [5, 4, 3, 2, 1] := by decide +kernel
/-- /repo/src/lib.rs:266-272. -/
example : after (ints .key) (fun v => parSortStable (κ := Nat) .key cfg v 100) [-5, 4, 2, -3, 1] = some [1, 2, -3, 4, -5] := by decide +kernel

/-- Decimal digits and the minus sign, in the order of the characters. -/
def digits (x : Int) : List Nat := (if x < 0 then [45] else []) ++ (Nat.toDigits 10 x.natAbs).map Char.toNat

def strings : Oracle Unit (KeyQ Int (List Nat)) (List Nat × Bool) :=
  ⟨fun _ q => (some (match q with | .key x => (digits x, true) | .lt k l => ([], decide (k < l))), ()), fun _ => (true, ())⟩

/-- /repo/src/lib.rs:312-320. -/
example : after strings (parSortByCachedKey cfg Sample.sizes Sample.pairSort) [-5, 4, 32, -3, 2] = some [-3, -5, 2, 32, 4] := by decide +kernel
/-- /repo/src/lib.rs:489-495. -/
example : after strings (sortByCachedKey cfg Sample.sizes Sample.pairSort) [-5, 4, 32, -3, 2] = some [-3, -5, 2, 32, 4] := by decide +kernel

/-- /repo/src/lib.rs:351-357. -/
example : after (ints .ord) (fun v => sortStable (κ := Nat) .ord cfg v alloc 100) [-5, 4, 1, -3, 2] = some [-5, -3, 1, 2, 4] := by decide +kernel
/-- /repo/src/lib.rs:403-411. -/
example : after (ints .cmp) (fun v => sortStable (κ := Nat) .cmp cfg v alloc 100) [5, 4, 1, 3, 2] = some [1, 2, 3, 4, 5] := by decide +kernel
example : after (rev .cmp) (fun v => sortStable (κ := Nat) .cmp cfg v alloc 100) [1, 2, 3, 4, 5] = some [5, 4, 3, 2, 1] := by decide +kernel
/-- /repo/src/lib.rs:447-453. -/
example : after (ints .key) (fun v => sortStable (κ := Nat) .key cfg v alloc 100) [-5, 4, 2, -3, 1] = some [1, 2, -3, 4, -5] := by decide +kernel

/-- /repo/src/lib.rs:528-534. -/
example : after (ints .ord) (parSortUnstable (κ := Nat) .ord cfg) [-5, 4, 1, -3, 2] = some [-5, -3, 1, 2, 4] := by decide +kernel
/-- /repo/src/lib.rs:585-593. -/
example : after (ints .cmp) (parSortUnstable (κ := Nat) .cmp cfg) [5, 4, 1, 3, 2] = some [1, 2, 3, 4, 5] := by decide +kernel
example : after (rev .cmp) (parSortUnstable (κ := Nat) .cmp cfg) [1, 2, 3, 4, 5] = some [5, 4, 3, 2, 1] := by decide +kernel
/-- /repo/src/lib.rs:628-634. -/
example : after (ints .key) (parSortUnstable (κ := Nat) .key cfg) [-5, 4, 2, -3, 1] = some [1, 2, -3, 4, -5] := by decide +kernel
/-- /repo/src/lib.rs:664-670. -/
example : after (ints .ord) (sortUnstable (κ := Nat) .ord cfg) [-5, 4, 1, -3, 2] = some [-5, -3, 1, 2, 4] := by decide +kernel
/-- /repo/src/lib.rs:716-724. -/
example : after (ints .cmp) (sortUnstable (κ := Nat) .cmp cfg) [5, 4, 1, 3, 2] = some [1, 2, 3, 4, 5] := by decide +kernel
example : after (rev .cmp) (sortUnstable (κ := Nat) .cmp cfg) [1, 2, 3, 4, 5] = some [5, 4, 3, 2, 1] := by decide +kernel
/-- /repo/src/lib.rs:753-759. -/
example : after (ints .key) (sortUnstable (κ := Nat) .key cfg) [-5, 4, 2, -3, 1] = some [1, 2, -3, 4, -5] := by decide +kernel

/-! ### Order -/

def relOf {α : Type} (f : α → α → Bool) : Oracle Unit (RelStyle.Q α Nat .rel) (RelStyle.A Nat .rel) := ⟨fun _ q => (some (f q.1 q.2), ()), fun _ => (true, ())⟩

def relKey {α : Type} (f : α → Nat) : Oracle Unit (RelStyle.Q α Nat .key) (RelStyle.A Nat .key) :=
  ⟨fun _ q => (some (match (q : KeyQ α Nat) with | .key x => (f x, true) | .lt k l => (0, decide (k ≤ l))), ()), fun _ => (true, ())⟩

def le (a b : Int) : Bool := decide (a ≤ b)

/-- Numbers which may be `NaN`. -/
def leNan : Option Int → Option Int → Bool
  | some a, some b => le a b
  | _, _ => false

/-- /repo/src/lib.rs:785-789. -/
example : result (relOf le) (isSorted (κ := Nat) .rel) [1, 2, 2, 9] (fun _ b => b) = some true := by decide +kernel
example : result (relOf le) (isSorted (κ := Nat) .rel) [1, 3, 2, 4] (fun _ b => b) = some false := by decide +kernel
example : result (relOf le) (isSorted (κ := Nat) .rel) [0] (fun _ b => b) = some true := by decide +kernel
example : result (relOf le) (isSorted (κ := Nat) .rel) [] (fun _ b => b) = some true := by decide +kernel
example : result (relOf leNan) (isSorted (κ := Nat) .rel) [some 0, some 1, none] (fun _ b => b) = some false := by decide +kernel
/-- /repo/src/lib.rs:805-813. -/
example : result (relOf fun a b : Int => decide (a < b)) (isSorted (κ := Nat) .rel) [1, 2, 2, 9] (fun _ b => b) = some false := by decide +kernel
example : result (relOf fun _ _ : Int => false) (isSorted (κ := Nat) .rel) [0] (fun _ b => b) = some true := by decide +kernel
example : result (relOf fun _ _ : Int => false) (isSorted (κ := Nat) .rel) [] (fun _ b => b) = some true := by decide +kernel
/-- /repo/src/lib.rs:832-833 (strings as their lists of characters). -/
example : result (relKey List.length) (isSorted (κ := Nat) .key) [['c'], ['b', 'b'], ['a', 'a', 'a']] (fun _ b => b) = some true := by decide +kernel
example : result (relKey Int.natAbs) (isSorted (κ := Nat) .key) [-2, -1, 0, 3] (fun _ b => b) = some false := by decide +kernel

/-! ### Selections -/

/-- What is in the three slots of the collection. -/
def slots (m : Mem Int) (r : List (Nat × Addr)) : List (Option Int) := (List.range 3).map fun i => (r.lookup i).map m

def nine : List Int := [-5, 4, 2, -3, 1, 9, 3, 4, 0]

/-- /repo/src/lib.rs:868-878, 1024-1034 (the references are addresses here). -/
example : result (ints .ord) (fun v => parSelectManyNthUnstable (κ := Nat) .ord cfg v [1, 4, 6] 0) nine slots = some [some (-3), some (2), some (4)] := by
  decide +kernel
example : result (ints .ord) (fun v => selectManyNthUnstable (κ := Nat) .ord cfg v [1, 4, 6]) nine (fun m r => r.map fun p => (p.1, m p.2)) =
    some [(1, -3), (4, 2), (6, 4)] := by decide +kernel
/-- /repo/src/lib.rs:918-928, 1075-1085. -/
example : result (rev .cmp) (fun v => parSelectManyNthUnstable (κ := Nat) .cmp cfg v [1, 4, 6] 0) nine slots = some [some (4), some (2), some (0)] := by
  decide +kernel
example : result (rev .cmp) (fun v => selectManyNthUnstable (κ := Nat) .cmp cfg v [1, 4, 6]) nine (fun m r => r.map fun p => (p.1, m p.2)) =
    some [(1, 4), (4, 2), (6, 0)] := by decide +kernel
/-- /repo/src/lib.rs:970-980, 1128-1138. -/
example : result (ints .key) (fun v => parSelectManyNthUnstable (κ := Nat) .key cfg v [1, 4, 6] 0) nine slots = some [some (1), some (3), some (4)] := by
  decide +kernel
example : result (ints .key) (fun v => selectManyNthUnstable (κ := Nat) .key cfg v [1, 4, 6]) nine (fun m r => r.map fun p => (p.1, m p.2)) =
    some [(1, 1), (4, 3), (6, 4)] := by decide +kernel

/-- The three parts. -/
def parts (m : Mem Int) (r : View × Addr × View) : List Int × Int × List Int := (r.1.contents m, m r.2.1, r.2.2.contents m)

/-- /repo/src/lib.rs:1180-1190. -/
example : result (ints .ord) (fun v => selectNthUnstable (κ := Nat) .ord cfg v 2) [-5, 4, 2, -3, 1] parts ∈
    [some ([-3, -5], 1, [4, 2]), some ([-3, -5], 1, [2, 4]), some ([-5, -3], 1, [4, 2]), some ([-5, -3], 1, [2, 4])] := by decide +kernel
/-- /repo/src/lib.rs:1236-1249. -/
example : result (rev .cmp) (fun v => selectNthUnstable (κ := Nat) .cmp cfg v 2) [-5, 4, 2, -3, 1] parts ∈
    [some ([4, 2], 1, [-3, -5]), some ([4, 2], 1, [-5, -3]), some ([2, 4], 1, [-3, -5]), some ([2, 4], 1, [-5, -3])] := by decide +kernel
/-- /repo/src/lib.rs:1296-1309. -/
example : result (ints .key) (fun v => selectNthUnstable (κ := Nat) .key cfg v 2) [-5, 4, 2, -3, 1] parts ∈
    [some ([1, 2], -3, [4, -5]), some ([1, 2], -3, [-5, 4]), some ([2, 1], -3, [4, -5]), some ([2, 1], -3, [-5, 4])] := by decide +kernel

/-! ### Searches -/

def pred (f : Int → Bool) : Oracle Unit Int Bool := ⟨fun _ x => (some (f x), ()), fun _ => (true, ())⟩

def fib : List Int := [0, 1, 1, 1, 1, 2, 3, 5, 8, 13, 21, 34, 55]

/-- /repo/src/lib.rs:1355-1358, 1369-1372, 1381-1383. -/
example : result (pred (· < 5)) (partitionPoint cfg) [1, 2, 3, 3, 5, 6, 7] (fun _ b => b) = some 4 := by decide +kernel
example : result (pred (· < 100)) (partitionPoint cfg) [2, 4, 8] (fun _ b => b) = some 3 := by decide +kernel
example : result (pred (· < 100)) (partitionPoint cfg) [] (fun _ b => b) = some 0 := by decide +kernel
example : result (pred (· < 42)) (partitionPoint cfg) fib (fun _ b => b) = some 12 := by decide +kernel
/-- /repo/src/lib.rs:1474-1477, 1486-1487. -/
example : result (pred (· < 1)) (partitionPoint cfg) fib (fun _ b => b) = some 1 := by decide +kernel
example : result (pred (· ≤ 1)) (partitionPoint cfg) fib (fun _ b => b) = some 5 := by decide +kernel
example : result (pred (· < 11)) (partitionPoint cfg) fib (fun _ b => b) = some 9 := by decide +kernel
example : result (pred (· ≤ 11)) (partitionPoint cfg) fib (fun _ b => b) = some 9 := by decide +kernel

/-- /repo/src/lib.rs:1407-1409. -/
def equal : Oracle Unit (Int × Int) Bool := ⟨fun _ q => (some (q.1 == q.2), ()), fun _ => (true, ())⟩
example : result equal (contains · 30) [10, 40, 30] (fun _ b => b) = some true := by decide +kernel
example : result equal (contains · 50) [10, 40, 30] (fun _ b => b) = some false := by decide +kernel

def searchOrd : Oracle Unit (SearchStyle.Q Int Int .ord) (SearchStyle.A Int .ord) := ⟨fun _ q => (some (compare q.1 q.2), ()), fun _ => (true, ())⟩
def searchFn (x : Int) : Oracle Unit (SearchStyle.Q Int Int .fn) (SearchStyle.A Int .fn) := ⟨fun _ p => (some (compare (show Int from p) x), ()), fun _ => (true, ())⟩
def searchKey : Oracle Unit (SearchStyle.Q (Int × Int) Int .key) (SearchStyle.A Int .key) :=
  ⟨fun _ q => (some (match (q : KeyQ (Int × Int) Int) with | .key x => (x.2, .eq) | .lt k l => (0, compare k l)), ()), fun _ => (true, ())⟩

def show' (_ : Mem α) : Except Nat Nat → Bool × Nat
  | .ok i => (true, i)
  | .error i => (false, i)

/-- /repo/src/lib.rs:1455-1461, 1488. -/
example : result searchOrd (fun v => binarySearch (κ := Int) .ord cfg v (13 : Int)) fib show' = some (true, 9) := by decide +kernel
example : result searchOrd (fun v => binarySearch (κ := Int) .ord cfg v (4 : Int)) fib show' = some (false, 7) := by decide +kernel
example : result searchOrd (fun v => binarySearch (κ := Int) .ord cfg v (100 : Int)) fib show' = some (false, 13) := by decide +kernel
example : result searchOrd (fun v => binarySearch (κ := Int) .ord cfg v (1 : Int)) fib show' ∈ [some (true, 1), some (true, 2), some (true, 3), some (true, 4)] := by
  decide +kernel
example : result searchOrd (fun v => binarySearch (κ := Int) .ord cfg v (11 : Int)) fib show' = some (false, 9) := by decide +kernel
/-- /repo/src/lib.rs:1546-1554. -/
example : result (searchFn 13) (fun v => binarySearch (κ := Int) .fn cfg v ()) fib show' = some (true, 9) := by decide +kernel
example : result (searchFn 4) (fun v => binarySearch (κ := Int) .fn cfg v ()) fib show' = some (false, 7) := by decide +kernel
example : result (searchFn 100) (fun v => binarySearch (κ := Int) .fn cfg v ()) fib show' = some (false, 13) := by decide +kernel

def pairs : List (Int × Int) :=
  [(0, 0), (2, 1), (4, 1), (5, 1), (3, 1), (1, 2), (2, 3), (4, 5), (5, 8), (3, 13), (1, 21), (2, 34), (4, 55)]

/-- /repo/src/lib.rs:1599-1607. -/
example : result searchKey (fun v => binarySearch .key cfg v (13 : Int)) pairs show' = some (true, 9) := by decide +kernel
example : result searchKey (fun v => binarySearch .key cfg v (4 : Int)) pairs show' = some (false, 7) := by decide +kernel
example : result searchKey (fun v => binarySearch .key cfg v (100 : Int)) pairs show' = some (false, 13) := by decide +kernel

/-! ### Duplicates -/

def both {α : Type} (m : Mem α) (r : View × View) : List α × List α := (r.1.contents m, r.2.contents m)

def dedupEq : Oracle Unit (DedupStyle.Q Int Nat .eq) (DedupStyle.A Int Nat .eq) := ⟨fun _ q => (some (q.1 == q.2), ()), fun _ => (true, ())⟩
def dedupFn {α : Type} (f : α → α → Bool) : Oracle Unit (DedupStyle.Q α Nat .fn) (DedupStyle.A α Nat .fn) :=
  ⟨fun _ q => (some (q.1, q.2, some (f q.1 q.2)), ()), fun _ => (true, ())⟩
def dedupKey : Oracle Unit (DedupStyle.Q Int Nat .key) (DedupStyle.A Int Nat .key) :=
  ⟨fun _ q => (some (match (q : KeyQ Int Nat) with | .key x => (x, some (x.natAbs / 10), true) | .lt k l => (0, none, k == l)), ()), fun _ => (true, ())⟩

/-- /repo/src/lib.rs:1627-1632. -/
example : result dedupEq (partitionDedup (κ := Nat) .eq cfg) [1, 2, 2, 3, 3, 2, 1, 1] both = some ([1, 2, 3, 2, 1], [2, 3, 1]) := by decide +kernel

/-- Words as a number for the word and one for the way it is written: `foo`, `Foo`; `BAZ`, `baz`; `Bar`, `bar`.
/repo/src/lib.rs:1656-1661. -/
def words : List (Nat × Nat) := [(0, 0), (0, 1), (2, 2), (1, 1), (1, 0), (2, 0), (2, 2)]
example : result (dedupFn fun a b : Nat × Nat => a.1 == b.1) (partitionDedup (κ := Nat) .fn cfg) words both =
    some ([(0, 0), (2, 2), (1, 1), (2, 0)], [(1, 0), (0, 1), (2, 2)]) := by decide +kernel

/-- /repo/src/lib.rs:1683-1688. -/
example : result dedupKey (partitionDedup .key cfg) [10, 20, 21, 30, 30, 20, 11, 13] both = some ([10, 20, 30, 20, 11], [21, 30, 13]) := by decide +kernel

/-- /repo/src/lib.rs:1706-1708. -/
def nobody : Oracle Unit Unit Unit := ⟨fun _ _ => (none, ()), fun _ => (true, ())⟩
example : after nobody (fun v => reverse cfg v) [1, 2, 3] = some [(3 : Int), 2, 1] := by decide +kernel

end NdSlice.DocExamples
