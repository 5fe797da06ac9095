import Verif.Core.Path
import Verif.Core.Tri
import Verif.Spec
import Verif.Proof.RunVec
import Verif.Model.Api

/-
What sorting does with a sorted array: the exact path through the code.
-/

namespace NdSlice

variable {α ι ω : Type} {R : ι → Option ω → Prop} {m : Mem α} {cfg : Cfg} {less : α → α → Prog α ι ω Bool} {lt : α → α → Bool} {c : Nat}
  {v : View}

/-- Every comparison asks `c` questions and gives the answer of `lt`. -/
def Answers (R : ι → Option ω → Prop) (m : Mem α) (less : α → α → Prog α ι ω Bool) (lt : α → α → Bool) (c : Nat) : Prop :=
  ∀ x y, Path R m (less x y) (lt x y) c

/-- The view shows a sorted array. -/
def InOrder (m : Mem α) (lt : α → α → Bool) (v : View) : Prop :=
  ∀ i j, i < j → j < v.len → lt (m (v.addr j)) (m (v.addr i)) = false

theorem InOrder.sub (h : InOrder m lt v) {a n : Nat} (ha : a + n ≤ v.len) : InOrder m lt (v.sub a n) := by
  intro i j hij hj
  rw [View.sub_len] at hj
  rw [View.sub_addr, View.sub_addr]
  exact h _ _ (by omega) (by omega)

theorem inOrder_of_sorted (h : Sorted lt (v.contents m)) : InOrder m lt v := by
  intro i j hij hj
  have hl := v.contents_length m
  have := List.pairwise_iff_getElem.mp h i j (by omega) (by omega) hij
  have e : ∀ k (hk : k < (v.contents m).length), (v.contents m)[k] = m (v.addr k) := by
    intro k hk
    simp [View.contents, View.region]
  rwa [e, e] at this

section

variable (hl : Answers R m less lt c) (hs : InOrder m lt v)
include hl hs

theorem insertTail_path (h2 : 2 ≤ v.len) : Path R m (insertTail cfg less v) () c := by
  unfold insertTail
  refine .seq (.debugAssert (by simpa using h2)) (k := c) ?_ (by omega)
  refine .seq (.usub (by omega)) (k := c) ?_ (by omega)
  refine .seq (.usub (by omega)) (k := c) ?_ (by omega)
  refine .seq (.vget (by omega)) (k := c) ?_ (by omega)
  refine .seq (.vget (by omega)) (k := c) ?_ (by omega)
  refine .seq (hl _ _) (k := 0) ?_ (by omega)
  rw [hs _ _ (by omega) (by omega)]
  exact .pure

theorem insertionSortShiftLeft_path {a : Nat} (h1 : 1 ≤ a) (ha : a ≤ v.len) :
    Path R m (insertionSortShiftLeft cfg less v a) () ((v.len - a) * c) := by
  unfold insertionSortShiftLeft
  refine .seq (.assertP (by simp; omega)) (k := (v.len - a) * c) ?_ (by omega)
  have main : ∀ n a, 1 ≤ a → a + n ≤ v.len → Path R m (Prog.forUp (fun i => do
      let w ← v.slice 0 (i + 1)
      insertTail cfg less w) a n) () (n * c) := by
    intro n
    induction n with
    | zero => intro a _ _; rw [Nat.zero_mul]; exact .pure
    | succ n ih =>
      intro a h1 ha
      unfold Prog.forUp
      refine .seq (b := ()) (n := c) (k := n * c) ?_ (ih _ (by omega) (by omega)) (by rw [Nat.succ_mul]; omega)
      refine .seq (.slice (by omega) (by omega)) (k := c) ?_ (by omega)
      exact insertTail_path hl (hs.sub (by omega)) (by rw [View.sub_len]; omega)
  exact main _ _ h1 (by omega)

theorem findOutOfOrder_path {i n : Nat} (h1 : 1 ≤ i) (hn : i + n = v.len) :
    Path R m (findOutOfOrder cfg less v i n) v.len (n * c) := by
  induction n generalizing i with
  | zero => rw [Nat.zero_mul, ← hn]; exact .pure
  | succ n ih =>
    unfold findOutOfOrder
    have e : (n + 1) * c = n * c + c := Nat.succ_mul _ _
    refine .seq (.usub (by omega)) (k := (n + 1) * c) ?_ (by omega)
    refine .seq (.vget (by omega)) (k := (n + 1) * c) ?_ (by omega)
    refine .seq (.vget (by omega)) (k := (n + 1) * c) ?_ (by omega)
    refine .seq (hl _ _) (k := n * c) ?_ (by omega)
    rw [hs _ _ (by omega) (by omega)]
    exact ih (by omega) (by omega)

theorem partialInsertionSort_path (h1 : 1 ≤ v.len) : Path R m (partialInsertionSort cfg less v) true ((v.len - 1) * c) := by
  unfold partialInsertionSort partialInsertionLoop
  refine .seq (findOutOfOrder_path hl hs (by omega) (by omega)) (k := 0) ?_ (by omega)
  rw [if_pos (by simp)]
  exact .pure

theorem sort2_path {a b s : Nat} (hab : a < b) (hb : b < v.len) : Path R m (sort2 less v a b s) (a, b, s) c := by
  unfold sort2
  refine .seq (.vget (by omega)) (k := c) ?_ (by omega)
  refine .seq (.vget (by omega)) (k := c) ?_ (by omega)
  refine .seq (hl _ _) (k := 0) ?_ (by omega)
  rw [hs _ _ (by omega) (by omega)]
  exact .pure

theorem sort3_path {a b d s : Nat} (hab : a < b) (hbd : b < d) (hd : d < v.len) :
    Path R m (sort3 less v a b d s) (a, b, d, s) (3 * c) := by
  unfold sort3
  refine .seq (sort2_path hl hs hab (by omega)) (k := 2 * c) ?_ (by omega)
  refine .seq (sort2_path hl hs hbd hd) (k := c) ?_ (by omega)
  exact .seq (sort2_path hl hs hab (by omega)) (k := 0) .pure (by omega)

theorem sortAdjacent_path {a s : Nat} (h1 : 1 ≤ a) (ha : a + 1 < v.len) :
    Path R m (sortAdjacent cfg less v a s) (a, s) (3 * c) := by
  unfold sortAdjacent
  refine .seq (.usub (by omega)) (k := 3 * c) ?_ (by omega)
  exact .seq (sort3_path hl hs (by omega) (by omega) ha) (k := 0) .pure (by omega)

theorem choosePivot_path (h20 : 20 < v.len) :
    Path R m (choosePivot cfg less v) (v.len / 4 * 2, true) ((if v.len < 50 then 3 else 12) * c) := by
  unfold choosePivot
  refine .seq (b := (v.len / 4 * 2, 0)) (n := (if v.len < 50 then 3 else 12) * c) (k := 0) ?_ (by exact .pure) (by omega)
  unfold chooseMedian
  rw [if_pos (by omega)]
  by_cases h50 : v.len < 50
  · rw [if_neg (by omega), if_pos h50]
    refine .seq (k := 3 * c) .pure ?_ (by omega)
    exact .seq (sort3_path hl hs (by omega) (by omega) (by omega)) (k := 0) .pure (by omega)
  · rw [if_pos (by omega), if_neg h50]
    refine .seq (b := (v.len / 4, v.len / 4 * 2, v.len / 4 * 3, 0)) (n := 9 * c) (k := 3 * c) ?_ ?_ (by omega)
    · refine .seq (sortAdjacent_path hl hs (by omega) (by omega)) (k := 6 * c) ?_ (by omega)
      refine .seq (sortAdjacent_path hl hs (by omega) (by omega)) (k := 3 * c) ?_ (by omega)
      exact .seq (sortAdjacent_path hl hs (by omega) (by omega)) (k := 0) .pure (by omega)
    · exact .seq (sort3_path hl hs (by omega) (by omega) (by omega)) (k := 0) .pure (by omega)

/-- The number of comparisons `sort_unstable*` makes on a sorted array of `n` elements. -/
def quickSortedCount (n : Nat) : Nat := (n - 1) + if n ≤ 20 then 0 else if n < 50 then 3 else 12

omit hl hs in
theorem ite_path {β : Type} {p q : Prog α ι ω β} {b : Bool} {r : β} {n : Nat} (hb : b = true) (h : Path R m p r n) :
    Path R m (if b then p else q) r n := by subst hb; exact h

theorem recurse_path (maxSeq : Option Nat) (d : Nat) {pred : Option Addr} {limit : Nat} (hlim : limit ≠ 0) :
    Path R m (recurse cfg less maxSeq (d + 1) v pred limit) () (quickSortedCount v.len * c) := by
  unfold recurse Prog.loop
  refine .seq (b := .inr ()) (n := quickSortedCount v.len * c) (k := 0) ?_ .pure (by omega)
  unfold quickStep quickSortedCount
  dsimp only
  by_cases h20 : v.len ≤ 20
  · rw [if_pos h20, if_pos h20, Nat.add_zero]
    by_cases h2 : v.len ≥ 2
    · rw [if_pos h2]
      exact .seq (insertionSortShiftLeft_path hl hs (by omega) (by omega)) .pure rfl
    · rw [if_neg h2, show v.len - 1 = 0 by omega, Nat.zero_mul]
      exact .pure
  · rw [if_neg h20, if_neg h20, if_neg hlim, Nat.add_mul]
    refine .seq (b := limit) .pure (k := _) ?_ (Nat.zero_add _).symm
    refine .seq (choosePivot_path hl hs (by omega)) (k := (v.len - 1) * c) ?_ (by omega)
    exact .seq (partialInsertionSort_path hl hs (by omega)) (k := 0) .pure (by omega)

theorem quickSort_path (hz : cfg.zst = false) : Path R m (quickSort cfg less v) () (quickSortedCount v.len * c) := by
  unfold quickSort
  rw [hz]
  by_cases h : v.len = 0
  · unfold recurse Prog.loop quickStep quickSortedCount
    simp only [h]
    exact ⟨rfl, by simp⟩
  · exact recurse_path hl hs none _ (by unfold bitLen; rw [if_neg h]; omega)

theorem parQuickSort_path (hz : cfg.zst = false) : Path R m (parQuickSort cfg less v) () (quickSortedCount v.len * c) := by
  unfold parQuickSort
  rw [hz]
  by_cases h : v.len = 0
  · unfold recurse Prog.loop quickStep quickSortedCount
    simp only [h]
    exact ⟨rfl, by simp⟩
  · exact recurse_path hl hs _ _ (by unfold bitLen; rw [if_neg h]; omega)

/-! ### The merge sort -/

theorem streakLoop_path {e n : Nat} (h1 : 1 ≤ e) (hn : e + n = v.len) : Path R m (streakLoop less v false e n) v.len (n * c) := by
  induction n generalizing e with
  | zero => rw [Nat.zero_mul, ← hn]; exact .pure
  | succ n ih =>
    unfold streakLoop
    have e : (n + 1) * c = n * c + c := Nat.succ_mul _ _
    refine .seq (.vget (by omega)) (k := (n + 1) * c) ?_ (by omega)
    refine .seq (.vget (by omega)) (k := (n + 1) * c) ?_ (by omega)
    refine .seq (hl _ _) (k := n * c) ?_ (by omega)
    rw [hs _ _ (by omega) (by omega)]
    exact ih (by omega) (by omega)

theorem findStreak_path : Path R m (findStreak less v) (v.len, false) ((v.len - 1) * c) := by
  unfold findStreak
  by_cases h : v.len < 2
  · rw [if_pos h, show v.len - 1 = 0 by omega, Nat.zero_mul]
    exact .pure
  · rw [if_neg h]
    have e : (v.len - 1) * c = (v.len - 2) * c + c := by rw [show v.len - 1 = v.len - 2 + 1 by omega, Nat.succ_mul]
    refine .seq (.vget (by omega)) (k := (v.len - 1) * c) ?_ (by omega)
    refine .seq (.vget (by omega)) (k := (v.len - 1) * c) ?_ (by omega)
    refine .seq (hl _ _) (k := (v.len - 2) * c) ?_ (by omega)
    rw [hs _ _ (by omega) (by omega)]
    exact .seq (streakLoop_path hl hs (by omega) (by omega)) (k := 0) .pure (by omega)

theorem nextRun_path (h10 : 10 ≤ v.len) : Path R m (nextRun cfg less v 0) v.len ((v.len - 1) * c) := by
  unfold nextRun
  refine .seq (.slice (by omega) (by omega)) (k := (v.len - 1) * c) ?_ (by omega)
  refine .seq (findStreak_path hl (hs.sub (by omega))) (k := 0) ?_ (by simp)
  dsimp only
  rw [View.sub_len, if_neg (by decide)]
  unfold provideSortedBatch
  refine .seq (.assertP (by simp)) (k := 0) ?_ (by omega)
  refine .seq (.usub (by omega)) (k := 0) ?_ (by omega)
  rw [if_neg (by simp)]
  rw [show 0 + (v.len - 0) = v.len by omega]
  exact .pure

theorem mergeSort_path {al : Alloc} (hal : al.elem = true ∧ al.run 16 = true) (hz : cfg.zst = false) (buf : View) :
    Path R m (mergeSort cfg less al v buf) () ((v.len - 1) * c) := by
  unfold mergeSort mergeSortWatch
  refine .seq (.debugAssert (by simp [hz])) (k := (v.len - 1) * c) ?_ (by omega)
  by_cases h20 : v.len ≤ 20
  · rw [if_pos h20]
    by_cases h2 : v.len ≥ 2
    · rw [if_pos h2]
      exact insertionSortShiftLeft_path hl hs (by omega) (by omega)
    · rw [if_neg h2, show v.len - 1 = 0 by omega, Nat.zero_mul]
      exact .pure
  · rw [if_neg h20, if_neg (by simp [hal.1]), if_neg (by simp [hal.2])]
    obtain ⟨rv, h1, h2⟩ := RunVec.new_holds.push (α := α) (ι := ι) (ω := ω) (al := al) (.inl (by decide)) ⟨v.len - 0, 0⟩
    obtain ⟨k, hk⟩ : ∃ k, v.len + 1 = k + 2 := ⟨v.len - 1, by omega⟩
    refine .seq (b := rv) (n := (v.len - 1) * c) (k := 0) ?_ ?_ (by omega)
    · rw [hk]
      unfold Prog.loop
      refine .seq (b := .inl (v.len, rv)) (n := (v.len - 1) * c) (k := 0) ?_ ?_ (by omega)
      · unfold mergeSortBody
        dsimp only
        rw [if_pos (by omega)]
        refine .seq (.onPanic (nextRun_path hl hs (by omega))) (k := 0) ?_ (by omega)
        refine .seq (.usub (by omega)) (k := 0) ?_ (by omega)
        rw [h1]
        refine .seq .pure (k := 0) ?_ (by omega)
        refine .seq (b := rv) (n := 0) (k := 0) ?_ (.seq .pure .pure rfl) (by omega)
        unfold Prog.loop
        refine .seq (b := .inr rv) (n := 0) (k := 0) ?_ .pure (by omega)
        unfold collapseBody
        rw [h2.asSlice]
        refine .seq .pure (k := 0) ?_ (by omega)
        exact .pure
      · unfold Prog.loop
        refine .seq (b := .inr rv) (n := 0) (k := 0) ?_ .pure (by omega)
        unfold mergeSortBody
        dsimp only
        rw [if_neg (by omega)]
        exact .pure
    · by_cases hd : cfg.dbg = true
      · rw [if_pos hd, h2.idx (i := 0) rfl, h2.drop]
        refine .seq .pure (k := 0) ?_ (by omega)
        refine .seq (.debugAssert ?_) (k := 0) .pure (by omega)
        have : rv.len = 1 := h2.len.symm
        simp [this]
      · rw [if_neg hd, h2.drop]
        exact .pure

theorem stableSort_path {al : Alloc} (hal : al.elem = true ∧ al.run 16 = true) (hz : cfg.zst = false) (buf : View) :
    Path R m (stableSort cfg less al v buf) () ((v.len - 1) * c) := by
  unfold stableSort
  rw [hz]
  exact mergeSort_path hl hs hal hz buf

end

end NdSlice
