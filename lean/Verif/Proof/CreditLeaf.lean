import Verif.Core.Credit
import Verif.Model.Quick
import Verif.Model.Merge

/-
How many steps insertion sort, merge sort, heapsort and the partitioning functions take at most, whatever is answered: the calls
of user code, at 12 units each, pay for (nearly) all of them.  `n ≤ B` is what has to be in hand and `B + g ≤ r` says that `g` is earned.
-/

namespace NdSlice

variable {α ι ω β : Type} {cfg : Cfg} {less : α → α → Prog α ι ω Bool}

theorem Credit.lessGuard (hl : Yields 12 less) {x y : α} {g : Prog α ι ω Unit} {n B : Nat} {k : Bool → Prog α ι ω β} {Q : β → Nat → Prop}
    (hg : ∀ B, n ≤ B → Credit 12 g B fun _ _ => True) (hB : n ≤ B) (h : ∀ b r, B + 12 ≤ r → Credit 12 (k b) r Q) :
    Credit 12 ((less x y).onPanic g >>= k) B Q := by
  obtain ⟨B, rfl⟩ := Nat.exists_eq_add_of_le' hB
  refine bind ((hl x y B).onPanic hg) ?_
  rintro b _ ⟨r, rfl, h1⟩
  exact h b _ (by omega)

/-! ### Insertion sort -/

theorem insertTailLoop_credit (hl : Yields 12 less) {v : View} {tmp : α} {h B : Nat} (hB : 2 ≤ B) :
    Credit 12 (insertTailLoop less v tmp h) B (fun _ r => B ≤ r + 1) := by
  induction h generalizing B with
  | zero => exact Credit.vset' (by omega) (by omega)
  | succ h ih =>
    refine Credit.vget (by omega) fun x _ => ?_
    refine Credit.lessGuard hl (n := 1) (fun B hB => Credit.vset' hB trivial) (by omega) fun b r hr => ?_
    split
    · exact Credit.vset' (by omega) (by omega)
    · refine Credit.vset (by omega) fun _ => Credit.mono (ih (by omega)) fun _ _ _ => by omega

theorem insertTail_credit (hl : Yields 12 less) {v : View} {B : Nat} (hB : 2 ≤ B) :
    Credit 12 (insertTail cfg less v) B (fun _ r => B + 5 ≤ r) := by
  unfold insertTail
  refine Credit.debugAssert (Credit.usubAny fun _ _ => Credit.usubAny fun _ _ => Credit.vget (by omega) fun x _ => Credit.vget (by omega) fun y _ => ?_)
  refine Credit.lessB hl fun b r hr => ?_
  split
  · refine Credit.vget (by omega) fun _ _ => Credit.vget (by omega) fun _ _ => Credit.vset (by omega) fun _ => ?_
    exact Credit.mono (insertTailLoop_credit hl (by omega)) fun _ _ _ => by omega
  · exact Credit.pure (by omega)

theorem insertHeadLoop_credit (hl : Yields 12 less) {v : View} {tmp : α} {d n B : Nat} (hB : 2 ≤ B) :
    Credit 12 (insertHeadLoop less v tmp d n) B (fun _ r => B ≤ r + 1) := by
  induction n generalizing d B with
  | zero => exact Credit.vset' (by omega) (by omega)
  | succ n ih =>
    refine Credit.vget (by omega) fun x _ => ?_
    refine Credit.lessGuard hl (n := 1) (fun B hB => Credit.vset' hB trivial) (by omega) fun b r hr => ?_
    split
    · exact Credit.vset' (by omega) (by omega)
    · refine Credit.vset (by omega) fun _ => Credit.mono (ih (by omega)) fun _ _ _ => by omega

theorem insertHead_credit (hl : Yields 12 less) {v : View} {B : Nat} (hB : 2 ≤ B) :
    Credit 12 (insertHead cfg less v) B (fun _ r => B + 5 ≤ r) := by
  unfold insertHead
  refine Credit.debugAssert (Credit.vget (by omega) fun x _ => Credit.vget (by omega) fun y _ => ?_)
  refine Credit.lessB hl fun b r hr => ?_
  split
  · refine Credit.vget (by omega) fun _ _ => Credit.vget (by omega) fun _ _ => Credit.vset (by omega) fun _ => ?_
    exact Credit.mono (insertHeadLoop_credit hl (by omega)) fun _ _ _ => by omega
  · exact Credit.pure (by omega)

theorem insertionSortShiftLeft_credit (hl : Yields 12 less) {v : View} {offset B : Nat} (hB : 2 ≤ B) :
    Credit 12 (insertionSortShiftLeft cfg less v offset) B (fun _ r => B ≤ r) := by
  unfold insertionSortShiftLeft
  refine Credit.assertP fun _ => Credit.forUp (Inv := fun _ r => B ≤ r) (Nat.le_refl _) ?_
  intro i B1 _ _ h1
  refine Credit.slice (by omega) fun _ => Credit.mono (insertTail_credit hl (by omega)) fun _ _ _ => by omega

theorem insertionSortShiftRight_credit (hl : Yields 12 less) {v : View} {offset B : Nat} (hB : 2 ≤ B) :
    Credit 12 (insertionSortShiftRight cfg less v offset) B (fun _ r => B ≤ r) := by
  unfold insertionSortShiftRight
  refine Credit.assertP fun ho => Credit.forDown (Inv := fun _ r => B ≤ r) (Nat.le_refl _) ?_
  simp only [Bool.and_eq_true, decide_eq_true_eq] at ho
  intro i B1 _ _ h1
  refine Credit.slice (by omega) fun _ => Credit.mono (insertHead_credit hl (by omega)) fun _ _ _ => by omega

theorem findOutOfOrder_credit (hl : Yields 12 less) {v : View} {i n B : Nat} (hB : 2 ≤ B) :
    Credit 12 (findOutOfOrder cfg less v i n) B (fun j r => i ≤ j ∧ j ≤ i + n ∧ B + 10 * (j - i) ≤ r ∧ (j < i + n → B + 10 * (j - i) + 10 ≤ r)) := by
  induction n generalizing i B with
  | zero => exact Credit.pure ⟨Nat.le_refl _, Nat.le_refl _, by omega, by omega⟩
  | succ n ih =>
    refine Credit.usubAny fun _ _ => Credit.vget (by omega) fun x _ => Credit.vget (by omega) fun y _ => Credit.lessB hl fun b r hr => ?_
    split
    · exact Credit.pure ⟨Nat.le_refl _, by omega, by omega, by omega⟩
    · refine Credit.mono (ih (by omega)) ?_
      rintro j r ⟨h1, h2, h3, h4⟩
      exact ⟨by omega, by omega, by omega, by omega⟩

theorem partialInsertionLoop_credit (hl : Yields 12 less) {v : View} {n i B : Nat} (hB : 6 ≤ B) :
    Credit 12 (partialInsertionLoop cfg less v n i) B (fun b r => B ≤ r ∧ (b = true → B + 10 * (v.len - i) ≤ r)) := by
  induction n generalizing i B with
  | zero => exact Credit.pure ⟨Nat.le_refl _, by simp⟩
  | succ n ih =>
    unfold partialInsertionLoop
    refine Credit.bind (findOutOfOrder_credit hl (by omega)) ?_
    rintro j r ⟨h1, h2, h3, h4⟩
    split
    · rename_i h
      rw [beq_iff_eq] at h
      exact Credit.pure ⟨by omega, fun _ => by omega⟩
    · rename_i h
      rw [beq_iff_eq] at h
      split
      · exact Credit.pure ⟨by omega, by simp⟩
      · refine Credit.usubAny fun k _ => Credit.swap (by omega) fun _ h5 => ?_
        have h6 := h4 (by omega)
        split
        · refine Credit.slice (by omega) fun _ => ?_
          refine Credit.bind (insertionSortShiftLeft_credit hl (by omega)) fun _ r1 hr1 => ?_
          refine Credit.slice (by omega) fun _ => ?_
          refine Credit.bind (insertionSortShiftRight_credit hl (by omega)) fun _ r2 hr2 => ?_
          refine Credit.mono (ih (by omega)) ?_
          rintro b r3 ⟨g1, g2⟩
          exact ⟨by omega, fun hb => by have := g2 hb; omega⟩
        · refine Credit.mono (ih (by omega)) ?_
          rintro b r3 ⟨g1, g2⟩
          exact ⟨by omega, fun hb => by have := g2 hb; omega⟩

theorem partialInsertionSort_credit (hl : Yields 12 less) {v : View} {B : Nat} (hB : 6 ≤ B) :
    Credit 12 (partialInsertionSort cfg less v) B (fun b r => B ≤ r ∧ (b = true → B + 10 * (v.len - 1) ≤ r)) :=
  partialInsertionLoop_credit hl hB

/-! ### Heapsort -/

/-- If there is a child then something is earned. -/
theorem siftDown_credit (hl : Yields 12 less) {v : View} {node B : Nat} (hB : 4 ≤ B) :
    Credit 12 (siftDown less v node) B (fun _ r => B ≤ r ∧ (2 * node + 1 < v.len → B + 6 ≤ r)) := by
  unfold siftDown
  refine Credit.loop (Inv := fun x r => (x = node ∧ r = B) ∨ B + 6 ≤ r) (.inl ⟨rfl, rfl⟩) ?_
  intro x B1 hI
  have h1 : B ≤ B1 := by omega
  unfold siftDownStep
  dsimp only
  split
  · rename_i hx
    refine Credit.pure ⟨h1, fun hn => ?_⟩
    rcases hI with ⟨rfl, rfl⟩ | hI
    · omega
    · exact hI
  · refine Credit.bind (Q' := fun _ r => B1 ≤ r) ?_ ?_
    · split
      · exact Credit.vidx (by omega) fun _ _ => Credit.vidx (by omega) fun _ _ => Credit.lessB hl fun b r hr => Credit.pure (by omega)
      · exact Credit.pure (Nat.le_refl _)
    · intro child r hr
      refine Credit.vidx (by omega) fun _ _ => Credit.vidx (by omega) fun _ _ => Credit.lessB hl fun b r hr => ?_
      split
      · exact Credit.pure ⟨by omega, fun _ => by omega⟩
      · exact Credit.swap (by omega) fun _ _ => Credit.pure (.inr (by omega))

theorem heapSort_credit (hl : Yields 12 less) {v : View} {B : Nat} (h2 : 2 ≤ v.len) (hB : 4 ≤ B) :
    Credit 12 (heapSort less v) B (fun _ r => B ≤ r) := by
  unfold heapSort
  refine Credit.bind (Q' := fun _ r => B + 6 ≤ r) (Credit.mono (Credit.forDown (a := 0) (n := v.len / 2)
    (Inv := fun i r => if i = v.len / 2 then B ≤ r else B + 6 ≤ r) ?_ ?_) ?_) ?_
  · rw [if_pos (by omega)]
    exact Nat.le_refl _
  · intro i B1 _ hi h
    have h1 : B ≤ B1 := by split at h <;> omega
    refine Credit.mono (siftDown_credit hl (by omega)) ?_
    rintro _ r ⟨_, h3⟩
    have := h3 (by omega)
    rw [if_neg (by omega)]
    omega
  · intro _ r h
    rw [if_neg (by omega)] at h
    exact h
  · intro _ r hr
    refine Credit.mono (Credit.forDown (a := 1) (n := v.len - 1) (Inv := fun i r => if i = 1 then B ≤ r else B + 6 ≤ r) ?_ ?_) ?_
    · split <;> omega
    · intro i B1 hi hi2 h
      rw [if_neg (by omega)] at h
      refine Credit.swap (by omega) fun _ _ => Credit.slice (Nat.zero_le _) fun _ => ?_
      refine Credit.mono (siftDown_credit hl (by omega)) ?_
      rintro _ r ⟨h3, h4⟩
      split
      · omega
      · have := h4 (by show 2 * 0 + 1 < i - 0; omega)
        omega
    · intro _ r h
      rwa [if_pos rfl] at h

/-! ### Pivots -/

theorem revswap_credit {a b : View} {n i k B : Nat} (hB : 4 * k ≤ B) :
    Credit 12 (revswap cfg a b n i k : Prog α ι ω Unit) B (fun _ r => B ≤ r + 4 * k) := by
  induction k generalizing i B with
  | zero => exact Credit.pure (by omega)
  | succ k ih =>
    refine Credit.usubAny fun _ _ => Credit.usubAny fun _ _ => Credit.vidx (by omega) fun _ _ => Credit.vidx (by omega) fun _ _ =>
      Credit.vcset (by omega) fun _ => Credit.vcset (by omega) fun _ => ?_
    exact Credit.mono (ih (by omega)) fun _ _ _ => by omega

theorem reverse_credit {v : View} {B : Nat} (hB : 2 * v.len ≤ B) :
    Credit 12 (reverse cfg v : Prog α ι ω Unit) B (fun _ r => B ≤ r + 2 * v.len) := by
  unfold reverse
  dsimp only
  refine Credit.usub (by omega) (Credit.splitAt fun _ => Credit.splitAt fun _ => Credit.debugAssert (Credit.debugAssert ?_))
  exact Credit.mono (revswap_credit (by omega)) fun _ _ _ => by omega

theorem sort2_credit (hl : Yields 12 less) {v : View} {a b s B : Nat} (hB : 2 ≤ B) : Credit 12 (sort2 less v a b s) B (fun _ r => B ≤ r) := by
  unfold sort2
  refine Credit.vget (by omega) fun _ _ => Credit.vget (by omega) fun _ _ => Credit.lessB hl fun r _ _ => ?_
  split <;> exact Credit.pure (by omega)

theorem sort3_credit (hl : Yields 12 less) {v : View} {a b d s B : Nat} (hB : 2 ≤ B) :
    Credit 12 (sort3 less v a b d s) B (fun _ r => B ≤ r) := by
  unfold sort3
  refine Credit.bind (sort2_credit hl hB) fun _ _ _ => Credit.bind (sort2_credit hl (by omega)) fun _ _ _ =>
    Credit.bind (sort2_credit hl (by omega)) fun _ _ _ => Credit.pure (by omega)

theorem sortAdjacent_credit (hl : Yields 12 less) {v : View} {a s B : Nat} (hB : 2 ≤ B) :
    Credit 12 (sortAdjacent cfg less v a s) B (fun _ r => B ≤ r) := by
  unfold sortAdjacent
  exact Credit.usubAny fun _ _ => Credit.bind (sort3_credit hl hB) fun _ _ _ => Credit.pure (by omega)

theorem chooseMedian_credit (hl : Yields 12 less) {v : View} {B : Nat} (hB : 2 ≤ B) :
    Credit 12 (chooseMedian cfg less v) B (fun _ r => B ≤ r) := by
  unfold chooseMedian
  dsimp only
  split
  · refine Credit.bind (Q' := fun _ r => B ≤ r) ?_ fun _ _ _ => ?_
    · split
      · exact Credit.bind (sortAdjacent_credit hl hB) fun _ _ _ => Credit.bind (sortAdjacent_credit hl (by omega)) fun _ _ _ =>
          Credit.bind (sortAdjacent_credit hl (by omega)) fun _ _ _ => Credit.pure (by omega)
      · exact Credit.pure (Nat.le_refl _)
    · exact Credit.bind (sort3_credit hl (by omega)) fun _ _ _ => Credit.pure (by omega)
  · exact Credit.pure (Nat.le_refl _)

theorem choosePivot_credit (hl : Yields 12 less) {v : View} {B : Nat} (hB : 2 * v.len + 2 ≤ B) :
    Credit 12 (choosePivot cfg less v) B (fun _ r => B ≤ r + 2 * v.len) := by
  unfold choosePivot
  refine Credit.bind (chooseMedian_credit hl (by omega)) fun x r hr => ?_
  dsimp only
  split
  · exact Credit.pure (by omega)
  · exact Credit.bind (reverse_credit (by omega)) fun _ _ _ => Credit.usubAny fun _ _ => Credit.usubAny fun _ _ => Credit.pure (by omega)

theorem breakPatternsLoop_credit {v : View} {m pos i seed k B : Nat} (hB : 4 * k ≤ B) :
    Credit 12 (breakPatternsLoop cfg v m pos i seed k : Prog α ι ω Unit) B (fun _ r => B ≤ r + 4 * k) := by
  induction k generalizing i seed B with
  | zero => exact Credit.pure (by omega)
  | succ k ih =>
    exact Credit.usubAny fun _ _ => Credit.swap (by omega) fun _ _ => Credit.mono (ih (by omega)) fun _ _ _ => by omega

theorem breakPatterns_credit {v : View} {B : Nat} (hB : 12 ≤ B) :
    Credit 12 (breakPatterns cfg v : Prog α ι ω Unit) B (fun _ r => B ≤ r + 12) := by
  unfold breakPatterns
  split
  · exact breakPatternsLoop_credit hB
  · exact Credit.pure (by omega)

theorem predCheck_credit (hl : Yields 12 less) {v : View} {pivot B : Nat} {pred : Option Addr} (hB : 2 ≤ B) :
    Credit 12 (predCheck less v pivot pred) B (fun _ r => B ≤ r) := by
  cases pred with
  | none => exact Credit.pure (Nat.le_refl _)
  | some a => exact Credit.deref (by omega) fun _ => Credit.vidx (by omega) fun _ _ => Credit.lessB hl fun _ _ _ => Credit.pure (by omega)

/-! ### Partitioning -/

/-- A test which reads one element and compares it. -/
def TestPays (test : Nat → Prog α ι ω Bool) : Prop := ∀ i B, 1 ≤ B → Credit 12 (test i) B (fun _ r => B + 11 ≤ r)

theorem TestPays.get (hl : Yields 12 less) {w : View} {x : α} : TestPays (fun i => do
    let y ← w.get i
    less y x : Nat → Prog α ι ω Bool) :=
  fun _ _ hB => Credit.vget hB fun _ _ => Credit.mono (hl _ _ _) fun _ _ _ => by omega

theorem TestPays.get' (hl : Yields 12 less) {w : View} {x : α} : TestPays (fun i => do
    let y ← w.get i
    less x y : Nat → Prog α ι ω Bool) :=
  fun _ _ hB => Credit.vget hB fun _ _ => Credit.mono (hl _ _ _) fun _ _ _ => by omega

theorem TestPays.getNot (hl : Yields 12 less) {w : View} {x : α} : TestPays (fun i => do
    let y ← w.get i
    let b ← less y x
    pure !b : Nat → Prog α ι ω Bool) :=
  fun _ _ hB => Credit.vget hB fun _ _ => Credit.lessB hl fun _ _ _ => Credit.pure (by omega)

theorem TestPays.getNot' (hl : Yields 12 less) {w : View} {x : α} : TestPays (fun i => do
    let y ← w.get i
    let b ← less x y
    pure !b : Nat → Prog α ι ω Bool) :=
  fun _ _ hB => Credit.vget hB fun _ _ => Credit.lessB hl fun _ _ _ => Credit.pure (by omega)

theorem scanUp_credit {test : Nat → Prog α ι ω Bool} (ht : TestPays test) {n l B : Nat} (hB : 1 ≤ B) :
    Credit 12 (scanUp test n l) B (fun l' r => l ≤ l' ∧ l' ≤ l + n ∧ B + 11 * (l' - l) ≤ r ∧ (l' < l + n → B + 11 * (l' - l) + 11 ≤ r)) := by
  induction n generalizing l B with
  | zero => exact Credit.pure ⟨Nat.le_refl _, Nat.le_refl _, by omega, by omega⟩
  | succ n ih =>
    refine Credit.bind (ht _ _ hB) ?_
    intro b r hr
    split
    · refine Credit.mono (ih (by omega)) ?_
      rintro l' r ⟨h1, h2, h3, h4⟩
      exact ⟨by omega, by omega, by omega, by omega⟩
    · exact Credit.pure ⟨Nat.le_refl _, by omega, by omega, by omega⟩

theorem scanDown_credit {test : Nat → Prog α ι ω Bool} (ht : TestPays test) {n r B : Nat} (hB : 1 ≤ B) (hn : n ≤ r) :
    Credit 12 (scanDown test n r) B (fun r' b => r' ≤ r ∧ r ≤ r' + n ∧ B + 11 * (r - r') ≤ b ∧ (r < r' + n → B + 11 * (r - r') + 11 ≤ b)) := by
  induction n generalizing r B with
  | zero => exact Credit.pure ⟨Nat.le_refl _, Nat.le_refl _, by omega, by omega⟩
  | succ n ih =>
    refine Credit.bind (ht _ _ hB) ?_
    intro b r1 hr
    split
    · refine Credit.mono (ih (by omega) (by omega)) ?_
      rintro l' r ⟨h1, h2, h3, h4⟩
      exact ⟨by omega, by omega, by omega, by omega⟩
    · exact Credit.pure ⟨Nat.le_refl _, by omega, by omega, by omega⟩

theorem scanEqual_credit {test : Nat → Prog α ι ω Bool} (ht : TestPays test) {n r B : Nat} (hB : 1 ≤ B) (hn : n ≤ r) :
    Credit 12 (scanEqual cfg test n r) B (fun r' b => r' ≤ r ∧ r ≤ r' + n ∧ B + 11 * (r - r') ≤ b ∧ (r < r' + n → B + 11 * (r - r') + 11 ≤ b)) := by
  induction n generalizing r B with
  | zero => exact Credit.pure ⟨Nat.le_refl _, Nat.le_refl _, by omega, by omega⟩
  | succ n ih =>
    refine Credit.bind (ht _ _ hB) ?_
    intro b r1 hr
    split
    · refine Credit.usub (by omega) (Credit.mono (ih (by omega) (by omega)) ?_)
      rintro l' r ⟨h1, h2, h3, h4⟩
      exact ⟨by omega, by omega, by omega, by omega⟩
    · exact Credit.pure ⟨Nat.le_refl _, by omega, by omega, by omega⟩

theorem partitionEqual_credit (hl : Yields 12 less) {v : View} {pivot B : Nat} (hB : 7 ≤ B) :
    Credit 12 (partitionEqual cfg less v pivot) B (fun _ r => B + 7 * (v.len - 1) ≤ r + 6) := by
  unfold partitionEqual
  refine Credit.swap (by omega) fun _ _ => Credit.splitAt fun _ => Credit.vidx (by omega) fun x _ => ?_
  obtain ⟨B, rfl⟩ : ∃ B', B = B' + 6 := ⟨B - 6, by omega⟩
  rw [show B + 6 - 4 - 1 = B + 1 by omega]
  refine Credit.bind (Q' := fun _ r => B + 7 * (v.len - 1) + 1 ≤ r) (Credit.mono (Credit.onPanic (n := 1)
    (Q := fun _ r => B + 7 * (v.len - 1) ≤ r) ?_ fun B hB => Credit.vset' hB trivial) ?_) fun _ _ _ => Credit.vset (by omega) fun _ => Credit.pure (by omega)
  · split
    · rename_i h
      have : v.len - 1 = 0 := by rw [beq_iff_eq] at h; exact h
      exact Credit.pure (by omega)
    · rename_i h
      refine Credit.bind (Q' := fun _ r => B + 7 * (v.len - 1) ≤ r) (Credit.loop (Inv := fun x r => x.1 ≤ x.2 ∧ 1 ≤ x.2 ∧ B + 7 * (v.len - 1) ≤ r + 7 * (x.2 - x.1) ∧ B ≤ r)
        ⟨Nat.zero_le _, ?_, ?_, Nat.le_refl _⟩ ?_) fun _ _ _ => Credit.pure (by omega)
      · show 1 ≤ v.len - 1
        have : v.len - 1 ≠ 0 := by rw [beq_iff_eq] at h; exact h
        omega
      · show _ ≤ B + 7 * (v.len - 1 - 0)
        omega
      · rintro ⟨l, r⟩ B0 ⟨hlr, hr, hpay, hle⟩
        dsimp only at hlr hr hpay
        unfold partitionEqualStep
        dsimp only
        refine Credit.bind (scanUp_credit (TestPays.getNot' hl) (by omega)) ?_
        rintro l' B1 ⟨h1, h2, h3, h4⟩
        refine Credit.usub hr ?_
        refine Credit.bind (scanEqual_credit (TestPays.get' hl) (by omega) (by omega)) ?_
        rintro r' B2 ⟨g1, g2, g3, g4⟩
        split
        · refine Credit.pure ?_
          by_cases hlr' : l' < l + (r - l)
          · have := h4 hlr'
            omega
          · omega
        · have h5 := h4 (by omega)
          have h6 := g4 (by omega)
          exact Credit.uswap (by omega) fun _ _ => Credit.pure ⟨by dsimp only; omega, by dsimp only; omega, by dsimp only; omega, by omega⟩
  · rintro b _ ⟨r, rfl, h⟩
    omega

theorem traceL_credit (hl : Yields 12 less) {v : View} {x : α} {l n i B : Nat} {acc : List Nat} (hB : 1 ≤ B) :
    Credit 12 (traceL less v x l n i acc) B (fun o r => o.length ≤ acc.length + n ∧ B + 11 * n ≤ r) := by
  induction n generalizing i acc B with
  | zero => exact Credit.pure ⟨Nat.le_refl _, by omega⟩
  | succ n ih =>
    unfold traceL
    split
    · refine Credit.vidx (by omega) fun _ _ => Credit.lessB hl fun b r hr => Credit.mono (ih (by omega)) ?_
      rintro o r' ⟨h1, h2⟩
      refine ⟨?_, by omega⟩
      split at h1
      · rw [List.length_append] at h1; simp only [List.length_cons, List.length_nil] at h1; omega
      · omega
    · exact Credit.ub

theorem traceR_credit (hl : Yields 12 less) {v : View} {x : α} {e n i B : Nat} {acc : List Nat} (hB : 1 ≤ B) :
    Credit 12 (traceR cfg less v x n e i acc) B (fun o r => o.length ≤ acc.length + n ∧ B + 11 * n ≤ r) := by
  induction n generalizing i acc B e with
  | zero => exact Credit.pure ⟨Nat.le_refl _, by omega⟩
  | succ n ih =>
    unfold traceR
    split
    · refine Credit.usubAny fun _ _ => Credit.vidx (by omega) fun _ _ => Credit.lessB hl fun b r hr => Credit.mono (ih (by omega)) ?_
      rintro o r' ⟨h1, h2⟩
      refine ⟨?_, by omega⟩
      split at h1
      · rw [List.length_append] at h1; simp only [List.length_cons, List.length_nil] at h1; omega
      · omega
    · exact Credit.ub

theorem Credit.leftIdx {K B l : Nat} {o : List Nat} {k : Nat → Prog α ι ω β} {Q : β → Nat → Prop} (h : ∀ i, Credit K (k i) B Q) :
    Credit K (NdSlice.leftIdx l o >>= k) B Q := by
  cases o with
  | nil => trivial
  | cons => exact h _

theorem Credit.rightIdx {K B r : Nat} {o : List Nat} {k : Nat → Prog α ι ω β} {Q : β → Nat → Prop} (h : ∀ i, Credit K (k i) B Q) :
    Credit K (NdSlice.rightIdx cfg r o >>= k) B Q := by
  cases o with
  | nil => trivial
  | cons => exact Credit.usubAny fun _ _ => h _

theorem Credit.copyIdx {K B : Nat} {v : View} {i j : Nat} {k : Unit → Prog α ι ω β} {Q : β → Nat → Prop} (hB : 2 ≤ B) (h : Credit K (k ()) (B - 1 - 1) Q) :
    Credit K (NdSlice.copyIdx v i j >>= k) B Q := by
  refine Credit.bind (Q' := fun _ r => r = B - 1 - 1) (Credit.vidx (by omega) fun _ _ => Credit.vcset' (by omega) rfl) ?_
  rintro _ _ rfl
  exact h

theorem cycleLoop_credit {v : View} {l r n B : Nat} {ol or : List Nat} (hB : 4 * n ≤ B) :
    Credit 12 (cycleLoop cfg v l r n ol or : Prog α ι ω _) B
      (fun x b => B ≤ b + 4 * n ∧ x.1.length = ol.length - n ∧ x.2.length = or.length - n) := by
  induction n generalizing ol or B with
  | zero => exact Credit.pure ⟨by omega, rfl, rfl⟩
  | succ n ih =>
    refine Credit.leftIdx fun _ => Credit.rightIdx fun _ => Credit.copyIdx (by omega) (Credit.rightIdx fun _ => Credit.leftIdx fun _ =>
      Credit.copyIdx (by omega) ?_)
    refine Credit.mono (ih (by omega)) ?_
    rintro x b ⟨h1, h2, h3⟩
    rw [List.length_tail] at h2 h3
    exact ⟨by omega, by omega, by omega⟩

theorem cycle_credit {v : View} {l r n B : Nat} {ol or : List Nat} (hn : 0 < n) (hB : 4 * n ≤ B) :
    Credit 12 (cycle cfg v l r n ol or : Prog α ι ω _) B (fun x b => B ≤ b + 4 * n ∧ x.1.length = ol.length - n ∧ x.2.length = or.length - n) := by
  unfold cycle
  refine Credit.leftIdx fun _ => Credit.vidx (by omega) fun _ _ => Credit.rightIdx fun _ => Credit.copyIdx (by omega) ?_
  refine Credit.bind (cycleLoop_credit (by omega)) ?_
  rintro ⟨o1, o2⟩ b ⟨h1, h2, h3⟩
  dsimp only at h2 h3 ⊢
  refine Credit.rightIdx fun _ => Credit.vcset (by omega) fun _ => Credit.pure ⟨by omega, ?_, ?_⟩
  · dsimp only; rw [List.length_tail]; omega
  · dsimp only; rw [List.length_tail]; omega

/-- The loop state of `partition_in_blocks` on `n` elements and what has been earned: 7 for each element which has been compared, and
4 for each offset. -/
structure BlocksEarn (n B0 : Nat) (s : BlockSt) (B : Nat) : Prop where
  le : s.l ≤ s.r
  rn : s.r - s.l ≤ n
  bl : s.bl = 128
  br : s.br = 128
  one : s.ol = [] ∨ s.or = []
  wide : s.ol ≠ [] ∨ s.or ≠ [] → 128 ≤ s.r - s.l
  earn : B0 + 7 * n + 4 * (s.ol.length + s.or.length) + 7 * ((if s.ol = [] then 0 else 128) + (if s.or = [] then 0 else 128)) ≤ B + 7 * (s.r - s.l)

theorem blockStep_credit (hl : Yields 12 less) {v : View} {x : α} {s : BlockSt} {n B0 B : Nat} (hB : 1 ≤ B0) (h : BlocksEarn n B0 s B) :
    Credit 12 (blockStep cfg less v x s) B (fun o r => match o with
      | .inl s' => BlocksEarn n B0 s' r
      | .inr s' => B0 + 7 * n + 4 * (s'.ol.length + s'.or.length) ≤ r) := by
  obtain ⟨l, bl, ol, r, br, or⟩ := s
  obtain ⟨h1, hn, h2, h3, h4, h5, h6⟩ := h
  dsimp only at h1 hn h2 h3 h4 h5 h6
  subst h2 h3
  have hbk : BLOCK = 128 := rfl
  unfold blockStep
  refine Credit.usub h1 ?_
  dsimp only
  -- block sizes: the last round is about all of the remaining elements
  refine Credit.bind (Q' := fun s' b => b = B ∧ s'.l = l ∧ s'.r = r ∧ s'.ol = ol ∧ s'.or = or ∧
    (ol ≠ [] → s'.bl = 128) ∧ (or ≠ [] → s'.br = 128) ∧ (r - l ≤ 2 * BLOCK → r - l = s'.bl + s'.br) ∧
    (¬ r - l ≤ 2 * BLOCK → s'.bl = 128 ∧ s'.br = 128)) ?_ ?_
  · unfold blockSizes
    refine Credit.usub h1 ?_
    dsimp only
    split
    · rename_i hw
      refine Credit.bind (Q' := fun rem b => b = B ∧ rem = if ol ≠ [] ∨ or ≠ [] then r - l - 128 else r - l) ?_ ?_
      · split
        · rename_i hne
          unfold NdSlice.usub
          rw [if_pos (show BLOCK ≤ r - l from h5 hne)]
          exact Credit.pure ⟨rfl, rfl⟩
        · exact Credit.pure ⟨rfl, rfl⟩
      · rintro rem B ⟨rfl, hrem⟩
        refine Credit.bind (Q' := fun s' b => b = B ∧ s'.l = l ∧ s'.r = r ∧ s'.ol = ol ∧ s'.or = or ∧
          (ol ≠ [] → s'.bl = 128) ∧ (or ≠ [] → s'.br = 128) ∧ r - l = s'.bl + s'.br) ?_ ?_
        · split
          · rename_i hol
            rw [if_pos (.inl hol)] at hrem
            have := h5 (.inl hol)
            exact Credit.pure ⟨rfl, rfl, rfl, rfl, rfl, fun _ => rfl, fun h => absurd (h4.resolve_left hol) h, by dsimp only; omega⟩
          · rename_i hol
            split
            · rename_i hor
              rw [if_pos (.inr hor)] at hrem
              have := h5 (.inr hor)
              exact Credit.pure ⟨rfl, rfl, rfl, rfl, rfl, fun h => absurd h hol, fun h => rfl, by dsimp only; omega⟩
            · rename_i hor
              rw [if_neg (fun h => h.elim hol hor)] at hrem
              exact Credit.usub (by omega) (Credit.pure ⟨rfl, rfl, rfl, rfl, rfl, fun h => absurd h hol, fun h => absurd h hor, by dsimp only; omega⟩)
        · rintro s' _ ⟨rfl, g1, g2, g3, g4, g5, g6, g7⟩
          exact Credit.debugAssert (Credit.debugAssert (Credit.pure ⟨rfl, g1, g2, g3, g4, g5, g6, fun _ => g7, fun h => absurd hw h⟩))
    · rename_i hw
      exact Credit.pure ⟨rfl, rfl, rfl, rfl, rfl, fun _ => rfl, fun _ => rfl, fun h => absurd h hw, fun _ => ⟨rfl, rfl⟩⟩
  · rintro ⟨l', bl, ol', r', br, or'⟩ _ ⟨rfl, g1, g2, g3, g4, g5, g6, g7, g8⟩
    dsimp only at g1 g2 g3 g4 g5 g6 g7 g8
    subst g1 g2 g3 g4
    dsimp only
    refine Credit.bind (Q' := fun ol b => B0 + 7 * n + 4 * (ol.length + or'.length) + 7 * (bl + (if or' = [] then 0 else 128)) ≤ b + 7 * (r' - l')) ?_ ?_
    · split
      · rename_i hol
        refine Credit.mono (traceL_credit hl (by omega)) ?_
        rintro o b ⟨k1, k2⟩
        rw [if_pos hol, hol] at h6
        simp only [List.length_nil] at h6 k1
        omega
      · rename_i hol
        refine Credit.pure ?_
        rw [if_neg hol] at h6
        have := g5 hol
        omega
    · intro ol b hol
      refine Credit.bind (Q' := fun or b => B0 + 7 * n + 4 * (ol.length + or.length) + 7 * (bl + br) ≤ b + 7 * (r' - l')) ?_ ?_
      · split
        · rename_i hor
          refine Credit.mono (traceR_credit hl (by omega)) ?_
          rintro o b ⟨k1, k2⟩
          rw [if_pos hor, hor] at hol
          simp only [List.length_nil] at hol k1
          omega
        · rename_i hor
          refine Credit.pure ?_
          rw [if_neg hor] at hol
          have := g6 hor
          omega
      · intro or b hor
        refine Credit.bind (Q' := fun x b => B0 + 7 * n + 4 * (x.1.length + x.2.length) + 7 * (bl + br) ≤ b + 7 * (r' - l') ∧ (x.1 = [] ∨ x.2 = [])) ?_ ?_
        · split
          · rename_i hc
            refine Credit.mono (cycle_credit hc (by omega)) ?_
            rintro ⟨o1, o2⟩ b ⟨k1, k2, k3⟩
            dsimp only at k2 k3 ⊢
            refine ⟨by omega, ?_⟩
            rw [← List.length_eq_zero_iff, ← List.length_eq_zero_iff]
            omega
          · rename_i hc
            refine Credit.pure ⟨by dsimp only; omega, ?_⟩
            dsimp only
            rw [← List.length_eq_zero_iff, ← List.length_eq_zero_iff]
            omega
        · rintro ⟨o1, o2⟩ B1 ⟨hpay, ho⟩
          dsimp only at hpay ho ⊢
          by_cases hw : r' - l' ≤ 2 * BLOCK
          · simp only [hw, decide_true, if_true]
            have := g7 hw
            refine Credit.bind (Q' := fun _ b => b = B1) ?_ ?_
            · split
              · exact Credit.usub' fun _ _ => rfl
              · exact Credit.pure rfl
            · rintro _ _ rfl
              exact Credit.pure (by dsimp only; omega)
          · simp only [hw, decide_false, Bool.false_eq_true, if_false]
            obtain ⟨rfl, rfl⟩ := g8 hw
            refine Credit.bind (Q' := fun r'' b => b = B1 ∧ r'' = if o2 = [] then r' - 128 else r') ?_ ?_
            · split
              · unfold NdSlice.usub
                rw [if_pos (by omega)]
                exact Credit.pure ⟨rfl, rfl⟩
              · exact Credit.pure ⟨rfl, rfl⟩
            · rintro r'' _ ⟨rfl, rfl⟩
              refine Credit.pure ⟨?_, ?_, rfl, rfl, ho, ?_, ?_⟩
              · dsimp only
                split <;> split <;> omega
              · dsimp only
                split <;> split <;> omega
              · dsimp only
                intro hne
                rcases ho with ho | ho
                · rw [if_pos ho]
                  split
                  · simp_all
                  · omega
                · rw [if_pos ho]
                  split
                  · simp_all
                  · omega
              · dsimp only
                by_cases k1 : o1 = [] <;> by_cases k2 : o2 = [] <;> simp only [k1, k2, if_true, if_false] at hpay ⊢ <;> omega

theorem moveRemL_credit {v : View} {l n r B : Nat} {o : List Nat} (hB : 4 * n ≤ B) :
    Credit 12 (moveRemL cfg v l n o r : Prog α ι ω Nat) B (fun _ b => B ≤ b + 4 * n) := by
  induction n generalizing o r B with
  | zero => exact Credit.pure (by omega)
  | succ n ih => exact Credit.usubAny fun _ _ => Credit.uswap (by omega) fun _ _ => Credit.mono (ih (by omega)) fun _ _ _ => by omega

theorem moveRemR_credit {v : View} {l n r B : Nat} {o : List Nat} (hB : 4 * n ≤ B) :
    Credit 12 (moveRemR cfg v r n o l : Prog α ι ω Nat) B (fun _ b => B ≤ b + 4 * n) := by
  induction n generalizing o l B with
  | zero => exact Credit.pure (by omega)
  | succ n ih => exact Credit.usubAny fun _ _ => Credit.uswap (by omega) fun _ _ => Credit.mono (ih (by omega)) fun _ _ _ => by omega

theorem partitionInBlocks_credit (hl : Yields 12 less) {v : View} {x : α} {B : Nat} (hB : 1 ≤ B) :
    Credit 12 (partitionInBlocks cfg less v x) B (fun _ r => B + 7 * v.len ≤ r) := by
  unfold partitionInBlocks
  split
  · rename_i h
    exact Credit.pure (by omega)
  · refine Credit.bind (Q' := fun s' r => B + 7 * v.len + 4 * (s'.ol.length + s'.or.length) ≤ r)
      (Credit.loop (Inv := BlocksEarn v.len B) ⟨Nat.zero_le _, Nat.sub_le _ _, rfl, rfl, .inl rfl, by simp, by simp⟩ ?_) ?_
    · intro s B1 h
      refine Credit.mono (blockStep_credit hl hB h) ?_
      rintro (s | s) r h <;> exact h
    · intro s r h
      split
      · exact Credit.usubAny fun _ _ => Credit.debugAssert (Credit.mono (moveRemL_credit (by omega)) fun _ _ _ => by omega)
      · split
        · exact Credit.usubAny fun _ _ => Credit.debugAssert (Credit.mono (moveRemR_credit (by omega)) fun _ _ _ => by omega)
        · exact Credit.pure (by omega)

theorem partition_credit (hl : Yields 12 less) {v : View} {pivot B : Nat} (hB : 10 ≤ B) :
    Credit 12 (partition cfg less v pivot) B (fun _ r => B + 7 * (v.len - 1) ≤ r + 10) := by
  unfold partition
  refine Credit.swap (by omega) fun _ _ => Credit.splitAt fun hv => Credit.vidx (by omega) fun x _ => ?_
  obtain ⟨B, rfl⟩ : ∃ B', B = B' + 10 := ⟨B - 10, by omega⟩
  rw [show B + 10 - 4 - 1 = B + 4 + 1 by omega]
  refine Credit.bind (Q' := fun _ r => B + 7 * (v.len - 1) + 5 ≤ r) (Credit.mono (Credit.onPanic (n := 1)
    (Q := fun _ r => B + 7 * (v.len - 1) + 4 ≤ r) ?_ fun B hB => Credit.vset' hB trivial) ?_) ?_
  · show Credit 12 (scanUp _ (v.len - 1) 0 >>= fun l => scanDown _ (v.len - 1 - l) (v.len - 1) >>= _) _ _
    refine Credit.bind (scanUp_credit (TestPays.get hl) (by omega)) ?_
    rintro l B1 ⟨h1, h2, h3, h4⟩
    refine Credit.bind (scanDown_credit (TestPays.getNot hl) (by omega) (by omega)) ?_
    rintro r B2 ⟨g1, g2, g3, g4⟩
    refine Credit.slice (by omega) fun _ => ?_
    refine Credit.bind (partitionInBlocks_credit hl (by omega)) fun k r1 hr1 => Credit.pure ?_
    have hr2 : B2 + 7 * (r - l) ≤ r1 := hr1
    omega
  · rintro b _ ⟨r, rfl, h⟩
    omega
  · rintro ⟨mid, was⟩ r hr
    refine Credit.vset (by omega) fun _ => ?_
    by_cases hr4 : 4 ≤ r - 1
    · exact Credit.swap hr4 fun _ _ => Credit.pure (by omega)
    · omega

end NdSlice
