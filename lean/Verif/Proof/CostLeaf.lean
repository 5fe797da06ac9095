import Verif.Proof.CostMerge
import Verif.Model.Quick

/-
How many comparisons the parts of quicksort and of selection make at most, whatever is answered.
-/

namespace NdSlice

variable {α ι ω β : Type} {cfg : Cfg} {less : α → α → Prog α ι ω Bool} {c : Nat}

/-! ### Heapsort -/

theorem siftDown_cost (hl : Asks c less) {v : View} {node : Nat} : Cost c (siftDown less v node) (2 * Nat.log2 v.len) (fun _ _ => True) := by
  unfold siftDown
  refine Cost.loop (Inv := fun node B => ∃ k, 2 * k ≤ B ∧ v.len < (node + 1) * 2 ^ (k + 1)) ⟨Nat.log2 v.len, Nat.le_refl _, ?_⟩ ?_
  · have h1 : v.len < 2 ^ (Nat.log2 v.len + 1) := Nat.lt_log2_self
    have h2 : 1 * 2 ^ (Nat.log2 v.len + 1) ≤ (node + 1) * 2 ^ (Nat.log2 v.len + 1) := Nat.mul_le_mul_right _ (by omega)
    omega
  · rintro node B ⟨k, hk, hn⟩
    unfold siftDownStep
    dsimp only
    split
    · exact Cost.pure trivial
    · rename_i hc
      cases k with
      | zero => simp at hn; omega
      | succ k =>
        obtain ⟨B, rfl⟩ : ∃ B', B = B' + 1 + 1 := ⟨B - 2, by omega⟩
        refine Cost.bind (Q' := fun child r => r = B + 1 ∧ 2 * node + 1 ≤ child) ?_ ?_
        · split
          · refine Cost.silentB Silent.vidx fun _ => Cost.silentB Silent.vidx fun _ => Cost.lessB hl fun b => Cost.pure ⟨rfl, ?_⟩
            split <;> omega
          · exact Cost.weaken (B := B + 1) (Cost.pure ⟨rfl, Nat.le_refl _⟩) (by omega)
        · rintro child _ ⟨rfl, hch⟩
          refine Cost.silentB Silent.vidx fun _ => Cost.silentB Silent.vidx fun _ => Cost.lessB hl fun b => ?_
          split
          · exact Cost.pure trivial
          · refine Cost.silentB Silent.swap fun _ => Cost.pure ⟨k, by omega, ?_⟩
            have h1 : (2 * (node + 1)) * 2 ^ (k + 1) ≤ (child + 1) * 2 ^ (k + 1) := Nat.mul_le_mul_right _ (by omega)
            have h2 : (node + 1) * 2 ^ (k + 1 + 1) = (2 * (node + 1)) * 2 ^ (k + 1) := by
              rw [pow_succ 2 (k + 1)]; ring
            omega

theorem log2_mono {a b : Nat} (h : a ≤ b) : Nat.log2 a ≤ Nat.log2 b := by
  by_cases ha : a = 0
  · subst ha; simp
  · rw [Nat.le_log2 (by omega)]
    exact Nat.le_trans (Nat.log2_self_le ha) h

theorem heapSort_cost (hl : Asks c less) {v : View} : Cost c (heapSort less v) (v.len * (3 * Nat.log2 v.len)) (fun _ _ => True) := by
  unfold heapSort
  generalize hg : Nat.log2 v.len = g
  have e : v.len * (3 * g) = v.len * (2 * g) + v.len * g := by rw [← Nat.mul_add]; congr 1; omega
  refine Cost.bind (Q' := fun _ r => v.len * (2 * g) ≤ r) (Cost.mono (Cost.forDown (a := 0) (n := v.len / 2)
    (Inv := fun i B => i * (2 * g) + v.len * (2 * g) ≤ B) ?_ ?_) ?_) ?_
  · have h1 : v.len / 2 * (2 * g) ≤ v.len * g := by
      rw [← Nat.mul_assoc]
      exact Nat.mul_le_mul_right _ (by omega)
    rw [e, Nat.zero_add]
    omega
  · intro i B _ _ hB
    rw [Nat.succ_mul] at hB
    refine Cost.more (B := 2 * g) (Q := fun _ _ => True) ?_ (by omega) (fun _ r _ => by omega)
    exact hg ▸ siftDown_cost hl
  · intro _ r h
    omega
  · rintro _ r hr
    refine Cost.mono (Cost.forDown (a := 1) (Inv := fun i B => (i - 1) * (2 * g) ≤ B) ?_ ?_) fun _ _ _ => trivial
    · have : (1 + (v.len - 1) - 1) * (2 * g) ≤ v.len * (2 * g) := Nat.mul_le_mul_right _ (by omega)
      omega
    · intro i B h1 h2 hB
      refine Cost.silentB Silent.swap fun _ => Cost.slice (Nat.zero_le _) fun _ => ?_
      rw [show i + 1 - 1 = (i - 1) + 1 by omega, Nat.succ_mul] at hB
      refine Cost.more (B := 2 * g) (Q := fun _ _ => True) ?_ (by omega) (fun _ r _ => by omega)
      refine Cost.weaken (siftDown_cost hl) ?_
      have : Nat.log2 (i - 0) ≤ g := hg ▸ log2_mono (by omega)
      show 2 * Nat.log2 (i - 0) ≤ _
      omega

/-! ### Partial insertion sort -/

theorem findOutOfOrder_cost (hl : Asks c less) {v : View} {i n B : Nat} (hB : n ≤ B) :
    Cost c (findOutOfOrder cfg less v i n) B (fun i' r => i ≤ i' ∧ i' ≤ i + n ∧ B ≤ r + (i' - i) + 1) := by
  induction n generalizing i B with
  | zero => exact Cost.pure ⟨Nat.le_refl _, Nat.le_refl _, by omega⟩
  | succ n ih =>
    obtain ⟨B, rfl⟩ : ∃ B', B = B' + 1 := ⟨B - 1, by omega⟩
    refine Cost.silentB Silent.usub fun _ => Cost.silentB Silent.vget fun x => Cost.silentB Silent.vget fun y => Cost.lessB hl fun b => ?_
    split
    · exact Cost.pure ⟨Nat.le_refl _, by omega, by omega⟩
    · refine Cost.mono (ih (by omega)) ?_
      rintro e' r ⟨h1, h2, h3⟩
      exact ⟨by omega, by omega, by omega⟩

theorem insertionSortShiftRight_cost (hl : Asks c less) {v : View} :
    Cost c (insertionSortShiftRight cfg less v 1) (v.len - 2 + 1) (fun _ _ => True) := by
  unfold insertionSortShiftRight
  refine Cost.assertP fun ho => ?_
  refine Cost.mono (Cost.forDown (a := 0) (n := 1) (Inv := fun i B => i = 1 → v.len - 2 + 1 ≤ B) (fun _ => Nat.le_refl _) ?_) fun _ _ _ => trivial
  intro i B _ h2 hB
  obtain rfl : i = 0 := by omega
  refine Cost.slice (by omega) fun _ => ?_
  refine Cost.mono (Cost.weaken (insertHead_cost hl) ?_) fun _ _ _ => by omega
  have := hB rfl
  show v.len - 0 - 2 + 1 ≤ B
  omega

theorem partialInsertionLoop_cost (hl : Asks c less) {v : View} {k i : Nat} (hi : i ≤ v.len) :
    Cost c (partialInsertionLoop cfg less v k i) (v.len - i + k * (2 * v.len + 1)) (fun _ _ => True) := by
  induction k generalizing i with
  | zero => exact Cost.pure trivial
  | succ k ih =>
    unfold partialInsertionLoop
    rw [Nat.succ_mul]
    refine Cost.bind (findOutOfOrder_cost hl (by omega)) ?_
    rintro i' r ⟨h1, h2, h3⟩
    split
    · exact Cost.pure trivial
    · split
      · exact Cost.pure trivial
      · refine Cost.bind (Q' := fun j r' => r' = r ∧ (1 ≤ i' → j = i' - 1)) ?_ ?_
        · by_cases h : 1 ≤ i'
          · unfold NdSlice.usub
            rw [if_pos h]
            exact Cost.pure ⟨rfl, fun _ => rfl⟩
          · exact Cost.silent Silent.usub fun _ => ⟨rfl, fun h' => absurd h' h⟩
        · rintro j _ ⟨rfl, hj⟩
          refine Cost.silentB Silent.swap fun _ => ?_
          split
          · obtain rfl := hj (by omega)
            refine Cost.slice (Nat.zero_le _) fun _ => ?_
            refine Cost.bindN (insertionSortShiftLeft_cost hl) (Q' := fun _ => True) (B' := v.len - i' + k * (2 * v.len + 1) + (i' - 1)) ?_ fun _ _ => ?_
            · show (i' - 0 - (i' - 1)) * (i' - 0 - 1) + _ ≤ _
              rw [show i' - 0 - (i' - 1) = 1 by omega, Nat.one_mul]
              omega
            · refine Cost.slice (Nat.zero_le _) fun _ => ?_
              refine Cost.bindN (insertionSortShiftRight_cost hl) (Q' := fun _ => True) (B' := v.len - i' + k * (2 * v.len + 1)) ?_
                fun _ _ => ih (by omega)
              show i' - 0 - 2 + 1 + _ ≤ _
              omega
          · exact Cost.weaken (ih (by omega)) (by omega)

theorem partialInsertionSort_cost (hl : Asks c less) {v : View} (h : 1 ≤ v.len) :
    Cost c (partialInsertionSort cfg less v) (11 * v.len + 4) (fun _ _ => True) :=
  Cost.weaken (partialInsertionLoop_cost hl h) (by omega)

/-! ### Pivots -/

theorem sort2_cost (hl : Asks c less) {v : View} {a b s : Nat} : Cost c (sort2 less v a b s) 1 (fun _ _ => True) := by
  unfold sort2
  refine Cost.silentB Silent.vget fun _ => Cost.silentB Silent.vget fun _ => Cost.lessB hl fun r => ?_
  split <;> exact Cost.pure trivial

theorem sort3_cost (hl : Asks c less) {v : View} {a b d s : Nat} : Cost c (sort3 less v a b d s) 3 (fun _ _ => True) := by
  unfold sort3
  refine Cost.bindN (B' := 2) (sort2_cost hl) (Q' := fun _ => True) (by omega) fun _ _ => ?_
  refine Cost.bindN (B' := 1) (sort2_cost hl) (Q' := fun _ => True) (by omega) fun _ _ => ?_
  refine Cost.bindN (B' := 0) (sort2_cost hl) (Q' := fun _ => True) (by omega) fun _ _ => ?_
  exact Cost.pure trivial

theorem sortAdjacent_cost (hl : Asks c less) {v : View} {a s : Nat} : Cost c (sortAdjacent cfg less v a s) 3 (fun _ _ => True) := by
  unfold sortAdjacent
  refine Cost.silentB Silent.usub fun _ => ?_
  refine Cost.bindN (B' := 0) (sort3_cost hl) (Q' := fun _ => True) (by omega) fun _ _ => ?_
  exact Cost.pure trivial

theorem chooseMedian_cost (hl : Asks c less) {v : View} : Cost c (chooseMedian cfg less v) 12 (fun _ _ => True) := by
  unfold chooseMedian
  dsimp only
  split
  · refine Cost.bindN (n := 9) (B' := 3) (Q' := fun _ => True) ?_ (by omega) fun _ _ => ?_
    · split
      · refine Cost.bindN (B' := 6) (sortAdjacent_cost hl) (Q' := fun _ => True) (by omega) fun _ _ => ?_
        refine Cost.bindN (B' := 3) (sortAdjacent_cost hl) (Q' := fun _ => True) (by omega) fun _ _ => ?_
        refine Cost.bindN (B' := 0) (sortAdjacent_cost hl) (Q' := fun _ => True) (by omega) fun _ _ => ?_
        exact Cost.pure trivial
      · exact Cost.pure trivial
    · refine Cost.bindN (B' := 0) (sort3_cost hl) (Q' := fun _ => True) (by omega) fun _ _ => ?_
      exact Cost.pure trivial
  · exact Cost.pure trivial

theorem choosePivot_cost (hl : Asks c less) {v : View} : Cost c (choosePivot cfg less v) 12 (fun _ _ => True) := by
  unfold choosePivot
  refine Cost.bindN (B' := 0) (chooseMedian_cost hl) (Q' := fun _ => True) (by omega) fun _ _ => ?_
  dsimp only
  split
  · exact Cost.pure trivial
  · exact Cost.silentB reverse_silent fun _ => Cost.silentB Silent.usub fun _ => Cost.silentB Silent.usub fun _ => Cost.pure trivial

theorem breakPatternsLoop_silent {v : View} {m pos i seed k : Nat} : Silent (breakPatternsLoop cfg v m pos i seed k : Prog α ι ω Unit) := by
  induction k generalizing i seed with
  | zero => exact Silent.pure
  | succ k ih => exact Silent.bind Silent.usub fun _ => Silent.bind Silent.swap fun _ => ih

theorem breakPatterns_silent {v : View} : Silent (breakPatterns cfg v : Prog α ι ω Unit) :=
  Silent.ite breakPatternsLoop_silent Silent.pure

theorem predCheck_cost (hl : Asks c less) {v : View} {pivot : Nat} {pred : Option Addr} :
    Cost c (predCheck less v pivot pred) 1 (fun _ _ => True) := by
  cases pred with
  | none => exact Cost.pure trivial
  | some a =>
    exact Cost.silentB Silent.deref fun _ => Cost.silentB Silent.vidx fun _ => Cost.lessB hl fun _ => Cost.pure trivial

/-! ### Partitioning -/

/-- A test of one comparison. -/
def Test (c : Nat) (test : Nat → Prog α ι ω Bool) : Prop := ∀ i B, Cost c (test i) (B + 1) (fun _ r => r = B)

theorem Test.get (hl : Asks c less) {w : View} {x : α} : Test c (fun i => do
    let y ← w.get i
    less y x : Nat → Prog α ι ω Bool) :=
  fun _ _ => Cost.silentB Silent.vget fun _ => Cost.less hl fun _ => rfl

theorem Test.get' (hl : Asks c less) {w : View} {x : α} : Test c (fun i => do
    let y ← w.get i
    less x y : Nat → Prog α ι ω Bool) :=
  fun _ _ => Cost.silentB Silent.vget fun _ => Cost.less hl fun _ => rfl

theorem Test.getNot (hl : Asks c less) {w : View} {x : α} : Test c (fun i => do
    let y ← w.get i
    let b ← less y x
    pure !b : Nat → Prog α ι ω Bool) :=
  fun _ _ => Cost.silentB Silent.vget fun _ => Cost.lessB hl fun _ => Cost.pure rfl

theorem Test.getNot' (hl : Asks c less) {w : View} {x : α} : Test c (fun i => do
    let y ← w.get i
    let b ← less x y
    pure !b : Nat → Prog α ι ω Bool) :=
  fun _ _ => Cost.silentB Silent.vget fun _ => Cost.lessB hl fun _ => Cost.pure rfl

theorem scanUp_cost {test : Nat → Prog α ι ω Bool} (ht : Test c test) {n l B : Nat} (hB : n ≤ B) :
    Cost c (scanUp test n l) B (fun l' r => l ≤ l' ∧ l' ≤ l + n ∧ B ≤ r + (l' - l) + 1 ∧ (l' = l + n → B ≤ r + n)) := by
  induction n generalizing l B with
  | zero => exact Cost.pure ⟨Nat.le_refl _, Nat.le_refl _, by omega, by omega⟩
  | succ n ih =>
    obtain ⟨B, rfl⟩ : ∃ B', B = B' + 1 := ⟨B - 1, by omega⟩
    refine Cost.bind (ht _ _) ?_
    rintro b _ rfl
    split
    · refine Cost.mono (ih (by omega)) ?_
      rintro l' r ⟨h1, h2, h3, h4⟩
      exact ⟨by omega, by omega, by omega, by omega⟩
    · exact Cost.pure ⟨Nat.le_refl _, by omega, by omega, by omega⟩

theorem scanDown_cost {test : Nat → Prog α ι ω Bool} (ht : Test c test) {n r B : Nat} (hB : n ≤ B) (hn : n ≤ r) :
    Cost c (scanDown test n r) B (fun r' b => r' ≤ r ∧ r ≤ r' + n ∧ B ≤ b + (r - r') + 1 ∧ (r = r' + n → B ≤ b + n)) := by
  induction n generalizing r B with
  | zero => exact Cost.pure ⟨Nat.le_refl _, Nat.le_refl _, by omega, by omega⟩
  | succ n ih =>
    obtain ⟨B, rfl⟩ : ∃ B', B = B' + 1 := ⟨B - 1, by omega⟩
    refine Cost.bind (ht _ _) ?_
    rintro b _ rfl
    split
    · refine Cost.mono (ih (by omega) (by omega)) ?_
      rintro l' r ⟨h1, h2, h3, h4⟩
      exact ⟨by omega, by omega, by omega, by omega⟩
    · exact Cost.pure ⟨Nat.le_refl _, by omega, by omega, by omega⟩

theorem scanEqual_cost {test : Nat → Prog α ι ω Bool} (ht : Test c test) {n r B : Nat} (hB : n ≤ B) (hn : n ≤ r) :
    Cost c (scanEqual cfg test n r) B (fun r' b => r' ≤ r ∧ r ≤ r' + n ∧ B ≤ b + (r - r') + 1 ∧ (r = r' + n → B ≤ b + n)) := by
  induction n generalizing r B with
  | zero => exact Cost.pure ⟨Nat.le_refl _, Nat.le_refl _, by omega, by omega⟩
  | succ n ih =>
    obtain ⟨B, rfl⟩ : ∃ B', B = B' + 1 := ⟨B - 1, by omega⟩
    refine Cost.bind (ht _ _) ?_
    rintro b _ rfl
    split
    · refine Cost.usub (by omega) (Cost.mono (ih (by omega) (by omega)) ?_)
      rintro l' r ⟨h1, h2, h3, h4⟩
      exact ⟨by omega, by omega, by omega, by omega⟩
    · exact Cost.pure ⟨Nat.le_refl _, by omega, by omega, by omega⟩

theorem partitionEqual_cost_pos (hl : Asks c less) {v : View} {pivot : Nat} :
    Cost c (partitionEqual cfg less v pivot) (v.len - 1) (fun m _ => 2 ≤ v.len → 1 ≤ m) := by
  unfold partitionEqual
  refine Cost.silentB Silent.swap fun _ => Cost.splitAt fun _ => Cost.silentB Silent.vidx fun x => ?_
  refine Cost.bind (Q' := fun m _ => 2 ≤ v.len → 1 ≤ m) (Cost.onPanic ?_ Silent.vset) fun _ _ h => Cost.silentB Silent.vset fun _ => Cost.pure h
  split
  · rename_i h
    have : v.len - 1 = 0 := by simpa using h
    exact Cost.pure (by omega)
  · refine Cost.bind (Q' := fun _ _ => True) (Cost.loop (Inv := fun x B => x.2 - x.1 ≤ B ∧ (1 ≤ x.2)) ⟨Nat.le_refl _, ?_⟩ ?_) fun _ _ _ => Cost.pure (by omega)
    · rename_i h
      show 1 ≤ v.len - 1
      have : v.len - 1 ≠ 0 := by simpa using h
      omega
    · rintro ⟨l, r⟩ B ⟨hB, hr⟩
      dsimp only at hB hr
      unfold partitionEqualStep
      dsimp only
      refine Cost.bind (scanUp_cost (Test.getNot' hl) hB) ?_
      rintro l' B1 ⟨h1, h2, h3, h4⟩
      refine Cost.usub hr ?_
      refine Cost.bind (scanEqual_cost (Test.get' hl) (by omega) (by omega)) ?_
      rintro r' B2 ⟨g1, g2, g3, g4⟩
      split
      · exact Cost.pure trivial
      · refine Cost.silentB Silent.uswap fun _ => Cost.pure ⟨?_, ?_⟩
        · dsimp only; omega
        · dsimp only; omega

theorem partitionEqual_cost (hl : Asks c less) {v : View} {pivot : Nat} :
    Cost c (partitionEqual cfg less v pivot) (v.len - 1) (fun _ _ => True) := (partitionEqual_cost_pos hl).mono fun _ _ _ => trivial

theorem traceL_cost (hl : Asks c less) {v : View} {x : α} {l n i B : Nat} {acc : List Nat} :
    Cost c (traceL less v x l n i acc) (B + n) (fun _ r => r = B) := by
  induction n generalizing i acc B with
  | zero => exact Cost.pure rfl
  | succ n ih =>
    unfold traceL
    split
    · exact Cost.silentB Silent.vidx fun _ => Cost.lessB hl fun _ => ih
    · exact Cost.ub

theorem traceR_cost (hl : Asks c less) {v : View} {x : α} {e n i B : Nat} {acc : List Nat} :
    Cost c (traceR cfg less v x n e i acc) (B + n) (fun _ r => r = B) := by
  induction n generalizing i acc B e with
  | zero => exact Cost.pure rfl
  | succ n ih =>
    unfold traceR
    split
    · exact Cost.silentB Silent.usub fun _ => Cost.silentB Silent.vidx fun _ => Cost.lessB hl fun _ => ih
    · exact Cost.ub

theorem leftIdx_silent {l : Nat} {o : List Nat} : Silent (leftIdx l o : Prog α ι ω Nat) := by
  cases o with
  | nil => exact Silent.ub
  | cons => exact Silent.pure

theorem rightIdx_silent {l : Nat} {o : List Nat} : Silent (rightIdx cfg l o : Prog α ι ω Nat) := by
  cases o with
  | nil => exact Silent.ub
  | cons => exact Silent.usub

theorem copyIdx_silent {v : View} {i j : Nat} : Silent (copyIdx v i j : Prog α ι ω Unit) :=
  Silent.bind Silent.vidx fun _ => Silent.vcset

theorem cycleLoop_cost {v : View} {l r n B : Nat} {ol or : List Nat} :
    Cost c (cycleLoop cfg v l r n ol or : Prog α ι ω _) B (fun x b => b = B ∧ x.1.length = ol.length - n ∧ x.2.length = or.length - n) := by
  induction n generalizing ol or with
  | zero => exact Cost.pure ⟨rfl, rfl, rfl⟩
  | succ n ih =>
    refine Cost.silentB leftIdx_silent fun _ => Cost.silentB rightIdx_silent fun _ => Cost.silentB copyIdx_silent fun _ =>
      Cost.silentB rightIdx_silent fun _ => Cost.silentB leftIdx_silent fun _ => Cost.silentB copyIdx_silent fun _ => ?_
    refine Cost.mono ih ?_
    rintro x b ⟨h1, h2, h3⟩
    rw [List.length_tail] at h2 h3
    exact ⟨h1, by omega, by omega⟩

theorem cycle_cost {v : View} {l r n B : Nat} {ol or : List Nat} (hn : 0 < n) :
    Cost c (cycle cfg v l r n ol or : Prog α ι ω _) B (fun x b => b = B ∧ x.1.length = ol.length - n ∧ x.2.length = or.length - n) := by
  unfold cycle
  refine Cost.silentB leftIdx_silent fun _ => Cost.silentB Silent.vidx fun _ => Cost.silentB rightIdx_silent fun _ =>
    Cost.silentB copyIdx_silent fun _ => ?_
  refine Cost.bind cycleLoop_cost ?_
  rintro ⟨o1, o2⟩ _ ⟨rfl, h2, h3⟩
  dsimp only at h2 h3 ⊢
  refine Cost.silentB rightIdx_silent fun _ => Cost.silentB Silent.vcset fun _ => Cost.pure ⟨rfl, ?_, ?_⟩
  · dsimp only; rw [List.length_tail]; omega
  · dsimp only; rw [List.length_tail]; omega

/-- The loop state of `partition_in_blocks` and what is still to be paid: elements of blocks with offsets have been compared. -/
structure BlocksPaid (s : BlockSt) (B : Nat) : Prop where
  le : s.l ≤ s.r
  bl : s.bl = 128
  br : s.br = 128
  one : s.ol = [] ∨ s.or = []
  wide : s.ol ≠ [] ∨ s.or ≠ [] → 128 ≤ s.r - s.l
  paid : s.r - s.l ≤ B + (if s.ol = [] then 0 else 128) + (if s.or = [] then 0 else 128)

theorem blockStep_cost (hl : Asks c less) {v : View} {x : α} {s : BlockSt} {B : Nat} (h : BlocksPaid s B) :
    Cost c (blockStep cfg less v x s) B (fun o r => match o with
      | .inl s' => BlocksPaid s' r
      | .inr _ => True) := by
  obtain ⟨l, bl, ol, r, br, or⟩ := s
  obtain ⟨h1, h2, h3, h4, h5, h6⟩ := h
  dsimp only at h1 h2 h3 h4 h5 h6
  subst h2 h3
  unfold blockStep
  refine Cost.usub h1 ?_
  dsimp only
  -- block sizes: the last round is about all of the remaining elements
  refine Cost.bind (Q' := fun s' b => b = B ∧ s'.l = l ∧ s'.r = r ∧ s'.ol = ol ∧ s'.or = or ∧
    (if ol = [] then s'.bl else 0) + (if or = [] then s'.br else 0) ≤ B ∧
    (2 * BLOCK < r - l → s'.bl = 128 ∧ s'.br = 128)) ?_ ?_
  · unfold blockSizes
    refine Cost.usub h1 ?_
    dsimp only
    split
    · rename_i hw
      have hb : ¬ 2 * BLOCK < r - l := by omega
      refine Cost.bind (Q' := fun rem b => b = B ∧ rem = if ol ≠ [] ∨ or ≠ [] then r - l - 128 else r - l) ?_ ?_
      · split
        · rename_i hne
          unfold NdSlice.usub
          rw [if_pos (show BLOCK ≤ r - l from h5 hne)]
          exact Cost.pure ⟨rfl, rfl⟩
        · exact Cost.pure ⟨rfl, rfl⟩
      · rintro rem B ⟨rfl, hrem⟩
        refine Cost.bind (Q' := fun s' b => b = B ∧ s'.l = l ∧ s'.r = r ∧ s'.ol = ol ∧ s'.or = or ∧
          (if ol = [] then s'.bl else 0) + (if or = [] then s'.br else 0) ≤ B) ?_ ?_
        · split
          · rename_i hol
            refine Cost.pure ⟨rfl, rfl, rfl, rfl, rfl, ?_⟩
            rw [if_pos (.inl hol)] at hrem
            dsimp only
            simp only [if_neg hol, if_pos (h4.resolve_left hol)] at h6 ⊢
            omega
          · rename_i hol
            rw [not_not] at hol
            split
            · rename_i hor
              refine Cost.pure ⟨rfl, rfl, rfl, rfl, rfl, ?_⟩
              rw [if_pos (.inr hor)] at hrem
              dsimp only
              simp only [if_neg hor, if_pos hol] at h6 ⊢
              omega
            · rename_i hor
              rw [not_not] at hor
              refine Cost.usub (by omega) (Cost.pure ⟨rfl, rfl, rfl, rfl, rfl, ?_⟩)
              rw [if_neg (by simp [hol, hor])] at hrem
              dsimp only
              simp only [if_pos hol, if_pos hor] at h6 ⊢
              omega
        · rintro s' _ ⟨rfl, g1, g2, g3, g4, g5⟩
          exact Cost.debugAssert (Cost.debugAssert (Cost.pure ⟨rfl, g1, g2, g3, g4, g5, fun h => absurd h hb⟩))
    · rename_i hw
      refine Cost.pure ⟨rfl, rfl, rfl, rfl, rfl, ?_, fun _ => ⟨rfl, rfl⟩⟩
      have : BLOCK = 128 := rfl
      dsimp only
      split <;> split <;> simp_all <;> omega
  · rintro ⟨l', bl, ol', r', br, or'⟩ _ ⟨rfl, g1, g2, g3, g4, g5, g6⟩
    dsimp only at g1 g2 g3 g4 g5 g6
    subst g1 g2 g3 g4
    dsimp only
    obtain ⟨B1, rfl⟩ := Nat.exists_eq_add_of_le g5
    refine Cost.bind (Q' := fun ol b => b = (if or' = [] then br else 0) + B1 ∧ (ol' ≠ [] → ol = ol')) ?_ ?_
    · split
      · rename_i hol
        rw [show bl + (if or' = [] then br else 0) + B1 = (if or' = [] then br else 0) + B1 + bl by omega]
        refine Cost.mono (traceL_cost hl) ?_
        rintro _ _ rfl
        exact ⟨rfl, fun h => absurd hol h⟩
      · rw [Nat.zero_add]
        exact Cost.pure ⟨rfl, fun _ => rfl⟩
    · rintro ol _ ⟨rfl, hol⟩
      refine Cost.bind (Q' := fun or b => b = B1 ∧ (or' ≠ [] → or = or')) ?_ ?_
      · split
        · rename_i hor
          rw [Nat.add_comm]
          refine Cost.mono (traceR_cost hl) ?_
          rintro _ _ rfl
          exact ⟨rfl, fun h => absurd hor h⟩
        · rw [Nat.zero_add]
          exact Cost.pure ⟨rfl, fun _ => rfl⟩
      · rintro or B1 ⟨rfl, hor⟩
        refine Cost.bind (Q' := fun x b => b = B1 ∧ (x.1 = [] ∨ x.2 = [])) ?_ ?_
        · split
          · rename_i hc
            refine Cost.mono (cycle_cost hc) ?_
            rintro ⟨o1, o2⟩ b ⟨k1, k2, k3⟩
            dsimp only at k2 k3 ⊢
            refine ⟨k1, ?_⟩
            rw [← List.length_eq_zero_iff, ← List.length_eq_zero_iff]
            omega
          · rename_i hc
            refine Cost.pure ⟨rfl, ?_⟩
            dsimp only
            rw [← List.length_eq_zero_iff, ← List.length_eq_zero_iff]
            omega
        · rintro ⟨o1, o2⟩ B1 ⟨rfl, ho⟩
          dsimp only at ho ⊢
          by_cases hw : r' - l' ≤ 2 * BLOCK
          · simp only [hw, decide_true, if_true]
            exact Cost.silentB (Silent.ite Silent.usub Silent.pure) fun _ => Cost.pure trivial
          · simp only [hw, decide_false, Bool.false_eq_true, if_false]
            obtain ⟨rfl, rfl⟩ := g6 (by omega)
            have hbk : BLOCK = 128 := rfl
            refine Cost.bind (Q' := fun r'' b => b = B1 ∧ r'' = if o2 = [] then r' - 128 else r') ?_ ?_
            · split
              · unfold NdSlice.usub
                rw [if_pos (by omega)]
                exact Cost.pure ⟨rfl, rfl⟩
              · exact Cost.pure ⟨rfl, rfl⟩
            · rintro r'' _ ⟨rfl, rfl⟩
              refine Cost.pure ⟨?_, rfl, rfl, ho, ?_, ?_⟩
              · dsimp only
                split <;> split <;> omega
              · dsimp only
                intro hne
                rcases ho with ho | ho
                · rw [if_pos ho]
                  split
                  · simp_all
                  · omega
                · rw [if_pos ho]
                  split
                  · simp_all
                  · omega
              · dsimp only
                split at h6 <;> split at h6 <;> split <;> split <;> simp_all <;> omega

theorem moveRemL_silent {v : View} {l n r : Nat} {o : List Nat} : Silent (moveRemL cfg v l n o r : Prog α ι ω Nat) := by
  induction n generalizing o r with
  | zero => exact Silent.pure
  | succ n ih => exact Silent.bind Silent.usub fun _ => Silent.bind Silent.uswap fun _ => ih

theorem moveRemR_silent {v : View} {r n l : Nat} {o : List Nat} : Silent (moveRemR cfg v r n o l : Prog α ι ω Nat) := by
  induction n generalizing o l with
  | zero => exact Silent.pure
  | succ n ih => exact Silent.bind Silent.usub fun _ => Silent.bind Silent.uswap fun _ => ih

theorem partitionInBlocks_cost (hl : Asks c less) {v : View} {x : α} :
    Cost c (partitionInBlocks cfg less v x) v.len (fun _ _ => True) := by
  unfold partitionInBlocks
  split
  · exact Cost.pure trivial
  · refine Cost.bind (Q' := fun _ _ => True) (Cost.loop (Inv := BlocksPaid) ⟨Nat.zero_le _, rfl, rfl, .inl rfl, by simp, by simp⟩ ?_) ?_
    · intro s B h
      refine Cost.mono (blockStep_cost hl h) ?_
      rintro (s | s) r h <;> exact h
    · intro s r _
      refine Cost.silent (Silent.ite ?_ (Silent.ite ?_ Silent.pure)) fun _ => trivial
      · exact Silent.bind Silent.usub fun _ => Silent.bind Silent.debugAssert fun _ => moveRemL_silent
      · exact Silent.bind Silent.usub fun _ => Silent.bind Silent.debugAssert fun _ => moveRemR_silent

theorem partition_cost (hl : Asks c less) {v : View} {pivot : Nat} :
    Cost c (partition cfg less v pivot) (v.len + 1) (fun _ _ => True) := by
  unfold partition
  refine Cost.silentB Silent.swap fun _ => Cost.splitAt fun h1 => Cost.silentB Silent.vidx fun x => ?_
  dsimp only
  refine Cost.bind (Q' := fun _ _ => True) (Cost.onPanic ?_ Silent.vset)
    fun _ _ _ => Cost.silentB Silent.vset fun _ => Cost.silentB Silent.swap fun _ => Cost.pure trivial
  simp only [View.sub_len]
  refine Cost.bind (scanUp_cost (Test.get hl) (by omega)) ?_
  rintro l B1 ⟨h1, h2, h3, h4⟩
  refine Cost.bind (scanDown_cost (Test.getNot hl) (by omega) (by omega)) ?_
  rintro r B2 ⟨g1, g2, g3, g4⟩
  refine Cost.slice (by omega) fun _ => ?_
  refine Cost.bind (Q' := fun _ _ => True) (Cost.weaken (partitionInBlocks_cost hl) ?_) fun _ _ _ => Cost.pure trivial
  show r - l ≤ B2
  omega

end NdSlice
