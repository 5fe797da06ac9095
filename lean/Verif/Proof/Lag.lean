import Verif.Core.Lag
import Verif.Model.Api

/-
The time the quicksort and the selection take at least: the first partitioning is not split into tasks.
-/

namespace NdSlice

variable {α ι ω : Type} {cfg : Cfg} {less : α → α → Prog α ι ω Bool} {c m : Nat}

/-! ### Insertion sort -/

theorem insertTail_owe (hl : Takes c less) {v : View} : Owe c (insertTail cfg less v) m (fun _ r => r = m - 1) := by
  unfold insertTail
  refine Owe.anyB fun _ => Owe.anyB fun _ => Owe.anyB fun _ => Owe.anyB fun _ => Owe.anyB fun _ => Owe.lessB hl fun b => ?_
  exact Owe.any fun _ => rfl

theorem insertionSortShiftLeft_owe (hl : Takes c less) {v : View} {offset : Nat} :
    Owe c (insertionSortShiftLeft cfg less v offset) m (fun _ r => r = m - (v.len - offset)) :=
  Owe.anyB fun _ => Owe.forUp fun _ _ _ _ => Owe.anyB fun _ => insertTail_owe hl

theorem findOutOfOrder_owe (hl : Takes c less) {v : View} {i n : Nat} :
    Owe c (findOutOfOrder cfg less v i n) m (fun i' r => i ≤ i' ∧ r ≤ m - (i' - i)) := by
  induction n generalizing i m with
  | zero => exact Owe.pure ⟨Nat.le_refl _, by omega⟩
  | succ n ih =>
    refine Owe.anyB fun _ => Owe.anyB fun x => Owe.anyB fun y => Owe.lessB hl fun b => ?_
    split
    · exact Owe.pure ⟨Nat.le_refl _, by omega⟩
    · refine ih.mono ?_
      rintro i' r ⟨h1, h2⟩
      exact ⟨by omega, by omega⟩

theorem partialInsertionLoop_owe (hl : Takes c less) {v : View} {k i : Nat} (hm : m ≤ v.len - i) :
    Owe c (partialInsertionLoop cfg less v k i) m (fun b r => r ≤ m ∧ (b = true → r = 0)) := by
  induction k generalizing i m with
  | zero => exact Owe.pure ⟨Nat.le_refl _, fun h => by cases h⟩
  | succ k ih =>
    unfold partialInsertionLoop
    refine Owe.bind (findOutOfOrder_owe hl) ?_
    rintro i' r ⟨h1, h2⟩
    split
    · rename_i h
      rw [beq_iff_eq] at h
      exact Owe.pure ⟨by omega, fun _ => by omega⟩
    · split
      · exact Owe.pure ⟨by omega, fun h => by cases h⟩
      · refine Owe.anyB fun _ => Owe.anyB fun _ => ?_
        split
        · exact Owe.anyB fun _ => Owe.anyB fun _ => Owe.anyB fun _ => Owe.anyB fun _ => (ih (by omega)).mono fun _ _ h => ⟨by omega, h.2⟩
        · exact (ih (by omega)).mono fun _ _ h => ⟨by omega, h.2⟩

theorem partialInsertionSort_owe (hl : Takes c less) {v : View} :
    Owe c (partialInsertionSort cfg less v) (v.len - 1) (fun b r => r ≤ v.len - 1 ∧ (b = true → r = 0)) := partialInsertionLoop_owe hl (Nat.le_refl _)

/-! ### Partitioning -/

/-- A test of at least one comparison. -/
def Tests (c : Nat) (test : Nat → Prog α ι ω Bool) : Prop := ∀ i m, Owe c (test i) m (fun _ r => r = m - 1)

theorem scanUp_owe {test : Nat → Prog α ι ω Bool} (ht : Tests c test) {n l : Nat} :
    Owe c (scanUp test n l) m (fun l' r => l ≤ l' ∧ l' ≤ l + n ∧ r ≤ m - (l' - l)) := by
  induction n generalizing l m with
  | zero => exact Owe.pure ⟨Nat.le_refl _, Nat.le_refl _, by omega⟩
  | succ n ih =>
    refine Owe.bind (ht _ _) ?_
    rintro b _ rfl
    split
    · refine ih.mono ?_
      rintro l' r ⟨h1, h2, h3⟩
      exact ⟨by omega, by omega, by omega⟩
    · exact Owe.pure ⟨Nat.le_refl _, by omega, by omega⟩

theorem scanDown_owe {test : Nat → Prog α ι ω Bool} (ht : Tests c test) {n r : Nat} (hn : n ≤ r) :
    Owe c (scanDown test n r) m (fun r' b => r' ≤ r ∧ r ≤ r' + n ∧ b ≤ m - (r - r')) := by
  induction n generalizing r m with
  | zero => exact Owe.pure ⟨Nat.le_refl _, Nat.le_refl _, by omega⟩
  | succ n ih =>
    refine Owe.bind (ht _ _) ?_
    rintro b _ rfl
    split
    · refine (ih (by omega)).mono ?_
      rintro l' r ⟨h1, h2, h3⟩
      exact ⟨by omega, by omega, by omega⟩
    · exact Owe.pure ⟨Nat.le_refl _, by omega, by omega⟩

theorem traceL_owe (hl : Takes c less) {v : View} {x : α} {l n i : Nat} {acc : List Nat} :
    Owe c (traceL less v x l n i acc) m (fun _ r => r = m - n) := by
  induction n generalizing i acc m with
  | zero => exact Owe.pure rfl
  | succ n ih =>
    unfold traceL
    split
    · refine Owe.anyB fun _ => Owe.lessB hl fun _ => ih.mono ?_
      rintro _ _ rfl
      omega
    · exact Owe.ub

theorem traceR_owe (hl : Takes c less) {v : View} {x : α} {e n i : Nat} {acc : List Nat} :
    Owe c (traceR cfg less v x n e i acc) m (fun _ r => r = m - n) := by
  induction n generalizing i acc m e with
  | zero => exact Owe.pure rfl
  | succ n ih =>
    unfold traceR
    split
    · refine Owe.anyB fun _ => Owe.anyB fun _ => Owe.lessB hl fun _ => ih.mono ?_
      rintro _ _ rfl
      omega
    · exact Owe.ub

/-- The loop state of `partition_in_blocks` and the comparisons still to be made: those of blocks with offsets have been made. -/
structure BlocksOwe (s : BlockSt) (m : Nat) : Prop where
  le : s.l ≤ s.r
  bl : s.bl = 128
  br : s.br = 128
  one : s.ol = [] ∨ s.or = []
  wide : s.ol ≠ [] ∨ s.or ≠ [] → 128 ≤ s.r - s.l
  due : m + (if s.ol = [] then 0 else 128) + (if s.or = [] then 0 else 128) ≤ s.r - s.l

theorem cycleLoop_owe {v : View} {l r n : Nat} {ol or : List Nat} :
    Owe c (cycleLoop cfg v l r n ol or : Prog α ι ω _) m (fun x b => b = m ∧ x.1.length = ol.length - n ∧ x.2.length = or.length - n) := by
  induction n generalizing ol or with
  | zero => exact Owe.pure ⟨rfl, rfl, rfl⟩
  | succ n ih =>
    refine Owe.anyB fun _ => Owe.anyB fun _ => Owe.anyB fun _ => Owe.anyB fun _ => Owe.anyB fun _ => Owe.anyB fun _ => ?_
    refine Owe.mono ih ?_
    rintro x b ⟨h1, h2, h3⟩
    rw [List.length_tail] at h2 h3
    exact ⟨h1, by omega, by omega⟩

theorem cycle_owe {v : View} {l r n : Nat} {ol or : List Nat} (hn : 0 < n) :
    Owe c (cycle cfg v l r n ol or : Prog α ι ω _) m (fun x b => b = m ∧ x.1.length = ol.length - n ∧ x.2.length = or.length - n) := by
  unfold cycle
  refine Owe.anyB fun _ => Owe.anyB fun _ => Owe.anyB fun _ => Owe.anyB fun _ => ?_
  refine Owe.bind cycleLoop_owe ?_
  rintro ⟨o1, o2⟩ _ ⟨rfl, h2, h3⟩
  dsimp only at h2 h3 ⊢
  refine Owe.anyB fun _ => Owe.anyB fun _ => Owe.pure ⟨rfl, ?_, ?_⟩
  · dsimp only; rw [List.length_tail]; omega
  · dsimp only; rw [List.length_tail]; omega

theorem blockStep_owe (hl : Takes c less) {v : View} {x : α} {s : BlockSt} (h : BlocksOwe s m) :
    Owe c (blockStep cfg less v x s) m (fun o r => match o with
      | .inl s' => BlocksOwe s' r
      | .inr _ => r = 0) := by
  obtain ⟨l, bl, ol, r, br, or⟩ := s
  obtain ⟨h1, h2, h3, h4, h5, h6⟩ := h
  dsimp only at h1 h2 h3 h4 h5 h6
  subst h2 h3
  unfold blockStep
  refine Owe.usub h1 ?_
  dsimp only
  -- block sizes: the last round is about all of the remaining elements
  refine Owe.bind (Q' := fun s' b => b = m ∧ s'.l = l ∧ s'.r = r ∧ s'.ol = ol ∧ s'.or = or ∧
    (¬ 2 * BLOCK < r - l → m ≤ (if ol = [] then s'.bl else 0) + (if or = [] then s'.br else 0)) ∧
    (2 * BLOCK < r - l → s'.bl = 128 ∧ s'.br = 128)) ?_ ?_
  · unfold blockSizes
    refine Owe.usub h1 ?_
    dsimp only
    split
    · rename_i hw
      have hb : ¬ 2 * BLOCK < r - l := by omega
      refine Owe.bind (Q' := fun rem b => b = m ∧ rem = if ol ≠ [] ∨ or ≠ [] then r - l - 128 else r - l) ?_ ?_
      · split
        · rename_i hne
          unfold NdSlice.usub
          rw [if_pos (show BLOCK ≤ r - l from h5 hne)]
          exact Owe.pure ⟨rfl, rfl⟩
        · exact Owe.pure ⟨rfl, rfl⟩
      · rintro rem m ⟨rfl, hrem⟩
        refine Owe.bind (Q' := fun s' b => b = m ∧ s'.l = l ∧ s'.r = r ∧ s'.ol = ol ∧ s'.or = or ∧
          m ≤ (if ol = [] then s'.bl else 0) + (if or = [] then s'.br else 0)) ?_ ?_
        · split
          · rename_i hol
            refine Owe.pure ⟨rfl, rfl, rfl, rfl, rfl, ?_⟩
            rw [if_pos (.inl hol)] at hrem
            dsimp only
            simp only [if_neg hol, if_pos (h4.resolve_left hol)] at h6 ⊢
            omega
          · rename_i hol
            rw [not_not] at hol
            split
            · rename_i hor
              refine Owe.pure ⟨rfl, rfl, rfl, rfl, rfl, ?_⟩
              rw [if_pos (.inr hor)] at hrem
              dsimp only
              simp only [if_neg hor, if_pos hol] at h6 ⊢
              omega
            · rename_i hor
              rw [not_not] at hor
              refine Owe.usub (by omega) (Owe.pure ⟨rfl, rfl, rfl, rfl, rfl, ?_⟩)
              rw [if_neg (by simp [hol, hor])] at hrem
              dsimp only
              simp only [if_pos hol, if_pos hor] at h6 ⊢
              omega
        · rintro s' _ ⟨rfl, g1, g2, g3, g4, g5⟩
          exact Owe.anyB fun _ => Owe.anyB fun _ => Owe.pure ⟨rfl, g1, g2, g3, g4, fun _ => g5, fun h => absurd h hb⟩
    · rename_i hw
      exact Owe.pure ⟨rfl, rfl, rfl, rfl, rfl, fun h => by omega, fun _ => ⟨rfl, rfl⟩⟩
  · rintro ⟨l', bl, ol', r', br, or'⟩ m ⟨rfl, g1, g2, g3, g4, g5, g6⟩
    dsimp only at g1 g2 g3 g4 g5 g6
    subst g1 g2 g3 g4
    dsimp only
    refine Owe.bind (Q' := fun ol b => b = m - (if ol' = [] then bl else 0) ∧ (ol' ≠ [] → ol = ol')) ?_ ?_
    · split
      · rename_i hol
        refine Owe.mono (traceL_owe hl) ?_
        rintro _ _ rfl
        exact ⟨rfl, fun h => absurd hol h⟩
      · exact Owe.pure ⟨rfl, fun _ => rfl⟩
    · rintro ol _ ⟨rfl, hol⟩
      refine Owe.bind (Q' := fun or b => b = m - (if ol' = [] then bl else 0) - (if or' = [] then br else 0) ∧ (or' ≠ [] → or = or')) ?_ ?_
      · split
        · rename_i hor
          refine Owe.mono (traceR_owe hl) ?_
          rintro _ _ rfl
          exact ⟨rfl, fun h => absurd hor h⟩
        · exact Owe.pure ⟨rfl, fun _ => rfl⟩
      · rintro or m1 ⟨hm1, hor⟩
        refine Owe.bind (Q' := fun x b => b = m1 ∧ (x.1 = [] ∨ x.2 = [])) ?_ ?_
        · split
          · rename_i hc
            refine Owe.mono (cycle_owe hc) ?_
            rintro ⟨o1, o2⟩ b ⟨k1, k2, k3⟩
            dsimp only at k2 k3 ⊢
            refine ⟨k1, ?_⟩
            rw [← List.length_eq_zero_iff, ← List.length_eq_zero_iff]
            omega
          · rename_i hc
            refine Owe.pure ⟨rfl, ?_⟩
            dsimp only
            rw [← List.length_eq_zero_iff, ← List.length_eq_zero_iff]
            omega
        · rintro ⟨o1, o2⟩ m1 ⟨rfl, ho⟩
          dsimp only at ho ⊢
          by_cases hw : r' - l' ≤ 2 * BLOCK
          · simp only [hw, decide_true, if_true]
            refine Owe.anyB fun _ => Owe.pure ?_
            have := g5 (by omega)
            dsimp only
            omega
          · simp only [hw, decide_false, Bool.false_eq_true, if_false]
            obtain ⟨rfl, rfl⟩ := g6 (by omega)
            have hbk : BLOCK = 128 := rfl
            refine Owe.bind (Q' := fun r'' b => b = m1 ∧ r'' = if o2 = [] then r' - 128 else r') ?_ ?_
            · split
              · unfold NdSlice.usub
                rw [if_pos (by omega)]
                exact Owe.pure ⟨rfl, rfl⟩
              · exact Owe.pure ⟨rfl, rfl⟩
            · rintro r'' _ ⟨rfl, rfl⟩
              refine Owe.pure ⟨?_, rfl, rfl, ho, ?_, ?_⟩
              · dsimp only
                split <;> split <;> omega
              · dsimp only
                intro hne
                rcases ho with ho | ho
                · rw [if_pos ho]
                  split
                  · simp_all
                  · omega
                · rw [if_pos ho]
                  split
                  · simp_all
                  · omega
              · dsimp only
                rw [hm1]
                by_cases k1 : ol' = [] <;> by_cases k2 : or' = [] <;> by_cases k3 : o1 = [] <;> by_cases k4 : o2 = [] <;>
                  simp only [if_pos, if_neg, k1, k2, k3, k4, not_false_eq_true] at h6 ⊢ <;> omega

theorem partitionInBlocks_owe (hl : Takes c less) {v : View} {x : α} : Owe c (partitionInBlocks cfg less v x) v.len (fun _ r => r = 0) := by
  unfold partitionInBlocks
  split
  · rename_i h
    exact Owe.pure h
  · refine Owe.bind (Q' := fun _ r => r = 0) (Owe.loop (Inv := BlocksOwe) ⟨Nat.zero_le _, rfl, rfl, .inl rfl, by simp, by simp⟩ ?_) ?_
    · intro s m h
      refine Owe.mono (blockStep_owe hl h) ?_
      rintro (s | s) r h <;> exact h
    · rintro s _ rfl
      exact Owe.any fun _ => rfl

theorem partition_owe (hl : Takes c less) {v : View} {pivot : Nat} : Owe c (partition cfg less v pivot) (v.len - 1) (fun _ r => r = 0) := by
  unfold partition
  refine Owe.anyB fun _ => Owe.splitAt fun h1 => Owe.anyB fun x => ?_
  dsimp only
  refine Owe.bind (Q' := fun _ r => r = 0) (Owe.onPanic ?_) (by rintro _ _ rfl; exact Owe.any fun _ => rfl)
  simp only [View.sub_len]
  refine Owe.bind (scanUp_owe (fun i m => Owe.anyB fun _ => Owe.less hl fun _ => rfl)) ?_
  rintro l B1 ⟨h1, h2, h3⟩
  refine Owe.bind (scanDown_owe (fun i m => Owe.anyB fun _ => Owe.lessB hl fun _ => Owe.pure rfl) (by omega)) ?_
  rintro r B2 ⟨g1, g2, g3⟩
  refine Owe.slice (by omega) fun _ => ?_
  refine Owe.bind (Q' := fun _ r => r = 0) (Owe.weaken (partitionInBlocks_owe hl) ?_) (by rintro _ _ rfl; exact Owe.pure rfl)
  show B2 ≤ r - l
  omega

/-! ### Quicksort -/

theorem recurse_owe {maxSeq : Option Nat} {d : Nat} {v : View} (hl : Takes c less) {limit : Nat} (h : limit ≠ 0) :
    Owe c (recurse cfg less maxSeq d v none limit) (v.len - 1) (fun _ r => r = 0) := by
  cases d with
  | zero => exact Owe.diverge
  | succ d =>
    unfold recurse Prog.loop
    refine Owe.bind (Q' := fun _ r => r = 0) ?_ (by rintro _ _ rfl; exact Owe.any fun _ => rfl)
    unfold quickStep
    dsimp only
    split
    · split
      · refine Owe.bind (insertionSortShiftLeft_owe hl) ?_
        rintro _ _ rfl
        exact Owe.pure (by omega)
      · exact Owe.pure (by omega)
    · refine Owe.anyB fun limit => Owe.anyB fun pl => ?_
      refine Owe.bind (Q' := fun b r => r ≤ v.len - 1 ∧ (b = true → r = 0)) ?_ ?_
      · split
        · exact partialInsertionSort_owe hl
        · exact Owe.pure ⟨Nat.le_refl _, fun h => by cases h⟩
      · rintro done r ⟨h1, h2⟩
        split
        · rename_i hd
          exact Owe.pure (h2 hd)
        · refine Owe.bind (Q' := fun b r' => b = false ∧ r' = r) (Owe.pure ⟨rfl, rfl⟩) ?_
          rintro _ _ ⟨rfl, rfl⟩
          rw [if_neg (by decide)]
          exact Owe.bind ((partition_owe hl).weaken h1) (by rintro _ _ rfl; exact Owe.any fun _ => rfl)

theorem parQuickSort_owe (hl : Takes c less) {v : View} (hz : cfg.zst = false) : Owe c (parQuickSort cfg less v) (v.len - 1) (fun _ r => r = 0) := by
  unfold parQuickSort
  rw [hz, if_neg (by decide)]
  by_cases h : v.len = 0
  · rw [h]
    exact Owe.any fun _ => rfl
  · refine recurse_owe hl ?_
    unfold bitLen
    rw [if_neg h]
    omega

theorem quickSort_owe (hl : Takes c less) {v : View} (hz : cfg.zst = false) : Owe c (quickSort cfg less v) (v.len - 1) (fun _ r => r = 0) := by
  unfold quickSort
  rw [hz, if_neg (by decide)]
  by_cases h : v.len = 0
  · rw [h]
    exact Owe.any fun _ => rfl
  · refine recurse_owe hl ?_
    unfold bitLen
    rw [if_neg h]
    omega

/-! ### Selection -/

theorem maxLoop_owe (hl : Takes c less) {v : View} {best i n : Nat} : Owe c (maxLoop less v best i n) m (fun _ r => r = m - n) := by
  induction n generalizing best i m with
  | zero => exact Owe.pure rfl
  | succ n ih =>
    refine Owe.anyB fun _ => Owe.anyB fun _ => Owe.lessB hl fun _ => ih.mono ?_
    rintro _ _ rfl
    omega

theorem minLoop_owe (hl : Takes c less) {v : View} {best i n : Nat} : Owe c (minLoop less v best i n) m (fun _ r => r = m - n) := by
  induction n generalizing best i m with
  | zero => exact Owe.pure rfl
  | succ n ih =>
    refine Owe.anyB fun _ => Owe.anyB fun _ => Owe.lessB hl fun _ => ih.mono ?_
    rintro _ _ rfl
    omega

theorem partitionAtIndexLoop_owe (hl : Takes c less) {v : View} {index : Nat} :
    Owe c (partitionAtIndexLoop cfg less v index) (v.len - 1) (fun _ r => r = 0) := by
  unfold partitionAtIndexLoop selLoop
  split
  · split
    · refine (insertionSortShiftLeft_owe hl).mono ?_
      rintro _ _ rfl
      omega
    · exact Owe.pure (by omega)
  · rw [if_neg (by decide)]
    refine Owe.anyB fun _ => Owe.anyB fun pl => ?_
    refine Owe.bind (Q' := fun b r' => b = false ∧ r' = v.len - 1) (Owe.pure ⟨rfl, rfl⟩) ?_
    rintro _ _ ⟨rfl, rfl⟩
    rw [if_neg (by decide)]
    exact Owe.bind (partition_owe hl) (by rintro _ _ rfl; exact Owe.any fun _ => rfl)

theorem partitionAtIndex_owe (hl : Takes c less) {v : View} {index : Nat} (hz : cfg.zst = false) :
    Owe c (partitionAtIndex cfg less v index) (v.len - 1) (fun _ r => r = 0) := by
  unfold partitionAtIndex
  split
  · exact Owe.throw
  · rename_i hi
    refine Owe.bind (Q' := fun _ r => r = 0) ?_ (by rintro _ _ rfl; exact Owe.any fun _ => rfl)
    rw [hz, if_neg (by decide)]
    refine Owe.anyB fun last => ?_
    split
    · refine Owe.bind (Q' := fun _ r => r = 0) ?_ (by rintro _ _ rfl; exact Owe.any fun _ => rfl)
      unfold maxIndex
      rw [if_neg (by omega)]
      refine (maxLoop_owe hl).mono ?_
      rintro _ _ rfl
      omega
    · split
      · refine Owe.bind (Q' := fun _ r => r = 0) ?_ (by rintro _ _ rfl; exact Owe.any fun _ => rfl)
        unfold minIndex
        rw [if_neg (by omega)]
        refine (minLoop_owe hl).mono ?_
        rintro _ _ rfl
        omega
      · exact partitionAtIndexLoop_owe hl

theorem parSelectMany_owe (hl : Takes c less) {v : View} {indices : List Nat} {spare : Nat} (hz : cfg.zst = false) (hi : indices ≠ []) :
    Owe c (parSelectMany cfg less v indices spare) (v.len - 1) (fun _ r => r = 0) := by
  unfold parSelectMany parPartitionAtIndices
  split
  · rename_i h
    rw [List.getElem?_eq_none_iff] at h
    have := List.length_pos_iff.2 hi
    omega
  · exact Owe.anyB fun _ => Owe.bind (partitionAtIndex_owe hl hz) (by rintro _ _ rfl; exact Owe.any fun _ => rfl)

theorem selectMany_owe (hl : Takes c less) {v : View} {indices : List Nat} (hz : cfg.zst = false) (hi : indices ≠ []) :
    Owe c (selectMany cfg less v indices) (v.len - 1) (fun _ r => r = 0) := by
  unfold selectMany partitionAtIndices
  split
  · rename_i h
    rw [List.getElem?_eq_none_iff] at h
    have := List.length_pos_iff.2 hi
    omega
  · exact Owe.anyB fun _ => Owe.bind (partitionAtIndex_owe hl hz) (by rintro _ _ rfl; exact Owe.any fun _ => rfl)

end NdSlice
