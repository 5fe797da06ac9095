import Verif.Proof.CreditLeaf
import Verif.Model.Select

/-
How many steps merge sort, quicksort and selection take at most, whatever is answered.
-/

namespace NdSlice

variable {α ι ω β : Type} {cfg : Cfg} {less : α → α → Prog α ι ω Bool}

theorem Credit.sliceAny {K B : Nat} {v : View} {a b : Nat} {k : View → Prog α ι ω β} {Q : β → Nat → Prop} (h : ∀ w : View, w.len ≤ v.len → Credit K (k w) B Q) :
    Credit K (v.slice a b >>= k) B Q := by
  unfold View.slice
  dsimp only
  generalize (if b < a then a else b) = b'
  by_cases hs : a ≤ v.len ∧ b' ≤ v.len
  · rw [if_pos hs]
    refine h _ ?_
    show b' - a ≤ v.len
    omega
  · rw [if_neg hs]
    trivial

theorem Credit.vidxIf {K B : Nat} {v : View} {i : Nat} {k : α → Prog α ι ω β} {Q : β → Nat → Prop} (hB : i < v.len → 1 ≤ B)
    (h : ∀ x, i < v.len → Credit K (k x) (B - 1) Q) : Credit K (v.idx i >>= k) B Q := by
  by_cases hi : i < v.len
  · exact vidx (hB hi) h
  · unfold View.idx
    rw [if_neg hi]
    trivial

/-! ### Merging -/

/-- A read. -/
def ReadPays (rd : View → Nat → Prog α ι ω α) : Prop := ∀ v i B, 1 ≤ B → Credit 12 (rd v i) B fun _ r => B ≤ r + 1

theorem ReadPays.get : ReadPays (View.get : View → Nat → Prog α ι ω α) := fun _ _ _ hB => Credit.vget' hB fun _ => by omega
theorem ReadPays.idx : ReadPays (View.idx : View → Nat → Prog α ι ω α) := fun _ _ _ hB => Credit.vidx' hB fun _ => by omega

theorem mergeHoleDrop_credit {v buf : View} {a b d B : Nat} (hab : a ≤ b) (hB : 2 * (b - a) ≤ B) :
    Credit 12 (mergeHoleDrop cfg v buf a b d : Prog α ι ω Unit) B (fun _ r => B ≤ r + 2 * (b - a)) := by
  unfold mergeHoleDrop
  refine Credit.usub hab ?_
  refine Credit.mono (Credit.forUp (Inv := fun i r => B ≤ r + 2 * i) (by omega) ?_) fun _ _ _ => by omega
  intro i B1 _ _ h
  exact Credit.vget (by omega) fun _ _ => Credit.vcset' (by omega) (by omega)

theorem copyToBuf_credit {v buf : View} {a n B : Nat} (hB : 2 * (v.len - a) ≤ B) :
    Credit 12 (copyToBuf v buf a n : Prog α ι ω Unit) B (fun _ r => B ≤ r + 2 * n ∧ (n = 0 ∨ a + n ≤ v.len)) := by
  unfold copyToBuf
  refine Credit.mono (Credit.forUp (a := 0) (Inv := fun i r => B ≤ r + 2 * i ∧ (i = 0 ∨ a + i ≤ v.len)) ⟨by omega, .inl rfl⟩ ?_) ?_
  · rintro i B1 _ _ ⟨h1, h2⟩
    exact Credit.vidxIf (by omega) fun _ _ => Credit.vset' (by omega) ⟨by omega, by omega⟩
  · intro _ r h
    rwa [Nat.zero_add] at h

theorem pick_credit {rd : View → Nat → Prog α ι ω α} (hrd : ReadPays rd) {v buf : View} {i j B : Nat} {b : Bool} (hB : 1 ≤ B) :
    Credit 12 (pick rd v buf i j b) B (fun _ r => B ≤ r + 1) := by
  unfold pick
  split
  · exact hrd _ _ _ hB
  · exact Credit.vget' hB fun _ => by omega

theorem merge_credit (hl : Yields 12 less) {rd : View → Nat → Prog α ι ω α} (hrd : ReadPays rd) {v buf : View} {mid B : Nat} (hB : 2 * v.len + 2 ≤ B) :
    Credit 12 (merge cfg less rd v mid buf) B (fun _ r => B ≤ r) := by
  unfold merge
  refine Credit.usubAny fun rest hrest => ?_
  split
  · rename_i hm
    refine Credit.bind (copyToBuf_credit (by omega)) ?_
    rintro _ B1 ⟨h1, h2⟩
    have hmid : mid + mid ≤ v.len := by
      have := hrest (by omega)
      omega
    refine Credit.bind (Q' := fun x r => x.1 ≤ mid ∧ B + 2 * (mid - x.1) ≤ r)
      (Credit.loop (Inv := fun x r => x.1 ≤ mid ∧ mid ≤ x.2.1 ∧ x.2.1 ≤ v.len ∧ B + 8 * (x.1 + (x.2.1 - mid)) ≤ r + 2 * mid) ?_ ?_) ?_
    · exact ⟨Nat.zero_le _, Nat.le_refl _, by dsimp only; omega, by dsimp only; omega⟩
    · rintro ⟨left, right, out⟩ B2 ⟨h3, h4, h5, h6⟩
      dsimp only at h3 h4 h5 h6
      unfold mergeFwdBody
      dsimp only
      split
      · rename_i hc
        simp only [Bool.and_eq_true, decide_eq_true_eq] at hc
        refine Credit.vget (by omega) fun _ _ => Credit.vget (by omega) fun _ _ => ?_
        refine Credit.lessGuard hl (n := 2 * (mid - left)) (fun B hB => Credit.mono (mergeHoleDrop_credit h3 hB) fun _ _ _ => trivial) (by omega) fun b r hr => ?_
        refine Credit.bind (pick_credit hrd (by omega)) fun z r1 hr1 => ?_
        refine Credit.vcset (by omega) fun _ => Credit.pure ?_
        cases b with
        | false => exact ⟨by dsimp only [Bool.false_eq_true, if_false]; simp; omega, by simp; omega, by simp; omega, by simp; omega⟩
        | true => exact ⟨by simp; omega, by simp; omega, by simp; omega, by simp; omega⟩
      · rename_i hc
        simp only [Bool.and_eq_true, decide_eq_true_eq] at hc
        exact Credit.pure ⟨h3, by dsimp only; omega⟩
    · rintro ⟨left, right, out⟩ r ⟨h3, h4⟩
      dsimp only at h3 h4 ⊢
      exact Credit.mono (mergeHoleDrop_credit h3 (by omega)) fun _ _ _ => by omega
  · rename_i hm
    refine Credit.bind (copyToBuf_credit (by omega)) ?_
    rintro _ B1 ⟨h1, h2⟩
    refine Credit.bind (Q' := fun x r => B + 2 * x.2.1 ≤ r)
      (Credit.loop (Inv := fun x r => x.1 ≤ mid ∧ x.2.1 ≤ rest ∧ B + 8 * ((mid - x.1) + (rest - x.2.1)) ≤ r + 2 * rest) ?_ ?_) ?_
    · exact ⟨Nat.le_refl _, Nat.le_refl _, by dsimp only; omega⟩
    · rintro ⟨left, right, out⟩ B2 ⟨h3, h4, h6⟩
      dsimp only at h3 h4 h6
      unfold mergeBwdBody
      dsimp only
      split
      · rename_i hc
        simp only [Bool.and_eq_true, decide_eq_true_eq] at hc
        refine Credit.vget (by omega) fun _ _ => Credit.vget (by omega) fun _ _ => ?_
        refine Credit.lessGuard hl (n := 2 * (right - 0)) (fun B hB => Credit.mono (mergeHoleDrop_credit (Nat.zero_le _) hB) fun _ _ _ => trivial) (by omega)
          fun b r hr => ?_
        refine Credit.bind (pick_credit hrd (by omega)) fun z r1 hr1 => Credit.usubAny fun out' _ => ?_
        refine Credit.vcset (by omega) fun _ => Credit.pure ?_
        cases b with
        | false => exact ⟨by simp; omega, by simp; omega, by simp; omega⟩
        | true => exact ⟨by simp; omega, by simp; omega, by simp; omega⟩
      · rename_i hc
        simp only [Bool.and_eq_true, decide_eq_true_eq] at hc
        exact Credit.pure (by dsimp only; omega)
    · rintro ⟨left, right, out⟩ r h3
      dsimp only at h3 ⊢
      exact Credit.mono (mergeHoleDrop_credit (Nat.zero_le _) (by omega)) fun _ _ _ => by omega

/-! ### Merge sort -/

theorem streakLoop_credit (hl : Yields 12 less) {v : View} {rev : Bool} {e n B : Nat} (hB : 2 ≤ B) :
    Credit 12 (streakLoop less v rev e n) B (fun e' r => e ≤ e' ∧ B + 10 * (e' - e) ≤ r) := by
  induction n generalizing e B with
  | zero => exact Credit.pure ⟨Nat.le_refl _, by omega⟩
  | succ n ih =>
    refine Credit.vget (by omega) fun _ _ => Credit.vget (by omega) fun _ _ => Credit.lessB hl fun b r hr => ?_
    split
    · refine Credit.mono (ih (by omega)) ?_
      rintro e' r' ⟨h1, h2⟩
      exact ⟨by omega, by omega⟩
    · exact Credit.pure ⟨Nat.le_refl _, by omega⟩

theorem findStreak_credit (hl : Yields 12 less) {v : View} {B : Nat} (hB : 2 ≤ B) :
    Credit 12 (findStreak less v) B (fun x r => B ≤ r ∧ (x.2 = true → B + 2 * x.1 ≤ r)) := by
  unfold findStreak
  split
  · exact Credit.pure ⟨Nat.le_refl _, by simp⟩
  · refine Credit.vget (by omega) fun _ _ => Credit.vget (by omega) fun _ _ => Credit.lessB hl fun b r hr => ?_
    refine Credit.bind (streakLoop_credit hl (by omega)) ?_
    rintro e r' ⟨h1, h2⟩
    exact Credit.pure ⟨by omega, fun _ => by dsimp only; omega⟩

theorem provideSortedBatch_credit (hl : Yields 12 less) {v : View} {start e B : Nat} (hB : 2 ≤ B) :
    Credit 12 (provideSortedBatch cfg less v start e) B (fun _ r => B ≤ r) := by
  unfold provideSortedBatch
  refine Credit.assertP fun _ => Credit.usubAny fun _ _ => ?_
  split
  · exact Credit.sliceAny fun _ _ => Credit.bind (insertionSortShiftLeft_credit hl hB) fun _ _ _ => Credit.pure (by omega)
  · exact Credit.pure (Nat.le_refl _)

theorem nextRun_credit (hl : Yields 12 less) {v : View} {start B : Nat} (hB : 2 ≤ B) :
    Credit 12 (nextRun cfg less v start) B (fun _ r => B ≤ r) := by
  unfold nextRun
  refine Credit.sliceAny fun w _ => Credit.bind (findStreak_credit hl hB) ?_
  rintro ⟨k, rev⟩ r ⟨h1, h2⟩
  dsimp only at h2 ⊢
  split
  · rename_i hrev
    have h3 := h2 hrev
    refine Credit.slice (by omega) fun _ => ?_
    have hk : (v.sub start (start + k - start)).len = k := by show start + k - start = k; omega
    refine Credit.bind (reverse_credit (by rw [hk]; omega)) fun _ r' hr' => ?_
    rw [hk] at hr'
    exact Credit.mono (provideSortedBatch_credit hl (by omega)) fun _ _ _ => by omega
  · exact Credit.mono (provideSortedBatch_credit hl (by omega)) fun _ _ _ => by omega

theorem RunVec.drop_credit {rv : RunVec} {B : Nat} : Credit 12 (rv.drop : Prog α ι ω Unit) B (fun _ r => r = B) := by
  unfold RunVec.drop
  split
  · exact Credit.pure rfl
  · exact Credit.ub

theorem RunVec.push_credit {al : Alloc} {rv : RunVec} {x : TimRun} {B : Nat} :
    Credit 12 (rv.push al x : Prog α ι ω RunVec) B (fun _ r => r = B) := by
  unfold RunVec.push
  split
  · split
    · split
      · split
        · exact Credit.pure rfl
        · exact Credit.ub
      · exact Credit.ub
    · exact Credit.bind RunVec.drop_credit fun _ _ _ => Credit.throw
  · split
    · exact Credit.pure rfl
    · exact Credit.ub

theorem RunVec.asSlice_credit {rv : RunVec} {B : Nat} : Credit 12 (rv.asSlice : Prog α ι ω _) B (fun _ r => r = B) := by
  unfold RunVec.asSlice
  split
  · exact Credit.pure rfl
  · exact Credit.ub

theorem RunVec.idx_credit {rv : RunVec} {i B : Nat} : Credit 12 (rv.idx i : Prog α ι ω _) B (fun _ r => r = B) := by
  unfold RunVec.idx
  split
  · split
    · exact Credit.pure rfl
    · exact Credit.ub
  · exact Credit.throw

theorem RunVec.setIdx_credit {rv : RunVec} {i B : Nat} {x : TimRun} : Credit 12 (rv.setIdx i x : Prog α ι ω _) B (fun _ r => r = B) := by
  unfold RunVec.setIdx
  split
  · split
    · split
      · exact Credit.pure rfl
      · exact Credit.ub
    · exact Credit.ub
  · exact Credit.throw

theorem RunVec.remove_credit {rv : RunVec} {i B : Nat} : Credit 12 (rv.remove i : Prog α ι ω _) B (fun _ r => r = B) := by
  unfold RunVec.remove
  split
  · exact Credit.throw
  · split
    · split
      · exact Credit.pure rfl
      · exact Credit.ub
    · exact Credit.ub

/-- A guard which takes no steps. -/
theorem Credit.onPanicFree {p : Prog α ι ω β} {g : Prog α ι ω Unit} {K B : Nat} {Q : β → Nat → Prop} (h : Credit K p B Q)
    (hg : ∀ B, Credit K g B fun _ _ => True) : Credit K (p.onPanic g) B Q := by
  refine Credit.mono (Credit.onPanic (n := 0) h fun B _ => hg B) ?_
  rintro b _ ⟨r, rfl, h⟩
  exact h

theorem collapseBody_credit (hl : Yields 12 less) {v buf : View} {rv : RunVec} {B : Nat} (hB : 2 * v.len + 2 ≤ B) :
    Credit 12 (collapseBody cfg less v buf rv) B (fun _ r => B ≤ r) := by
  unfold collapseBody
  refine Credit.bind RunVec.asSlice_credit ?_
  rintro rs B rfl
  split
  · exact Credit.pure (Nat.le_refl _)
  · refine Credit.bind (Q' := fun _ r => B ≤ r) (Credit.onPanicFree ?_ fun B => RunVec.drop_credit.mono fun _ _ _ => trivial) fun _ _ _ => Credit.pure (by omega)
    refine Credit.bind RunVec.idx_credit ?_
    rintro left _ rfl
    refine Credit.bind RunVec.idx_credit ?_
    rintro right _ rfl
    refine Credit.sliceAny fun w hw => Credit.bind (merge_credit hl ReadPays.get (by omega)) fun _ r hr => ?_
    refine Credit.bind RunVec.setIdx_credit ?_
    rintro rv' _ rfl
    exact Credit.mono RunVec.remove_credit fun _ _ _ => by omega

theorem mergeSortBody_credit (hl : Yields 12 less) {al : Alloc} {v buf : View} {x : Nat × RunVec} {B : Nat} (hB : 2 * v.len + 2 ≤ B) :
    Credit 12 (mergeSortBody cfg less (fun _ => pure ()) al v buf x) B (fun _ r => B ≤ r) := by
  obtain ⟨start, rv⟩ := x
  unfold mergeSortBody
  dsimp only
  split
  · refine Credit.bind (Credit.onPanicFree (nextRun_credit hl (by omega)) fun B => RunVec.drop_credit.mono fun _ _ _ => trivial) fun e r hr => ?_
    refine Credit.usubAny fun n _ => Credit.bind RunVec.push_credit ?_
    rintro rv' _ rfl
    refine Credit.bind (Q' := fun _ r => B ≤ r) (Credit.loop (Inv := fun _ r => B ≤ r) hr ?_) fun rv'' r' hr' => Credit.pure hr'
    intro rv1 B1 h1
    refine Credit.mono (collapseBody_credit hl (by omega)) ?_
    rintro (o | o) r h <;> dsimp only <;> omega
  · exact Credit.pure (Nat.le_refl _)

theorem mergeSort_credit (hl : Yields 12 less) {al : Alloc} {v buf : View} {B : Nat} (hB : 2 * v.len + 2 ≤ B) :
    Credit 12 (mergeSort cfg less al v buf) B (fun _ r => B ≤ r) := by
  unfold mergeSort mergeSortWatch
  refine Credit.debugAssert ?_
  split
  · split
    · exact insertionSortShiftLeft_credit hl (by omega)
    · exact Credit.pure (Nat.le_refl _)
  · split
    · exact Credit.throw
    · split
      · exact Credit.throw
      · refine Credit.bind (Q' := fun _ r => B ≤ r) (Credit.loop (Inv := fun _ r => B ≤ r) (Nat.le_refl _) ?_) fun rv r hr => ?_
        · intro x B1 h1
          refine Credit.mono (mergeSortBody_credit hl (by omega)) ?_
          rintro (o | o) r h <;> dsimp only <;> omega
        · split
          · refine Credit.bind RunVec.idx_credit ?_
            rintro x _ rfl
            exact Credit.debugAssert (Credit.mono RunVec.drop_credit fun _ _ h => by omega)
          · exact Credit.mono RunVec.drop_credit fun _ _ h => by omega

theorem stableSort_credit (hl : Yields 12 less) {al : Alloc} {v buf : View} {B : Nat} (hB : 2 * v.len + 2 ≤ B) :
    Credit 12 (stableSort cfg less al v buf) B (fun _ r => B ≤ r) := by
  unfold stableSort
  split
  · exact Credit.pure (Nat.le_refl _)
  · exact mergeSort_credit hl hB

/-! ### Quicksort -/

/-- A call of the recursion pays for itself. -/
def RecPays (rec : View → Option Addr → Nat → Prog α ι ω Unit) : Prop :=
  ∀ v pred limit B, 2 * v.len + 24 ≤ B → Credit 12 (rec v pred limit) B fun _ r => B ≤ r

theorem quickDescend_credit {maxSeq : Option Nat} {rec : View → Option Addr → Nat → Prog α ι ω Unit} (hrec : RecPays rec) {left right : View}
    {pred : Option Addr} {piv : Addr} {limit B : Nat} {bal wasP : Bool} (hB : 2 * (left.len + right.len) + 49 ≤ B) :
    Credit 12 (quickDescend maxSeq rec left right pred piv limit bal wasP) B (fun o r => match o with
      | .inl s => B ≤ r ∧ s.v.len ≤ left.len + right.len
      | .inr _ => B ≤ r + 1) := by
  unfold quickDescend
  split
  · split
    · exact Credit.bind (hrec _ _ _ _ (by omega)) fun _ _ _ => Credit.pure ⟨by omega, by dsimp only; omega⟩
    · exact Credit.bind (hrec _ _ _ _ (by omega)) fun _ _ _ => Credit.pure ⟨by omega, by dsimp only; omega⟩
  · refine Credit.bind (Q' := fun _ r => B ≤ r + 1) (Credit.rayonJoin (B1 := 2 * left.len + 24) (B2 := B - 1 - (2 * left.len + 24)) (by omega)
      (hrec _ _ _ _ (Nat.le_refl _)) (hrec _ _ _ _ (by omega)) fun _ _ r t h1 h2 => by omega) fun _ _ h => Credit.pure h

theorem quickSplit_credit (hl : Yields 12 less) {maxSeq : Option Nat} {rec : View → Option Addr → Nat → Prog α ι ω Unit} (hrec : RecPays rec) {s : QSt}
    {limit pivot B : Nat} (hv : 20 < s.v.len) (hB : 10 ≤ B) :
    Credit 12 (quickSplit cfg less maxSeq rec s limit pivot) B (fun o r => match o with
      | .inl s' => B + 7 * (s.v.len - 1) ≤ r + 10 ∧ s'.v.len ≤ s.v.len
      | .inr _ => B + 7 * (s.v.len - 1) ≤ r + 11) := by
  unfold quickSplit
  refine Credit.bind (partition_credit hl hB) ?_
  rintro ⟨mid, wasP⟩ r hr
  refine Credit.usubAny fun d _ => Credit.splitAt fun h1 => Credit.splitAt fun h2 => Credit.vref fun h3 => ?_
  have e1 : (s.v.sub 0 mid).len = mid := rfl
  have e2 : (s.v.sub mid (s.v.len - mid)).len = s.v.len - mid := rfl
  have e3 : ((s.v.sub mid (s.v.len - mid)).sub 1 ((s.v.sub mid (s.v.len - mid)).len - 1)).len = s.v.len - mid - 1 := rfl
  refine Credit.mono (quickDescend_credit hrec (by rw [e1, e3]; omega)) ?_
  rintro (s' | u) r' h
  · obtain ⟨g1, g2⟩ := h
    rw [e1, e3] at g2
    exact ⟨by omega, by omega⟩
  · dsimp only at h ⊢
    omega

theorem quickStep_credit (hl : Yields 12 less) {maxSeq : Option Nat} {rec : View → Option Addr → Nat → Prog α ι ω Unit} (hrec : RecPays rec) {s : QSt}
    {B : Nat} (hB : 2 * s.v.len + 24 ≤ B) :
    Credit 12 (quickStep cfg less maxSeq rec s) B (fun o r => B ≤ r ∧ match o with
      | .inl s' => s'.v.len ≤ s.v.len
      | .inr _ => True) := by
  unfold quickStep
  dsimp only
  split
  · split
    · exact Credit.bind (insertionSortShiftLeft_credit hl (by omega)) fun _ _ h => Credit.pure ⟨h, trivial⟩
    · exact Credit.pure ⟨Nat.le_refl _, trivial⟩
  · rename_i hv
    split
    · exact Credit.bind (heapSort_credit hl (by omega) (by omega)) fun _ _ h => Credit.pure ⟨h, trivial⟩
    · refine Credit.bind (Q' := fun _ r => B ≤ r + 12) ?_ fun limit r1 hr1 => ?_
      · split
        · exact Credit.bind (breakPatterns_credit (by omega)) fun _ _ _ => Credit.usub' fun _ _ => by omega
        · exact Credit.pure (by omega)
      · refine Credit.bind (choosePivot_credit hl (by omega)) ?_
        rintro ⟨pivot, likely⟩ r2 hr2
        refine Credit.bind (Q' := fun b r => r2 ≤ r ∧ (b = true → r2 + 10 * (s.v.len - 1) ≤ r)) ?_ ?_
        · split
          · exact partialInsertionSort_credit hl (by omega)
          · exact Credit.pure ⟨Nat.le_refl _, by simp⟩
        · rintro done r3 ⟨h3, h4⟩
          split
          · rename_i hd
            have := h4 hd
            exact Credit.pure ⟨by omega, trivial⟩
          · refine Credit.bind (predCheck_credit hl (by omega)) fun c r4 hr4 => ?_
            split
            · refine Credit.bind (partitionEqual_credit hl (by omega)) fun mid r5 hr5 => Credit.splitAt fun _ => ?_
              refine Credit.pure ⟨by omega, ?_⟩
              show s.v.len - mid ≤ s.v.len
              omega
            · refine Credit.mono (quickSplit_credit hl hrec (by omega) (by omega)) ?_
              rintro (s' | u) r5 h
              · exact ⟨by omega, h.2⟩
              · dsimp only at h
                exact ⟨by omega, trivial⟩

theorem recurse_credit (hl : Yields 12 less) {maxSeq : Option Nat} {d : Nat} : RecPays (recurse cfg less maxSeq d) := by
  induction d with
  | zero => exact fun _ _ _ _ _ => Credit.diverge
  | succ d ih =>
    intro v pred limit B hB
    unfold recurse
    refine Credit.loop (Inv := fun s r => s.v.len ≤ v.len ∧ B ≤ r) ⟨Nat.le_refl _, Nat.le_refl _⟩ ?_
    rintro s B1 ⟨h1, h2⟩
    refine Credit.mono (quickStep_credit hl ih (by omega)) ?_
    rintro (s' | u) r h
    · exact ⟨by have := h.2; dsimp only at this; omega, by omega⟩
    · dsimp only; omega

theorem quickSort_credit (hl : Yields 12 less) {v : View} {B : Nat} (hB : 2 * v.len + 24 ≤ B) :
    Credit 12 (quickSort cfg less v) B (fun _ r => B ≤ r) := by
  unfold quickSort
  split
  · exact Credit.pure (Nat.le_refl _)
  · exact recurse_credit hl _ _ _ _ hB

theorem parQuickSort_credit (hl : Yields 12 less) {v : View} {B : Nat} (hB : 2 * v.len + 24 ≤ B) :
    Credit 12 (parQuickSort cfg less v) B (fun _ r => B ≤ r) := by
  unfold parQuickSort
  split
  · exact Credit.pure (Nat.le_refl _)
  · exact recurse_credit hl _ _ _ _ hB

/-! ### Selection -/

theorem maxLoop_credit (hl : Yields 12 less) {v : View} {best i n B : Nat} (hB : 2 ≤ B) :
    Credit 12 (maxLoop less v best i n) B (fun _ r => B + 10 * n ≤ r) := by
  induction n generalizing best i B with
  | zero => exact Credit.pure (by omega)
  | succ n ih =>
    exact Credit.vget (by omega) fun _ _ => Credit.vget (by omega) fun _ _ => Credit.lessB hl fun b r hr => Credit.mono (ih (by omega)) fun _ _ _ => by omega

theorem minLoop_credit (hl : Yields 12 less) {v : View} {best i n B : Nat} (hB : 2 ≤ B) :
    Credit 12 (minLoop less v best i n) B (fun _ r => B + 10 * n ≤ r) := by
  induction n generalizing best i B with
  | zero => exact Credit.pure (by omega)
  | succ n ih =>
    exact Credit.vget (by omega) fun _ _ => Credit.vget (by omega) fun _ _ => Credit.lessB hl fun b r hr => Credit.mono (ih (by omega)) fun _ _ _ => by omega

theorem maxIndex_credit (hl : Yields 12 less) {v : View} {B : Nat} (hB : 2 ≤ B) :
    Credit 12 (maxIndex less v) B (fun _ r => B + 10 * (v.len - 1) ≤ r) := by
  unfold maxIndex
  split
  · exact Credit.throw
  · exact maxLoop_credit hl hB

theorem minIndex_credit (hl : Yields 12 less) {v : View} {B : Nat} (hB : 2 ≤ B) :
    Credit 12 (minIndex less v) B (fun _ r => B + 10 * (v.len - 1) ≤ r) := by
  unfold minIndex
  split
  · exact Credit.throw
  · exact minLoop_credit hl hB

theorem lessAt_credit (hl : Yields 12 less) {v : View} {i j B : Nat} (hB : 2 ≤ B) :
    Credit 12 (lessAt less v i j) B (fun _ r => B + 10 ≤ r) := by
  unfold lessAt
  exact Credit.vidx (by omega) fun _ _ => Credit.vidx (by omega) fun _ _ => Credit.mono (hl _ _ _) fun _ _ _ => by omega

theorem medianIdx_credit (hl : Yields 12 less) {v : View} {a b c B : Nat} (hB : 2 ≤ B) :
    Credit 12 (medianIdx less v a b c) B (fun _ r => B ≤ r) := by
  unfold medianIdx
  refine Credit.bind (lessAt_credit hl hB) fun s r hr => ?_
  refine Credit.bind (lessAt_credit hl (by omega)) fun s r hr => ?_
  split
  · exact Credit.pure (by omega)
  · refine Credit.bind (lessAt_credit hl (by omega)) fun s r hr => ?_
    split <;> exact Credit.pure (by omega)

theorem nintherEnd_credit (hl : Yields 12 less) {v : View} {b d e h B : Nat} (hB : 2 ≤ B) :
    Credit 12 (nintherEnd less v b d e h) B (fun _ r => B ≤ r) := by
  unfold nintherEnd
  refine Credit.bind (lessAt_credit hl hB) fun s r hr => ?_
  split
  · exact Credit.swap' (by omega) fun _ _ => by omega
  · refine Credit.bind (lessAt_credit hl (by omega)) fun s r hr => ?_
    split <;> exact Credit.swap' (by omega) fun _ _ => by omega

theorem ninther_credit (hl : Yields 12 less) {v : View} {a b c d e f g h i B : Nat} (hB : 2 ≤ B) :
    Credit 12 (ninther less v a b c d e f g h i) B (fun _ r => B ≤ r) := by
  unfold ninther
  refine Credit.bind (medianIdx_credit hl hB) fun b r hr => Credit.bind (medianIdx_credit hl (by omega)) fun h r hr => ?_
  refine Credit.bind (lessAt_credit hl (by omega)) fun s r hr => ?_
  refine Credit.bind (lessAt_credit hl (by omega)) fun s r hr => ?_
  refine Credit.bind (lessAt_credit hl (by omega)) fun s r hr => ?_
  split
  · exact Credit.mono (nintherEnd_credit hl (by omega)) fun _ _ _ => by omega
  · refine Credit.bind (lessAt_credit hl (by omega)) fun s r hr => ?_
    split
    · exact Credit.mono (nintherEnd_credit hl (by omega)) fun _ _ _ => by omega
    · refine Credit.bind (lessAt_credit hl (by omega)) fun s r hr => ?_
      split
      · exact Credit.swap' (by omega) fun _ _ => by omega
      · refine Credit.bind (lessAt_credit hl (by omega)) fun s r hr => ?_
        split
        · exact Credit.swap' (by omega) fun _ _ => by omega
        · exact Credit.pure (by omega)

theorem nintherLoop_credit (hl : Yields 12 less) {v : View} {frac a i b n B : Nat} (hB : 2 ≤ B) :
    Credit 12 (nintherLoop cfg less v frac a i b n) B (fun _ r => B ≤ r) := by
  induction n generalizing a i b B with
  | zero => exact Credit.pure (Nat.le_refl _)
  | succ n ih =>
    exact Credit.usubAny fun _ _ => Credit.bind (ninther_credit hl hB) fun _ _ _ => Credit.mono (ih (by omega)) fun _ _ _ => by omega

/-- A call of the recursion pays for itself. -/
def SelPays (rec : View → Nat → Prog α ι ω Unit) : Prop := ∀ v k B, 10 ≤ B → Credit 12 (rec v k) B fun _ r => B ≤ r

theorem medianOfNinthers_credit (hl : Yields 12 less) {rec : View → Nat → Prog α ι ω Unit} (hrec : SelPays rec) {v : View} {B : Nat} (hv : 10 < v.len)
    (hB : 10 ≤ B) : Credit 12 (medianOfNinthers cfg less rec v) B (fun _ r => B ≤ r) := by
  unfold medianOfNinthers
  dsimp only
  refine Credit.usubAny fun _ _ => Credit.usubAny fun _ _ => Credit.usubAny fun _ _ => Credit.usubAny fun _ _ => ?_
  refine Credit.bind (nintherLoop_credit hl (by omega)) fun _ r hr => Credit.sliceAny fun w _ => ?_
  refine Credit.bind (hrec _ _ _ (by omega)) fun _ r hr => Credit.bind (partition_credit hl (by omega)) ?_
  rintro ⟨p, _⟩ r hr
  exact Credit.pure (by omega)

theorem momLoop_credit (hl : Yields 12 less) {rec : View → Nat → Prog α ι ω Unit} (hrec : SelPays rec) {n : Nat} {v : View} {k B : Nat} (hB : 10 ≤ B) :
    Credit 12 (momLoop cfg less rec n v k) B (fun _ r => B ≤ r) := by
  induction n generalizing v k B with
  | zero => exact Credit.diverge
  | succ n ih =>
    unfold momLoop
    split
    · split
      · exact insertionSortShiftLeft_credit hl (by omega)
      · exact Credit.pure (Nat.le_refl _)
    · refine Credit.usubAny fun last _ => ?_
      split
      · exact Credit.bind (maxIndex_credit hl (by omega)) fun _ _ _ => Credit.swap' (by omega) fun _ _ => by omega
      · split
        · exact Credit.bind (minIndex_credit hl (by omega)) fun _ _ _ => Credit.swap' (by omega) fun _ _ => by omega
        · refine Credit.bind (medianOfNinthers_credit hl hrec (by omega) hB) fun p r hr => ?_
          split
          · exact Credit.pure hr
          · split
            · exact Credit.splitAt fun _ => Credit.mono (ih (by omega)) fun _ _ _ => by omega
            · exact Credit.splitAt fun _ => Credit.usubAny fun _ _ => Credit.mono (ih (by omega)) fun _ _ _ => by omega

theorem medianOfMedians_credit (hl : Yields 12 less) {d : Nat} : SelPays (medianOfMedians cfg less d) := by
  induction d with
  | zero => exact fun _ _ _ _ => Credit.diverge
  | succ d ih => exact fun v k B hB => Credit.debugAssert (Credit.debugAssert (momLoop_credit hl ih hB))

theorem selPredCheck_credit (hl : Yields 12 less) {v : View} {pivot B : Nat} {pred : Option Addr} (hB : 2 ≤ B) :
    Credit 12 (selPredCheck less v pivot pred) B (fun _ r => B ≤ r) := by
  cases pred with
  | none => exact Credit.pure (Nat.le_refl _)
  | some a => exact Credit.deref (by omega) fun _ => Credit.vidx (by omega) fun _ _ => Credit.lessB hl fun _ _ _ => Credit.pure (by omega)

theorem selLoop_credit (hl : Yields 12 less) {n : Nat} {v : View} {index : Nat} {pred : Option Addr} {limit : Nat} {bal : Bool} {B : Nat}
    (hB : 2 * v.len + 24 ≤ B) : Credit 12 (selLoop cfg less n v index pred limit bal) B (fun _ r => B ≤ r) := by
  induction n generalizing v index pred limit bal B with
  | zero => exact Credit.diverge
  | succ n ih =>
    unfold selLoop
    split
    · split
      · exact insertionSortShiftLeft_credit hl (by omega)
      · exact Credit.pure (Nat.le_refl _)
    · split
      · exact medianOfMedians_credit hl _ _ _ (by omega)
      · refine Credit.bind (Q' := fun _ r => B ≤ r + 12) ?_ fun limit r1 hr1 => ?_
        · split
          · exact Credit.bind (breakPatterns_credit (by omega)) fun _ _ _ => Credit.usub' fun _ _ => by omega
          · exact Credit.pure (by omega)
        · refine Credit.bind (choosePivot_credit hl (by omega)) ?_
          rintro ⟨pivot, likely⟩ r2 hr2
          refine Credit.bind (selPredCheck_credit hl (by omega)) fun c r3 hr3 => ?_
          split
          · refine Credit.bind (partitionEqual_credit hl (by omega)) fun mid r4 hr4 => ?_
            split
            · exact Credit.pure (by omega)
            · refine Credit.splitAt fun _ => Credit.usubAny fun _ _ => Credit.mono (ih ?_) fun _ _ _ => by omega
              show 2 * (v.len - mid) + 24 ≤ r4
              omega
          · refine Credit.bind (partition_credit hl (by omega)) ?_
            rintro ⟨mid, was⟩ r4 hr4
            refine Credit.usubAny fun d _ => Credit.splitAt fun h1 => Credit.splitAt fun h2 => Credit.vref fun h3 => ?_
            split
            · refine Credit.usubAny fun _ _ => Credit.usubAny fun _ _ => Credit.mono (ih ?_) fun _ _ _ => by omega
              show 2 * (v.len - mid - 1) + 24 ≤ r4
              omega
            · split
              · refine Credit.mono (ih ?_) fun _ _ _ => by omega
                show 2 * mid + 24 ≤ r4
                omega
              · exact Credit.pure (by omega)

theorem partitionAtIndex_credit (hl : Yields 12 less) {v : View} {index B : Nat} (hB : 2 * v.len + 24 ≤ B) :
    Credit 12 (partitionAtIndex cfg less v index) B (fun x r => B ≤ r + 4 ∧ x.1.len = index ∧ x.2.2.len = v.len - index - 1 ∧ index < v.len) := by
  unfold partitionAtIndex
  split
  · exact Credit.throw
  · rename_i hi
    refine Credit.bind (Q' := fun _ r => B ≤ r + 4) ?_ fun _ r hr => ?_
    · split
      · exact Credit.pure (by omega)
      · refine Credit.usubAny fun last _ => ?_
        split
        · exact Credit.bind (maxIndex_credit hl (by omega)) fun _ _ _ => Credit.swap' (by omega) fun _ _ => by omega
        · split
          · exact Credit.bind (minIndex_credit hl (by omega)) fun _ _ _ => Credit.swap' (by omega) fun _ _ => by omega
          · exact Credit.mono (selLoop_credit hl hB) fun _ _ _ => by omega
    · exact Credit.splitAt fun h1 => Credit.splitAt fun h2 => Credit.vref fun _ => Credit.pure ⟨hr, rfl, rfl, by omega⟩

theorem partitionAtIndices_credit (hl : Yields 12 less) {n : Nat} {v : View} {offset : Nat} {indices : List Nat} {B : Nat}
    (hB : 2 * v.len + 24 + 4 * indices.length ≤ B) :
    Credit 12 (partitionAtIndices cfg less n v offset indices) B (fun _ r => B ≤ r + 4 * indices.length) := by
  induction n generalizing v offset indices B with
  | zero => exact Credit.diverge
  | succ n ih =>
    unfold partitionAtIndices
    split
    · exact Credit.pure (by omega)
    · rename_i pivot hp
      have hk : indices.length / 2 < indices.length := (List.getElem?_eq_some_iff.1 hp).1
      refine Credit.usubAny fun i _ => Credit.bind (partitionAtIndex_credit hl (by omega)) ?_
      rintro ⟨left, value, right⟩ r ⟨h1, h2, h3, h4⟩
      dsimp only at h2 h3 ⊢
      have e1 : (indices.take (indices.length / 2)).length = indices.length / 2 := by rw [List.length_take]; omega
      have e2 : (indices.drop (indices.length / 2 + 1)).length = indices.length - (indices.length / 2 + 1) := List.length_drop
      refine Credit.bind (ih (by rw [e1]; omega)) fun xs r1 hr1 => ?_
      rw [e1] at hr1
      refine Credit.bind (ih (by rw [e2]; omega)) fun ys r2 hr2 => Credit.pure ?_
      rw [e2] at hr2
      omega

theorem selectMany_credit (hl : Yields 12 less) {v : View} {indices : List Nat} {B : Nat} (hB : 2 * v.len + 24 + 4 * indices.length ≤ B) :
    Credit 12 (selectMany cfg less v indices) B (fun _ r => B ≤ r + 4 * indices.length) := partitionAtIndices_credit hl hB

theorem parPartitionAtIndices_credit (hl : Yields 12 less) {n : Nat} {v : View} {offset : Nat} {indices : List Nat} {vs vl B : Nat}
    (hB : 2 * v.len + 24 + 28 * indices.length ≤ B) :
    Credit 12 (parPartitionAtIndices cfg less n v offset indices vs vl) B (fun _ r => B ≤ r + 28 * indices.length) := by
  induction n generalizing v offset indices vs vl B with
  | zero => exact Credit.diverge
  | succ n ih =>
    unfold parPartitionAtIndices
    split
    · exact Credit.pure (by omega)
    · rename_i pivot hp
      have hk : indices.length / 2 < indices.length := (List.getElem?_eq_some_iff.1 hp).1
      refine Credit.usubAny fun i _ => Credit.bind (partitionAtIndex_credit hl (by omega)) ?_
      rintro ⟨left, value, right⟩ r ⟨h1, h2, h3, h4⟩
      dsimp only at h2 h3 ⊢
      have e1 : (indices.take (indices.length / 2)).length = indices.length / 2 := by rw [List.length_take]; omega
      have e2 : (indices.drop (indices.length / 2 + 1)).length = indices.length - (indices.length / 2 + 1) := List.length_drop
      refine Credit.assertP fun _ => Credit.assertP fun _ => Credit.assertP fun _ => Credit.usubAny fun i' _ => ?_
      split
      · refine Credit.bind (ih (by rw [e1]; omega)) fun xs r1 hr1 => ?_
        rw [e1] at hr1
        refine Credit.bind (ih (by rw [e2]; omega)) fun ys r2 hr2 => Credit.pure ?_
        rw [e2] at hr2
        omega
      · refine Credit.bind (Q' := fun _ r' => B ≤ r' + 28 * indices.length) (Credit.rayonJoin
          (B1 := 2 * left.len + 24 + 28 * (indices.length / 2)) (B2 := r - 1 - (2 * left.len + 24 + 28 * (indices.length / 2))) (by omega)
          (ih (by rw [e1]; exact Nat.le_refl _)) (ih (by rw [e2]; omega)) ?_) fun _ _ h => Credit.pure h
        intro _ _ r1 r2 g1 g2
        rw [e1] at g1
        rw [e2] at g2
        omega

theorem parSelectMany_credit (hl : Yields 12 less) {v : View} {indices : List Nat} {spare B : Nat} (hB : 2 * v.len + 24 + 28 * indices.length ≤ B) :
    Credit 12 (parSelectMany cfg less v indices spare) B (fun _ r => B ≤ r + 28 * indices.length) := parPartitionAtIndices_credit hl hB

end NdSlice
