import Verif.Proof.CreditSort
import Verif.Proof.CostPar
import Verif.Model.Cached
import Verif.Model.Search

/-
How many steps the parallel stable sort, the sort with cached keys, the searches and `partition_dedup*` take at most, whatever is answered.
-/

namespace NdSlice

variable {α κ ι ω β : Type} {cfg : Cfg} {less : α → α → Prog α ι ω Bool} {v buf : View}

/-! ### Sorting a chunk -/

theorem parInsertHeadLoop_credit (hl : Yields 12 less) {tmp : α} {d n B : Nat} (hB : 2 ≤ B) :
    Credit 12 (parInsertHeadLoop less v tmp d n) B (fun _ r => B ≤ r + 1) := by
  induction n generalizing d B with
  | zero => exact Credit.vset' (by omega) (by omega)
  | succ n ih =>
    refine Credit.vidx (by omega) fun x _ => ?_
    refine Credit.lessGuard hl (n := 1) (fun B hB => Credit.vset' hB trivial) (by omega) fun b r hr => ?_
    split
    · exact Credit.vset' (by omega) (by omega)
    · refine Credit.vcset (by omega) fun _ => Credit.mono (ih (by omega)) fun _ _ _ => by omega

theorem parInsertHead_credit (hl : Yields 12 less) {B : Nat} (hB : 2 ≤ B) : Credit 12 (parInsertHead less v) B (fun _ r => B ≤ r) := by
  unfold parInsertHead
  split
  · refine Credit.vidx (by omega) fun x _ => Credit.vidx (by omega) fun y _ => Credit.lessB hl fun b r hr => ?_
    split
    · refine Credit.vidx (by omega) fun _ _ => Credit.vidx (by omega) fun _ _ => Credit.vcset (by omega) fun _ => ?_
      exact Credit.mono (parInsertHeadLoop_credit hl (by omega)) fun _ _ _ => by omega
    · exact Credit.pure (by omega)
  · exact Credit.pure (Nat.le_refl _)

theorem parStreak_credit (hl : Yields 12 less) {rev : Bool} {s B : Nat} (hB : 2 ≤ B) :
    Credit 12 (parStreak less v rev s) B (fun s' r => s' ≤ s ∧ B + 10 * (s - s') ≤ r) := by
  induction s generalizing B with
  | zero => exact Credit.pure ⟨Nat.le_refl _, by omega⟩
  | succ s ih =>
    refine Credit.vget (by omega) fun x _ => Credit.vget (by omega) fun y _ => Credit.lessB hl fun b r hr => ?_
    split
    · refine Credit.mono (ih (by omega)) ?_
      rintro s' r' ⟨h1, h2⟩
      exact ⟨by omega, by omega⟩
    · exact Credit.pure ⟨Nat.le_refl _, by omega⟩

theorem parExtend_credit (hl : Yields 12 less) {e s B : Nat} (hB : 2 ≤ B) : Credit 12 (parExtend less v e s) B (fun _ r => B ≤ r) := by
  induction s generalizing B with
  | zero => exact Credit.pure (Nat.le_refl _)
  | succ s ih =>
    unfold parExtend
    split
    · exact Credit.sliceAny fun w _ => Credit.bind (parInsertHead_credit hl hB) fun _ _ _ => Credit.mono (ih (by omega)) fun _ _ _ => by omega
    · exact Credit.pure (Nat.le_refl _)

theorem parNextRun_credit (hl : Yields 12 less) {e B : Nat} (hB : 2 ≤ B) : Credit 12 (parNextRun cfg less v e) B (fun _ r => B ≤ r) := by
  unfold parNextRun
  split
  · dsimp only
    refine Credit.vget (by omega) fun x _ => Credit.vget (by omega) fun y _ => Credit.lessB hl fun b r hr => ?_
    split
    · refine Credit.bind (parStreak_credit hl (by omega)) ?_
      rintro s r1 ⟨h1, h2⟩
      split
      · exact Credit.pure (by omega)
      · refine Credit.slice (by omega) fun _ => ?_
        have hk : (v.sub s (e - s)).len = e - s := rfl
        refine Credit.bind (reverse_credit (by rw [hk]; omega)) fun _ r2 hr2 => ?_
        rw [hk] at hr2
        exact Credit.bind (parExtend_credit hl (by omega)) fun _ _ _ => Credit.pure (by omega)
    · refine Credit.bind (parStreak_credit hl (by omega)) ?_
      rintro s r1 ⟨h1, h2⟩
      split
      · exact Credit.pure (by omega)
      · exact Credit.bind (parExtend_credit hl (by omega)) fun _ _ _ => Credit.pure (by omega)
  · exact Credit.bind (parExtend_credit hl (by omega)) fun _ _ _ => Credit.pure (by omega)

theorem runAt_credit {rs : List TimRun} {i B : Nat} : Credit 12 (runAt rs i : Prog α ι ω TimRun) B (fun _ r => r = B) := by
  unfold runAt
  split
  · exact Credit.pure rfl
  · exact Credit.throw

theorem parCollapseBody_credit (hl : Yields 12 less) {rs : List TimRun} {B : Nat} (hB : 2 * v.len + 2 ≤ B) :
    Credit 12 (parCollapseBody cfg less v buf rs) B (fun _ r => B ≤ r) := by
  unfold parCollapseBody
  split
  · exact Credit.pure (Nat.le_refl _)
  · refine Credit.bind runAt_credit ?_
    rintro left _ rfl
    refine Credit.bind runAt_credit ?_
    rintro right _ rfl
    exact Credit.sliceAny fun w hw => Credit.bind (merge_credit hl ReadPays.idx (by omega)) fun _ _ h => Credit.pure h

theorem parMergeSortBody_credit (hl : Yields 12 less) {x : Nat × List TimRun} {B : Nat} (hB : 2 * v.len + 2 ≤ B) :
    Credit 12 (parMergeSortBody cfg less v buf x) B (fun _ r => B ≤ r) := by
  obtain ⟨e, rs⟩ := x
  unfold parMergeSortBody
  dsimp only
  split
  · refine Credit.bind (parNextRun_credit hl (by omega)) ?_
    rintro (res | s) r hr
    · exact Credit.pure hr
    · refine Credit.bind (Q' := fun _ r => B ≤ r) (Credit.loop (Inv := fun _ r => B ≤ r) hr ?_) fun _ _ h => Credit.pure h
      intro x B1 h1
      refine Credit.mono (parCollapseBody_credit hl (by omega)) ?_
      rintro (o | o) r h <;> dsimp only <;> omega
  · exact Credit.pure (Nat.le_refl _)

theorem parMergeSortSeq_credit (hl : Yields 12 less) {B : Nat} (hB : 2 * v.len + 2 ≤ B) :
    Credit 12 (parMergeSortSeq cfg less v buf) B (fun _ r => B ≤ r) := by
  unfold parMergeSortSeq
  refine Credit.bind (Q' := fun _ r => B ≤ r) (Credit.loop (Inv := fun _ r => B ≤ r) (Nat.le_refl _) ?_) ?_
  · intro x B1 h1
    refine Credit.mono (parMergeSortBody_credit hl (by omega)) ?_
    rintro (o | o) r h <;> dsimp only <;> omega
  · rintro (res | rs) r hr
    · exact Credit.pure hr
    · dsimp only
      split
      · refine Credit.bind runAt_credit ?_
        rintro x _ rfl
        exact Credit.debugAssert (Credit.pure hr)
      · exact Credit.pure hr

/-! ### Merging in parallel -/

variable {left right dest src : View}

theorem copyUp_credit {s d n B : Nat} (hB : 2 * n ≤ B) : Credit 12 (copyUp src dest s d n : Prog α ι ω Unit) B (fun _ r => B ≤ r + 2 * n) := by
  unfold copyUp
  refine Credit.mono (Credit.forUp (Inv := fun i r => B ≤ r + 2 * i) (by omega) ?_) fun _ _ _ => by omega
  intro i B1 _ _ h
  exact Credit.vidx (by omega) fun _ _ => Credit.vcset' (by omega) (by omega)

theorem stateDrop_credit {l r d B : Nat} (hl : l ≤ left.len) (hr : r ≤ right.len) (hB : 2 * (left.len + right.len) ≤ B) :
    Credit 12 (stateDrop cfg left right dest l r d : Prog α ι ω Unit) B (fun _ b => B ≤ b + 2 * (left.len + right.len)) := by
  unfold stateDrop
  refine Credit.usub hl (Credit.bind (copyUp_credit (by omega)) fun _ r1 hr1 => Credit.usub hr ?_)
  exact Credit.mono (copyUp_credit (by omega)) fun _ _ _ => by omega

theorem splitForMerge_credit (hl : Yields 12 less) {B : Nat} (hB : 2 ≤ B) :
    Credit 12 (splitForMerge less left right) B (fun x r => B ≤ r ∧ ((left.len / 2 ≤ x.1 ∧ x.1 ≤ left.len - left.len / 2 ∧ right.len ≤ left.len) ∨
      (right.len / 2 ≤ x.2 ∧ x.2 ≤ right.len - right.len / 2 ∧ left.len ≤ right.len))) := by
  unfold splitForMerge
  split
  · rename_i h
    refine Credit.bind (Q' := fun _ r => B ≤ r) (Credit.loop (Inv := fun _ r => B ≤ r) (Nat.le_refl _) ?_) ?_
    · rintro ⟨a, b⟩ B1 h1
      unfold splitRightBody
      dsimp only
      split
      · exact Credit.vidx (by omega) fun _ _ => Credit.vidx (by omega) fun _ _ => Credit.lessB hl fun b r hr => Credit.pure (by dsimp only; omega)
      · exact Credit.pure h1
    · intro a r hr
      exact Credit.pure ⟨hr, .inl ⟨Nat.le_refl _, by dsimp only; omega, h⟩⟩
  · rename_i h
    refine Credit.bind (Q' := fun _ r => B ≤ r) (Credit.loop (Inv := fun _ r => B ≤ r) (Nat.le_refl _) ?_) ?_
    · rintro ⟨a, b⟩ B1 h1
      unfold splitLeftBody
      dsimp only
      split
      · exact Credit.vidx (by omega) fun _ _ => Credit.vidx (by omega) fun _ _ => Credit.lessB hl fun b r hr => Credit.pure (by dsimp only; omega)
      · exact Credit.pure h1
    · intro a r hr
      exact Credit.pure ⟨hr, .inr ⟨Nat.le_refl _, by dsimp only; omega, by omega⟩⟩

/-- Merging moves every element; this is not paid by the comparisons. -/
theorem parMerge_credit (hl : Yields 12 less) {k B : Nat} (h1 : 2 * (left.len + right.len) + 6 ≤ B) (h2 : 4 * (left.len + right.len) ≤ B + 20) :
    Credit 12 (parMerge cfg less k left right dest) B
      (fun _ r => B + 20 ≤ r + 4 * (left.len + right.len) ∨ B ≤ r + 2 * (left.len + right.len)) := by
  induction k generalizing left right dest B with
  | zero => exact Credit.diverge
  | succ k ih =>
    unfold parMerge
    split
    · refine Credit.bind (Q' := fun x r => x.1 ≤ left.len ∧ x.2.1 ≤ right.len ∧ B ≤ r)
        (Credit.loop (Inv := fun x r => x.1 ≤ left.len ∧ x.2.1 ≤ right.len ∧ B ≤ r) ⟨Nat.zero_le _, Nat.zero_le _, Nat.le_refl _⟩ ?_) ?_
      · rintro ⟨l, r, d⟩ B1 ⟨g1, g2, g3⟩
        dsimp only at g1 g2
        unfold parMergeBody
        dsimp only
        split
        · rename_i hc
          simp only [Bool.and_eq_true, decide_eq_true_eq] at hc
          refine Credit.vidx (by omega) fun _ _ => Credit.vidx (by omega) fun _ _ => ?_
          refine Credit.lessGuard hl (n := 2 * (left.len + right.len)) (fun B hB => Credit.mono (stateDrop_credit g1 g2 hB) fun _ _ _ => trivial) (by omega)
            fun b b1 hb1 => ?_
          split
          · exact Credit.vidx (by omega) fun _ _ => Credit.vcset (by omega) fun _ => Credit.pure ⟨g1, by dsimp only; omega, by omega⟩
          · exact Credit.vidx (by omega) fun _ _ => Credit.vcset (by omega) fun _ => Credit.pure ⟨by dsimp only; omega, g2, by omega⟩
        · exact Credit.pure ⟨g1, g2, g3⟩
      · rintro ⟨l, r, d⟩ B1 ⟨g1, g2, g3⟩
        exact Credit.mono (stateDrop_credit g1 g2 (by omega)) fun _ _ _ => .inr (by omega)
    · rename_i hc
      simp only [Bool.or_eq_true, beq_iff_eq, decide_eq_true_eq, not_or, Nat.not_lt] at hc
      obtain ⟨-, hn⟩ := hc
      obtain ⟨B, rfl⟩ := Nat.exists_eq_add_of_le' (Nat.le_trans (Nat.le_add_right _ 6) h1)
      refine Credit.bind (Q' := fun (x : View × View × View × View) r => B + 2 * (left.len + right.len) ≤ r ∧
        x.1.len + x.2.2.1.len + (x.2.1.len + x.2.2.2.len) = left.len + right.len ∧
        (left.len + right.len) / 4 ≤ x.1.len + x.2.2.1.len ∧ (left.len + right.len) / 4 ≤ x.2.1.len + x.2.2.2.len) ?_ ?_
      · refine Credit.mono (Credit.onPanic (n := 2 * (left.len + right.len)) (Q := fun (x : View × View × View × View) r => B ≤ r ∧
          x.1.len + x.2.2.1.len + (x.2.1.len + x.2.2.2.len) = left.len + right.len ∧
          (left.len + right.len) / 4 ≤ x.1.len + x.2.2.1.len ∧ (left.len + right.len) / 4 ≤ x.2.1.len + x.2.2.2.len) ?_
          fun B hB => Credit.mono (stateDrop_credit (Nat.zero_le _) (Nat.zero_le _) hB) fun _ _ _ => trivial) ?_
        · refine Credit.bind (splitForMerge_credit hl (by omega)) ?_
          rintro ⟨p, q⟩ r ⟨hr, h⟩
          dsimp only at h ⊢
          refine Credit.splitAt fun hp => Credit.splitAt fun hq => Credit.pure ⟨hr, ?_⟩
          show p + q + (left.len - p + (right.len - q)) = _ ∧ _ ≤ p + q ∧ _ ≤ left.len - p + (right.len - q)
          omega
        · rintro x _ ⟨r, rfl, h, h'⟩
          exact ⟨by omega, h'⟩
      · rintro ⟨ll, lr, rl, rr⟩ r ⟨e0, e1, e2, e3⟩
        dsimp only at e1 e2 e3 ⊢
        refine Credit.splitAt fun _ => ?_
        refine Credit.bind (Credit.rayonJoin (B1 := 4 * (ll.len + rl.len) - 20) (B2 := r - 1 - (4 * (ll.len + rl.len) - 20)) (by omega)
          (ih (by omega) (by omega)) (ih (by omega) (by omega))
          (Q := fun _ r' => B + 2 * (left.len + right.len) + 20 ≤ r' + 4 * (left.len + right.len)) ?_) fun _ _ h => Credit.pure (.inl h)
        intro _ _ r1 r2 g1 g2
        omega

theorem chunkAt_credit {cs : List (Nat × Nat)} {i B : Nat} : Credit 12 (chunkAt cs i : Prog α ι ω _) B (fun x r => r = B ∧ cs[i]? = some x) := by
  unfold chunkAt
  split
  · rename_i h
    exact Credit.pure ⟨rfl, h⟩
  · exact Credit.throw

/-- `recurse`. -/
theorem parRecurse_credit (hl : Yields 12 less) {k d : Nat} {cs : List (Nat × Nat)} {ib : Bool} {s e B : Nat} (hc : 0 < cs.length) (h : Follow s cs e)
    (hd : cs.length ≤ 2 ^ d) (hB : 4 * (e - s) * (d + 1) + 8 * (cs.length - 1) ≤ B) :
    Credit 12 (parRecurse cfg less v buf k cs ib) B (fun _ _ => True) := by
  induction k generalizing cs ib s e d B with
  | zero => exact Credit.diverge
  | succ k ih =>
    unfold parRecurse
    refine Credit.debugAssert ?_
    have hse := h.le
    by_cases hlen : (cs.length == 1) = true
    · rw [if_pos hlen]
      cases ib with
      | false => exact Credit.pure trivial
      | true =>
        refine Credit.bind chunkAt_credit ?_
        rintro ⟨a, b⟩ _ ⟨rfl, hab⟩
        dsimp only
        refine Credit.mono (copyUp_credit ?_) fun _ _ _ => trivial
        rw [beq_iff_eq] at hlen
        obtain ⟨x, rfl⟩ := List.length_eq_one_iff.1 hlen
        obtain ⟨h1, h2, h3⟩ := h
        rw [List.getElem?_cons_zero] at hab
        cases hab
        dsimp only at h1 h2 h3
        have h4 : b = e := h3
        have : 4 * (e - s) * 1 ≤ 4 * (e - s) * (d + 1) := Nat.mul_le_mul_left _ (by omega)
        subst h4 h1
        omega
    · rw [if_neg hlen]
      simp only [beq_iff_eq] at hlen
      have hsplit : cs = cs.take (cs.length / 2) ++ cs.drop (cs.length / 2) := (List.take_append_drop _ _).symm
      have h' := h
      rw [hsplit] at h'
      obtain ⟨m, c1, c2⟩ := h'.append
      obtain ⟨e0, he0⟩ := h.head hc
      obtain ⟨e1, he1⟩ := c2.head (by simp; omega)
      obtain ⟨e2, he2⟩ := h.last hc
      rw [List.getElem?_drop, Nat.add_zero] at he1
      rw [chunkAt_some he0, chunkAt_some he1]
      refine Credit.pureB (Credit.pureB (Credit.usub (by omega) ?_))
      rw [chunkAt_some he2]
      refine Credit.pureB (Credit.usub hse ?_)
      have hsm := c1.le
      have hme := c2.le
      cases d with
      | zero => simp at hd; omega
      | succ d =>
        rw [Nat.pow_succ] at hd
        have l1 : (cs.take (cs.length / 2)).length = cs.length / 2 := by simp; omega
        have l2 : (cs.drop (cs.length / 2)).length = cs.length - cs.length / 2 := by simp
        have hm : 4 * (m - s) * (d + 1) + 4 * (e - m) * (d + 1) = 4 * (e - s) * (d + 1) := by
          rw [← Nat.add_mul]
          congr 1
          omega
        rw [Nat.mul_add (4 * (e - s)) (d + 1), Nat.mul_one] at hB
        obtain ⟨B, rfl⟩ : ∃ B', B = B' + (4 * (e - s) + 7) := ⟨B - (4 * (e - s) + 7), by omega⟩
        refine Credit.bind (Q' := fun _ r => 4 * (e - s) + 7 ≤ r) (Credit.mono (Credit.onPanic (n := 4 * (e - s) + 7) (Q := fun _ _ => True)
          (Credit.rayonJoin (B1 := 4 * (m - s) * (d + 1) + 8 * (cs.length / 2 - 1)) (B2 := B - 1 - (4 * (m - s) * (d + 1) + 8 * (cs.length / 2 - 1))) (by omega)
            (ih (d := d) (by omega) c1 (by omega) (by rw [l1])) (ih (d := d) (by omega) c2 (by omega) (by rw [l2]; omega)) fun _ _ _ _ _ _ => trivial)
          fun B hB => Credit.mono (copyUp_credit (by omega)) fun _ _ _ => trivial) ?_) ?_
        · rintro _ _ ⟨r, rfl, _⟩
          omega
        · intro _ r hr
          refine Credit.slice hsm fun _ => Credit.slice hme fun _ => Credit.sliceAny fun dd _ => ?_
          refine Credit.mono (parMerge_credit hl ?_ ?_) fun _ _ _ => trivial
          · show 2 * (m - s + (e - m)) + 6 ≤ r
            omega
          · show 4 * (m - s + (e - m)) ≤ r + 20
            omega

/-! ### The chunks -/

theorem chunkTask_credit (hl : Yields 12 less) {i B : Nat} (hB : 2 * min 2000 (v.len - 2000 * i) + 2 ≤ B) :
    Credit 12 (chunkTask cfg less v buf i) B (fun x r => B ≤ r ∧ IsChunk v i x) := by
  unfold chunkTask
  dsimp only
  exact Credit.bind (parMergeSortSeq_credit hl hB) fun _ _ h => Credit.pure ⟨h, rfl, rfl⟩

theorem chunkTasks_credit (hl : Yields 12 less) {i n B : Nat} (hn : n = (v.len - 2000 * i + 1999) / 2000) (hB : 2 * (v.len - 2000 * i) + 4 * n ≤ B) :
    Credit 12 (chunkTasks cfg less v buf i n) B (fun os r => ChunksFrom v i os ∧ os.length = n ∧ B ≤ r + 2 * n) := by
  induction n generalizing i B with
  | zero =>
    unfold chunkTasks
    exact Credit.pure ⟨by show v.len ≤ 2000 * i; omega, rfl, by omega⟩
  | succ n ih =>
    unfold chunkTasks
    have hi : 2000 * i < v.len := by omega
    refine Credit.bind (Credit.rayonJoin (B1 := 2 * min 2000 (v.len - 2000 * i) + 3) (B2 := B - 1 - (2 * min 2000 (v.len - 2000 * i) + 3)) (by omega)
      (Q1 := fun o r => (∀ r, o = some r → IsChunk v i r) ∧ 2 * min 2000 (v.len - 2000 * i) + 2 ≤ r)
      (Q := fun x r => (∀ r, x.1 = some r → IsChunk v i r) ∧ ChunksFrom v (i + 1) x.2 ∧ x.2.length = n ∧ B ≤ r + 2 * (n + 1)) ?_ (ih (by omega) (by omega)) ?_) ?_
    · refine ⟨2 * min 2000 (v.len - 2000 * i) + 2, rfl, fun b => ?_⟩
      cases b
      · exact Credit.bind (chunkTask_credit hl (Nat.le_refl _)) fun r _ h => Credit.pure ⟨fun r' e => by cases e; exact h.2, h.1⟩
      · exact Credit.pure ⟨fun r e => (by cases e), Nat.le_refl _⟩
    · rintro o os r t ⟨h1, h2⟩ ⟨h3, h4, h5⟩
      exact ⟨h1, h3, h4, by omega⟩
    · rintro ⟨o, os⟩ r ⟨h1, h2, h3, h4⟩
      exact Credit.pure ⟨⟨hi, h1, h2⟩, by simp at h3 ⊢; omega, h4⟩

theorem lateChunks_credit (hl : Yields 12 less) {i B : Nat} {os : List (Option (Nat × Nat × MergesortResult))} (h : ChunksFrom v i os) (hB : 2 * v.len + 2 ≤ B) :
    Credit 12 (lateChunks cfg less v buf i os) B (fun rs r => ChunksFrom v i (rs.map some) ∧ rs.length = os.length ∧ B ≤ r) := by
  induction os generalizing i B with
  | nil =>
    unfold lateChunks
    exact Credit.pure ⟨h, rfl, Nat.le_refl _⟩
  | cons o os ih =>
    cases o with
    | some r =>
      unfold lateChunks
      exact Credit.bind (ih h.2.2 hB) fun rs _ hrs => Credit.pure ⟨⟨h.1, fun r' e => h.2.1 r' e, hrs.1⟩, by simp [hrs.2.1], hrs.2.2⟩
    | none =>
      unfold lateChunks
      refine Credit.bind (chunkTask_credit hl (by omega)) fun x r hx => ?_
      exact Credit.bind (ih h.2.2 (by omega)) fun rs _ hrs => Credit.pure ⟨⟨h.1, fun r' e => by cases e; exact hx.2, hrs.1⟩, by simp [hrs.2.1], by omega⟩

theorem finishChunk_credit {a b B : Nat} {res : MergesortResult} (hab : a ≤ b) (hB : 2 * (b - a) ≤ B) :
    Credit 12 (finishChunk cfg v a b res : Prog α ι ω Unit) B (fun _ r => B ≤ r + 2 * (b - a)) := by
  unfold finishChunk
  split
  · exact Credit.slice hab fun _ => reverse_credit hB
  · exact Credit.pure (by omega)

theorem canConcat_credit (hl : Yields 12 less) {res r : MergesortResult} {x B : Nat} (hB : 2 ≤ B) :
    Credit 12 (canConcat cfg less v res x r) B (fun _ b => B ≤ b) := by
  unfold canConcat
  split
  · exact Credit.usubAny fun _ _ => Credit.vidx (by omega) fun _ _ => Credit.vidx (by omega) fun _ _ => Credit.lessB hl fun _ _ _ => Credit.pure (by omega)
  · exact Credit.pure (Nat.le_refl _)

theorem concatChunks_credit (hl : Yields 12 less) {a b i B : Nat} {res : MergesortResult} {rest : List (Nat × Nat × MergesortResult)}
    (hab : a ≤ b) (hb : b = min (2000 * i) v.len) (h : ChunksFrom v i (rest.map some)) (hB : 2 * (v.len - a) + 2 ≤ B) :
    Credit 12 (concatChunks cfg less v a b res rest) B
      (fun cs r => 0 < cs.length ∧ cs.length ≤ rest.length + 1 ∧ Follow a cs v.len ∧ B ≤ r + 2 * (v.len - a)) := by
  induction rest generalizing a b i res B with
  | nil =>
    unfold concatChunks
    have h : v.len ≤ 2000 * i := h
    exact Credit.bind (finishChunk_credit hab (by omega)) fun _ _ _ =>
      Credit.pure ⟨Nat.succ_pos _, Nat.le_refl _, ⟨rfl, hab, by show b = v.len; omega⟩, by omega⟩
  | cons r rest ih =>
    rcases r with ⟨x, y, r⟩
    obtain ⟨hi, hr, h⟩ := h
    obtain ⟨h1, h2⟩ := hr _ rfl
    dsimp only at h1 h2
    unfold concatChunks
    refine Credit.bind (canConcat_credit hl (by omega)) fun cc r1 hr1 => ?_
    split
    · refine (ih (by omega) (by omega) h (by omega)).mono ?_
      rintro cs r ⟨g1, g2, g3, g4⟩
      exact ⟨g1, by simp; omega, g3, by omega⟩
    · refine Credit.bind (finishChunk_credit hab (by omega)) fun _ r2 hr2 => Credit.bind (ih (by omega) (by omega) h (by omega)) ?_
      rintro cs r ⟨g1, g2, g3, g4⟩
      refine Credit.pure ⟨Nat.succ_pos _, by simp; omega, ⟨rfl, hab, ?_⟩, by omega⟩
      rw [show x = b by omega] at g3
      exact g3

theorem parMergeSortChunks_credit (hl : Yields 12 less) (h : 2000 < v.len) {B : Nat} (hB : 4 * (v.len * Nat.log2 v.len) + 2 * v.len + 2 ≤ B) :
    Credit 12 (parMergeSortChunks cfg less v buf) B (fun _ _ => True) := by
  have hL : 10 ≤ Nat.log2 v.len := by
    rw [Nat.le_log2 (by omega)]
    omega
  obtain ⟨d, hd⟩ : ∃ d, Nat.log2 v.len = d + 9 := ⟨Nat.log2 v.len - 9, by omega⟩
  have hpow : v.len < 2 ^ (Nat.log2 v.len + 1) := Nat.lt_log2_self
  have hpd : (v.len + 1999) / 2000 ≤ 2 ^ d := by
    rw [hd, show d + 9 + 1 = d + 10 by omega, Nat.pow_add] at hpow
    have : 2 ≤ 2 ^ d := by
      calc 2 = 2 ^ 1 := rfl
        _ ≤ 2 ^ d := Nat.pow_le_pow_right (by omega) (by omega)
    omega
  have hB2 : 4 * v.len * (d + 1) + 8 * ((v.len + 1999) / 2000 - 1) + 6 * v.len + 4 * ((v.len + 1999) / 2000) + 2 ≤ B := by
    rw [hd] at hB
    rw [Nat.mul_add] at hB ⊢
    rw [Nat.mul_assoc 4 v.len d]
    omega
  unfold parMergeSortChunks
  refine Credit.bind (chunkTasks_credit (i := 0) hl (by omega) (by omega)) ?_
  rintro os r1 ⟨h1, h2, h3⟩
  refine Credit.bind (lateChunks_credit hl h1 (by omega)) ?_
  rintro rs r2 ⟨g1, g2, g3⟩
  cases rs with
  | nil => exact absurd (show v.len ≤ 2000 * 0 from g1) (by omega)
  | cons x rest =>
    rcases x with ⟨a, b, res⟩
    obtain ⟨_, hr, h⟩ := g1
    obtain ⟨k1, k2⟩ := hr _ rfl
    dsimp only at k1 k2
    simp only [List.length_cons] at g2
    dsimp only
    obtain rfl : a = 0 := by omega
    refine Credit.bind (concatChunks_credit (i := 0 + 1) hl (by omega) (by omega) h (by omega)) ?_
    rintro cs r3 ⟨q1, q2, q3, q4⟩
    exact parRecurse_credit (d := d) hl q1 q3 (by omega) (by rw [Nat.sub_zero]; omega)

theorem parMergeSort_credit (hl : Yields 12 less) {B : Nat} (hB : 4 * (v.len * Nat.log2 v.len) + 2 * v.len + 2 ≤ B) :
    Credit 12 (parMergeSort cfg less v buf) B (fun _ _ => True) := by
  unfold parMergeSort
  split
  · exact Credit.pure trivial
  split
  · split
    · refine Credit.mono (Credit.forDown (Inv := fun _ r => 2 ≤ r) (by omega) ?_) fun _ _ _ => trivial
      intro i B1 _ _ h
      exact Credit.sliceAny fun w _ => Credit.mono (parInsertHead_credit hl h) fun _ _ _ => by omega
    · exact Credit.pure trivial
  · split
    · refine Credit.bind (parMergeSortSeq_credit hl (by omega)) fun res r hr => ?_
      split
      · exact Credit.mono (reverse_credit (by omega)) fun _ _ _ => trivial
      · exact Credit.pure trivial
    · exact parMergeSortChunks_credit hl (by omega) hB

/-! ### Searching -/

theorem isSortedFrom_credit {test : α → α → Prog α ι ω Bool} (hl : Yields 12 test) {i n B : Nat} (hB : 2 ≤ B) :
    Credit 12 (isSortedFrom test v i n) B (fun _ r => B ≤ r) := by
  induction n generalizing i B with
  | zero => exact Credit.pure (Nat.le_refl _)
  | succ n ih =>
    refine Credit.vidx (by omega) fun _ _ => Credit.vidx (by omega) fun _ _ => Credit.lessB hl fun b r hr => ?_
    split
    · exact Credit.mono (ih (by omega)) fun _ _ _ => by omega
    · exact Credit.pure (by omega)

theorem binarySearchBy_credit {f : α → Prog α ι ω Ordering} (hf : ∀ x B, Credit 12 (f x) B fun _ r => B + 12 ≤ r) {B : Nat} (hB : 1 ≤ B) :
    Credit 12 (binarySearchBy cfg f v) B (fun _ r => B ≤ r) := by
  unfold binarySearchBy
  refine Credit.loop (Inv := fun _ r => B ≤ r) (Nat.le_refl _) ?_
  rintro ⟨size, left, right⟩ B1 h1
  unfold binarySearchBody
  dsimp only
  split
  · refine Credit.vget (by omega) fun x _ => Credit.bind (hf _ _) fun c r hr => ?_
    split
    · exact Credit.debugAssert (Credit.pure (by dsimp only; omega))
    · exact Credit.usubAny fun _ _ => Credit.pure (by dsimp only; omega)
  · exact Credit.debugAssert (Credit.pure h1)

theorem anyFrom_credit {f : α → Prog α ι ω Bool} (hf : ∀ x B, Credit 12 (f x) B fun _ r => B + 12 ≤ r) {i n B : Nat} (hB : 1 ≤ B) :
    Credit 12 (anyFrom f v i n) B (fun _ r => B ≤ r) := by
  induction n generalizing i B with
  | zero => exact Credit.pure (Nat.le_refl _)
  | succ n ih =>
    refine Credit.vget (by omega) fun x _ => Credit.bind (hf _ _) fun c r hr => ?_
    split
    · exact Credit.pure (by omega)
    · exact Credit.mono (ih (by omega)) fun _ _ _ => by omega

theorem uref_credit {i B : Nat} : Credit 12 (dedupBody.uref v i : Prog α ι ω Addr) B (fun _ r => r = B) := by
  unfold dedupBody.uref
  split
  · exact Credit.pure rfl
  · exact Credit.ub

theorem partitionDedupBy_credit {same : Addr → Addr → Prog α ι ω Bool} (hs : ∀ a b B, 2 ≤ B → Credit 12 (same a b) B fun _ r => B + 8 ≤ r) {B : Nat}
    (hB : 2 ≤ B) : Credit 12 (partitionDedupBy cfg same v) B (fun _ r => B ≤ r) := by
  unfold partitionDedupBy
  split
  · exact Credit.splitAt fun _ => Credit.pure (Nat.le_refl _)
  · refine Credit.bind (Q' := fun _ r => B ≤ r) (Credit.loop (Inv := fun _ r => B ≤ r) (Nat.le_refl _) ?_) fun w r hr => ?_
    · rintro ⟨read, write⟩ B1 h1
      unfold dedupBody
      dsimp only
      split
      · refine Credit.usubAny fun prev _ => ?_
        refine Credit.bind uref_credit ?_
        rintro a _ rfl
        refine Credit.bind uref_credit ?_
        rintro b _ rfl
        refine Credit.bind (hs _ _ _ (by omega)) fun c r hr => ?_
        split
        · refine Credit.bind (Q' := fun _ r' => B ≤ r') ?_ fun _ _ h => Credit.pure h
          unfold whenP
          split
          · exact Credit.uswap' (by omega) fun _ _ => by omega
          · exact Credit.pure (by omega)
        · exact Credit.pure (by dsimp only; omega)
      · exact Credit.pure h1
    · unfold View.splitAt
      split
      · exact Credit.pure hr
      · exact Credit.throw

/-! ### Cached keys -/

/-- The sort of the pairs (which is not part of this crate) touches no element of the array. -/
def SortPays (srt : PairSort α κ) : Prop := ∀ l B, Credit 12 (srt l) B fun _ r => B ≤ r

theorem keyPairs_credit {w i n B : Nat} (hB : 1 ≤ B) : Credit 12 (keyPairs (κ := κ) v w i n : Prog α _ _ _) B (fun _ r => B + 11 * n ≤ r) := by
  induction n generalizing i B with
  | zero => exact Credit.pure (by omega)
  | succ n ih =>
    unfold keyPairs keyPair
    refine Credit.bind (Q' := fun _ r => B + 11 ≤ r) (Credit.vget (by omega) fun x _ => Credit.bind (Q' := fun _ r => B + 11 ≤ r) ?_ fun _ _ h => Credit.pure h)
      fun p r hr => Credit.bind (ih (by omega)) fun _ _ _ => Credit.pure (by omega)
    intro r
    cases r with
    | none => trivial
    | some k => exact Credit.pure (by omega)

theorem placeAll_credit {i n B : Nat} {l : List (κ × Nat)} (hB : 4 * n ≤ B) :
    Credit 12 (placeAll v i n l : Prog α (KeyQ α κ) (κ × Bool) Unit) B (fun _ r => B ≤ r + 4 * n) := by
  induction n generalizing i l B with
  | zero => exact Credit.pure (by omega)
  | succ n ih =>
    unfold placeAll
    refine Credit.bind (Q' := fun _ r => r = B) ?_ ?_
    · unfold pairAt
      split
      · exact Credit.pure rfl
      · exact Credit.throw
    · rintro p _ rfl
      rename_i B
      refine Credit.bind (Q' := fun _ r => r = B) (Credit.loop (Inv := fun _ r => r = B) rfl ?_) ?_
      · rintro index _ rfl
        unfold chaseBody
        split
        · unfold pairAt
          split
          · exact Credit.pure rfl
          · exact Credit.throw
        · exact Credit.pure rfl
      · rintro index _ rfl
        exact Credit.swap (by omega) fun _ _ => Credit.mono (ih (by omega)) fun _ _ _ => by omega

theorem sortByCachedKey_credit {sz : Sizes} {srt : PairSort α κ} (hs : SortPays srt) {B : Nat} (hB : 1 ≤ B) :
    Credit 12 (sortByCachedKey cfg sz srt v) B (fun _ r => B ≤ r) := by
  unfold sortByCachedKey
  split
  · exact Credit.pure (Nat.le_refl _)
  · exact Credit.bind (keyPairs_credit hB) fun _ _ _ => Credit.bind (hs _ _) fun _ _ _ =>
      Credit.mono (placeAll_credit (by omega)) fun _ _ _ => by omega

end NdSlice
