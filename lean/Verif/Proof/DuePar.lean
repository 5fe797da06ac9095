import Verif.Core.Due
import Verif.Proof.LagMerge
import Verif.Proof.InMerge
import Verif.Proof.ParMergeSeq

/-
How many comparisons the parallel stable sort makes at least, whatever is answered.
-/

namespace NdSlice

variable {α ι ω β : Type} {cfg : Cfg} {less : α → α → Prog α ι ω Bool} {c m : Nat} {v buf : View}

/-! ### Finding runs -/

theorem parInsertHead_owe (hl : Takes c less) (h : 2 ≤ v.len) : Owe c (parInsertHead less v) m (fun _ r => r ≤ m - 1) := by
  unfold parInsertHead
  rw [if_pos h]
  exact Owe.anyB fun x => Owe.anyB fun y => Owe.lessB hl fun b => Owe.any fun _ => Nat.le_refl _

theorem parStreak_owe (hl : Takes c less) {rev : Bool} {s : Nat} : Owe c (parStreak less v rev s) m (fun s' r => s' ≤ s ∧ r ≤ m - (s - s')) := by
  induction s generalizing m with
  | zero => exact Owe.pure ⟨Nat.le_refl _, by omega⟩
  | succ s ih =>
    refine Owe.anyB fun x => Owe.anyB fun y => Owe.lessB hl fun b => ?_
    split
    · refine ih.mono ?_
      rintro s' r ⟨h1, h2⟩
      exact ⟨by omega, by omega⟩
    · exact Owe.pure ⟨Nat.le_refl _, by omega⟩

theorem parExtend_owe (hl : Takes c less) {s e : Nat} (hs : s < e) :
    Owe c (parExtend less v e s) m (fun s' r => s' ≤ s ∧ r ≤ m - (s - s')) := by
  induction s generalizing m with
  | zero => exact Owe.pure ⟨Nat.le_refl _, by omega⟩
  | succ s ih =>
    unfold parExtend
    split
    · refine Owe.slice (by omega) fun _ => ?_
      refine Owe.bind (parInsertHead_owe hl (by show 2 ≤ e - s; omega)) fun _ r hr => ?_
      refine (ih (by omega)).mono ?_
      rintro s' r' ⟨h1, h2⟩
      exact ⟨by omega, by omega⟩
    · exact Owe.pure ⟨Nat.le_refl _, by omega⟩

theorem parNextRun_owe (hl : Takes c less) {e : Nat} (h0 : 0 < e) (he : e ≤ v.len) :
    Owe c (parNextRun cfg less v e) m (fun o r => match o with
      | .inl _ => e = v.len ∧ r ≤ m - (e - 1)
      | .inr s => s < e ∧ r ≤ m - (e - s - 1)) := by
  have ext : ∀ {s r}, s < e → r ≤ m - (e - s - 1) → Owe c (parExtend less v e s >>= fun s => Pure.pure (.inr s)) r (fun (o : MergesortResult ⊕ Nat) r => match o with
      | .inl _ => e = v.len ∧ r ≤ m - (e - 1)
      | .inr s => s < e ∧ r ≤ m - (e - s - 1)) := by
    intro s r hs hr
    refine Owe.bind (parExtend_owe hl hs) ?_
    rintro s' r' ⟨h1, h2⟩
    exact Owe.pure ⟨by omega, by omega⟩
  unfold parNextRun
  split
  · refine Owe.anyB fun x => Owe.anyB fun y => Owe.lessB hl fun b => ?_
    split
    · refine Owe.bind (parStreak_owe hl) ?_
      rintro s r ⟨h2, h3⟩
      split
      · rename_i hc
        rw [Bool.and_eq_true, beq_iff_eq, beq_iff_eq] at hc
        exact Owe.pure ⟨hc.2, by omega⟩
      · exact Owe.anyB fun _ => Owe.anyB fun _ => ext (by omega) (by omega)
    · refine Owe.bind (parStreak_owe hl) ?_
      rintro s r ⟨h2, h3⟩
      split
      · rename_i hc
        rw [beq_iff_eq] at hc
        exact Owe.pure ⟨by omega, by omega⟩
      · exact ext (by omega) (by omega)
  · exact ext (by omega) (by omega)

/-! ### The sequential sort of a chunk -/

theorem parCollapseBody_owe (hl : Takes c less) {rs : List TimRun} {e F : Nat} (h2 : RChain v.len rs e) (hm : m ≤ F + (e + rs.length - 1)) :
    Owe c (parCollapseBody cfg less v buf rs) m (fun o r => match o with
      | .inl rs' => RChain v.len rs' e ∧ r ≤ F + (e + rs'.length - 1)
      | .inr rs' => (RChain v.len rs' e ∧ r ≤ F + (e + rs'.length - 1)) ∧ (e = 0 → rs'.length ≤ 1)) := by
  unfold parCollapseBody
  cases hc : parCollapse rs with
  | none => exact Owe.pure ⟨⟨h2, hm⟩, fun he => parCollapse_none hc (he ▸ h2)⟩
  | some r =>
    obtain ⟨pre, b, a, post, rfl, hpre, hb', ha, hpost⟩ := split_two (parCollapse_lt hc)
    obtain ⟨k, c1, c2, c3, c4, c5, c6⟩ := rchain_append.mp h2
    have hrs : ((pre ++ b :: a :: post).set r ⟨a.len + b.len, a.start⟩).eraseIdx (r + 1) = pre ++ ⟨a.len + b.len, a.start⟩ :: post := by
      subst hpre
      simp [List.set_append_right, List.eraseIdx_append_of_length_le]
    simp only [runAt_eq ha, runAt_eq hb']
    show Owe c (View.slice v a.start (b.start + b.len) >>= _) m _
    refine Owe.slice (by omega) fun _ => ?_
    rw [show b.start + b.len - a.start = a.len + b.len by omega]
    refine Owe.bind (merge_owe hl (v := v.sub a.start (a.len + b.len)) c5 (by show a.len < a.len + b.len; omega)) fun _ r hr => ?_
    rw [hrs]
    refine Owe.pure ⟨?_, ?_⟩
    · refine rchain_append.mpr ⟨k, c1, ?_, by show 0 < a.len + b.len; omega, c6⟩
      show a.start + (a.len + b.len) = k
      omega
    · simp only [List.length_append, List.length_cons] at hm ⊢
      omega

theorem RChain.nil_of_eq {n : Nat} {rs : List TimRun} (h : RChain n rs n) : rs = [] := by
  cases rs with
  | nil => rfl
  | cons r rs =>
    obtain ⟨h1, h2, h3⟩ := h
    have := h3.le
    omega

theorem parMergeSortBody_owe (hl : Takes c less) {F : Nat} {x : Nat × List TimRun} (h2 : RChain v.len x.2 x.1) (hm : m ≤ F + (x.1 + x.2.length - 1))
    (h3 : x.1 = 0 → x.2.length ≤ 1) :
    Owe c (parMergeSortBody cfg less v buf x) m (fun o r => match o with
      | .inl x' => RChain v.len x'.2 x'.1 ∧ r ≤ F + (x'.1 + x'.2.length - 1) ∧ (x'.1 = 0 → x'.2.length ≤ 1)
      | .inr _ => r ≤ F) := by
  obtain ⟨e, rs⟩ := x
  dsimp only at h2 h3 hm
  have hle := h2.le
  unfold parMergeSortBody
  dsimp only
  split
  · rename_i hs
    refine Owe.bind (parNextRun_owe hl hs hle) ?_
    rintro (res | s) r hr
    · obtain ⟨rfl, g2⟩ := hr
      obtain rfl := h2.nil_of_eq
      refine Owe.pure ?_
      simp only [List.length_nil] at hm
      dsimp only
      omega
    · obtain ⟨g1, g2⟩ := hr
      dsimp only
      have hc : RChain v.len (rs ++ [(⟨e - s, s⟩ : TimRun)]) s :=
        rchain_append.mpr ⟨e, h2, by show s + (e - s) = e; omega, by show 0 < e - s; omega, rfl⟩
      refine Owe.bind (Q' := fun rs' r => (RChain v.len rs' s ∧ r ≤ F + (s + rs'.length - 1)) ∧ (s = 0 → rs'.length ≤ 1))
        (Owe.loop (Inv := fun rs' r => RChain v.len rs' s ∧ r ≤ F + (s + rs'.length - 1)) ⟨hc, ?_⟩ ?_) ?_
      · rw [List.length_append, List.length_singleton]
        omega
      · rintro rs' r ⟨k1, k2⟩
        refine (parCollapseBody_owe hl k1 k2).mono ?_
        rintro (x | x) r h <;> exact h
      · rintro rs' r ⟨⟨k1, k2⟩, k3⟩
        exact Owe.pure ⟨k1, k2, k3⟩
  · rename_i hs
    have := h3 (by omega)
    refine Owe.pure ?_
    dsimp only
    omega

theorem parMergeSortSeq_owe (hl : Takes c less) {F : Nat} : Owe c (parMergeSortSeq cfg less v buf) (F + (v.len - 1)) (fun _ r => r ≤ F) := by
  unfold parMergeSortSeq
  refine Owe.bind (Q' := fun _ r => r ≤ F)
    (Owe.loop (Inv := fun x r => RChain v.len x.2 x.1 ∧ r ≤ F + (x.1 + x.2.length - 1) ∧ (x.1 = 0 → x.2.length ≤ 1)) ?_ ?_) ?_
  · exact ⟨rfl, by simp, by simp⟩
  · rintro x r ⟨k1, k2, k3⟩
    refine (parMergeSortBody_owe hl k1 k2 k3).mono ?_
    rintro (x | x) r h <;> exact h
  · rintro (res | rs) r hr
    · exact Owe.pure hr
    · exact Owe.any fun _ => hr

/-! ### Merging in parallel -/

variable {left right dest : View}

theorem splitForMerge_owe (hl : Takes c less) (h1 : 0 < left.len) (h2 : 0 < right.len) : Owe c (splitForMerge less left right) m (fun _ r => r ≤ m - 1) := by
  unfold splitForMerge
  split
  · refine Owe.bind (Q' := fun _ r => r ≤ m - 1) (Owe.loop (Inv := fun x r => r ≤ m - 1 ∨ (r ≤ m ∧ x = (0, right.len))) (.inr ⟨Nat.le_refl _, rfl⟩) ?_)
      fun _ r h => Owe.pure h
    rintro ⟨a, b⟩ n hn
    unfold splitRightBody
    dsimp only
    split
    · refine Owe.anyB fun x => Owe.anyB fun y => Owe.lessB hl fun d => Owe.pure ?_
      left
      omega
    · rename_i hc
      refine Owe.pure ?_
      dsimp only
      rcases hn with hn | ⟨-, hx⟩
      · exact hn
      · cases hx
        exact absurd h2 hc
  · refine Owe.bind (Q' := fun _ r => r ≤ m - 1) (Owe.loop (Inv := fun x r => r ≤ m - 1 ∨ (r ≤ m ∧ x = (0, left.len))) (.inr ⟨Nat.le_refl _, rfl⟩) ?_)
      fun _ r h => Owe.pure h
    rintro ⟨a, b⟩ n hn
    unfold splitLeftBody
    dsimp only
    split
    · refine Owe.anyB fun x => Owe.anyB fun y => Owe.lessB hl fun d => Owe.pure ?_
      left
      omega
    · rename_i hc
      refine Owe.pure ?_
      dsimp only
      rcases hn with hn | ⟨-, hx⟩
      · exact hn
      · cases hx
        exact absurd h1 hc

theorem parMerge_owe (hl : Takes c less) {n : Nat} (h1 : 0 < left.len) (h2 : 0 < right.len) :
    Owe c (parMerge cfg less n left right dest) m (fun _ r => r ≤ m - 1) := by
  cases n with
  | zero => exact Owe.diverge
  | succ n =>
    unfold parMerge
    split
    · refine Owe.bind (Q' := fun _ r => r ≤ m - 1)
        (Owe.loop (Inv := fun x r => r ≤ m - 1 ∨ (r ≤ m ∧ x = (0, 0, 0))) (.inr ⟨Nat.le_refl _, rfl⟩) ?_) fun x r h => Owe.any fun _ => h
      rintro ⟨l, r, d⟩ n hn
      unfold parMergeBody
      dsimp only
      split
      · refine Owe.anyB fun x => Owe.anyB fun y => Owe.bind (Owe.onPanic (Owe.less (Q := fun _ r => r = n - 1) hl fun _ => rfl)) ?_
        rintro b _ rfl
        split
        · refine Owe.anyB fun z => Owe.anyB fun _ => Owe.pure ?_
          left
          omega
        · refine Owe.anyB fun z => Owe.anyB fun _ => Owe.pure ?_
          left
          omega
      · rename_i hc
        refine Owe.pure ?_
        dsimp only
        rcases hn with hn | ⟨-, hx⟩
        · exact hn
        · cases hx
          exact absurd (by rw [Bool.and_eq_true, decide_eq_true_eq, decide_eq_true_eq]; exact ⟨h1, h2⟩) hc
    · refine Owe.bind (Q' := fun _ r => r ≤ m - 1) (Owe.onPanic (Owe.bind (splitForMerge_owe hl h1 h2) fun x r h => Owe.any fun _ => h))
        fun x r h => Owe.any fun _ => h

/-- Chunks which are not empty. -/
def NoEmpty (cs : List (Nat × Nat)) : Prop := ∀ x ∈ cs, x.1 < x.2

theorem Follow.lt {s e : Nat} {cs : List (Nat × Nat)} (h : Follow s cs e) (hf : NoEmpty cs) (hc : 0 < cs.length) : s < e := by
  cases cs with
  | nil => exact absurd hc (Nat.lt_irrefl _)
  | cons x cs =>
    obtain ⟨h1, h2, h3⟩ := h
    have := hf x (by simp)
    have := h3.le
    omega

/-- `recurse`. -/
theorem parRecurse_debt (hl : Takes c less) {k : Nat} {cs : List (Nat × Nat)} {ib : Bool} {s e : Nat} (hc : 0 < cs.length) (h : Follow s cs e)
    (hf : NoEmpty cs) : Debt c (parRecurse cfg less v buf k cs ib) (cs.length - 1) (fun _ r => r = 0) := by
  induction k generalizing cs ib s e with
  | zero => exact Owe.debt Owe.diverge
  | succ k ih =>
    unfold parRecurse
    refine Debt.anyB fun _ => ?_
    by_cases hlen : (cs.length == 1) = true
    · rw [if_pos hlen]
      rw [beq_iff_eq] at hlen
      exact Owe.debt (Owe.any fun _ => by omega)
    · rw [if_neg hlen]
      simp only [beq_iff_eq] at hlen
      have hsplit : cs = cs.take (cs.length / 2) ++ cs.drop (cs.length / 2) := (List.take_append_drop _ _).symm
      have h' := h
      rw [hsplit] at h'
      obtain ⟨mid, c1, c2⟩ := h'.append
      have l1 : (cs.take (cs.length / 2)).length = cs.length / 2 := by simp; omega
      have l2 : (cs.drop (cs.length / 2)).length = cs.length - cs.length / 2 := by simp
      have f1 : NoEmpty (cs.take (cs.length / 2)) := fun x hx => hf x (List.mem_of_mem_take hx)
      have f2 : NoEmpty (cs.drop (cs.length / 2)) := fun x hx => hf x (List.mem_of_mem_drop hx)
      have hsm := c1.lt f1 (by omega)
      have hme := c2.lt f2 (by omega)
      obtain ⟨e0, he0⟩ := h.head hc
      obtain ⟨e1, he1⟩ := c2.head (by omega)
      obtain ⟨e2, he2⟩ := h.last hc
      rw [List.getElem?_drop, Nat.add_zero] at he1
      have i1 := ih (cs := cs.take (cs.length / 2)) (ib := !ib) (by omega) c1 f1
      have i2 := ih (cs := cs.drop (cs.length / 2)) (ib := !ib) (by omega) c2 f2
      rw [l1] at i1
      rw [l2] at i2
      rw [chunkAt_some he0, chunkAt_some he1]
      have u1 : (usub cfg cs.length 1 : Prog α ι ω Nat) = pure (cs.length - 1) := by
        unfold usub; rw [if_pos (by omega)]
      have u2 : (usub cfg e s : Prog α ι ω Nat) = pure (e - s) := by
        unfold usub; rw [if_pos (by omega)]
      show Debt c (usub cfg cs.length 1 >>= _) _ _
      rw [u1]
      show Debt c (chunkAt cs (cs.length - 1) >>= _) _ _
      rw [chunkAt_some he2]
      show Debt c (usub cfg e s >>= _) _ _
      rw [u2]
      show Debt c (Prog.onPanic (Prog.rayonJoin _ _) _ >>= _) _ _
      refine Debt.bind (Q' := fun _ r => r = 1) (Debt.onPanic (Debt.rayonJoin (n0 := 1) (by omega) i1 i2 ?_)) ?_
      · rintro _ _ _ _ rfl rfl
        rfl
      · rintro _ _ rfl
        refine Owe.debt (Owe.slice (by omega) fun _ => Owe.slice (by omega) fun _ => Owe.anyB fun dd => ?_)
        refine (parMerge_owe hl ?_ ?_).mono fun _ r h => by omega
        · show 0 < mid - s
          omega
        · show 0 < e - mid
          omega

/-! ### The chunks -/

theorem chunkTask_owe (hl : Takes c less) {i F : Nat} :
    Owe c (chunkTask cfg less v buf i) (F + (min 2000 (v.len - 2000 * i) - 1)) (fun r m => IsChunk v i r ∧ m ≤ F) := by
  unfold chunkTask
  dsimp only
  exact Owe.bind (parMergeSortSeq_owe hl (v := v.sub (2000 * i) (min 2000 (v.len - 2000 * i)))) fun _ _ h => Owe.pure ⟨⟨rfl, rfl⟩, h⟩

/-- What the missing chunks owe. -/
def lateDue (v : View) : Nat → List (Option (Nat × Nat × MergesortResult)) → Nat
  | _, [] => 0
  | i, some _ :: os => lateDue v (i + 1) os
  | i, none :: os => lateDue v (i + 1) os + (min 2000 (v.len - 2000 * i) - 1)

theorem chunkTasks_debt (hl : Takes c less) {i n F : Nat} (hn : n = (v.len - 2000 * i + 1999) / 2000) :
    Debt c (chunkTasks cfg less v buf i n) (F + (v.len - 2000 * i - n)) (fun os r => ChunksFrom v i os ∧ os.length = n ∧ r ≤ F + lateDue v i os) := by
  induction n generalizing i F with
  | zero =>
    unfold chunkTasks
    exact Debt.pure ⟨by show v.len ≤ 2000 * i; omega, rfl, by show _ ≤ F + 0; omega⟩
  | succ n ih =>
    unfold chunkTasks
    have hi : 2000 * i < v.len := by omega
    refine Debt.bind (Debt.rayonJoin (n0 := F) (n1 := min 2000 (v.len - 2000 * i) - 1) (n2 := 0 + (v.len - 2000 * (i + 1) - n)) (by omega)
      (Q1 := fun o r => (∀ r, o = some r → IsChunk v i r) ∧ (∀ x, o = some x → r = 0) ∧ r ≤ min 2000 (v.len - 2000 * i) - 1)
      (Q := fun x r => (∀ r, x.1 = some r → IsChunk v i r) ∧ ChunksFrom v (i + 1) x.2 ∧ x.2.length = n ∧ r ≤ F + lateDue v i (x.1 :: x.2)) ?_ (ih (by omega)) ?_) ?_
    · refine Owe.debt ?_
      intro b
      cases b
      · have := chunkTask_owe (cfg := cfg) (buf := buf) (v := v) hl (i := i) (F := 0)
        rw [Nat.zero_add] at this
        exact Owe.bind this fun r m h => Owe.pure ⟨fun r' e => by cases e; exact h.1, fun x _ => by omega, by omega⟩
      · exact Owe.pure ⟨fun r e => (by cases e), fun x e => (by cases e), Nat.le_refl _⟩
    · rintro o os r t ⟨h1, h2, h3⟩ ⟨h4, h5, h6⟩
      refine ⟨h1, h4, h5, ?_⟩
      cases o with
      | some x =>
        have := h2 x rfl
        show _ ≤ F + lateDue v (i + 1) os
        omega
      | none =>
        show _ ≤ F + (lateDue v (i + 1) os + _)
        omega
    · rintro ⟨o, os⟩ r ⟨h1, h2, h3, h4⟩
      exact Debt.pure ⟨⟨hi, h1, h2⟩, by simp at h3 ⊢; omega, h4⟩

theorem lateChunks_owe (hl : Takes c less) {i F : Nat} {os : List (Option (Nat × Nat × MergesortResult))} (h : ChunksFrom v i os)
    (hm : m ≤ F + lateDue v i os) :
    Owe c (lateChunks cfg less v buf i os) m (fun rs r => ChunksFrom v i (rs.map some) ∧ rs.length = os.length ∧ r ≤ F) := by
  induction os generalizing i m with
  | nil =>
    unfold lateChunks
    exact Owe.pure ⟨h, rfl, hm⟩
  | cons o os ih =>
    cases o with
    | some r =>
      unfold lateChunks
      exact Owe.bind (ih h.2.2 hm) fun rs _ hrs => Owe.pure ⟨⟨h.1, fun r' e => h.2.1 r' e, hrs.1⟩, by simp [hrs.2.1], hrs.2.2⟩
    | none =>
      unfold lateChunks
      have hm : m ≤ F + lateDue v (i + 1) os + (min 2000 (v.len - 2000 * i) - 1) := by
        rw [Nat.add_assoc]
        exact hm
      refine Owe.bind ((chunkTask_owe hl).weaken hm) fun r m hr => ?_
      exact Owe.bind (ih h.2.2 hr.2) fun rs _ hrs => Owe.pure ⟨⟨h.1, fun r' e => by cases e; exact hr.1, hrs.1⟩, by simp [hrs.2.1], hrs.2.2⟩

theorem concatChunks_owe (hl : Takes c less) {a b i F : Nat} {res : MergesortResult} {rest : List (Nat × Nat × MergesortResult)}
    (hab : a < b) (hb : b = min (2000 * i) v.len) (h : ChunksFrom v i (rest.map some)) (hm : m ≤ F + rest.length) :
    Owe c (concatChunks cfg less v a b res rest) m (fun cs r => 0 < cs.length ∧ Follow a cs v.len ∧ NoEmpty cs ∧ r ≤ F + (cs.length - 1)) := by
  induction rest generalizing a b i res m F with
  | nil =>
    unfold concatChunks
    have h : v.len ≤ 2000 * i := h
    refine Owe.anyB fun _ => Owe.pure ⟨Nat.succ_pos _, ⟨rfl, Nat.le_of_lt hab, by show b = v.len; omega⟩, ?_, hm⟩
    intro x hx
    rw [List.mem_singleton.mp hx]
    exact hab
  | cons r rest ih =>
    rcases r with ⟨x, y, r⟩
    obtain ⟨hi, hr, h⟩ := h
    obtain ⟨h1, h2⟩ := hr _ rfl
    dsimp only at h1 h2
    rw [List.length_cons] at hm
    unfold concatChunks
    refine Owe.bind (Q' := fun cc r => r ≤ m ∧ (cc = true → r ≤ m - 1)) ?_ ?_
    · unfold canConcat
      split
      · exact Owe.anyB fun _ => Owe.anyB fun _ => Owe.anyB fun _ => Owe.lessB hl fun _ => Owe.pure ⟨Nat.sub_le _ _, fun _ => Nat.le_refl _⟩
      · exact Owe.pure ⟨Nat.le_refl _, fun e => by cases e⟩
    · rintro cc r' ⟨k1, k2⟩
      split
      · rename_i hcc
        have := k2 hcc
        exact ih (by omega) (by omega) h (by omega)
      · refine Owe.anyB fun _ => Owe.bind (ih (F := F + 1) (by omega) (by omega) h (by omega)) ?_
        rintro cs r ⟨g1, g2, g3, g4⟩
        refine Owe.pure ⟨Nat.succ_pos _, ⟨rfl, Nat.le_of_lt hab, ?_⟩, ?_, ?_⟩
        · rw [show x = b by omega] at g2
          exact g2
        · intro z hz
          rcases List.mem_cons.mp hz with rfl | hz
          · exact hab
          · exact g3 z hz
        · rw [List.length_cons]
          omega

theorem parMergeSortChunks_debt (hl : Takes c less) (h : 2000 < v.len) : Debt c (parMergeSortChunks cfg less v buf) (v.len - 1) (fun _ r => r = 0) := by
  unfold parMergeSortChunks
  refine Debt.bind ((chunkTasks_debt (i := 0) (F := (v.len + 1999) / 2000 - 1) hl (by omega)).weaken (by omega)) ?_
  rintro os r ⟨h1, h2, h3⟩
  refine Debt.bind (Owe.debt (lateChunks_owe hl h1 h3)) ?_
  rintro rs r ⟨g1, g2, g3⟩
  cases rs with
  | nil => exact absurd (show v.len ≤ 2000 * 0 from g1) (by omega)
  | cons x rest =>
    rcases x with ⟨a, b, res⟩
    obtain ⟨_, hr, h⟩ := g1
    obtain ⟨k1, k2⟩ := hr _ rfl
    dsimp only at k1 k2
    simp only [List.length_cons] at g2
    dsimp only
    obtain rfl : a = 0 := by omega
    refine Debt.bind (Owe.debt (concatChunks_owe (i := 0 + 1) (F := 0) hl (by omega) (by omega) h (by omega))) ?_
    rintro cs r ⟨q1, q2, q3, q4⟩
    exact (parRecurse_debt hl q1 q2 q3).weaken (by omega)

theorem parMergeSort_debt (hl : Takes c less) (hz : cfg.zst = false) : Debt c (parMergeSort cfg less v buf) (v.len - 1) (fun _ r => r = 0) := by
  unfold parMergeSort
  rw [if_neg (by simp [hz])]
  split
  · split
    · have key : ∀ n m, n < v.len → m ≤ n → Owe c (Prog.forDown (fun i => do
          let w ← v.slice i v.len
          parInsertHead less w) 0 n) m (fun _ r => r = 0) := by
        intro n
        induction n with
        | zero => exact fun m _ hm => Owe.pure (by omega)
        | succ n ih =>
          intro m hn hm
          refine Owe.bind (Q' := fun _ r => r ≤ m - 1) (Owe.slice (by omega) fun _ => parInsertHead_owe hl (by show 2 ≤ v.len - _; omega)) fun _ r hr => ?_
          exact ih r (by omega) (by omega)
      exact Owe.debt (key _ _ (by omega) (Nat.le_refl _))
    · exact Owe.debt (Owe.any fun _ => by omega)
  · split
    · have := parMergeSortSeq_owe (cfg := cfg) (v := v) (buf := buf) hl (F := 0)
      rw [Nat.zero_add] at this
      exact Owe.debt (Owe.bind this fun _ r h => Owe.any fun _ => by omega)
    · exact parMergeSortChunks_debt hl (by omega)

end NdSlice
