import Verif.Core.Span
import Verif.Proof.CostPar

/-
The critical path of the parallel stable sort.
-/

namespace NdSlice

variable {α ι ω β : Type} {cfg : Cfg} {less : α → α → Prog α ι ω Bool} {c : Nat} {v buf : View}

/-! ### Which parts are sequential -/

attribute [local irreducible] NoJoin

namespace NoJoin

theorem ite {c : Prop} [Decidable c] {p q : Prog α ι ω β} (h : NoJoin p) (h' : NoJoin q) : NoJoin (if c then p else q) := by
  split <;> assumption

macro "nj1" : tactic => `(tactic| with_reducible first
  | exact pure | exact throw | exact ub | exact diverge
  | exact vget | exact vset | exact vidx | exact vcset | exact vslice | exact vsplitAt
  | exact debugAssert | exact usub
  | refine bind ?_ (fun _ => ?_) | refine onPanic ?_ ?_ | refine loop (fun _ => ?_) | refine forUp (fun _ => ?_)
  | refine forDown (fun _ => ?_) | refine ite ?_ ?_)

/-- Solves `NoJoin` goals with the given lemmas. -/
syntax "nj" "[" term,* "]" : tactic
macro_rules
  | `(tactic| nj [$[$ts],*]) => `(tactic| repeat' (first $[| with_reducible exact $ts]* | nj1 | split))

variable (hl : ∀ x y, NoJoin (less x y))
include hl

omit hl in
theorem revswap {a b : View} {n i k : Nat} : NoJoin (NdSlice.revswap cfg a b n i k : Prog α ι ω Unit) := by
  induction k generalizing i with
  | zero => exact pure
  | succ k ih => unfold NdSlice.revswap; nj [ih]

omit hl in
theorem reverse : NoJoin (NdSlice.reverse cfg v : Prog α ι ω Unit) := by
  unfold NdSlice.reverse; nj [revswap]

theorem parInsertHeadLoop {tmp : α} {d n : Nat} : NoJoin (NdSlice.parInsertHeadLoop less v tmp d n) := by
  induction n generalizing d with
  | zero => exact vset
  | succ n ih => unfold NdSlice.parInsertHeadLoop; nj [hl _ _, ih]

theorem parInsertHead : NoJoin (NdSlice.parInsertHead less v) := by
  unfold NdSlice.parInsertHead; nj [hl _ _, parInsertHeadLoop hl]

theorem parStreak {rev : Bool} {n : Nat} : NoJoin (NdSlice.parStreak less v rev n) := by
  induction n with
  | zero => exact pure
  | succ n ih => unfold NdSlice.parStreak; nj [hl _ _, ih]

theorem parExtend {e n : Nat} : NoJoin (NdSlice.parExtend less v e n) := by
  induction n with
  | zero => exact pure
  | succ n ih => unfold NdSlice.parExtend; nj [hl _ _, parInsertHead hl, ih]

theorem parNextRun {e : Nat} : NoJoin (NdSlice.parNextRun cfg less v e) := by
  unfold NdSlice.parNextRun; nj [hl _ _, parStreak hl, parExtend hl, reverse]

omit hl in
theorem runAt {rs : List TimRun} {i : Nat} : NoJoin (NdSlice.runAt rs i : Prog α ι ω TimRun) := by
  unfold NdSlice.runAt; nj [pure]

omit hl in
theorem mergeHoleDrop {a b c : Nat} : NoJoin (NdSlice.mergeHoleDrop cfg v buf a b c : Prog α ι ω Unit) := by
  unfold NdSlice.mergeHoleDrop; nj [pure]

omit hl in
theorem copyToBuf {a b : Nat} : NoJoin (NdSlice.copyToBuf v buf a b : Prog α ι ω Unit) := by
  unfold NdSlice.copyToBuf; nj [pure]

theorem merge {mid : Nat} : NoJoin (NdSlice.merge cfg less View.idx v mid buf) := by
  unfold NdSlice.merge NdSlice.mergeFwdBody NdSlice.mergeBwdBody NdSlice.pick; nj [hl _ _, mergeHoleDrop, copyToBuf]

theorem parCollapseBody {rs : List TimRun} : NoJoin (NdSlice.parCollapseBody cfg less v buf rs) := by
  unfold NdSlice.parCollapseBody; nj [hl _ _, merge hl, runAt]

theorem parMergeSortSeq : NoJoin (NdSlice.parMergeSortSeq cfg less v buf) := by
  unfold NdSlice.parMergeSortSeq NdSlice.parMergeSortBody; nj [hl _ _, parCollapseBody hl, runAt, parNextRun hl]

theorem splitForMerge {left right : View} : NoJoin (NdSlice.splitForMerge less left right) := by
  unfold NdSlice.splitForMerge NdSlice.splitRightBody NdSlice.splitLeftBody; nj [hl _ _]

omit hl in
theorem copyUp {src dest : View} {s d n : Nat} : NoJoin (NdSlice.copyUp src dest s d n : Prog α ι ω Unit) := by
  unfold NdSlice.copyUp; nj [pure]

omit hl in
theorem stateDrop {left right dest : View} {l r d : Nat} : NoJoin (NdSlice.stateDrop cfg left right dest l r d : Prog α ι ω Unit) := by
  unfold NdSlice.stateDrop; nj [copyUp]

theorem parMergeBody {left right dest : View} {x : Nat × Nat × Nat} : NoJoin (NdSlice.parMergeBody cfg less left right dest x) := by
  unfold NdSlice.parMergeBody; nj [hl _ _, stateDrop]

omit hl in
theorem chunkAt {cs : List (Nat × Nat)} {i : Nat} : NoJoin (NdSlice.chunkAt cs i : Prog α ι ω (Nat × Nat)) := by
  unfold NdSlice.chunkAt; nj [pure]

theorem chunkTask {i : Nat} : NoJoin (NdSlice.chunkTask cfg less v buf i) := by
  unfold NdSlice.chunkTask; nj [hl _ _, parMergeSortSeq hl]

theorem lateChunks {i : Nat} {os : List (Option (Nat × Nat × MergesortResult))} : NoJoin (NdSlice.lateChunks cfg less v buf i os) := by
  induction os generalizing i with
  | nil => unfold NdSlice.lateChunks; nj [pure]
  | cons o os ih =>
    cases o with
    | none => unfold NdSlice.lateChunks; nj [ih, chunkTask hl]
    | some r => unfold NdSlice.lateChunks; nj [ih]

omit hl in
theorem finishChunk {a b : Nat} {r : MergesortResult} : NoJoin (NdSlice.finishChunk cfg v a b r : Prog α ι ω Unit) := by
  unfold NdSlice.finishChunk; nj [reverse]

theorem canConcat {x : Nat} {r r' : MergesortResult} : NoJoin (NdSlice.canConcat cfg less v r x r') := by
  unfold NdSlice.canConcat; nj [hl _ _]

theorem concatChunks {a b : Nat} {r : MergesortResult} {rs : List (Nat × Nat × MergesortResult)} :
    NoJoin (NdSlice.concatChunks cfg less v a b r rs) := by
  induction rs generalizing a b r with
  | nil => unfold NdSlice.concatChunks; nj [finishChunk]
  | cons c rs ih => unfold NdSlice.concatChunks; nj [finishChunk, canConcat hl, ih]

/-- Up to 2000 elements there is only one task. -/
theorem parMergeSort (h : v.len ≤ 2000) : NoJoin (NdSlice.parMergeSort cfg less v buf) := by
  unfold NdSlice.parMergeSort
  rw [if_pos h]
  nj [hl _ _, parMergeSortSeq hl, reverse, parInsertHead hl]

end NoJoin

/-! ### Merging -/

variable {left right dest : View}

/-- The sequential merge of few elements. -/
theorem parMergeLoop_cost (hl : Asks c less) {n l r d B : Nat} (h : l < left.len → r < right.len → left.len - l + (right.len - r) ≤ B) :
    Cost c (Prog.loop (parMergeBody cfg less left right dest) n (l, r, d)) B (fun _ _ => True) := by
  refine Cost.loop (Inv := fun x B => x.1 < left.len → x.2.1 < right.len → left.len - x.1 + (right.len - x.2.1) ≤ B) h ?_
  rintro ⟨l, r, d⟩ B hB
  unfold parMergeBody
  dsimp only at hB ⊢
  split
  · rename_i hc
    rw [Bool.and_eq_true, decide_eq_true_eq, decide_eq_true_eq] at hc
    have := hB hc.1 hc.2
    obtain ⟨B, rfl⟩ : ∃ B', B = B' + 1 := ⟨B - 1, by omega⟩
    refine Cost.silentB Silent.vidx fun x => Cost.silentB Silent.vidx fun y => ?_
    refine Cost.bind (Cost.onPanic (Cost.less (B := B) (Q := fun _ r => r = B) hl fun _ => rfl) stateDrop_silent) ?_
    rintro b _ rfl
    cases b
    · refine Cost.silentB Silent.vidx fun z => Cost.silentB Silent.vcset fun _ => Cost.pure ?_
      dsimp only
      omega
    · refine Cost.silentB Silent.vidx fun z => Cost.silentB Silent.vcset fun _ => Cost.pure ?_
      dsimp only
      omega
  · exact Cost.pure trivial

theorem cube_lt {n m b : Nat} (h : 4 * m ≤ 3 * n + 4) (hn : 5000 ≤ n) (hb : n ^ 3 < 2 ^ (b + 1)) : m ^ 3 < 2 ^ b := by
  have h1 : 1000 * m ≤ 751 * n := by omega
  have h2 : (1000 * m) ^ 3 ≤ (751 * n) ^ 3 := Nat.pow_le_pow_left h1 3
  rw [Nat.mul_pow, Nat.mul_pow] at h2
  have hp : 2 ^ (b + 1) = 2 * 2 ^ b := by rw [Nat.pow_succ, Nat.mul_comm]
  have h3 : (1000 : Nat) ^ 3 = 1000000000 := by decide
  have h4 : (751 : Nat) ^ 3 = 423564751 := by decide
  rw [h3, h4] at h2
  omega

/-- Merging in parallel: `D` comparisons for each split, three splits at least halve the number of elements. -/
theorem parMerge_span (hl : Asks c less) (hj : ∀ x y, NoJoin (less x y)) {n b D : Nat} (hb : (left.len + right.len) ^ 3 < 2 ^ b)
    (hD : left.len + right.len < 2 ^ D) : Within c (parMerge cfg less n left right dest) (5000 + b * D) (fun _ => True) := by
  induction n generalizing left right dest b with
  | zero => exact Within.diverge
  | succ n ih =>
    unfold parMerge
    split
    · rename_i hc
      simp only [Bool.or_eq_true, beq_iff_eq, decide_eq_true_eq] at hc
      refine Within.weaken (B := 5000) ?_ (by omega)
      refine Within.bind (n := 5000) (B' := 0) (Q' := fun _ => True)
        (Within.of_cost (NoJoin.loop fun _ => NoJoin.parMergeBody hj) (parMergeLoop_cost hl (by omega))) (by omega) ?_
      rintro ⟨l, r, d⟩ -
      exact Within.silent NoJoin.stateDrop stateDrop_silent fun _ => trivial
    · rename_i hc
      simp only [Bool.or_eq_true, beq_iff_eq, decide_eq_true_eq, not_or, Nat.not_lt] at hc
      obtain ⟨-, hn⟩ := hc
      cases b with
      | zero =>
        have : 1 ≤ (left.len + right.len) ^ 3 := Nat.pow_pos (by omega)
        omega
      | succ b =>
        refine Within.bind (n := D) (B' := 5000 + b * D)
          (Q' := fun x : View × View × View × View => 4 * (x.1.len + x.2.2.1.len) ≤ 3 * (left.len + right.len) + 4 ∧
            4 * (x.2.1.len + x.2.2.2.len) ≤ 3 * (left.len + right.len) + 4 ∧ x.1.len + x.2.2.1.len ≤ left.len + right.len ∧
            x.2.1.len + x.2.2.2.len ≤ left.len + right.len) ?_ (by rw [Nat.succ_mul]; omega) ?_
        · refine Within.onPanic (Within.of_cost ?_ ?_) NoJoin.stateDrop stateDrop_silent
          · nj [NoJoin.splitForMerge hj]
          · refine Cost.bind (splitForMerge_cost hl (by omega) (by omega)) ?_
            rintro ⟨p, q⟩ r h
            dsimp only at h ⊢
            refine Cost.splitAt fun hp => Cost.splitAt fun hq => Cost.pure ?_
            show 4 * (p + q) ≤ _ ∧ 4 * (left.len - p + (right.len - q)) ≤ _ ∧ p + q ≤ _ ∧ left.len - p + (right.len - q) ≤ _
            omega
        · rintro ⟨ll, lr, rl, rr⟩ ⟨e1, e2, e3, e4⟩
          dsimp only at e1 e2 e3 e4 ⊢
          refine Within.silentB NoJoin.vsplitAt Silent.splitAt fun ⟨dl, dr⟩ => ?_
          exact Within.bind (B' := 0) (Within.rayonJoin (ih (cube_lt e1 hn hb) (by omega)) (ih (cube_lt e2 hn hb) (by omega))) (Nat.le_refl _)
            fun _ _ => Within.pure trivial

/-- `recurse`: one merge after the other on each level. -/
theorem parRecurse_span (hl : Asks c less) (hj : ∀ x y, NoJoin (less x y)) {k d D : Nat} {cs : List (Nat × Nat)} {ib : Bool} {s e : Nat}
    (hc : 0 < cs.length) (h : Follow s cs e) (hd : cs.length ≤ 2 ^ d) (hD : e - s < 2 ^ D) :
    Within c (parRecurse cfg less v buf k cs ib) (d * (5000 + 3 * D * D)) (fun _ => True) := by
  induction k generalizing cs ib s e d with
  | zero => exact Within.diverge
  | succ k ih =>
    unfold parRecurse
    refine Within.debugAssert ?_
    have hse := h.le
    by_cases hlen : (cs.length == 1) = true
    · rw [if_pos hlen]
      cases ib with
      | false => exact Within.pure trivial
      | true =>
        refine Within.silentB NoJoin.chunkAt ?_ fun x => Within.silent NoJoin.copyUp copyUp_silent fun _ => trivial
        unfold chunkAt
        split
        · exact Silent.pure
        · exact Silent.throw
    · rw [if_neg hlen]
      simp only [beq_iff_eq] at hlen
      have hsplit : cs = cs.take (cs.length / 2) ++ cs.drop (cs.length / 2) := (List.take_append_drop _ _).symm
      have h' := h
      rw [hsplit] at h'
      obtain ⟨m, c1, c2⟩ := h'.append
      obtain ⟨e0, he0⟩ := h.head hc
      obtain ⟨e1, he1⟩ := c2.head (by simp; omega)
      obtain ⟨e2, he2⟩ := h.last hc
      rw [List.getElem?_drop, Nat.add_zero] at he1
      rw [chunkAt_some he0, chunkAt_some he1]
      refine Within.pureB (Within.pureB (Within.usub (by omega) ?_))
      rw [chunkAt_some he2]
      refine Within.pureB (Within.usub hse ?_)
      have hsm := c1.le
      have hme := c2.le
      cases d with
      | zero => simp at hd; omega
      | succ d =>
        rw [Nat.pow_succ] at hd
        have l1 : (cs.take (cs.length / 2)).length = cs.length / 2 := by simp; omega
        have l2 : (cs.drop (cs.length / 2)).length = cs.length - cs.length / 2 := by simp
        have i1 := ih (cs := cs.take (cs.length / 2)) (ib := !ib) (d := d) (by omega) c1 (by omega) (by omega)
        have i2 := ih (cs := cs.drop (cs.length / 2)) (ib := !ib) (d := d) (by omega) c2 (by omega) (by omega)
        refine Within.bind (B' := 5000 + 3 * D * D) (Within.onPanic (Within.rayonJoin i1 i2) NoJoin.copyUp copyUp_silent) (Nat.le_of_eq (Nat.succ_mul _ _).symm) fun _ _ => ?_
        refine Within.slice hsm fun _ => Within.slice hme fun _ => Within.silentB NoJoin.vslice Silent.slice fun dd => ?_
        have hlen : m - s + (e - m) = e - s := by omega
        refine parMerge_span hl hj (b := 3 * D) ?_ ?_
        · show (m - s + (e - m)) ^ 3 < _
          rw [hlen, Nat.mul_comm, Nat.pow_mul]
          exact Nat.pow_lt_pow_left hD (by omega)
        · show m - s + (e - m) < _
          omega

/-! ### The chunks -/

theorem chunkTasks_span (hl : Asks c less) (hj : ∀ x y, NoJoin (less x y)) {i n : Nat} (hn : n = (v.len - 2000 * i + 1999) / 2000) :
    Within c (chunkTasks cfg less v buf i n) 102000 (fun os => ChunksFrom v i os ∧ os.length = n ∧ lateCost v i os = 0) := by
  induction n generalizing i with
  | zero =>
    unfold chunkTasks
    exact Within.pure ⟨by show v.len ≤ 2000 * i; omega, rfl, rfl⟩
  | succ n ih =>
    unfold chunkTasks
    have hi : 2000 * i < v.len := by omega
    refine Within.bind (B' := 0) (Within.rayonJoin (Q1 := fun o => ∃ r, o = some r ∧ IsChunk v i r) ?_ (ih (by omega))) (Nat.le_refl _) ?_
    · refine Within.choose ?_
      refine Within.bind (B' := 0) (Within.of_cost (NoJoin.chunkTask hj) ((chunkTask_cost hl).weaken (B' := 102000) (by omega))) (Nat.le_refl _) ?_
      exact fun r h => Within.pure ⟨r, rfl, h⟩
    · rintro ⟨o, os⟩ ⟨⟨r, rfl, h1⟩, h2, h3, h4⟩
      exact Within.pure ⟨⟨hi, fun r' e => by cases e; exact h1, h2⟩, by simpa using h3, h4⟩

theorem parMergeSortChunks_span (hl : Asks c less) (hj : ∀ x y, NoJoin (less x y)) (h : 2000 < v.len) :
    Within c (parMergeSortChunks cfg less v buf)
      (v.len / 2000 + 102001 + Nat.log2 v.len * (5000 + 3 * (Nat.log2 v.len + 1) * (Nat.log2 v.len + 1))) (fun _ => True) := by
  have hpow : v.len < 2 ^ (Nat.log2 v.len + 1) := Nat.lt_log2_self
  have hpd : (v.len + 1999) / 2000 ≤ 2 ^ Nat.log2 v.len := by
    rw [Nat.pow_succ] at hpow
    omega
  unfold parMergeSortChunks
  refine Within.bind (B' := (v.len / 2000 + 1) + Nat.log2 v.len * (5000 + 3 * (Nat.log2 v.len + 1) * (Nat.log2 v.len + 1)))
    (chunkTasks_span (i := 0) hl hj (by omega)) (by omega) ?_
  rintro os ⟨h1, h2, h3⟩
  refine Within.bind (B' := (v.len / 2000 + 1) + Nat.log2 v.len * (5000 + 3 * (Nat.log2 v.len + 1) * (Nat.log2 v.len + 1))) (n := 0)
    (Q' := fun rs => ChunksFrom v 0 (rs.map some) ∧ rs.length = os.length)
    (Within.of_cost (NoJoin.lateChunks hj) ((lateChunks_cost hl h1).weaken (by omega))) (by omega) ?_
  rintro rs ⟨g1, g2⟩
  cases rs with
  | nil => exact absurd (show v.len ≤ 2000 * 0 from g1) (by omega)
  | cons x rest =>
    rcases x with ⟨a, b, res⟩
    obtain ⟨_, hr, h⟩ := g1
    obtain ⟨k1, k2⟩ := hr _ rfl
    dsimp only at k1 k2
    simp only [List.length_cons] at g2
    dsimp only
    obtain rfl : a = 0 := by omega
    refine Within.bind (n := v.len / 2000 + 1) (B' := Nat.log2 v.len * (5000 + 3 * (Nat.log2 v.len + 1) * (Nat.log2 v.len + 1)))
      (Q' := fun cs => 0 < cs.length ∧ cs.length ≤ (v.len + 1999) / 2000 ∧ Follow 0 cs v.len) ?_ (Nat.le_refl _) ?_
    · refine Within.of_cost (NoJoin.concatChunks hj) (Cost.mono (Cost.weaken (concatChunks_cost (i := 0 + 1) hl (by omega) (by omega) h) (by omega)) ?_)
      rintro cs r ⟨q1, q2, q3⟩
      exact ⟨q1, by omega, q3⟩
    · rintro cs ⟨q1, q2, q3⟩
      exact parRecurse_span hl hj q1 q3 (by omega) (by omega)

theorem parMergeSort_span (hl : Asks c less) (hj : ∀ x y, NoJoin (less x y)) :
    Within c (parMergeSort cfg less v buf)
      (v.len / 2000 + 102001 + Nat.log2 v.len * (5000 + 3 * (Nat.log2 v.len + 1) * (Nat.log2 v.len + 1))) (fun _ => True) := by
  by_cases h : v.len ≤ 2000
  · refine Within.weaken (B := 102000) (Within.of_cost (NoJoin.parMergeSort hj h) ?_) (by omega)
    by_cases h20 : v.len ≤ 20
    · refine (parMergeSort_cost hl).weaken ?_
      have h1 : Nat.log2 v.len ≤ v.len + 1 := by have := two_log2_le v.len; omega
      calc 8 * (v.len * Nat.log2 v.len) ≤ 8 * (20 * 21) := Nat.mul_le_mul_left _ (Nat.mul_le_mul h20 (by omega))
        _ ≤ 102000 := by decide
    · unfold parMergeSort
      split
      · exact Cost.pure trivial
      refine Cost.bind (Q' := fun _ _ => True) (parMergeSortSeq_cost hl (H := 10) (fun _ hf => fib_chunk h hf) (by omega)) fun res _ _ => ?_
      split
      · exact Cost.silent reverse_silent fun _ => trivial
      · exact Cost.pure trivial
  · unfold parMergeSort
    split
    · exact Within.pure trivial
    rw [if_neg (show ¬ v.len ≤ 20 by omega)]
    exact parMergeSortChunks_span hl hj (by omega)

end NdSlice
