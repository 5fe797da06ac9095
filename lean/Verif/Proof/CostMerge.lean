import Verif.Core.Cost
import Verif.Proof.MergeSort

/-
How many comparisons insertion sort and merge sort make at most, whatever is answered.
-/

namespace NdSlice

variable {α ι ω β : Type} {cfg : Cfg} {less : α → α → Prog α ι ω Bool} {c : Nat}

/-! ### Insertion sort -/

theorem insertTailLoop_cost (hl : Asks c less) {v : View} {tmp : α} {h : Nat} :
    Cost c (insertTailLoop less v tmp h) h (fun _ _ => True) := by
  induction h with
  | zero => exact Cost.silent Silent.vset fun _ => trivial
  | succ h ih =>
    refine Cost.silentB Silent.vget fun x => ?_
    refine Cost.bind (Cost.onPanic (Cost.less (B := h) (Q := fun _ r => r = h) hl fun _ => rfl) Silent.vset) ?_
    rintro b _ rfl
    split
    · exact Cost.silent Silent.vset fun _ => trivial
    · exact Cost.silentB Silent.vset fun _ => ih

theorem insertTail_cost (hl : Asks c less) {v : View} (h2 : 2 ≤ v.len) : Cost c (insertTail cfg less v) (v.len - 1) (fun _ _ => True) := by
  unfold insertTail
  refine Cost.debugAssert (Cost.usub (by omega) (Cost.usub (by omega) (Cost.silentB Silent.vget fun x => Cost.silentB Silent.vget fun y => ?_)))
  rw [show v.len - 1 = (v.len - 1 - 1) + 1 by omega]
  refine Cost.lessB hl fun b => ?_
  split
  · refine Cost.silentB Silent.vget fun _ => Cost.silentB Silent.vget fun _ => Cost.silentB Silent.vset fun _ => ?_
    exact insertTailLoop_cost hl
  · exact Cost.pure trivial

theorem insertHeadLoop_cost (hl : Asks c less) {v : View} {tmp : α} {d n : Nat} :
    Cost c (insertHeadLoop less v tmp d n) n (fun _ _ => True) := by
  induction n generalizing d with
  | zero => exact Cost.silent Silent.vset fun _ => trivial
  | succ n ih =>
    refine Cost.silentB Silent.vget fun x => ?_
    refine Cost.bind (Cost.onPanic (Cost.less (B := n) (Q := fun _ r => r = n) hl fun _ => rfl) Silent.vset) ?_
    rintro b _ rfl
    split
    · exact Cost.silent Silent.vset fun _ => trivial
    · exact Cost.silentB Silent.vset fun _ => ih

theorem insertHead_cost (hl : Asks c less) {v : View} : Cost c (insertHead cfg less v) (v.len - 2 + 1) (fun _ _ => True) := by
  unfold insertHead
  refine Cost.debugAssert (Cost.silentB Silent.vget fun x => Cost.silentB Silent.vget fun y => ?_)
  refine Cost.lessB hl fun b => ?_
  split
  · refine Cost.silentB Silent.vget fun _ => Cost.silentB Silent.vget fun _ => Cost.silentB Silent.vset fun _ => ?_
    exact insertHeadLoop_cost hl
  · exact Cost.pure trivial

theorem insertionSortShiftLeft_cost (hl : Asks c less) {v : View} {offset : Nat} :
    Cost c (insertionSortShiftLeft cfg less v offset) ((v.len - offset) * (v.len - 1)) (fun _ _ => True) := by
  unfold insertionSortShiftLeft
  refine Cost.assertP fun ho => ?_
  rw [Bool.and_eq_true, decide_eq_true_eq, decide_eq_true_eq] at ho
  refine Cost.mono (Cost.forUp (Inv := fun i B => (v.len - i) * (v.len - 1) ≤ B) (Nat.le_refl _) ?_) (fun _ _ _ => trivial)
  intro i B h1 h2 hB
  refine Cost.slice (by omega) fun h3 => ?_
  refine Cost.weaken (B := (v.len - (i + 1)) * (v.len - 1) + (v.len - 1)) ?_ ?_
  · rw [Nat.add_comm (_ * _)]
    have := ((insertTail_cost (cfg := cfg) hl (v := v.sub 0 (i + 1 - 0)) (by show 2 ≤ i + 1 - 0; omega)).weaken
      (B' := v.len - 1) (by show i + 1 - 0 - 1 ≤ _; omega)).frame ((v.len - (i + 1)) * (v.len - 1))
    refine this.mono ?_
    rintro _ _ ⟨r, rfl, _⟩
    omega
  · rw [show v.len - i = v.len - (i + 1) + 1 by omega, Nat.succ_mul] at hB
    exact hB

/-! ### Merging -/

theorem mergeHoleDrop_silent {v buf : View} {a b d : Nat} : Silent (mergeHoleDrop cfg v buf a b d : Prog α ι ω Unit) :=
  Silent.bind Silent.usub fun _ => Silent.forUp fun _ => Silent.bind Silent.vget fun _ => Silent.vcset

theorem copyToBuf_silent {v buf : View} {a n : Nat} : Silent (copyToBuf v buf a n : Prog α ι ω Unit) :=
  Silent.forUp fun _ => Silent.bind Silent.vidx fun _ => Silent.vset

theorem merge_cost (hl : Asks c less) {rd : View → Nat → Prog α ι ω α} (hrd : ∀ v i, Silent (rd v i)) {v buf : View} {mid : Nat}
    (hm : mid ≤ v.len) : Cost c (merge cfg less rd v mid buf) v.len (fun _ _ => True) := by
  have hp : ∀ i j b, Silent (pick rd v buf i j b) := fun i j b => Silent.ite (hrd _ _) Silent.vget
  unfold merge
  refine Cost.usub hm ?_
  split
  · refine Cost.silentB copyToBuf_silent fun _ => ?_
    refine Cost.bind (Q' := fun _ _ => True) (Cost.loop (Inv := fun x B => mid - x.1 + (v.len - x.2.1) ≤ B) (by show mid - 0 + (v.len - mid) ≤ v.len; omega) ?_)
      (fun _ _ _ => Cost.silent mergeHoleDrop_silent fun _ => trivial)
    rintro ⟨l, r, out⟩ B hB
    unfold mergeFwdBody
    dsimp only
    split
    · rename_i hc
      rw [Bool.and_eq_true, decide_eq_true_eq, decide_eq_true_eq] at hc
      obtain ⟨B, rfl⟩ : ∃ B', B = B' + 1 := ⟨B - 1, by dsimp only at hB; omega⟩
      refine Cost.silentB Silent.vget fun x => Cost.silentB Silent.vget fun y => ?_
      refine Cost.bind (Cost.onPanic (Cost.less (B := B) (Q := fun _ r => r = B) hl fun _ => rfl) mergeHoleDrop_silent) ?_
      rintro b _ rfl
      refine Cost.silentB (hp _ _ _) fun z => Cost.silentB Silent.vcset fun _ => Cost.pure ?_
      dsimp only at hB ⊢
      cases b <;> simp <;> omega
    · exact Cost.pure trivial
  · refine Cost.silentB copyToBuf_silent fun _ => ?_
    refine Cost.bind (Q' := fun _ _ => True) (Cost.loop (Inv := fun x B => x.1 + x.2.1 ≤ B) (by show mid + (v.len - mid) ≤ v.len; omega) ?_)
      (fun _ _ _ => Cost.silent mergeHoleDrop_silent fun _ => trivial)
    rintro ⟨l, r, out⟩ B hB
    unfold mergeBwdBody
    dsimp only
    split
    · rename_i hc
      rw [Bool.and_eq_true, decide_eq_true_eq, decide_eq_true_eq] at hc
      obtain ⟨B, rfl⟩ : ∃ B', B = B' + 1 := ⟨B - 1, by dsimp only at hB; omega⟩
      refine Cost.silentB Silent.vget fun x => Cost.silentB Silent.vget fun y => ?_
      refine Cost.bind (Cost.onPanic (Cost.less (B := B) (Q := fun _ r => r = B) hl fun _ => rfl) mergeHoleDrop_silent) ?_
      rintro b _ rfl
      refine Cost.silentB (hp _ _ _) fun z => Cost.silentB Silent.usub fun _ => Cost.silentB Silent.vcset fun _ => Cost.pure ?_
      dsimp only at hB ⊢
      cases b <;> simp <;> omega
    · exact Cost.pure trivial

/-! ### Finding runs -/

theorem streakLoop_cost (hl : Asks c less) {v : View} {rev : Bool} {e n B : Nat} (hB : n ≤ B) :
    Cost c (streakLoop less v rev e n) B (fun e' r => e ≤ e' ∧ e' ≤ e + n ∧ B ≤ r + (e' - e) + 1) := by
  induction n generalizing e B with
  | zero => exact Cost.pure ⟨Nat.le_refl _, Nat.le_refl _, by omega⟩
  | succ n ih =>
    obtain ⟨B, rfl⟩ : ∃ B', B = B' + 1 := ⟨B - 1, by omega⟩
    refine Cost.silentB Silent.vget fun x => Cost.silentB Silent.vget fun y => Cost.lessB hl fun b => ?_
    split
    · refine Cost.mono (ih (by omega)) ?_
      rintro e' r ⟨h1, h2, h3⟩
      exact ⟨by omega, by omega, by omega⟩
    · exact Cost.pure ⟨Nat.le_refl _, by omega, by omega⟩

theorem findStreak_cost (hl : Asks c less) {v : View} {B : Nat} (hB : v.len ≤ B) :
    Cost c (findStreak less v) B (fun x r => x.1 ≤ v.len ∧ (0 < v.len → 0 < x.1) ∧ B ≤ r + x.1) := by
  unfold findStreak
  split
  · exact Cost.pure ⟨Nat.le_refl _, id, by dsimp only; omega⟩
  · obtain ⟨B, rfl⟩ : ∃ B', B = B' + 1 := ⟨B - 1, by omega⟩
    refine Cost.silentB Silent.vget fun x => Cost.silentB Silent.vget fun y => Cost.lessB hl fun b => ?_
    refine Cost.bind (streakLoop_cost hl (by omega)) ?_
    rintro e r ⟨h1, h2, h3⟩
    exact Cost.pure ⟨by dsimp only; omega, fun _ => by dsimp only; omega, by dsimp only; omega⟩

theorem revswap_silent {a b : View} {n i k : Nat} : Silent (revswap cfg a b n i k : Prog α ι ω Unit) := by
  induction k generalizing i with
  | zero => exact Silent.pure
  | succ k ih =>
    exact Silent.bind Silent.usub fun _ => Silent.bind Silent.usub fun _ => Silent.bind Silent.vidx fun _ =>
      Silent.bind Silent.vidx fun _ => Silent.bind Silent.vcset fun _ => Silent.bind Silent.vcset fun _ => ih

theorem reverse_silent {v : View} : Silent (reverse cfg v : Prog α ι ω Unit) := by
  unfold reverse
  exact Silent.bind Silent.usub fun _ => Silent.bind Silent.splitAt fun _ => Silent.bind Silent.splitAt fun _ =>
    Silent.bind Silent.debugAssert fun _ => Silent.bind Silent.debugAssert fun _ => revswap_silent

theorem provideSortedBatch_cost (hl : Asks c less) {v : View} {s e B : Nat} (hB : 9 * (v.len - s) ≤ B) (he : s < e):
    Cost c (provideSortedBatch cfg less v s e) B
      (fun e' r => s < e' ∧ e' ≤ v.len ∧ (s + 10 ≤ e' ∨ e' = v.len) ∧ e ≤ e' ∧ B ≤ r + 9 * (e' - s)) := by
  unfold provideSortedBatch
  refine Cost.assertP fun ho => ?_
  rw [Bool.and_eq_true, decide_eq_true_eq, decide_eq_true_eq] at ho
  refine Cost.usub ho.1 ?_
  split
  · rename_i hc
    rw [Bool.and_eq_true, decide_eq_true_eq, decide_eq_true_eq] at hc
    refine Cost.slice (by omega) fun h3 => ?_
    have hm : (min (s + 10) v.len - s - max (e - s) 1) * (min (s + 10) v.len - s - 1) ≤ 9 * (min (s + 10) v.len - s) := by
      rw [Nat.mul_comm]
      exact Nat.mul_le_mul (by omega) (by omega)
    refine Cost.bindN (B' := B - 9 * (min (s + 10) v.len - s)) (insertionSortShiftLeft_cost hl) (Q' := fun _ => True) ?_ (fun _ _ => Cost.pure ?_)
    · show (min (s + 10) v.len - s - max (e - s) 1) * (min (s + 10) v.len - s - 1) + _ ≤ _
      omega
    · omega
  · rename_i hc
    rw [Bool.and_eq_true, decide_eq_true_eq, decide_eq_true_eq] at hc
    exact Cost.pure ⟨by omega, ho.2, by omega, by omega, by omega⟩

theorem nextRun_cost (hl : Asks c less) {v : View} {s B : Nat} (hs : s < v.len) (hB : 10 * (v.len - s) ≤ B) :
    Cost c (nextRun cfg less v s) B (fun e' r => s < e' ∧ e' ≤ v.len ∧ (s + 10 ≤ e' ∨ e' = v.len) ∧ B ≤ r + 10 * (e' - s)) := by
  unfold nextRun
  refine Cost.slice (by omega) fun _ => ?_
  refine Cost.bind (findStreak_cost hl (by show v.len - s ≤ B; omega)) ?_
  rintro ⟨k, rev⟩ r ⟨h1, h2, h3⟩
  change k ≤ v.len - s at h1
  change 0 < v.len - s → 0 < k at h2
  dsimp only at h3 ⊢
  have hk := h2 (by omega)
  have last : Cost c (provideSortedBatch cfg less v s (s + k)) r
      (fun e' r => s < e' ∧ e' ≤ v.len ∧ (s + 10 ≤ e' ∨ e' = v.len) ∧ B ≤ r + 10 * (e' - s)) := by
    refine Cost.mono (provideSortedBatch_cost hl (by omega) (by omega)) ?_
    rintro e' r' ⟨g1, g2, g3, g4, g5⟩
    exact ⟨g1, g2, g3, by omega⟩
  split
  · exact Cost.silentB Silent.slice fun _ => Cost.silentB reverse_silent fun _ => last
  · exact last

/-! ### The stack of runs -/

theorem RunVec.drop_silent {rv : RunVec} : Silent (rv.drop : Prog α ι ω Unit) := by
  unfold RunVec.drop
  split
  · exact Silent.pure
  · exact Silent.ub

/-- The sum of the lengths of the runs, each as often as there are runs below it. -/
def depthSum : Nat → List TimRun → Nat
  | _, [] => 0
  | i, r :: rs => i * r.len + depthSum (i + 1) rs

/-- The sum of the lengths of the runs. -/
def total : List TimRun → Nat
  | [] => 0
  | r :: rs => r.len + total rs

theorem depthSum_append {i : Nat} {as bs : List TimRun} : depthSum i (as ++ bs) = depthSum i as + depthSum (i + as.length) bs := by
  induction as generalizing i with
  | nil => simp [depthSum]
  | cons a as ih =>
    simp only [List.cons_append, depthSum, ih, List.length_cons]
    rw [show i + 1 + as.length = i + (as.length + 1) by omega]
    omega

theorem depthSum_succ {i : Nat} {rs : List TimRun} : depthSum (i + 1) rs = depthSum i rs + total rs := by
  induction rs generalizing i with
  | nil => rfl
  | cons a rs ih =>
    simp only [depthSum, total, ih (i := i + 1), Nat.succ_mul]
    omega

/-- Merging two neighbouring runs. -/
theorem depthSum_merge {i : Nat} {pre post : List TimRun} {a b m : TimRun} (hm : m.len = a.len + b.len) :
    depthSum i (pre ++ a :: b :: post) = depthSum i (pre ++ m :: post) + b.len + total post := by
  rw [depthSum_append, depthSum_append]
  simp only [depthSum, hm]
  rw [depthSum_succ (i := i + pre.length + 1), Nat.mul_add, Nat.succ_mul]
  omega

theorem Chain.total {s e : Nat} {rs : List TimRun} (h : Chain s rs e) : s + total rs = e := by
  induction rs generalizing s with
  | nil => exact h
  | cons r rs ih =>
    have := ih h.2.2
    simp only [NdSlice.total]
    omega

/-- What has been spent ahead: the length of the topmost run, if it is too long for the runs below it. -/
def slack (rs : List TimRun) : Nat :=
  if 2 ≤ rs.length ∧ (runLen rs (rs.length - 2) ≤ runLen rs (rs.length - 1) ∨
      (3 ≤ rs.length ∧ runLen rs (rs.length - 3) ≤ runLen rs (rs.length - 2) + runLen rs (rs.length - 1))) then
    runLen rs (rs.length - 1)
  else 0

theorem slack_none {rs : List TimRun} {stop : Nat} (h : collapse rs stop = none) : slack rs = 0 := by
  unfold collapse at h
  simp only at h
  split at h
  · split at h <;> cases h
  rename_i hc
  simp only [Bool.and_eq_true, Bool.or_eq_true, decide_eq_true_eq, beq_iff_eq] at hc
  unfold slack
  rw [if_neg]
  omega

theorem runLen_at {pre post : List TimRun} {a : TimRun} {i : Nat} (h : i = pre.length) : runLen (pre ++ a :: post) i = a.len := by
  subst h
  simp [runLen]

/-- Merging pays for itself. -/
theorem collapse_pay {pre post : List TimRun} {a b m : TimRun} {stop : Nat} (hm : m.len = a.len + b.len)
    (h : collapse (pre ++ a :: b :: post) stop = some pre.length)
    (hs : runStart (pre ++ a :: b :: post) ((pre ++ a :: b :: post).length - 1) + runLen (pre ++ a :: b :: post) ((pre ++ a :: b :: post).length - 1) ≠ stop) :
    a.len + b.len + slack (pre ++ a :: b :: post) ≤ 3 * (b.len + total post) + slack (pre ++ m :: post) := by
  have hlt := collapse_lt h
  rw [List.length_append, List.length_cons, List.length_cons] at hlt
  match post, hlt with
  | [], _ =>
    unfold collapse at h
    have l1 : (pre ++ [a, b]).length = pre.length + 2 := by simp
    have l2 : (pre ++ [m]).length = pre.length + 1 := by simp
    have b1 : runLen (pre ++ [a, b]) (pre.length + 1) = b.len := by
      rw [show pre ++ [a, b] = (pre ++ [a]) ++ [b] by simp]; exact runLen_at (by simp)
    have a1 : runLen (pre ++ [a, b]) pre.length = a.len := runLen_at rfl
    have m1 : runLen (pre ++ [m]) pre.length = m.len := runLen_at rfl
    have y1 : 1 ≤ pre.length → runLen (pre ++ [m]) (pre.length - 1) = runLen (pre ++ [a, b]) (pre.length - 1) := fun h => by
      rw [runLen_append (by omega), runLen_append (by omega)]
    have x1 : 2 ≤ pre.length → runLen (pre ++ [m]) (pre.length - 2) = runLen (pre ++ [a, b]) (pre.length - 2) := fun h => by
      rw [runLen_append (by omega), runLen_append (by omega)]
    unfold slack
    rw [l1] at hs
    rw [l1, l2]
    simp only [l1, Bool.and_eq_true, Bool.or_eq_true, decide_eq_true_eq, beq_iff_eq] at h
    rw [show pre.length + 2 - 1 = pre.length + 1 by omega] at h hs ⊢
    rw [show pre.length + 2 - 2 = pre.length by omega, show pre.length + 2 - 3 = pre.length - 1 by omega] at h ⊢
    rw [show pre.length + 2 - 4 = pre.length - 2 by omega] at h
    rw [show pre.length + 1 - 1 = pre.length by omega, show pre.length + 1 - 2 = pre.length - 1 by omega, show pre.length + 1 - 3 = pre.length - 2 by omega]
    rw [b1, a1] at h
    rw [b1] at hs
    rw [a1, b1, m1, hm]
    simp only [total]
    split at h
    · rename_i hc
      split at h
      · rename_i hd
        have := Option.some.inj h
        omega
      · rename_i hd
        by_cases hr1 : 1 ≤ pre.length
        · rw [y1 hr1]
          by_cases hr2 : 2 ≤ pre.length
          · rw [x1 hr2]
            split <;> split <;> omega
          · split <;> split <;> omega
        · split <;> split <;> omega
    · cases h
  | [d], _ =>
    unfold collapse at h
    have l1 : (pre ++ [a, b, d]).length = pre.length + 3 := by simp
    have d1 : runLen (pre ++ [a, b, d]) (pre.length + 2) = d.len := by
      rw [show pre ++ [a, b, d] = (pre ++ [a, b]) ++ [d] by simp]; exact runLen_at (by simp)
    have a1 : runLen (pre ++ [a, b, d]) pre.length = a.len := runLen_at rfl
    have hle : slack (pre ++ [a, b, d]) ≤ d.len := by
      unfold slack
      rw [l1, show pre.length + 3 - 1 = pre.length + 2 by omega, d1]
      split <;> omega
    simp only [l1, Bool.and_eq_true, Bool.or_eq_true, decide_eq_true_eq, beq_iff_eq] at h
    rw [show pre.length + 3 - 1 = pre.length + 2 by omega, show pre.length + 3 - 3 = pre.length by omega, a1, d1] at h
    simp only [total]
    split at h
    · split at h
      · rename_i hd
        omega
      · have := Option.some.inj h
        omega
    · cases h
  | d :: d' :: post, hlt => simp at hlt

theorem slack_le {rs : List TimRun} : slack rs ≤ depthSum 0 rs := by
  rcases List.eq_nil_or_concat rs with rfl | ⟨init, x, rfl⟩
  · simp [slack]
  · unfold slack
    split
    · rename_i h
      have hl : (init ++ [x]).length = init.length + 1 := by simp
      rw [List.concat_eq_append, hl] at h
      rw [List.concat_eq_append, hl]
      rw [show init.length + 1 - 1 = init.length by omega, runLen_at rfl, depthSum_append]
      simp only [depthSum]
      have : 1 * x.len ≤ (0 + init.length) * x.len := Nat.mul_le_mul_right _ (by omega)
      omega
    · exact Nat.zero_le _

/-- The budget suffices for merging: either the amount is bound to the stack, or each of the last merges can be paid. -/
def Paid (v : View) (e : Nat) (rs : List TimRun) (B : Nat) : Prop :=
  (e < v.len ∧ 3 * depthSum 0 rs ≤ B + slack rs) ∨ (e = v.len ∧ rs.length * v.len ≤ B)

/-- One iteration of the merging loop: what it costs. -/
theorem collapseBody_cost (hl : Asks c less) {v buf : View} {rv : RunVec} {rs : List TimRun} {e B : Nat} (h1 : rv.Holds rs)
    (h2 : Chain 0 rs e) (h3 : WeakInv rs)
    (hpay : Paid v e rs B) {F : Nat} :
    Cost c (collapseBody cfg less v buf rv) (B + F) (fun o r => ∃ B', r = B' + F ∧ match o with
      | .inl rv' => ∃ rs', rv'.Holds rs' ∧ Chain 0 rs' e ∧ WeakInv rs' ∧ Paid v e rs' B' ∧
          (∀ q ∈ rs', ∃ p ∈ rs, p.len ≤ q.len)
      | .inr rv' => rv' = rv ∧ B' = B ∧ TimInv rs ∧ slack rs = 0 ∧ (e = v.len → rs.length ≤ 1)) := by
  unfold collapseBody
  rw [h1.asSlice]
  refine Cost.pureB ?_
  cases hc : collapse rs v.len with
  | none =>
    have hcn := collapse_none hc h3 (fun r hr => (h2.mem hr).2.2)
    refine Cost.pure ⟨B, rfl, rfl, rfl, hcn.1, slack_none hc, ?_⟩
    intro hev
    rcases hcn.2 with h | h
    · exact h
    · by_cases hn : rs = []
      · subst hn; simp
      · exact absurd (by rw [h2.last hn, hev]) h
  | some r =>
    obtain ⟨hr1, hr2⟩ := collapse_lt hc
    obtain ⟨pre, a, b, post, rfl, hpre, ha, hb', hpost⟩ := split_two hr1
    subst hpre
    obtain ⟨m, c1, c2, c3, c4, c5, c6⟩ := chain_append.mp h2
    have hle := c6.le
    have hlast := h2.last (by simp)
    obtain ⟨rv1, e1, g1⟩ := h1.setIdx (α := α) (ι := ι) (ω := ω) hr1 ⟨a.len + b.len, a.start⟩
    obtain ⟨rv2, e2, g2⟩ := g1.remove (α := α) (ι := ι) (ω := ω) (i := pre.length) (by simp)
    have hrs : ((pre ++ a :: b :: post).set (pre.length + 1) ⟨a.len + b.len, a.start⟩).eraseIdx pre.length =
        pre ++ ⟨a.len + b.len, a.start⟩ :: post := by
      simp [List.set_append_right, List.eraseIdx_append_of_length_le]
    rw [hrs] at g2
    have hcost : a.len + b.len ≤ B := by
      rcases hpay with ⟨hev, hp⟩ | ⟨hev, hp⟩
      · have := collapse_pay (m := ⟨a.len + b.len, a.start⟩) rfl hc (by rw [hlast]; omega)
        have hd := depthSum_merge (i := 0) (pre := pre) (post := post) (a := a) (b := b) (m := ⟨a.len + b.len, a.start⟩) rfl
        have hsl := slack_le (rs := pre ++ ⟨a.len + b.len, a.start⟩ :: post)
        omega
      · rw [List.length_append, List.length_cons, List.length_cons] at hp
        have : 1 * v.len ≤ (pre.length + (post.length + 1 + 1)) * v.len := Nat.mul_le_mul_right _ (by omega)
        omega
    refine Cost.bindN (n := a.len + b.len) (B' := B - (a.len + b.len) + F) (Q' := fun rv' => rv' = rv2) ?_ (by omega) ?_
    · refine Cost.onPanic ?_ RunVec.drop_silent
      rw [h1.idx ha]
      refine Cost.pureB ?_
      rw [h1.idx hb']
      refine Cost.pureB (Cost.slice (by omega) fun _ => ?_)
      rw [show b.start + b.len - a.start = a.len + b.len by omega]
      refine Cost.bind (Q' := fun _ _ => True) (merge_cost hl (fun _ _ => Silent.vget) (v := v.sub a.start (a.len + b.len)) (by show _ ≤ a.len + b.len; omega)) fun _ _ _ => ?_
      rw [e1]
      refine Cost.pureB ?_
      rw [e2]
      exact Cost.pure rfl
    · rintro rv' rfl
      refine Cost.pure ⟨_, rfl, _, g2, ?_, h3.merge (by omega), ?_, ?_⟩
      · refine chain_append.mpr ⟨m, c1, c2, by show 0 < a.len + b.len; omega, ?_⟩
        show Chain (m + (a.len + b.len)) post e
        rwa [← Nat.add_assoc]
      · rcases hpay with ⟨hev, hp⟩ | ⟨hev, hp⟩
        · left
          have := collapse_pay (m := ⟨a.len + b.len, a.start⟩) rfl hc (by rw [hlast]; omega)
          have hd := depthSum_merge (i := 0) (pre := pre) (post := post) (a := a) (b := b) (m := ⟨a.len + b.len, a.start⟩) rfl
          exact ⟨hev, by omega⟩
        · right
          refine ⟨hev, ?_⟩
          rw [List.length_append, List.length_cons, List.length_cons] at hp
          rw [List.length_append, List.length_cons]
          rw [show pre.length + (post.length + 1 + 1) = (pre.length + (post.length + 1)) + 1 by omega, Nat.succ_mul] at hp
          omega
      · intro q hq
        rcases List.mem_append.mp hq with hq | hq
        · exact ⟨q, by simp [hq], Nat.le_refl _⟩
        rcases List.mem_cons.mp hq with rfl | hq
        · exact ⟨a, by simp, Nat.le_add_right _ _⟩
        · exact ⟨q, by simp [hq], Nat.le_refl _⟩

/-- The merging loop. -/
theorem collapseLoop_cost (hl : Asks c less) {v buf : View} {rv : RunVec} {rs : List TimRun} {e B n : Nat} (h1 : rv.Holds rs)
    (h2 : Chain 0 rs e) (h3 : WeakInv rs) (h10 : e < v.len → ∀ q ∈ rs, 10 ≤ q.len) (hpay : Paid v e rs B) {F : Nat} :
    Cost c (Prog.loop (collapseBody cfg less v buf) n rv) (B + F) (fun rv' r => ∃ B' rs', r = B' + F ∧ rv'.Holds rs' ∧ Chain 0 rs' e ∧
      TimInv rs' ∧ (e = v.len → rs'.length ≤ 1) ∧ (e < v.len → ∀ q ∈ rs', 10 ≤ q.len) ∧ (e < v.len → 3 * depthSum 0 rs' ≤ B')) := by
  refine Cost.loop (Inv := fun rv r => ∃ B' rs', r = B' + F ∧ rv.Holds rs' ∧ Chain 0 rs' e ∧ WeakInv rs' ∧ Paid v e rs' B' ∧
    (e < v.len → ∀ q ∈ rs', 10 ≤ q.len)) ⟨B, rs, rfl, h1, h2, h3, hpay, h10⟩ ?_
  rintro rv _ ⟨B', rs', rfl, h1, h2, h3, hpay, h10⟩
  refine Cost.mono (collapseBody_cost hl h1 h2 h3 hpay) ?_
  rintro (rv' | rv') r ⟨B'', rfl, h⟩
  · obtain ⟨rs'', g1, g2, g3, g4, g5⟩ := h
    refine ⟨B'', rs'', rfl, g1, g2, g3, g4, fun hlt q hq => ?_⟩
    obtain ⟨p, hp, hpq⟩ := g5 q hq
    have := h10 hlt p hp
    omega
  · obtain ⟨rfl, rfl, g3, g4, g5⟩ := h
    refine ⟨B'', rs', rfl, h1, h2, g3, g5, h10, fun hlt => ?_⟩
    rcases hpay with ⟨_, hp⟩ | ⟨hp, _⟩
    · omega
    · omega

theorem RunVec.push_cost {rv : RunVec} {rs : List TimRun} (h : rv.Holds rs) {al : Alloc} {r : TimRun} {k : RunVec → Prog α ι ω β} {B : Nat}
    {Q : β → Nat → Prop} (hk : ∀ rv', rv'.Holds (rs ++ [r]) → Cost c (k rv') B Q) : Cost c (rv.push al r >>= k) B Q := by
  by_cases hal : rv.len < rv.cap ∨ al.run (rv.cap * 2) = true
  · obtain ⟨rv', e, h'⟩ := h.push (α := α) (ι := ι) (ω := ω) hal r
    rw [e]
    exact Cost.pureB (hk rv' h')
  · have hf := h.fits
    have h1 : rv.len = rv.cap := by omega
    have h2 : al.run (rv.cap * 2) = false := by
      rw [not_or] at hal
      simpa using hal.2
    refine Cost.bind (Q' := fun _ _ => False) ?_ fun _ _ h => h.elim
    unfold RunVec.push
    simp only [h1, h2, beq_self_eq_true, if_true]
    exact Cost.silentB RunVec.drop_silent fun _ => Cost.throw

/-- The loop state of `merge_sort`, with what is still to be paid; `H` is a bound of the height of the stack. -/
structure RunsPaid (v : View) (H : Nat) (x : Nat × RunVec) (B : Nat) (rs : List TimRun) : Prop where
  holds : x.2.Holds rs
  chain : Chain 0 rs x.1
  tim : TimInv rs
  le : x.1 ≤ v.len
  long : x.1 < v.len → ∀ q ∈ rs, 10 ≤ q.len
  paid : x.1 < v.len → 3 * depthSum 0 rs + (10 + 3 * H) * (v.len - x.1) + (H + 1) * v.len ≤ B

theorem mergeSortBody_cost (hl : Asks c less) {watch : RunVec → Prog α ι ω Unit} (hw : ∀ rv, Silent (watch rv)) {al : Alloc} {v buf : View}
    {H B : Nat} {x : Nat × RunVec} {rs : List TimRun} (hH : ∀ h, 10 * (Nat.fib (h + 2) - 1) < v.len → h ≤ H) (h : RunsPaid v H x B rs) :
    Cost c (mergeSortBody cfg less watch al v buf x) B (fun o r => match o with
      | .inl x' => ∃ rs', RunsPaid v H x' r rs'
      | .inr _ => True) := by
  obtain ⟨s, rv⟩ := x
  obtain ⟨h1, h2, h3, h4, h5, h6⟩ := h
  dsimp only at h1 h2 h4 h5 h6
  unfold mergeSortBody
  dsimp only
  split
  · rename_i hs
    have hh : rs.length ≤ H := hH _ (by have := h3.height h2 (h5 hs); omega)
    have hB := h6 hs
    rw [Nat.add_mul] at hB
    refine Cost.bind (Cost.onPanic (nextRun_cost hl hs (by omega)) RunVec.drop_silent) ?_
    rintro e r ⟨g1, g2, g3, g4⟩
    refine Cost.usub (by omega) (RunVec.push_cost h1 fun rv' h1' => ?_)
    have hc : Chain 0 (rs ++ [(⟨e - s, s⟩ : TimRun)]) e :=
      chain_append.mpr ⟨s, h2, rfl, by show 0 < e - s; omega, by show s + (e - s) = e; omega⟩
    have hlong : e < v.len → ∀ q ∈ rs ++ [(⟨e - s, s⟩ : TimRun)], 10 ≤ q.len := by
      intro he q hq
      rcases List.mem_append.mp hq with hq | hq
      · exact h5 (by omega) q hq
      · rw [List.mem_singleton.mp hq]
        show 10 ≤ e - s
        omega
    have hd : depthSum 0 (rs ++ [(⟨e - s, s⟩ : TimRun)]) = depthSum 0 rs + rs.length * (e - s) := by
      rw [depthSum_append]
      simp [depthSum]
    have hm : rs.length * (e - s) ≤ H * (e - s) := Nat.mul_le_mul_right _ hh
    have hsplit : 3 * H * (v.len - s) = 3 * H * (v.len - e) + 3 * H * (e - s) := by rw [← Nat.mul_add]; congr 1; omega
    have h3H : 3 * H * (e - s) = 3 * (H * (e - s)) := Nat.mul_assoc _ _ _
    by_cases he : e < v.len
    · refine Cost.weaken (B := 3 * depthSum 0 (rs ++ [(⟨e - s, s⟩ : TimRun)]) + ((10 + 3 * H) * (v.len - e) + (H + 1) * v.len)) ?_ ?_
      · refine Cost.bind (collapseLoop_cost hl h1' hc (h3.push _) hlong (.inl ⟨he, by omega⟩)) ?_
        rintro rv'' _ ⟨B', rs', rfl, k1, k2, k3, k4, k5, k6⟩
        refine Cost.silentB (hw _) fun _ => Cost.pure ⟨rs', ⟨k1, k2, k3, g2, k5, fun he => ?_⟩⟩
        have := k6 he
        dsimp only
        omega
      · rw [hd, Nat.add_mul 10]
        omega
    · refine Cost.bind (collapseLoop_cost (F := 0) hl h1' hc (h3.push _) hlong (.inr ⟨by omega, ?_⟩)) ?_
      · have : (rs.length + 1) * v.len ≤ (H + 1) * v.len := Nat.mul_le_mul_right _ (by omega)
        rw [List.length_append, List.length_singleton]
        omega
      · rintro rv'' _ ⟨B', rs', rfl, k1, k2, k3, k4, k5, k6⟩
        exact Cost.silentB (hw _) fun _ => Cost.pure ⟨rs', ⟨k1, k2, k3, g2, k5, fun h => absurd h he⟩⟩
  · exact Cost.pure trivial

/-- `merge_sort` on at least 21 elements. -/
theorem mergeSortWatch_cost (hl : Asks c less) {watch : RunVec → Prog α ι ω Unit} (hw : ∀ rv, Silent (watch rv)) {al : Alloc} {v buf : View}
    {H B : Nat} (h20 : 20 < v.len) (hH : ∀ h, 10 * (Nat.fib (h + 2) - 1) < v.len → h ≤ H) (hB : (11 + 4 * H) * v.len ≤ B) :
    Cost c (mergeSortWatch cfg less watch al v buf) B (fun _ _ => True) := by
  unfold mergeSortWatch
  refine Cost.debugAssert ?_
  rw [if_neg (by omega)]
  split
  · exact Cost.throw
  · split
    · exact Cost.throw
    · refine Cost.bind (Q' := fun _ _ => True) (Cost.loop (Inv := fun x B => ∃ rs, RunsPaid v H x B rs) ?_ ?_) ?_
      · refine ⟨[], ⟨RunVec.new_holds, rfl, .nil, Nat.zero_le _, by simp, fun _ => ?_⟩⟩
        simp only [depthSum, Nat.sub_zero, Nat.add_mul, Nat.one_mul, Nat.mul_assoc] at hB ⊢
        omega
      · rintro x B ⟨rs, h⟩
        refine Cost.mono (mergeSortBody_cost hl hw hH h) ?_
        rintro (x | x) r h <;> exact h
      · rintro rv r -
        split
        · refine Cost.silentB ?_ fun _ => Cost.debugAssert (Cost.silent RunVec.drop_silent fun _ => trivial)
          unfold RunVec.idx
          split
          · split
            · exact Silent.pure
            · exact Silent.ub
          · exact Silent.throw
        · exact Cost.silent RunVec.drop_silent fun _ => trivial

theorem pow_le_fib_two_mul (k : Nat) : 2 ^ k ≤ Nat.fib (2 * k + 1) := by
  induction k with
  | zero => simp
  | succ k ih =>
    have h1 : Nat.fib (2 * k + 3) = Nat.fib (2 * k + 1) + Nat.fib (2 * k + 2) := Nat.fib_add_two
    have h2 : Nat.fib (2 * k + 1) ≤ Nat.fib (2 * k + 2) := Nat.fib_mono (by omega)
    rw [show 2 * (k + 1) + 1 = 2 * k + 3 by omega, pow_succ]
    omega

/-- The height of the stack of runs. -/
theorem height_log {n h : Nat} (hn : 20 < n) (hf : 10 * (Nat.fib (h + 2) - 1) < n) : h ≤ 2 * Nat.log2 n - 3 := by
  by_contra hc
  have hl : 4 ≤ Nat.log2 n := by
    rw [Nat.le_log2 (by omega)]; omega
  -- a stack of height `2 k` with `k = log2 n - 1` is too high
  have h1 : 2 ^ (Nat.log2 n - 1) ≤ Nat.fib (2 * (Nat.log2 n - 1) + 1) := pow_le_fib_two_mul _
  have h2 : Nat.fib (2 * (Nat.log2 n - 1) + 1) ≤ Nat.fib (h + 2) := Nat.fib_mono (by omega)
  have h3 : n < 2 ^ (Nat.log2 n + 1) := Nat.lt_log2_self
  have h4 : 2 ^ (Nat.log2 n + 1) = 4 * 2 ^ (Nat.log2 n - 1) := by
    rw [show Nat.log2 n + 1 = Nat.log2 n - 1 + 2 by omega, pow_add]; omega
  omega

theorem mergeSort_cost (hl : Asks c less) {al : Alloc} {v buf : View} :
    Cost c (mergeSort cfg less al v buf) (8 * (v.len * Nat.log2 v.len)) (fun _ _ => True) := by
  unfold mergeSort
  by_cases h20 : 20 < v.len
  · refine mergeSortWatch_cost hl (fun _ => Silent.pure) h20 (fun h hf => height_log h20 hf) ?_
    have h4 : 4 ≤ Nat.log2 v.len := by
      rw [Nat.le_log2 (by omega)]; omega
    have : (11 + 4 * (2 * Nat.log2 v.len - 3)) * v.len ≤ (8 * Nat.log2 v.len) * v.len := Nat.mul_le_mul_right _ (by omega)
    rw [Nat.mul_comm v.len, ← Nat.mul_assoc]
    exact this
  · unfold mergeSortWatch
    refine Cost.debugAssert ?_
    rw [if_pos (by omega)]
    split
    · rename_i h2
      refine Cost.weaken (insertionSortShiftLeft_cost hl) ?_
      have h1 : v.len - 1 ≤ 8 * Nat.log2 v.len := by
        have h1 : 1 ≤ Nat.log2 v.len := by rw [Nat.le_log2 (by omega)]; omega
        have h3 : 9 < v.len → 3 ≤ Nat.log2 v.len := fun h => by rw [Nat.le_log2 (by omega)]; omega
        omega
      calc (v.len - 1) * (v.len - 1) ≤ v.len * (8 * Nat.log2 v.len) := Nat.mul_le_mul (by omega) h1
        _ = 8 * (v.len * Nat.log2 v.len) := by rw [Nat.mul_left_comm]
    · exact Cost.pure trivial

theorem stableSort_cost (hl : Asks c less) {al : Alloc} {v buf : View} :
    Cost c (stableSort cfg less al v buf) (8 * (v.len * Nat.log2 v.len)) (fun _ _ => True) := by
  unfold stableSort
  split
  · exact Cost.pure trivial
  · exact mergeSort_cost hl

end NdSlice
