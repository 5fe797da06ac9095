import Verif.Proof.Lag
import Verif.Proof.MergeSort

/-
How many comparisons the merge sort makes at least: one less than elements for each run, and one for each merge of two runs.
-/

namespace NdSlice

variable {α ι ω β : Type} {cfg : Cfg} {less : α → α → Prog α ι ω Bool} {c m : Nat}

theorem streakLoop_owe (hl : Takes c less) {v : View} {rev : Bool} {e n : Nat} :
    Owe c (streakLoop less v rev e n) m (fun e' r => e ≤ e' ∧ e' ≤ e + n ∧ r ≤ m - (e' - e)) := by
  induction n generalizing e m with
  | zero => exact Owe.pure ⟨Nat.le_refl _, Nat.le_refl _, by omega⟩
  | succ n ih =>
    refine Owe.anyB fun x => Owe.anyB fun y => Owe.lessB hl fun b => ?_
    split
    · refine ih.mono ?_
      rintro e' r ⟨h1, h2, h3⟩
      exact ⟨by omega, by omega, by omega⟩
    · exact Owe.pure ⟨Nat.le_refl _, by omega, by omega⟩

theorem findStreak_owe (hl : Takes c less) {v : View} :
    Owe c (findStreak less v) m (fun x r => x.1 ≤ v.len ∧ (0 < v.len → 0 < x.1) ∧ r ≤ m - (x.1 - 1)) := by
  unfold findStreak
  split
  · exact Owe.pure ⟨Nat.le_refl _, id, by dsimp only; omega⟩
  · refine Owe.anyB fun x => Owe.anyB fun y => Owe.lessB hl fun b => Owe.bind (streakLoop_owe hl) ?_
    rintro e r ⟨h1, h2, h3⟩
    exact Owe.pure ⟨by dsimp only; omega, fun _ => by dsimp only; omega, by dsimp only; omega⟩

theorem provideSortedBatch_owe (hl : Takes c less) {v : View} {s e : Nat} (he : s < e) (he' : e ≤ v.len) :
    Owe c (provideSortedBatch cfg less v s e) m (fun e' r => e ≤ e' ∧ e' ≤ v.len ∧ r ≤ m - (e' - e)) := by
  unfold provideSortedBatch
  refine Owe.anyB fun _ => Owe.usub (by omega) ?_
  split
  · rename_i hc
    rw [Bool.and_eq_true, decide_eq_true_eq, decide_eq_true_eq] at hc
    refine Owe.slice (by omega) fun h3 => ?_
    refine Owe.bind (insertionSortShiftLeft_owe hl) ?_
    rintro _ r rfl
    refine Owe.pure ⟨by omega, h3, ?_⟩
    show _ - (min (s + 10) v.len - s - max (e - s) 1) ≤ _
    omega
  · exact Owe.pure ⟨Nat.le_refl _, he', by omega⟩

theorem nextRun_owe (hl : Takes c less) {v : View} {s : Nat} (hs : s < v.len) :
    Owe c (nextRun cfg less v s) m (fun e r => s < e ∧ e ≤ v.len ∧ r ≤ m - (e - s - 1)) := by
  unfold nextRun
  refine Owe.slice (by omega) fun _ => Owe.bind (findStreak_owe hl) ?_
  rintro ⟨k, rev⟩ r ⟨h1, h2, h3⟩
  change k ≤ v.len - s at h1
  change 0 < v.len - s → 0 < k at h2
  dsimp only at h3 ⊢
  have hk := h2 (by omega)
  have last : Owe c (provideSortedBatch cfg less v s (s + k)) r (fun e r => s < e ∧ e ≤ v.len ∧ r ≤ m - (e - s - 1)) := by
    refine (provideSortedBatch_owe hl (by omega) (by omega)).mono ?_
    rintro e r ⟨g1, g2, g3⟩
    exact ⟨by omega, g2, by omega⟩
  split
  · exact Owe.anyB fun _ => Owe.anyB fun _ => last
  · exact last

/-- Merging two runs which are not empty takes a comparison. -/
theorem merge_owe (hl : Takes c less) {rd : View → Nat → Prog α ι ω α} {v buf : View} {mid : Nat} (h0 : 0 < mid) (hm : mid < v.len) :
    Owe c (merge cfg less rd v mid buf) m (fun _ r => r ≤ m - 1) := by
  unfold merge
  refine Owe.usub (by omega) ?_
  split
  · refine Owe.anyB fun _ => Owe.bind (Q' := fun _ r => r ≤ m - 1) ?_ fun x r h => Owe.any fun _ => h
    refine Owe.loop (Inv := fun x r => r ≤ m - 1 ∨ (r ≤ m ∧ x = (0, mid, 0))) (.inr ⟨Nat.le_refl _, rfl⟩) ?_
    rintro ⟨l, r, out⟩ n hn
    unfold mergeFwdBody
    dsimp only
    split
    · refine Owe.anyB fun x => Owe.anyB fun y => Owe.bind (Owe.onPanic (Owe.less (Q := fun _ r => r = n - 1) hl fun _ => rfl)) ?_
      rintro b _ rfl
      refine Owe.anyB fun z => Owe.anyB fun _ => Owe.pure ?_
      dsimp only
      left
      omega
    · rename_i hc
      refine Owe.pure ?_
      dsimp only
      rcases hn with hn | ⟨-, hx⟩
      · exact hn
      · cases hx
        exact absurd (by rw [Bool.and_eq_true, decide_eq_true_eq, decide_eq_true_eq]; exact ⟨h0, hm⟩) hc
  · refine Owe.anyB fun _ => Owe.bind (Q' := fun _ r => r ≤ m - 1) ?_ fun x r h => Owe.any fun _ => h
    refine Owe.loop (Inv := fun x r => r ≤ m - 1 ∨ (r ≤ m ∧ x = (mid, v.len - mid, v.len))) (.inr ⟨Nat.le_refl _, rfl⟩) ?_
    rintro ⟨l, r, out⟩ n hn
    unfold mergeBwdBody
    dsimp only
    split
    · refine Owe.anyB fun x => Owe.anyB fun y => Owe.bind (Owe.onPanic (Owe.less (Q := fun _ r => r = n - 1) hl fun _ => rfl)) ?_
      rintro b _ rfl
      refine Owe.anyB fun z => Owe.anyB fun _ => Owe.anyB fun _ => Owe.pure ?_
      dsimp only
      left
      omega
    · rename_i hc
      refine Owe.pure ?_
      dsimp only
      rcases hn with hn | ⟨-, hx⟩
      · exact hn
      · cases hx
        exact absurd (by rw [Bool.and_eq_true, decide_eq_true_eq, decide_eq_true_eq]; omega) hc

/-- The loop state of `merge_sort`, with the number of comparisons it still owes. -/
structure RunsOwe (v : View) (e : Nat) (rv : RunVec) (m : Nat) (rs : List TimRun) : Prop where
  holds : rv.Holds rs
  chain : Chain 0 rs e
  weak : WeakInv rs
  owes : m ≤ v.len - e + rs.length - 1

theorem collapseBody_owe (hl : Takes c less) {v buf : View} {rv : RunVec} {rs : List TimRun} {e : Nat} (h : RunsOwe v e rv m rs) :
    Owe c (collapseBody cfg less v buf rv) m (fun o r => match o with
      | .inl rv' => ∃ rs', RunsOwe v e rv' r rs'
      | .inr rv' => RunsOwe v e rv' r rs ∧ TimInv rs ∧ (e = v.len → rs.length ≤ 1)) := by
  obtain ⟨h1, h2, h3, h4⟩ := h
  unfold collapseBody
  rw [h1.asSlice]
  show Owe c (match collapse rs v.len with | none => _ | some r => _) m _
  cases hc : collapse rs v.len with
  | none =>
    have hcn := collapse_none hc h3 (fun r hr => (h2.mem hr).2.2)
    refine Owe.pure ⟨⟨h1, h2, h3, h4⟩, hcn.1, ?_⟩
    intro hev
    rcases hcn.2 with h | h
    · exact h
    · by_cases hn : rs = []
      · subst hn; simp
      · exact absurd (by rw [h2.last hn, hev]) h
  | some r =>
    obtain ⟨hr1, hr2⟩ := collapse_lt hc
    obtain ⟨pre, a, b, post, rfl, hpre, ha, hb', hpost⟩ := split_two hr1
    subst hpre
    obtain ⟨k, c1, c2, c3, c4, c5, c6⟩ := chain_append.mp h2
    obtain ⟨rv1, e1, g1⟩ := h1.setIdx (α := α) (ι := ι) (ω := ω) hr1 ⟨a.len + b.len, a.start⟩
    obtain ⟨rv2, e2, g2⟩ := g1.remove (α := α) (ι := ι) (ω := ω) (i := pre.length) (by simp)
    have hrs : ((pre ++ a :: b :: post).set (pre.length + 1) ⟨a.len + b.len, a.start⟩).eraseIdx pre.length =
        pre ++ ⟨a.len + b.len, a.start⟩ :: post := by
      simp [List.set_append_right, List.eraseIdx_append_of_length_le]
    rw [hrs] at g2
    refine Owe.bind (Q' := fun rv' r => rv' = rv2 ∧ r ≤ m - 1) (Owe.onPanic ?_) ?_
    · rw [h1.idx ha]
      show Owe c (RunVec.idx rv (pre.length + 1) >>= _) m _
      rw [h1.idx hb']
      show Owe c (View.slice v a.start (b.start + b.len) >>= _) m _
      refine Owe.slice (by omega) fun _ => ?_
      rw [show b.start + b.len - a.start = a.len + b.len by omega]
      refine Owe.bind (merge_owe hl (v := v.sub a.start (a.len + b.len)) c3 (by show a.len < a.len + b.len; omega)) fun _ r hr => ?_
      rw [e1]
      show Owe c (RunVec.remove rv1 pre.length) r _
      rw [e2]
      exact Owe.pure ⟨rfl, hr⟩
    · rintro _ r ⟨rfl, hr⟩
      refine Owe.pure ⟨_, g2, ?_, h3.merge (by omega), ?_⟩
      · refine chain_append.mpr ⟨k, c1, c2, by show 0 < a.len + b.len; omega, ?_⟩
        show Chain (k + (a.len + b.len)) post e
        rwa [← Nat.add_assoc]
      · simp only [List.length_append, List.length_cons] at h4 ⊢
        omega

theorem collapseLoop_owe (hl : Takes c less) {v buf : View} {rv : RunVec} {rs : List TimRun} {e n : Nat} (h : RunsOwe v e rv m rs) :
    Owe c (Prog.loop (collapseBody cfg less v buf) n rv) m
      (fun rv' r => ∃ rs', RunsOwe v e rv' r rs' ∧ TimInv rs' ∧ (e = v.len → rs'.length ≤ 1)) := by
  refine Owe.loop (Inv := fun rv r => ∃ rs', RunsOwe v e rv r rs') ⟨rs, h⟩ ?_
  rintro rv r ⟨rs', h⟩
  refine (collapseBody_owe hl h).mono ?_
  rintro (rv' | rv') r h
  · exact h
  · exact ⟨rs', h⟩

theorem RunVec.push_owe {rv : RunVec} {rs : List TimRun} (h : rv.Holds rs) {al : Alloc} {r : TimRun} {k : RunVec → Prog α ι ω β}
    {Q : β → Nat → Prop} (hk : ∀ rv', rv'.Holds (rs ++ [r]) → Owe c (k rv') m Q) : Owe c (rv.push al r >>= k) m Q := by
  by_cases hal : rv.len < rv.cap ∨ al.run (rv.cap * 2) = true
  · obtain ⟨rv', e, h'⟩ := h.push (α := α) (ι := ι) (ω := ω) hal r
    rw [e]
    exact hk rv' h'
  · have hf := h.fits
    have h1 : rv.len = rv.cap := by omega
    have h2 : al.run (rv.cap * 2) = false := by
      rw [not_or] at hal
      simpa using hal.2
    refine Owe.bind (Q' := fun _ _ => False) ?_ fun _ _ h => h.elim
    unfold RunVec.push
    simp only [h1, h2, beq_self_eq_true, if_true]
    exact Owe.anyB fun _ => Owe.throw

theorem mergeSortBody_owe (hl : Takes c less) {watch : RunVec → Prog α ι ω Unit} {al : Alloc} {v buf : View} {x : Nat × RunVec} {rs : List TimRun}
    (h : RunsOwe v x.1 x.2 m rs) (ht : TimInv rs) (hle : x.1 ≤ v.len) (hf : x.1 = v.len → rs.length ≤ 1) :
    Owe c (mergeSortBody cfg less watch al v buf x) m (fun o r => match o with
      | .inl x' => ∃ rs', RunsOwe v x'.1 x'.2 r rs' ∧ TimInv rs' ∧ x'.1 ≤ v.len ∧ (x'.1 = v.len → rs'.length ≤ 1)
      | .inr _ => r = 0) := by
  obtain ⟨s, rv⟩ := x
  obtain ⟨h1, h2, h3, h4⟩ := h
  dsimp only at h1 h2 h3 h4 hle hf
  unfold mergeSortBody
  dsimp only
  split
  · rename_i hs
    refine Owe.bind (Owe.onPanic (nextRun_owe hl hs)) ?_
    rintro e r ⟨g1, g2, g3⟩
    refine Owe.usub (by omega) (RunVec.push_owe h1 fun rv' h1' => ?_)
    have hc : Chain 0 (rs ++ [(⟨e - s, s⟩ : TimRun)]) e :=
      chain_append.mpr ⟨s, h2, rfl, by show 0 < e - s; omega, by show s + (e - s) = e; omega⟩
    refine Owe.bind (collapseLoop_owe hl ⟨h1', hc, ht.push _, ?_⟩) ?_
    · rw [List.length_append, List.length_singleton]
      omega
    · rintro rv'' r' ⟨rs', k1, k2, k3⟩
      exact Owe.anyB fun _ => Owe.pure ⟨rs', k1, k2, g2, k3⟩
  · refine Owe.pure ?_
    have := hf (by omega)
    dsimp only
    omega

theorem mergeSortWatch_owe (hl : Takes c less) {watch : RunVec → Prog α ι ω Unit} {al : Alloc} {v buf : View} :
    Owe c (mergeSortWatch cfg less watch al v buf) (v.len - 1) (fun _ r => r = 0) := by
  unfold mergeSortWatch
  refine Owe.anyB fun _ => ?_
  split
  · split
    · exact (insertionSortShiftLeft_owe hl).mono fun _ _ h => by omega
    · exact Owe.any fun _ => by omega
  · split
    · exact Owe.throw
    · split
      · exact Owe.throw
      · refine Owe.bind (Q' := fun _ r => r = 0)
          (Owe.loop (Inv := fun x r => ∃ rs, RunsOwe v x.1 x.2 r rs ∧ TimInv rs ∧ x.1 ≤ v.len ∧ (x.1 = v.len → rs.length ≤ 1)) ?_ ?_) ?_
        · exact ⟨[], ⟨RunVec.new_holds, rfl, fun i hi => by simp at hi, by simp⟩, .nil, Nat.zero_le _, by simp⟩
        · rintro x r ⟨rs, h1, h2, h3, h4⟩
          refine (mergeSortBody_owe hl h1 h2 h3 h4).mono ?_
          rintro (x | x) r h <;> exact h
        · rintro rv r rfl
          split
          · exact Owe.any fun _ => rfl
          · exact Owe.any fun _ => rfl

/-- The stable sort of `n` elements. -/
theorem stableSort_owe (hl : Takes c less) {al : Alloc} {v buf : View} (hz : cfg.zst = false) :
    Owe c (stableSort cfg less al v buf) (v.len - 1) (fun _ r => r = 0) := by
  unfold stableSort mergeSort
  rw [hz]
  exact mergeSortWatch_owe hl

end NdSlice
