import Verif.Proof.CostQuick

/-
The cost of the unstable sorts whatever the user code answers: quadratic.
-/

namespace NdSlice

variable {α ι ω : Type} {c : Nat} {less : α → α → Prog α ι ω Bool} {cfg : Cfg}

theorem log2_le_self (n : Nat) : Nat.log2 n ≤ n := by
  by_cases h : n = 0
  · subst h; simp
  · exact Nat.le_of_lt ((Nat.log2_lt h).2 Nat.lt_two_pow_self)

theorem sq_split {a b n : Nat} (h : a + b + 1 ≤ n) (hn : 21 ≤ n) : 7 * (a * a) + 7 * (b * b) + (12 * n + 18) ≤ 7 * (n * n) := by
  have h1 : (a + b) * (a + b) = a * a + b * b + 2 * (a * b) := by ring
  have h2 : (a + b + 1) * (a + b + 1) ≤ n * n := Nat.mul_le_mul h h
  obtain ⟨k, rfl⟩ := Nat.exists_eq_add_of_le hn
  have h3 : (a + b) * (a + b) ≤ (20 + k) * (20 + k) := Nat.mul_le_mul (by omega) (by omega)
  have h4 : (21 + k) * (21 + k) = (20 + k) * (20 + k) + 2 * (20 + k) + 1 := by ring
  have h5 : 0 ≤ a * b := Nat.zero_le _
  omega

/-- A call of `recurse`. -/
def RecA (c : Nat) (rec : View → Option Addr → Nat → Prog α ι ω Unit) : Prop :=
  ∀ v pred limit, Cost c (rec v pred limit) (7 * (v.len * v.len)) (fun _ _ => True)

theorem quickStep_costA (hl : Asks c less) {maxSeq : Option Nat} {rec : View → Option Addr → Nat → Prog α ι ω Unit} (hr : RecA c rec) {s : QSt} :
    Cost c (quickStep cfg less maxSeq rec s) (7 * (s.v.len * s.v.len)) (fun o r => match o with
      | .inl s' => 7 * (s'.v.len * s'.v.len) ≤ r
      | .inr _ => True) := by
  obtain ⟨v, pred, limit, bal, part⟩ := s
  unfold quickStep
  dsimp only
  split
  · have e : (v.len - 1) * (v.len - 1) ≤ 7 * (v.len * v.len) :=
      Nat.le_trans (Nat.mul_le_mul (Nat.sub_le _ _) (Nat.sub_le _ _)) (by omega)
    split
    · exact Cost.bindN (B' := 0) (Q' := fun _ => True) (insertionSortShiftLeft_cost hl) (by omega) fun _ _ => Cost.pure trivial
    · exact Cost.pure (b := Sum.inr ()) trivial
  rename_i hn
  split
  · refine Cost.bindN (B' := 0) (Q' := fun _ => True) (heapSort_cost hl) ?_ fun _ _ => Cost.pure trivial
    have : v.len * (3 * Nat.log2 v.len) ≤ v.len * (7 * v.len) := Nat.mul_le_mul_left _ (by have := log2_le_self v.len; omega)
    have e : v.len * (7 * v.len) = 7 * (v.len * v.len) := by ring
    omega
  have key := sq_split (a := 0) (b := v.len - 1) (n := v.len) (by omega) (by omega)
  obtain ⟨B, hB⟩ : ∃ B, 7 * (v.len * v.len) = 12 * v.len + 18 + B := ⟨_, (Nat.add_sub_of_le (by omega)).symm⟩
  rw [hB]
  have hs : Silent (if (!bal) = true then (do
        breakPatterns cfg v
        usub cfg limit 1) else pure limit : Prog α ι ω Nat) :=
    Silent.ite (Silent.bind breakPatterns_silent fun _ => Silent.usub) Silent.pure
  refine Cost.silentB hs fun limit => ?_
  refine Cost.bindN (n := 12) (B' := 12 * v.len + 6 + B) (Q' := fun _ => True) (choosePivot_cost hl) (by omega) ?_
  rintro ⟨pivot, likely⟩ -
  dsimp only
  refine Cost.bindN (n := 11 * v.len + 4) (B' := v.len + 2 + B) (Q' := fun _ => True) ?_ (by omega) fun done _ => ?_
  · split
    · exact partialInsertionSort_cost hl (by omega)
    · exact Cost.pure trivial
  split
  · exact Cost.pure trivial
  refine Cost.bindN (n := 1) (B' := v.len + 1 + B) (Q' := fun _ => True) (predCheck_cost hl) (by omega) fun b _ => ?_
  split
  · refine Cost.bindN (n := v.len - 1) (B' := B) (Q' := fun m => 2 ≤ v.len → 1 ≤ m) (partitionEqual_cost_pos hl) (by omega) fun m hm => ?_
    refine Cost.splitAt fun _ => Cost.pure ?_
    have hm := hm (by omega)
    show 7 * ((v.len - m) * (v.len - m)) ≤ B
    have h1 : (v.len - m) * (v.len - m) ≤ (v.len - 1) * (v.len - 1) := Nat.mul_le_mul (by omega) (by omega)
    omega
  · unfold quickSplit
    dsimp only
    refine Cost.bindN (n := v.len + 1) (B' := B) (Q' := fun _ => True) (partition_cost hl) (by omega) ?_
    rintro ⟨mid, wasP⟩ -
    dsimp only
    refine Cost.silentB Silent.usub fun d => Cost.splitAt fun h1 => ?_
    dsimp only
    refine Cost.splitAt fun h2 => ?_
    dsimp only
    refine Cost.vref fun h3 => ?_
    have h2 : 1 ≤ v.len - mid := h2
    have key := sq_split (a := mid) (b := v.len - mid - 1) (n := v.len) (by omega) (by omega)
    unfold quickDescend
    have el : (v.sub 0 mid).len = mid := rfl
    have er : ((v.sub mid (v.len - mid)).sub 1 ((v.sub mid (v.len - mid)).len - 1)).len = v.len - mid - 1 := rfl
    generalize v.sub 0 mid = left at *
    generalize (v.sub mid (v.len - mid)).sub 1 ((v.sub mid (v.len - mid)).len - 1) = right at *
    rw [← er, ← el] at key
    split
    · split
      · exact Cost.bindN (B' := 7 * (right.len * right.len)) (Q' := fun _ => True) (hr left pred limit) (by omega) fun _ _ =>
          Cost.pure (Nat.le_refl _)
      · exact Cost.bindN (B' := 7 * (left.len * left.len)) (Q' := fun _ => True) (hr right _ limit) (by omega) fun _ _ =>
          Cost.pure (Nat.le_refl _)
    · refine Cost.weaken (B := 7 * (left.len * left.len) + 7 * (right.len * right.len)) ?_ (by omega)
      exact Cost.bind (Q' := fun _ _ => True) (Cost.rayonJoin rfl (hr left pred limit) (hr right _ limit) fun _ _ _ _ _ _ => trivial) fun _ _ _ =>
        Cost.pure trivial

theorem recurse_costA (hl : Asks c less) {maxSeq : Option Nat} (d : Nat) : RecA c (recurse cfg less maxSeq d) := by
  induction d with
  | zero => exact fun _ _ _ => Cost.diverge
  | succ d ih =>
    intro v pred limit
    refine Cost.loop (Inv := fun s B => 7 * (s.v.len * s.v.len) ≤ B) (Nat.le_refl _) fun s B hB => ?_
    obtain ⟨k, rfl⟩ := Nat.exists_eq_add_of_le hB
    refine Cost.mono (Cost.frame (quickStep_costA hl ih) k) ?_
    rintro o r ⟨r', rfl, h⟩
    cases o with
    | inl s' => exact Nat.le_trans h (Nat.le_add_right _ _)
    | inr _ => trivial

theorem quickSort_costA (hl : Asks c less) {v : View} : Cost c (quickSort cfg less v) (7 * (v.len * v.len)) (fun _ _ => True) := by
  unfold quickSort
  split
  · exact Cost.pure trivial
  · exact recurse_costA hl _ _ _ _

theorem parQuickSort_costA (hl : Asks c less) {v : View} : Cost c (parQuickSort cfg less v) (7 * (v.len * v.len)) (fun _ _ => True) := by
  unfold parQuickSort
  split
  · exact Cost.pure trivial
  · exact recurse_costA hl _ _ _ _

end NdSlice
