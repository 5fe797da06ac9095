import Verif.Proof.SelectLinear

/-
The cost of selection whatever the user code answers: quasi-polynomial.
-/

namespace NdSlice

variable {α ι ω : Type} {c : Nat} {less : α → α → Prog α ι ω Bool} {cfg : Cfg}

theorem insertion_small_cost (hl : Asks c less) {v : View} (h : v.len ≤ 10) :
    Cost c (insertionSortShiftLeft cfg less v 1) (9 * v.len) (fun _ _ => True) := by
  refine Cost.weaken (insertionSortShiftLeft_cost hl) ?_
  calc (v.len - 1) * (v.len - 1) ≤ 9 * (v.len - 1) := Nat.mul_le_mul_right _ (by omega)
    _ ≤ 9 * v.len := by omega

/-- `median_of_ninthers` with the cost `T` of the recursive call. -/
theorem medianOfNinthers_costA (hl : Asks c less) {rec : View → Nat → Prog α ι ω Unit} {T : Nat} {v : View}
    (hr : ∀ w k, w.len = fracOf cfg v.len → Cost c (rec w k) T (fun _ _ => True)) :
    Cost c (medianOfNinthers cfg less rec v) (2 * v.len + 1 + T) (fun _ _ => True) := by
  unfold medianOfNinthers
  dsimp only
  have hf := fracOf_le (cfg := cfg) v.len
  refine Cost.silentB Silent.usub fun lo => Cost.silentB Silent.usub fun _ => Cost.silentB Silent.usub fun _ => Cost.silentB Silent.usub fun a => ?_
  have e : fracOf cfg v.len + lo - lo = fracOf cfg v.len := by omega
  rw [e]
  refine Cost.bindN (B' := v.len + 1 + T) (Q' := fun _ => True) (nintherLoop_cost hl) (by omega) fun _ _ => ?_
  refine Cost.slice (by omega) fun _ => ?_
  refine Cost.bindN (B' := v.len + 1) (Q' := fun _ => True) (hr _ _ ?_) (by omega) fun _ _ => ?_
  · show lo + fracOf cfg v.len - lo = _
    omega
  refine Cost.bindN (B' := 0) (Q' := fun _ => True) (partition_cost hl) (by omega) ?_
  rintro ⟨p, b⟩ -
  exact Cost.pure trivial

/-- One round of `median_of_medians` on at most `L` elements costs at most `W`. -/
theorem momLoop_costA (hl : Asks c less) {rec : View → Nat → Prog α ι ω Unit} {T W L : Nat}
    (hr : ∀ w k, 12 * w.len ≤ L → Cost c (rec w k) T (fun _ _ => True)) (h1 : 9 * L ≤ W) (h2 : 11 ≤ L → 2 * L + 1 + T ≤ W)
    {n : Nat} {v : View} {k : Nat} (hv : v.len ≤ L) : Cost c (momLoop cfg less rec n v k) (n * W) (fun _ _ => True) := by
  induction n generalizing v k with
  | zero => exact Cost.diverge
  | succ n ih =>
    unfold momLoop
    have e : (n + 1) * W = W + n * W := by rw [Nat.add_mul]; omega
    rw [e]
    split
    · rename_i h10
      split
      · exact Cost.weaken (insertion_small_cost hl h10) (by omega)
      · exact Cost.pure trivial
    rename_i h10
    refine Cost.silentB Silent.usub fun last => ?_
    split
    · exact Cost.weaken (selectMax_cost hl) (by omega)
    split
    · exact Cost.weaken (selectMin_cost hl) (by omega)
    have hf := fracOf_le (cfg := cfg) v.len
    refine Cost.bindN (B' := n * W) (Q' := fun _ => True) (medianOfNinthers_costA hl (fun w k hw => hr w k (by omega))) (by omega) fun p _ => ?_
    split
    · exact Cost.pure trivial
    split
    · refine Cost.splitAt fun h => ih ?_
      show p ≤ L
      omega
    · refine Cost.splitAt fun h => Cost.silentB Silent.usub fun k => ih ?_
      show v.len - (p + 1) ≤ L
      omega

theorem pow_half {x y d : Nat} (h : 2 * y ≤ x) : 2 * y ^ (d + 1) ≤ x ^ (d + 1) := by
  calc 2 * y ^ (d + 1) ≤ 2 ^ (d + 1) * y ^ (d + 1) := Nat.mul_le_mul_right _ (by
        rw [Nat.pow_succ]; have := Nat.one_le_two_pow (n := d); omega)
    _ = (2 * y) ^ (d + 1) := (Nat.mul_pow ..).symm
    _ ≤ x ^ (d + 1) := Nat.pow_le_pow_left h _

theorem medianOfMedians_costA (hl : Asks c less) (d : Nat) (L : Nat) {v : View} {k : Nat} (hv : v.len ≤ L) :
    Cost c (medianOfMedians cfg less d v k) (10 * (L + 1) ^ (d + 1)) (fun _ _ => True) := by
  induction d generalizing v k L with
  | zero => exact Cost.diverge
  | succ d ih =>
    unfold medianOfMedians
    refine Cost.debugAssert (Cost.debugAssert ?_)
    have hp : L + 1 ≤ (L + 1) ^ (d + 1) := Nat.le_self_pow (by omega) _
    refine Cost.weaken (momLoop_costA hl (T := 10 * (L / 12 + 1) ^ (d + 1)) (W := 10 * (L + 1) ^ (d + 1)) (L := L)
      (fun w k hw => ih (L / 12) (by omega)) (by omega) ?_ hv) ?_
    · intro hL
      have := pow_half (x := L + 1) (y := L / 12 + 1) (d := d) (by omega)
      omega
    · calc (v.len + 1) * (10 * (L + 1) ^ (d + 1)) ≤ (L + 1) * (10 * (L + 1) ^ (d + 1)) := Nat.mul_le_mul_right _ (by omega)
        _ = 10 * (L + 1) ^ (d + 1 + 1) := by ring

theorem selPredCheck_cost (hl : Asks c less) {v : View} {pivot : Nat} {pred : Option Addr} :
    Cost c (selPredCheck less v pivot pred) 1 (fun _ _ => True) := by
  cases pred with
  | none => exact Cost.pure trivial
  | some a => exact predCheck_cost (pred := some a) hl

theorem momBound_mono {a b : Nat} (h : a ≤ b) : (a + 1) ^ (Nat.log2 a + 2) ≤ (b + 1) ^ (Nat.log2 b + 2) :=
  Nat.le_trans (Nat.pow_le_pow_left (by omega) _) (Nat.pow_le_pow_right (by omega) (by have := log2_mono h; omega))

theorem selLoop_costA (hl : Asks c less) {L n : Nat} {v : View} {k : Nat} {pred : Option Addr} {limit : Nat} {bal : Bool} (hv : v.len ≤ L) :
    Cost c (selLoop cfg less n v k pred limit bal) (n * (L + 14) + 10 * (L + 1) ^ (Nat.log2 L + 2)) (fun _ _ => True) := by
  induction n generalizing v k pred limit bal with
  | zero => exact Cost.diverge
  | succ n ih =>
    unfold selLoop
    have hp : L + 1 ≤ (L + 1) ^ (Nat.log2 L + 2) := Nat.le_self_pow (by omega) _
    split
    · rename_i h10
      split
      · exact Cost.weaken (insertion_small_cost hl h10) (by omega)
      · exact Cost.pure trivial
    split
    · refine Cost.weaken (medianOfMedians_costA hl _ v.len (Nat.le_refl _)) ?_
      have := momBound_mono hv
      rw [show Nat.log2 v.len + 1 + 1 = Nat.log2 v.len + 2 from rfl]
      omega
    have e : (n + 1) * (L + 14) + 10 * (L + 1) ^ (Nat.log2 L + 2) = L + 14 + (n * (L + 14) + 10 * (L + 1) ^ (Nat.log2 L + 2)) := by
      rw [Nat.add_mul]; omega
    rw [e]
    generalize hBd : n * (L + 14) + 10 * (L + 1) ^ (Nat.log2 L + 2) = Bd at *
    have hs : Silent (if (!bal) = true then (do
          breakPatterns cfg v
          usub cfg limit 1) else pure limit : Prog α ι ω Nat) :=
      Silent.ite (Silent.bind breakPatterns_silent fun _ => Silent.usub) Silent.pure
    refine Cost.silentB hs fun limit => ?_
    refine Cost.bindN (n := 12) (B' := L + 2 + Bd) (Q' := fun _ => True) (choosePivot_cost hl) (by omega) ?_
    rintro ⟨pivot, likely⟩ -
    dsimp only
    refine Cost.bindN (n := 1) (B' := L + 1 + Bd) (Q' := fun _ => True) (selPredCheck_cost hl) (by omega) fun b _ => ?_
    split
    · refine Cost.bindN (n := v.len - 1) (B' := Bd) (Q' := fun _ => True) (partitionEqual_cost hl) (by omega) fun m _ => ?_
      split
      · exact Cost.pure trivial
      · refine Cost.splitAt fun _ => Cost.silentB Silent.usub fun k => ih ?_
        show v.len - m ≤ L
        omega
    · refine Cost.bindN (n := v.len + 1) (B' := Bd) (Q' := fun _ => True) (partition_cost hl) (by omega) ?_
      rintro ⟨mid, wasP⟩ -
      dsimp only
      refine Cost.silentB Silent.usub fun d => Cost.splitAt fun h1 => ?_
      dsimp only
      refine Cost.splitAt fun h2 => ?_
      dsimp only
      refine Cost.vref fun h3 => ?_
      split
      · refine Cost.silentB Silent.usub fun k => Cost.silentB Silent.usub fun k => ih ?_
        show v.len - mid - 1 ≤ L
        omega
      split
      · refine ih ?_
        show mid ≤ L
        omega
      · exact Cost.pure trivial

/-- The bound for one selection. -/
def selAny (n : Nat) : Nat := 24 * (n + 1) ^ (Nat.log2 n + 2)

theorem selAny_mono {a b : Nat} (h : a ≤ b) : selAny a ≤ selAny b := Nat.mul_le_mul_left _ (momBound_mono h)

theorem partitionAtIndex_costA (hl : Asks c less) {v : View} {k : Nat} :
    Cost c (partitionAtIndex cfg less v k) (selAny v.len) (fun r _ => r.1.len ≤ v.len ∧ r.2.2.len ≤ v.len) := by
  unfold partitionAtIndex
  split
  · exact Cost.throw
  rename_i hk
  have hp : v.len + 1 ≤ (v.len + 1) ^ (Nat.log2 v.len + 2) := Nat.le_self_pow (by omega) _
  have hp2 : (v.len + 1) * (v.len + 1) ≤ (v.len + 1) ^ (Nat.log2 v.len + 2) := by
    rw [← Nat.pow_two]
    exact Nat.pow_le_pow_right (by omega) (by omega)
  refine Cost.bindN (n := selAny v.len) (B' := 0) (Q' := fun _ => True) ?_ (Nat.le_refl _) fun _ _ => ?_
  · unfold selAny
    split
    · exact Cost.pure trivial
    refine Cost.silentB Silent.usub fun last => ?_
    split
    · exact Cost.weaken (selectMax_cost hl) (by omega)
    split
    · exact Cost.weaken (selectMin_cost hl) (by omega)
    · refine Cost.weaken (selLoop_costA hl (Nat.le_refl _)) ?_
      have h3 : (v.len + 1) * (v.len + 14) ≤ (v.len + 1) * (14 * (v.len + 1)) := Nat.mul_le_mul_left _ (by omega)
      have h4 : (v.len + 1) * (14 * (v.len + 1)) = 14 * ((v.len + 1) * (v.len + 1)) := by ring
      omega
  · refine Cost.splitAt fun h1 => Cost.splitAt fun h2 => Cost.vref fun _ => Cost.pure ⟨h1, ?_⟩
    show v.len - k - 1 ≤ v.len
    omega

theorem half_split {n : Nat} (h : 0 < n) : n / 2 + (n - (n / 2 + 1)) + 1 = n := by omega

theorem partitionAtIndices_costA (hl : Asks c less) {L n : Nat} {v : View} {off : Nat} {is : List Nat} (hv : v.len ≤ L) :
    Cost c (partitionAtIndices cfg less n v off is) (is.length * selAny L) (fun _ _ => True) := by
  induction n generalizing v off is with
  | zero => exact Cost.diverge
  | succ n ih =>
    unfold partitionAtIndices
    cases hi : is[is.length / 2]? with
    | none => exact Cost.pure trivial
    | some pivot =>
      have hlt := (List.getElem?_eq_some_iff.1 hi).1
      have e : is.length * selAny L = selAny L + (is.take (is.length / 2)).length * selAny L + (is.drop (is.length / 2 + 1)).length * selAny L := by
        conv_lhs => rw [← half_split (n := is.length) (by omega)]
        rw [List.length_take, List.length_drop, Nat.min_eq_left (by omega)]
        ring
      rw [e]
      dsimp only
      refine Cost.silentB Silent.usub fun i => ?_
      have hm := selAny_mono hv
      refine Cost.bindN (B' := (is.take (is.length / 2)).length * selAny L + (is.drop (is.length / 2 + 1)).length * selAny L)
        (partitionAtIndex_costA hl) (by omega) ?_
      rintro ⟨left, value, right⟩ ⟨h1, h2⟩
      dsimp only at h1 h2 ⊢
      refine Cost.bindN (B' := (is.drop (is.length / 2 + 1)).length * selAny L) (Q' := fun _ => True) (ih (by omega)) (Nat.le_refl _) fun xs _ => ?_
      exact Cost.bindN (B' := 0) (Q' := fun _ => True) (ih (by omega)) (Nat.le_refl _) fun ys _ => Cost.pure trivial

theorem parPartitionAtIndices_costA (hl : Asks c less) {L n : Nat} {v : View} {off : Nat} {is : List Nat} {vs vl : Nat} (hv : v.len ≤ L) :
    Cost c (parPartitionAtIndices cfg less n v off is vs vl) (is.length * selAny L) (fun _ _ => True) := by
  induction n generalizing v off is vs vl with
  | zero => exact Cost.diverge
  | succ n ih =>
    unfold parPartitionAtIndices
    cases hi : is[is.length / 2]? with
    | none => exact Cost.pure trivial
    | some pivot =>
      have hlt := (List.getElem?_eq_some_iff.1 hi).1
      have e : is.length * selAny L = selAny L + (is.take (is.length / 2)).length * selAny L + (is.drop (is.length / 2 + 1)).length * selAny L := by
        conv_lhs => rw [← half_split (n := is.length) (by omega)]
        rw [List.length_take, List.length_drop, Nat.min_eq_left (by omega)]
        ring
      rw [e]
      dsimp only
      refine Cost.silentB Silent.usub fun i => ?_
      have hm := selAny_mono hv
      refine Cost.bindN (B' := (is.take (is.length / 2)).length * selAny L + (is.drop (is.length / 2 + 1)).length * selAny L)
        (partitionAtIndex_costA hl) (by omega) ?_
      rintro ⟨left, value, right⟩ ⟨h1, h2⟩
      dsimp only at h1 h2 ⊢
      refine Cost.assertP fun _ => Cost.assertP fun _ => Cost.assertP fun _ => Cost.silentB Silent.usub fun i => ?_
      split
      · refine Cost.bindN (B' := (is.drop (is.length / 2 + 1)).length * selAny L) (Q' := fun _ => True) (ih (by omega)) (Nat.le_refl _) fun xs _ => ?_
        exact Cost.bindN (B' := 0) (Q' := fun _ => True) (ih (by omega)) (Nat.le_refl _) fun ys _ => Cost.pure trivial
      · refine Cost.bind (Q' := fun _ _ => True) (Cost.rayonJoin rfl (ih (by omega)) (ih (by omega)) fun _ _ _ _ _ _ => trivial) ?_
        rintro ⟨xs, ys⟩ r -
        exact Cost.pure trivial

end NdSlice
