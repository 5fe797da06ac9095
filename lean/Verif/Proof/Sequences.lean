import Verif.Proof.Merge

/-
Arrays which consist of few sorted sequences.
-/

namespace NdSlice

variable {α : Type} {lt : α → α → Bool}

/-- At most `k` sequences one after the other, each of them sorted or strictly descending. -/
def Sequences (lt : α → α → Bool) (k : Nat) (xs : List α) : Prop :=
  ∃ ps : List (List α), ps.length ≤ k ∧ xs = ps.flatten ∧ ∀ p ∈ ps, Sorted lt p ∨ p.Pairwise (fun a b => lt b a = true)

theorem Sequences.nil {k : Nat} : Sequences lt k [] := ⟨[], Nat.zero_le _, rfl, by simp⟩

theorem Sequences.mono {k l : Nat} {xs : List α} (h : Sequences lt k xs) (hk : k ≤ l) : Sequences lt l xs := by
  obtain ⟨ps, h1, h2, h3⟩ := h
  exact ⟨ps, by omega, h2, h3⟩

theorem Sequences.drop {k : Nat} {xs : List α} (h : Sequences lt k xs) (i : Nat) : Sequences lt k (xs.drop i) := by
  obtain ⟨ps, h1, rfl, h3⟩ := h
  refine Sequences.mono ?_ h1
  clear h1
  induction ps generalizing i with
  | nil => rw [List.flatten_nil, List.drop_nil]; exact .nil
  | cons p ps ih =>
    rw [List.flatten_cons, List.drop_append]
    obtain ⟨qs, g1, g2, g3⟩ := ih (i - p.length) fun q hq => h3 q (List.mem_cons_of_mem _ hq)
    refine ⟨p.drop i :: qs, by simpa using g1, by rw [List.flatten_cons, g2], ?_⟩
    intro q hq
    rcases List.mem_cons.mp hq with rfl | hq
    · rcases h3 p (by simp) with h | h
      · exact .inl (h.sublist (List.drop_sublist _ _))
      · exact .inr (h.sublist (List.drop_sublist _ _))
    · exact g3 q hq

/-- Nothing is left of no sequences. -/
theorem Sequences.zero {xs : List α} (h : Sequences lt 0 xs) : xs = [] := by
  obtain ⟨ps, h1, rfl, _⟩ := h
  rw [List.length_eq_zero_iff.mp (Nat.le_zero.mp h1), List.flatten_nil]

/-- A streak which cannot be made longer contains the whole first sequence. -/
theorem Sequences.streak {k e : Nat} {xs : List α} {rev : Bool} (h : Sequences lt (k + 1) xs) (he : 1 ≤ e) (h2 : 2 ≤ xs.length → 2 ≤ e)
    (hs : if rev then (xs.take e).Pairwise (fun a b => lt b a = true) else Sorted lt (xs.take e))
    (hm : xs.length ≤ e ∨ ∃ x y, xs[e]? = some x ∧ xs[e - 1]? = some y ∧ lt x y = !rev) : Sequences lt k (xs.drop e) := by
  rcases hm with hm | ⟨x, y, hx, hy, hxy⟩
  · rw [List.drop_of_length_le hm]
    exact .nil
  obtain ⟨ps, h1, rfl, h3⟩ := h
  match ps, h1, h3 with
  | [], _, _ => rw [List.flatten_nil, List.drop_nil]; exact .nil
  | p :: ps, h1, h3 =>
    rw [List.flatten_cons] at hs hx hy h2 ⊢
    by_cases hp : p.length ≤ e
    · rw [List.drop_append, List.drop_of_length_le hp, List.nil_append]
      exact Sequences.drop ⟨ps, by simpa using h1, rfl, fun q hq => h3 q (List.mem_cons_of_mem _ hq)⟩ _
    · exfalso
      have he2 := h2 (by rw [List.length_append]; omega)
      rw [List.getElem?_append_left (by omega)] at hx hy
      rw [List.take_append_of_le_length (by omega)] at hs
      obtain ⟨hi, rfl⟩ := List.getElem?_eq_some_iff.mp hx
      obtain ⟨hj, rfl⟩ := List.getElem?_eq_some_iff.mp hy
      have hp2 : 2 ≤ p.length := by omega
      have s1 : lt p[1] p[0] = rev := by
        cases rev with
        | true =>
          have := List.pairwise_iff_getElem.mp hs 0 1 (by simp; omega) (by simp; omega) (by omega)
          simpa using this
        | false =>
          have := List.pairwise_iff_getElem.mp hs 0 1 (by simp; omega) (by simp; omega) (by omega)
          simpa using this
      rcases h3 p (by simp) with h | h
      · have a1 := List.pairwise_iff_getElem.mp h 0 1 (by omega) hp2 (by omega)
        have a2 := List.pairwise_iff_getElem.mp h (e - 1) e hj hi (by omega)
        rw [a1] at s1; subst s1; rw [a2] at hxy; cases hxy
      · have a1 := List.pairwise_iff_getElem.mp h 0 1 (by omega) hp2 (by omega)
        have a2 := List.pairwise_iff_getElem.mp h (e - 1) e hj hi (by omega)
        rw [a1] at s1; subst s1; rw [a2] at hxy; cases hxy

/-! ### Nearly sorted arrays -/

/-- How often an element is less than the one before it. -/
def descents (lt : α → α → Bool) : List α → Nat
  | x :: y :: r => (if lt y x then 1 else 0) + descents lt (y :: r)
  | _ => 0

theorem sequences_descents (so : SWO lt) (x : α) (xs : List α) :
    ∃ p ps, x :: xs = (x :: p) ++ List.flatten ps ∧ ps.length = descents lt (x :: xs) ∧ Sorted lt (x :: p) ∧ ∀ q ∈ ps, Sorted lt q := by
  induction xs generalizing x with
  | nil => exact ⟨[], [], rfl, rfl, Sorted.single _, by simp⟩
  | cons y r ih =>
    obtain ⟨p, ps, h1, h2, h3, h4⟩ := ih y
    simp only [descents]
    split
    · refine ⟨[], (y :: p) :: ps, ?_, ?_, Sorted.single _, ?_⟩
      · rw [List.flatten_cons, h1]
        rfl
      · rw [List.length_cons, h2]
        omega
      · intro q hq
        rcases List.mem_cons.mp hq with rfl | hq
        · exact h3
        · exact h4 q hq
    · rename_i hlt
      refine ⟨y :: p, ps, by rw [h1]; rfl, by omega, ?_, h4⟩
      refine List.pairwise_cons.mpr ⟨?_, h3⟩
      intro z hz
      rcases List.mem_cons.mp hz with rfl | hz
      · simpa using hlt
      · exact so.le_trans (by simpa using hlt) ((List.pairwise_cons.mp h3).1 z hz)

/-- Changing a few elements of a sorted array makes few descents. -/
theorem descents_changed [DecidableEq α] {xs ys : List α} (hl : xs.length = ys.length) (hs : Sorted lt ys) :
    descents lt xs + (if xs.head? = ys.head? then 0 else 1) ≤ 2 * (xs.zip ys).countP (fun p => decide (p.1 ≠ p.2)) := by
  induction xs generalizing ys with
  | nil =>
    cases ys with
    | nil => simp [descents]
    | cons y ys => simp at hl
  | cons x xs ih =>
    cases ys with
    | nil => simp at hl
    | cons y ys =>
      have i := ih (ys := ys) (by simpa using hl) (List.pairwise_cons.mp hs).2
      rw [List.zip_cons_cons, List.countP_cons]
      simp only [List.head?_cons, Option.some.injEq, decide_eq_true_eq, ne_eq, ite_not]
      match xs, ys, i with
      | [], _, i =>
        simp only [descents]
        split <;> omega
      | x' :: xs, [], _ => simp at hl
      | x' :: xs, y' :: ys, i =>
        simp only [List.head?_cons, Option.some.injEq, ne_eq] at i
        have hyy : x = y → x' = y' → lt x' x = false := by
          rintro rfl rfl
          exact (List.pairwise_cons.mp hs).1 x' (by simp)
        have d1 : (if lt x' x = true then 1 else 0) ≤ (if x = y then 0 else 1) + (if x' = y' then 0 else 1) := by
          by_cases h1 : x = y
          · by_cases h2 : x' = y'
            · rw [hyy h1 h2]
              simp
            · rw [if_neg h2]
              split <;> omega
          · rw [if_neg h1]
            split <;> omega
        simp only [descents]
        omega

/-- An array that is sorted up to `k` of its elements. -/
theorem Sequences.changed [DecidableEq α] (so : SWO lt) {xs ys : List α} {k : Nat} (hl : xs.length = ys.length) (hs : Sorted lt ys)
    (hk : (xs.zip ys).countP (fun p => decide (p.1 ≠ p.2)) ≤ k) : Sequences lt (2 * k + 1) xs := by
  cases xs with
  | nil => exact .nil
  | cons x xs =>
    have hd := descents_changed hl hs
    obtain ⟨p, ps, h1, h2, h3, h4⟩ := sequences_descents so x xs
    refine ⟨(x :: p) :: ps, by rw [List.length_cons]; omega, by rw [List.flatten_cons, h1], ?_⟩
    intro q hq
    rcases List.mem_cons.mp hq with rfl | hq
    · exact .inl h3
    · exact .inl (h4 q hq)

end NdSlice
