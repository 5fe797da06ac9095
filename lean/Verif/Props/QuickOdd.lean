import Verif.Proof.QuickOdd
import Verif.Props.Base
import Verif.Props.QuickCost

/-
How many comparisons the sequential unstable sort makes with user code which does not compare consistently.  With a strict weak order it makes
O(n log n) (C41).  This is false for other comparators, even for pure functions which never panic (C59): `recurse` (/repo/src/quick_sort.rs:90-99) takes
the pivot for equal to the predecessor if the predecessor is not less, but `partition_equal` looks for elements the pivot is not less than; if there are
none besides the pivot itself, one element is taken off, and neither `limit` nor `was_balanced` changes.
-/

namespace NdSlice

open Style

variable {α κ σ : Type} {cfg : Cfg}

theorem View.exists_contents {v : View} (hv : v.WF) {xs : List α} (hx : xs.length = v.len) (d : α) : ∃ m : Mem α, v.contents m = xs := by
  refine ⟨fun a => (xs[v.region.idxOf a]?).getD d, ?_⟩
  unfold View.contents
  refine List.ext_getElem (by simp [hx]) fun i h1 h2 => ?_
  rw [List.getElem_map, (View.region_nodup hv).idxOf_getElem i (by simpa using h1), List.getElem?_eq_getElem h2]
  rfl

theorem sameLess_of_agrees [DecidableEq α] {st : Style} {o : Oracle σ (st.Q α κ) (st.A κ)} (ho : Agrees st o (fun x y => decide (x = y))) {p r : α}
    (hpr : p ≠ r) : SameLess (st.toCmp (rel o)) p r := by
  have hpan := pan_iff (noPanic_of_agrees ho)
  have hnone : ∀ q, ¬ rel o q none := fun q h => hpan ⟨q, h⟩
  refine ⟨fun x y => ?_, hpan, fun b hb => ?_, fun b hb => ?_, fun b hb => ?_, fun b hb => ?_⟩
  · cases st with
    | ord =>
      refine TriL.call fun a ha => ?_
      cases a with
      | none => exact (hnone _ ha).elim
      | some b => exact TriL.pure ⟨ha, by simp⟩
    | cmp =>
      refine TriL.call fun a ha => ?_
      cases a with
      | none => exact (hnone _ ha).elim
      | some b => exact TriL.pure ⟨⟨b, ha, rfl⟩, by simp⟩
    | key =>
      refine TriL.call fun a ha => ?_
      cases a with
      | none => exact (hnone _ ha).elim
      | some k =>
        refine TriL.call fun a hb => ?_
        cases a with
        | none => exact (hnone _ hb).elim
        | some l =>
          refine TriL.call fun a hc => ?_
          cases a with
          | none => exact (hnone _ hc).elim
          | some c => exact TriL.pure ⟨⟨k, l, c, ha, hb, hc, rfl⟩, by simp⟩
  · simpa using ans_of_agrees ho hb
  · simpa using ans_of_agrees ho hb
  · simpa [hpr] using ans_of_agrees ho hb
  · have : r ≠ p := fun h => hpr h.symm
    simpa [this] using ans_of_agrees ho hb

/-- C59: with the comparator "is the same as" (a pure function which never panics, but no strict weak order), for every layout and any two different
elements there is an array of them such that `sort_unstable`, `sort_unstable_by` and `sort_unstable_by_key` ask at least `len ^ 2 / 5` questions. -/
theorem sort_unstable_inconsistent_quadratic [DecidableEq α] (st : Style) (hz : cfg.zst = false) {v : View} (hv : v.WF) (hN : 100 ≤ v.len) {p r : α}
    (hpr : p ≠ r) :
    ∃ m : Mem α, (∀ a ∈ v.region, m a = p ∨ m a = r) ∧
      ∀ (o : Oracle σ (st.Q α κ) (st.A κ)) (e : σ), Agrees st o (fun x y => decide (x = y)) →
        ∃ s', run o (sortUnstable st cfg v) ⟨m, e, []⟩ = (.ok (), s') ∧ v.len ^ 2 ≤ 5 * s'.log.length := by
  obtain ⟨m, hm⟩ := View.exists_contents hv (oddArray_length (p := p) (r := r) hN) p
  refine ⟨m, fun a ha => oddArray_mem (n := v.len) (by rw [← hm]; exact List.mem_map_of_mem ha), fun o e ho => ?_⟩
  have H := sameLess_of_agrees ho hpr
  have main := quickSort_odd (cfg := cfg) (v := v) H hz hpr hN m [] (View.region_nodup hv) hm
  rcases run_sound (o := o) (s := ⟨m, e, []⟩) (rel_sat o) main with ⟨_, s', h1, d, h2, _, h3⟩ | ⟨_, s', h1, d, h2, h3⟩
  · refine ⟨s', h1, ?_⟩
    rw [h2, List.nil_append]
    have h4 := oddSum_ge (v.len - (v.len / 4 + 7))
    generalize oddSum (v.len - (v.len / 4 + 7)) = S at *
    generalize d.length = L at *
    generalize v.len = n at *
    obtain ⟨q, t, hq, ht, rfl⟩ : ∃ q t, n / 4 = q + 25 ∧ t < 4 ∧ n = 4 * q + 100 + t := ⟨n / 4 - 25, n % 4, by omega, by omega, by omega⟩
    rw [hq, show 4 * q + 100 + t - (q + 25 + 7) = 3 * q + 68 + t by omega] at h4
    have h5 : t = 0 ∨ t = 1 ∨ t = 2 ∨ t = 3 := by omega
    rcases h5 with rfl | rfl | rfl | rfl <;> ring_nf at h4 ⊢ <;> omega
  · exact h3.elim

/-- C59: so there is no bound in O(n log n) for pure comparators, already for arrays of `bool`. -/
theorem sort_unstable_pure_not_n_log_n (hz : cfg.zst = false) :
    ¬ ∃ c, ∀ (v : View) (m : Mem Bool) (lt : Bool → Bool → Bool) (o : Oracle Unit (Style.Q Bool κ .ord) (Style.A κ .ord)),
      v.WF → 2 ≤ v.len → Agrees .ord o lt →
        (run o (sortUnstable .ord cfg v) ⟨m, (), []⟩).2.log.length ≤ c * (v.len * Nat.log2 v.len) := by
  rintro ⟨c, h⟩
  let k := 5 * c + 7 + 4
  have hk : k ^ 2 ≤ 2 ^ k := sq_le_two_pow (5 * c + 7)
  have h20 : 2 ^ 11 ≤ 2 ^ k := Nat.pow_le_pow_right (by omega) (by show 11 ≤ 5 * c + 7 + 4; omega)
  obtain ⟨m, _, hm⟩ := sort_unstable_inconsistent_quadratic (κ := κ) (σ := Unit) (cfg := cfg) .ord (v := ⟨0, 1, 2 ^ k⟩) hz (.inl (by simp))
    (by show 100 ≤ 2 ^ k; omega) (show true ≠ false by simp)
  obtain ⟨s', e1, e2⟩ := hm (funOracle (fun q : Bool × Bool => decide (q.1 = q.2))) () (fun _ _ _ => rfl)
  have h1 := h ⟨0, 1, 2 ^ k⟩ m (fun x y => decide (x = y)) (funOracle (fun q : Bool × Bool => decide (q.1 = q.2))) (.inl (by simp))
    (by show 2 ≤ 2 ^ k; omega) (fun _ _ _ => rfl)
  rw [e1] at h1
  dsimp only at h1 e2
  rw [Nat.log2_two_pow] at h1
  have h2 : (2 ^ k) ^ 2 ≤ 5 * (c * (2 ^ k * k)) := Nat.le_trans e2 (Nat.mul_le_mul_left _ h1)
  have h3 : 2 ^ k * 2 ^ k ≤ 5 * c * k * 2 ^ k := by
    rw [Nat.pow_two] at h2
    calc _ ≤ _ := h2
      _ = _ := by ring
  have h4 := Nat.le_of_mul_le_mul_right h3 (by omega)
  have h5 : 5 * c * k < k * k := Nat.mul_lt_mul_of_pos_right (by show 5 * c < 5 * c + 7 + 4; omega) (by show 0 < 5 * c + 7 + 4; omega)
  rw [Nat.pow_two] at hk
  omega

/-! ### The hypotheses can be met -/

/-- The comparator of `sort_unstable_by(|a, b| if a == b { Less } else { Equal })`. -/
example : ∃ o : Oracle Unit (Style.Q Bool Nat .cmp) (Style.A Nat .cmp), Agrees .cmp o (fun x y => decide (x = y)) :=
  ⟨funOracle (fun q : Bool × Bool => if q.1 = q.2 then .lt else .eq), fun x y => if x = y then .lt else .eq, fun _ _ _ => rfl, fun x y => by
    by_cases h : x = y <;> simp [h]⟩

example := sort_unstable_inconsistent_quadratic (α := Bool) (κ := Nat) (σ := Unit) (cfg := ⟨true, 64, false⟩) .cmp rfl (v := ⟨1000, -2, 100⟩)
  (.inl (by decide)) (by decide) (p := true) (r := false) (by decide)

example := sort_unstable_pure_not_n_log_n (κ := Nat) (cfg := ⟨false, 64, false⟩) rfl

end NdSlice
