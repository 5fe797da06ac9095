import Verif.Props.AlreadySorted
import Verif.Core.PathW

/-
C77: selecting the minimum or the maximum.
-/

namespace NdSlice

open Style

variable {α κ ι ω σ : Type} {st : Style} {cfg : Cfg} {v : View} {R : ι → Option ω → Prop} {less : α → α → Prog α ι ω Bool} {lt : α → α → Bool} {c : Nat}
  {m : Mem α}

/-- The memory in which positions `i` and `j` of the array have been exchanged. -/
def Exchanged (v : View) (i j : Nat) (m m' : Mem α) : Prop :=
  m' (v.addr i) = m (v.addr j) ∧ m' (v.addr j) = m (v.addr i) ∧ ∀ a, a ≠ v.addr i → a ≠ v.addr j → m' a = m a

theorem swap_path {i j : Nat} (hi : i < v.len) (hj : j < v.len) :
    ∃ m', PathW (ι := ι) (ω := ω) R m (v.swap i j) () 0 m' ∧ Exchanged v i j m m' := by
  refine ⟨upd (upd m (v.addr i) (m (v.addr j))) (v.addr j) (m (v.addr i)), ?_, ?_, ?_, ?_⟩
  · unfold View.swap View.idx View.set
    simp only [if_pos hi, if_pos hj]
    exact ⟨rfl, rfl, rfl⟩
  · by_cases h : v.addr i = v.addr j
    · simp [upd, h]
    · simp [upd, h]
  · simp [upd]
  · intro a h1 h2
    simp [upd, h1, h2]

theorem maxLoop_path (hl : Answers R m less lt c) (so : SWO lt) {best i n : Nat} (hb : best < i) (hn : i + n = v.len)
    (h1 : ∀ j, j < i → lt (m (v.addr best)) (m (v.addr j)) = false) (h2 : ∀ j, j < best → lt (m (v.addr j)) (m (v.addr best)) = true) :
    ∃ k, Path R m (maxLoop less v best i n) k (n * c) ∧ k < v.len ∧
      (∀ j, j < v.len → lt (m (v.addr k)) (m (v.addr j)) = false) ∧ (∀ j, j < k → lt (m (v.addr j)) (m (v.addr k)) = true) := by
  induction n generalizing best i with
  | zero => exact ⟨best, by rw [Nat.zero_mul]; exact Path.pure, by omega, fun j hj => h1 j (by omega), h2⟩
  | succ n ih =>
    unfold maxLoop
    have key : ∃ k, Path R m (maxLoop less v (if lt (m (v.addr best)) (m (v.addr i)) then i else best) (i + 1) n) k (n * c) ∧ k < v.len ∧
      (∀ j, j < v.len → lt (m (v.addr k)) (m (v.addr j)) = false) ∧ (∀ j, j < k → lt (m (v.addr j)) (m (v.addr k)) = true) := by
      cases hc : lt (m (v.addr best)) (m (v.addr i)) with
      | true =>
        simp only [if_true]
        refine ih (by omega) (by omega) (fun j hj => ?_) (fun j hj => ?_)
        · by_cases hji : j = i
          · subst hji; exact so.irrefl _
          · cases hc' : lt (m (v.addr i)) (m (v.addr j)) with
            | false => rfl
            | true => exact absurd (so.trans _ _ _ hc hc') (by simp [h1 j (by omega)])
        · cases hc' : lt (m (v.addr j)) (m (v.addr i)) with
          | true => rfl
          | false => exact absurd (so.ntrans _ _ _ (h1 j (by omega)) hc') (by simp [hc])
      | false =>
        simp only [Bool.false_eq_true, if_false]
        refine ih (by omega) (by omega) (fun j hj => ?_) h2
        by_cases hji : j = i
        · subst hji; exact hc
        · exact h1 j (by omega)
    obtain ⟨k, hk, h⟩ := key
    exact ⟨k, Path.seq (Path.vget (by omega)) (Path.seq (Path.vget (by omega)) (Path.seq (hl _ _) hk rfl) rfl) (by rw [Nat.add_mul]; omega), h⟩

theorem minLoop_path (hl : Answers R m less lt c) (so : SWO lt) {best i n : Nat} (hb : best < i) (hn : i + n = v.len)
    (h1 : ∀ j, j < i → lt (m (v.addr j)) (m (v.addr best)) = false) (h2 : ∀ j, best < j → j < i → lt (m (v.addr best)) (m (v.addr j)) = true) :
    ∃ k, Path R m (minLoop less v best i n) k (n * c) ∧ k < v.len ∧
      (∀ j, j < v.len → lt (m (v.addr j)) (m (v.addr k)) = false) ∧ (∀ j, k < j → j < v.len → lt (m (v.addr k)) (m (v.addr j)) = true) := by
  induction n generalizing best i with
  | zero => exact ⟨best, by rw [Nat.zero_mul]; exact Path.pure, by omega, fun j hj => h1 j (by omega), fun j h hj => h2 j h (by omega)⟩
  | succ n ih =>
    unfold minLoop
    have key : ∃ k, Path R m (minLoop less v (if lt (m (v.addr best)) (m (v.addr i)) then best else i) (i + 1) n) k (n * c) ∧ k < v.len ∧
      (∀ j, j < v.len → lt (m (v.addr j)) (m (v.addr k)) = false) ∧ (∀ j, k < j → j < v.len → lt (m (v.addr k)) (m (v.addr j)) = true) := by
      cases hc : lt (m (v.addr best)) (m (v.addr i)) with
      | true =>
        simp only [if_true]
        refine ih (by omega) (by omega) (fun j hj => ?_) (fun j hj hj' => ?_)
        · by_cases hji : j = i
          · subst hji; exact so.asymm hc
          · exact h1 j (by omega)
        · by_cases hji : j = i
          · subst hji; exact hc
          · exact h2 j hj (by omega)
      | false =>
        simp only [Bool.false_eq_true, if_false]
        refine ih (by omega) (by omega) (fun j hj => ?_) (fun j hj hj' => by omega)
        by_cases hji : j = i
        · subst hji; exact so.irrefl _
        · exact so.ntrans _ _ _ (h1 j (by omega)) hc
    obtain ⟨k, hk, h⟩ := key
    exact ⟨k, Path.seq (Path.vget (by omega)) (Path.seq (Path.vget (by omega)) (Path.seq (hl _ _) hk rfl) rfl) (by rw [Nat.add_mul]; omega), h⟩

theorem split_path {k : Nat} (hk : k < v.len) :
    Path (ι := ι) (ω := ω) R m (do
      let (left, right) ← v.splitAt k
      let (pv, right) ← right.splitAt 1
      let piv ← pv.ref 0
      pure (left, piv, right)) (v.sub 0 k, v.addr k, (v.sub k (v.len - k)).sub 1 (v.len - k - 1)) 0 := by
  unfold View.splitAt View.ref
  rw [if_pos (by omega : k ≤ v.len)]
  show Path R m (do
      let x ← (if 1 ≤ v.len - k then _ else _)
      _) _ 0
  rw [if_pos (by omega : 1 ≤ v.len - k)]
  refine ⟨?_, rfl⟩
  simp [View.sub, View.addr]

/-- C77: `select_nth_unstable*` with the last index makes exactly `len - 1` comparisons and does nothing but exchange the first of
the greatest elements with the element at the last position. -/
theorem select_nth_last {o : Oracle σ (st.Q α κ) (st.A κ)} (so : SWO lt) (ho : Agrees st o lt) (hz : cfg.zst = false) {k : Nat}
    (hk : k + 1 = v.len) (s : St α (st.Q α κ) (st.A κ) σ) :
    ∃ g r s', run o (selectNthUnstable st cfg v k) s = (.ok r, s') ∧ g < v.len ∧
      (∀ j, j < v.len → lt (s.mem (v.addr g)) (s.mem (v.addr j)) = false) ∧ (∀ j, j < g → lt (s.mem (v.addr j)) (s.mem (v.addr g)) = true) ∧
      Exchanged v g k s.mem s'.mem ∧ r.2.1 = v.addr k ∧ s'.log.length = s.log.length + (v.len - 1) * st.calls := by
  obtain ⟨g, hp, hg, h1, h2⟩ := maxLoop_path (v := v) (Style.compares ho s.mem) so (best := 0) (i := 1) (n := v.len - 1) (by omega) (by omega)
    (fun j hj => by obtain rfl : j = 0 := by omega
                    exact so.irrefl _) (fun j hj => absurd hj (by omega))
  obtain ⟨m', hs, hx⟩ := swap_path (R := rel o) (m := s.mem) hg (by omega : k < v.len)
  have : PathW (rel o) s.mem (selectNthUnstable st cfg v k) (v.sub 0 k, v.addr k, (v.sub k (v.len - k)).sub 1 (v.len - k - 1))
      ((v.len - 1) * st.calls) m' := by
    unfold selectNthUnstable partitionAtIndex
    rw [if_neg (by omega), hz]
    refine PathW.seq (k := 0) (b := ()) ?_ (PathW.of_path (split_path (by omega))) rfl
    simp only [Bool.false_eq_true, if_false]
    refine PathW.seq (n := 0) (PathW.of_path (Path.usub (by omega))) ?_ (Nat.zero_add _).symm
    rw [if_pos (by omega)]
    refine PathW.seq (PathW.of_path ?_) hs rfl
    unfold maxIndex
    rw [if_neg (by omega)]
    exact hp
  obtain ⟨s', hr, hm, hl⟩ := this.run (rel_sat o)
  exact ⟨g, _, s', hr, hg, h1, h2, hm ▸ hx, rfl, hl⟩

/-- C77: `select_nth_unstable*` with index 0 (in an array of at least two elements) makes exactly `len - 1` comparisons and does
nothing but exchange the last of the least elements with the element at the first position. -/
theorem select_nth_first {o : Oracle σ (st.Q α κ) (st.A κ)} (so : SWO lt) (ho : Agrees st o lt) (hz : cfg.zst = false)
    (hk : 2 ≤ v.len) (s : St α (st.Q α κ) (st.A κ) σ) :
    ∃ g r s', run o (selectNthUnstable st cfg v 0) s = (.ok r, s') ∧ g < v.len ∧
      (∀ j, j < v.len → lt (s.mem (v.addr j)) (s.mem (v.addr g)) = false) ∧
      (∀ j, g < j → j < v.len → lt (s.mem (v.addr g)) (s.mem (v.addr j)) = true) ∧
      Exchanged v g 0 s.mem s'.mem ∧ r.2.1 = v.addr 0 ∧ s'.log.length = s.log.length + (v.len - 1) * st.calls := by
  obtain ⟨g, hp, hg, h1, h2⟩ := minLoop_path (v := v) (Style.compares ho s.mem) so (best := 0) (i := 1) (n := v.len - 1) (by omega) (by omega)
    (fun j hj => by obtain rfl : j = 0 := by omega
                    exact so.irrefl _) (fun j hj _ => absurd hj (by omega))
  obtain ⟨m', hs, hx⟩ := swap_path (R := rel o) (m := s.mem) hg (by omega : 0 < v.len)
  have : PathW (rel o) s.mem (selectNthUnstable st cfg v 0) (v.sub 0 0, v.addr 0, (v.sub 0 (v.len - 0)).sub 1 (v.len - 0 - 1))
      ((v.len - 1) * st.calls) m' := by
    unfold selectNthUnstable partitionAtIndex
    rw [if_neg (by omega), hz]
    refine PathW.seq (k := 0) (b := ()) ?_ (PathW.of_path (split_path (by omega))) rfl
    simp only [Bool.false_eq_true, if_false]
    refine PathW.seq (n := 0) (PathW.of_path (Path.usub (by omega))) ?_ (Nat.zero_add _).symm
    rw [if_neg (by omega), if_pos trivial]
    refine PathW.seq (PathW.of_path ?_) hs rfl
    unfold minIndex
    rw [if_neg (by omega)]
    exact hp
  obtain ⟨s', hr, hm, hl⟩ := this.run (rel_sat o)
  exact ⟨g, _, s', hr, hg, h1, h2, hm ▸ hx, rfl, hl⟩

/-! ### The hypotheses can be met -/

example (st : Style) := select_nth_last (st := st) (cfg := Sample.cfg) (v := Sample.view) (k := 59) Sample.swo (Sample.agrees st) rfl rfl
  (Sample.state st)

example (st : Style) := select_nth_first (st := st) (cfg := Sample.cfg) (v := Sample.view) Sample.swo (Sample.agrees st) rfl (by decide)
  (Sample.state st)

end NdSlice
