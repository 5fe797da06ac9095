import Verif.Proof.Insertion
import Verif.Model.Partition

/-
`reverse`, `break_patterns` and `choose_pivot` of /repo/src/partition.rs.
-/

namespace NdSlice

variable {α ι ω : Type} {R : ι → Option ω → Prop} {cfg : Cfg} {v : View} {E : Panic → List α → Prop}

/-- `ys` is `xs` with the outer `i` positions on each side exchanged with their mirror image. -/
def RevPart (xs ys : List α) (i : Nat) : Prop :=
  ∀ k, k < xs.length → ys[k]? = if k < i ∨ xs.length ≤ k + i then xs[xs.length - 1 - k]? else xs[k]?

theorem revswap_spec {xs ys : List α} {a b : View} {i n : Nat} (ha : View.At v.region a 0)
    (hb : View.At v.region b (v.len - v.len / 2)) (hal : a.len = v.len / 2) (hbl : b.len = v.len / 2)
    (hin : i + n = v.len / 2) (hx : xs.length = v.len) (hy : ys.length = v.len) (h : RevPart xs ys i) :
    Tri R v.region (revswap cfg a b (v.len / 2) i n) ys (fun _ zs => RevPart xs zs (v.len / 2)) E := by
  induction n generalizing i ys with
  | zero => exact Tri.pure (by rw [← hin]; exact h)
  | succ n ih =>
    unfold revswap
    refine Tri.usub (by omega) (Tri.usub (by omega) ?_)
    refine Tri.vidx' ha (by omega) fun x hx1 => Tri.vidx' hb (by omega) fun y hy1 => ?_
    refine Tri.vcset' ha (by omega) (Tri.vcset' hb (by omega) ?_)
    have e : v.len - v.len / 2 + (v.len / 2 - 1 - i) = v.len - 1 - i := by omega
    rw [e] at hy1 ⊢
    rw [Nat.zero_add] at hx1 ⊢
    refine ih (by omega) (by simp [hy]) ?_
    intro k hk
    have h1 := h i (by omega)
    rw [if_neg (by omega), hx1] at h1
    have h2 := h (v.len - 1 - i) (by omega)
    rw [if_neg (by omega), hy1] at h2
    have h3 := h k hk
    rw [List.getElem?_set, List.getElem?_set]
    by_cases hk1 : v.len - 1 - i = k
    · subst hk1
      rw [if_pos rfl, if_pos (by simp; omega), if_pos (by omega), hx,
        show v.len - 1 - (v.len - 1 - i) = i by omega, h1]
    · rw [if_neg hk1]
      by_cases hk2 : i = k
      · subst hk2
        rw [if_pos rfl, if_pos (by omega), if_pos (by omega), hx, h2]
      · rw [if_neg hk2, h3]
        by_cases hk3 : k < i ∨ xs.length ≤ k + i
        · rw [if_pos hk3, if_pos (by omega)]
        · rw [if_neg hk3, if_neg (by omega)]

theorem reverse_spec {xs : List α} (hx : xs.length = v.len) :
    Tri R v.region (reverse cfg v) xs (fun _ ys => ys = xs.reverse) E := by
  unfold reverse
  refine Tri.usub (by omega) (Tri.splitAt (by omega) (Tri.splitAt (by simp; omega) ?_))
  refine Tri.debugAssert (by simp) (Tri.debugAssert (by simp; omega) ?_)
  have hA := (View.at_self v)
  have ha : View.At v.region ((v.sub 0 (v.len - v.len / 2)).sub 0 (v.len / 2)) 0 := by
    rw [View.sub_sub]
    exact hA.sub (a := 0) (by omega)
  have hb : View.At v.region (v.sub (v.len - v.len / 2) (v.len - (v.len - v.len / 2))) (v.len - v.len / 2) := by
    have := hA.sub (a := v.len - v.len / 2) (n := v.len - (v.len - v.len / 2)) (by omega)
    rwa [Nat.zero_add] at this
  refine Tri.mono (revswap_spec (xs := xs) ha hb (by simp) (by simp; omega) (by omega) hx hx ?_) ?_ (fun _ _ _ h => h)
  · intro k hk
    rw [if_neg (by omega)]
  · intro _ ys hl h
    apply List.ext_getElem?
    intro k
    by_cases hk : k < xs.length
    · rw [h k hk, List.getElem?_reverse hk]
      by_cases hk2 : k < v.len / 2 ∨ xs.length ≤ k + v.len / 2
      · rw [if_pos hk2]
      · rw [if_neg hk2]; congr 1; omega
    · rw [List.getElem?_eq_none (by omega), List.getElem?_eq_none (by simp; omega)]

theorem nextPow2_pow (n : Nat) : ∃ k, nextPow2 n = 2 ^ k := by
  unfold nextPow2
  by_cases h : n ≤ 1
  · exact ⟨0, by simp [h]⟩
  · exact ⟨_, by rw [if_neg h]⟩

theorem nextPow2_lt {n : Nat} (h : 1 ≤ n) : nextPow2 n < 2 * n := by
  unfold nextPow2
  by_cases h1 : n ≤ 1
  · rw [if_pos h1]; omega
  · rw [if_neg h1, Nat.pow_succ]
    have := Nat.log2_self_le (n := n - 1) (by omega)
    omega

theorem and_nextPow2_lt {n s : Nat} (h : 1 ≤ n) : s &&& (nextPow2 n - 1) < 2 * n := by
  obtain ⟨k, hk⟩ := nextPow2_pow n
  have h2 := nextPow2_lt h
  have hpos : 0 < 2 ^ k := Nat.two_pow_pos k
  have : s &&& (2 ^ k - 1) < 2 ^ k := by
    have := Nat.and_le_right (n := s) (m := 2 ^ k - 1)
    omega
  rw [hk] at h2 ⊢
  omega

theorem breakPatternsLoop_spec {xs : List α} {seed i n : Nat} (hx : xs.length = v.len) (h8 : 8 ≤ v.len)
    (hin : i + n ≤ 3) :
    Tri R v.region (breakPatternsLoop cfg v (nextPow2 v.len) (v.len / 4 * 2) i seed n) xs
      (fun _ ys => ys.Perm xs) E := by
  induction n generalizing i seed xs with
  | zero => exact Tri.pure (.refl _)
  | succ n ih =>
    unfold breakPatternsLoop
    refine Tri.usub (by omega) ?_
    have h := and_nextPow2_lt (n := v.len) (s := xorshift cfg.bits seed) (by omega)
    refine Tri.vswap (by omega) (by split <;> omega) fun x y h1 h2 => ?_
    refine Tri.mono (ih (by simp [hx]) (by omega)) ?_ (fun _ _ _ h => h)
    intro _ ys _ hp
    exact hp.trans (swap_perm h1 h2)

theorem breakPatterns_spec {xs : List α} (hx : xs.length = v.len) :
    Tri R v.region (breakPatterns cfg v) xs (fun _ ys => ys.Perm xs) E := by
  unfold breakPatterns
  by_cases h : v.len ≥ 8
  · rw [if_pos h]; exact breakPatternsLoop_spec hx h (by omega)
  · rw [if_neg h]; exact Tri.pure (.refl _)

variable (C : Cmp α ι ω)

theorem sort2_spec {xs : List α} {a b s : Nat} (ha : a < v.len) (hb : b < v.len) :
    Tri C.R v.region (sort2 C.less v a b s) xs
      (fun r ys => ys = xs ∧ r.1 < v.len ∧ r.2.1 < v.len) (EP C xs) := by
  unfold sort2
  refine Tri.vget hb fun x hx => Tri.vget ha fun y hy => ?_
  refine Tri.lessB C (fun r hr => ?_) (fun hp => ⟨rfl, hp, .refl _⟩)
  cases r with
  | true => exact Tri.pure ⟨rfl, hb, ha⟩
  | false => exact Tri.pure ⟨rfl, ha, hb⟩

theorem sort3_spec {xs : List α} {a b c s : Nat} (ha : a < v.len) (hb : b < v.len) (hc : c < v.len) :
    Tri C.R v.region (sort3 C.less v a b c s) xs
      (fun r ys => ys = xs ∧ r.1 < v.len ∧ r.2.1 < v.len ∧ r.2.2.1 < v.len) (EP C xs) := by
  unfold sort3
  refine Tri.bind (sort2_spec C ha hb) ?_
  rintro ⟨a, b, s⟩ _ _ ⟨rfl, ha, hb⟩
  refine Tri.bind (sort2_spec C hb hc) ?_
  rintro ⟨b, c, s⟩ _ _ ⟨rfl, hb, hc⟩
  refine Tri.bind (sort2_spec C ha hb) ?_
  rintro ⟨a, b, s⟩ _ _ ⟨rfl, ha, hb⟩
  exact Tri.pure ⟨rfl, ha, hb, hc⟩

theorem sortAdjacent_spec {xs : List α} {a s : Nat} (h1 : 1 ≤ a) (ha : a + 1 < v.len) :
    Tri C.R v.region (sortAdjacent cfg C.less v a s) xs
      (fun r ys => ys = xs ∧ r.1 < v.len) (EP C xs) := by
  unfold sortAdjacent
  refine Tri.usub h1 (Tri.bind (sort3_spec C (by omega) (by omega) ha) ?_)
  rintro ⟨a, b, c, s⟩ _ _ ⟨rfl, _, hb, _⟩
  exact Tri.pure ⟨rfl, hb⟩

theorem chooseMedian_spec {xs : List α} (hv : 1 ≤ v.len) :
    Tri C.R v.region (chooseMedian cfg C.less v) xs (fun r ys => ys = xs ∧ r.1 < v.len) (EP C xs) := by
  unfold chooseMedian
  by_cases h8 : v.len ≥ 8
  · simp only [h8, if_true]
    refine Tri.bind (Q' := fun r ys => ys = xs ∧ r.1 < v.len ∧ r.2.1 < v.len ∧ r.2.2.1 < v.len) ?_ ?_
    · by_cases h50 : v.len ≥ 50
      · simp only [h50, if_true]
        refine Tri.bind (sortAdjacent_spec C (by omega) (by omega)) ?_
        rintro ⟨a, s⟩ _ _ ⟨rfl, ha⟩
        refine Tri.bind (sortAdjacent_spec C (by omega) (by omega)) ?_
        rintro ⟨b, s⟩ _ _ ⟨rfl, hb⟩
        refine Tri.bind (sortAdjacent_spec C (by omega) (by omega)) ?_
        rintro ⟨c, s⟩ _ _ ⟨rfl, hc⟩
        exact Tri.pure ⟨rfl, ha, hb, hc⟩
      · simp only [h50, if_false]
        exact Tri.pure ⟨rfl, by dsimp only; omega, by dsimp only; omega, by dsimp only; omega⟩
    · rintro ⟨a, b, c, s⟩ _ _ ⟨rfl, ha, hb, hc⟩
      refine Tri.bind (sort3_spec C ha hb hc) ?_
      rintro ⟨a, b, c, s⟩ _ _ ⟨rfl, _, hb, _⟩
      exact Tri.pure ⟨rfl, hb⟩
  · simp only [h8, if_false]
    exact Tri.pure ⟨rfl, by dsimp only; omega⟩

theorem choosePivot_spec {xs : List α} (hv : 1 ≤ v.len) (hx : xs.length = v.len) :
    Tri C.R v.region (choosePivot cfg C.less v) xs (fun r ys => ys.Perm xs ∧ r.1 < v.len) (EP C xs) := by
  unfold choosePivot
  refine Tri.bind (chooseMedian_spec C hv) ?_
  rintro ⟨b, s⟩ _ _ ⟨rfl, hb⟩
  dsimp only
  by_cases hs : s < 12
  · simp only [hs, if_true]
    exact Tri.pure ⟨.refl _, hb⟩
  · simp only [hs, if_false]
    refine Tri.bind (reverse_spec hx) ?_
    rintro _ _ _ rfl
    dsimp only at hb
    refine Tri.usub (by omega) (Tri.usub (by omega) (Tri.pure ⟨List.reverse_perm _, by dsimp only; omega⟩))

end NdSlice
