import Verif.Proof.Ninther
import Verif.Proof.CostQuick
import Mathlib.Tactic.Ring

/-
How many comparisons selection makes if only few elements are equal: /repo/src/partition.rs:96-331.
-/

namespace NdSlice

variable {α ι ω β : Type} {cfg : Cfg} {C : Cmp α ι ω} {v : View} {lt : α → α → Bool} {c : Nat}

/-! ### Costs of the parts -/

section leaf

variable {less : α → α → Prog α ι ω Bool}

theorem maxLoop_cost (hl : Asks c less) {best i n : Nat} : Cost c (maxLoop less v best i n) n (fun _ _ => True) := by
  induction n generalizing best i with
  | zero => exact Cost.pure trivial
  | succ n ih =>
    unfold maxLoop
    exact Cost.silentB Silent.vget fun _ => Cost.silentB Silent.vget fun _ => Cost.lessB hl fun _ => ih

theorem minLoop_cost (hl : Asks c less) {best i n : Nat} : Cost c (minLoop less v best i n) n (fun _ _ => True) := by
  induction n generalizing best i with
  | zero => exact Cost.pure trivial
  | succ n ih =>
    unfold minLoop
    exact Cost.silentB Silent.vget fun _ => Cost.silentB Silent.vget fun _ => Cost.lessB hl fun _ => ih

theorem maxIndex_cost (hl : Asks c less) : Cost c (maxIndex less v) (v.len - 1) (fun _ _ => True) := by
  unfold maxIndex
  split
  · exact Cost.throw
  · exact maxLoop_cost hl

theorem minIndex_cost (hl : Asks c less) : Cost c (minIndex less v) (v.len - 1) (fun _ _ => True) := by
  unfold minIndex
  split
  · exact Cost.throw
  · exact minLoop_cost hl

theorem lessAt_cost (hl : Asks c less) {i j B : Nat} {k : Bool → Prog α ι ω β} {Q : β → Nat → Prop} (h : ∀ b, Cost c (k b) B Q) :
    Cost c (lessAt less v i j >>= k) (B + 1) Q := by
  unfold lessAt
  exact Cost.bind (Q' := fun _ r => r = B) (Cost.silentB Silent.vidx fun _ => Cost.silentB Silent.vidx fun _ => Cost.less hl fun _ => rfl)
    (by rintro b _ rfl; exact h b)

theorem medianIdx_cost (hl : Asks c less) {a b d : Nat} : Cost c (medianIdx less v a b d) 3 (fun _ _ => True) := by
  unfold medianIdx
  refine lessAt_cost hl fun s => ?_
  generalize (if s then (d, a) else (a, d)) = x
  refine lessAt_cost hl fun s => ?_
  split
  · exact Cost.pure trivial
  · refine lessAt_cost hl fun s => ?_
    split <;> exact Cost.pure trivial

theorem nintherEnd_cost (hl : Asks c less) {b d e h : Nat} : Cost c (nintherEnd less v b d e h) 2 (fun _ _ => True) := by
  unfold nintherEnd
  refine lessAt_cost hl fun s => ?_
  split
  · exact Cost.silent Silent.swap fun _ => trivial
  · refine lessAt_cost hl fun s => ?_
    split <;> exact Cost.silent Silent.swap fun _ => trivial

theorem ninther_cost (hl : Asks c less) {a b d e f g h i j : Nat} : Cost c (ninther less v a b d e f g h i j) 12 (fun _ _ => True) := by
  unfold ninther
  refine Cost.bindN (B' := 9) (medianIdx_cost hl) (Q' := fun _ => True) (by omega) fun _ _ => ?_
  refine Cost.bindN (B' := 6) (medianIdx_cost hl) (Q' := fun _ => True) (by omega) fun _ _ => ?_
  refine lessAt_cost hl fun s => ?_
  refine lessAt_cost hl fun s => ?_
  refine lessAt_cost hl fun s => ?_
  split
  · exact Cost.weaken (nintherEnd_cost hl) (by omega)
  · refine lessAt_cost hl fun s => ?_
    split
    · exact nintherEnd_cost hl
    · refine lessAt_cost hl fun s => ?_
      split
      · exact Cost.silent Silent.swap fun _ => trivial
      · refine lessAt_cost hl fun s => ?_
        split
        · exact Cost.silent Silent.swap fun _ => trivial
        · exact Cost.pure trivial

theorem nintherLoop_cost (hl : Asks c less) {frac a i b n : Nat} : Cost c (nintherLoop cfg less v frac a i b n) (12 * n) (fun _ _ => True) := by
  induction n generalizing a i b with
  | zero => exact Cost.pure trivial
  | succ n ih =>
    unfold nintherLoop
    refine Cost.silentB Silent.usub fun _ => ?_
    exact Cost.bindN (B' := 12 * n) (ninther_cost hl) (Q' := fun _ => True) (by omega) fun _ _ => ih

end leaf

/-! ### Budgets -/

/-- No more than `m` elements are equal to each other. -/
def Few (lt : α → α → Bool) (m : Nat) (xs : List α) : Prop := ∀ y ∈ xs, xs.countP (eqv lt y) ≤ m

theorem Few.sub {m : Nat} {xs ys : List α} (h : Few lt m xs) (hs : ys.Subperm xs) : Few lt m ys :=
  fun y hy => Nat.le_trans (hs.countP_le _) (h y (hs.subset hy))

/-- Comparisons per element of an array of up to `n` elements, without any use of the quality of pivots. -/
def smallRate (n : Nat) : Nat :=
  if n ≤ 10 then 10 else 10 * n + 1 + n / 12 * smallRate (n / 12)
termination_by n
decreasing_by omega

theorem smallRate_mono {a b : Nat} (h : a ≤ b) : smallRate a ≤ smallRate b := by
  induction b using Nat.strong_induction_on generalizing a with
  | _ b ih =>
    have ea := smallRate.eq_def a
    have eb := smallRate.eq_def b
    by_cases hb : b ≤ 10
    · rw [if_pos hb] at eb
      rw [if_pos (by omega)] at ea
      omega
    · rw [if_neg hb] at eb
      by_cases ha : a ≤ 10
      · rw [if_pos ha] at ea; omega
      · rw [if_neg ha] at ea
        have h1 := ih (b / 12) (by omega) (a := a / 12) (by omega)
        have h2 : a / 12 * smallRate (a / 12) ≤ b / 12 * smallRate (b / 12) := Nat.mul_le_mul (by omega) h1
        omega

/-- From this length on pivots are good if no more than `m` elements are equal. -/
def bigLen (m : Nat) : Nat := 1024 + 4096 * m

/-- Comparisons per element. -/
def momRate (m n : Nat) : Nat := if n ≤ bigLen m then smallRate n else smallRate (bigLen m) + 8400

theorem momRate_mono {m a b : Nat} (h : a ≤ b) : momRate m a ≤ momRate m b := by
  unfold momRate
  split
  · split
    · exact smallRate_mono h
    · have := smallRate_mono (a := a) (b := bigLen m) (by omega)
      omega
  · rw [if_neg (by omega)]

theorem momRate_le {m n : Nat} : momRate m n ≤ smallRate (bigLen m) + 8400 := by
  unfold momRate
  split
  · have := smallRate_mono (a := n) (b := bigLen m) (by omega)
    omega
  · omega

theorem momRate_ten {m n : Nat} : 10 ≤ momRate m n := by
  have h : momRate m 0 ≤ momRate m n := momRate_mono (by omega)
  have : momRate m 0 = 10 := by
    unfold momRate
    rw [if_pos (by omega), smallRate, if_pos (by omega)]
  omega

/-- The budget of `median_of_medians`. -/
def momBud (m n : Nat) : Nat := n * momRate m n

theorem fracOf_big {n : Nat} (h : 1024 < n) : n + 1 ≤ 2048 * fracOf cfg n ∧ 64 * fracOf cfg n ≤ n := by
  unfold fracOf
  rw [if_neg (by omega)]
  split <;> omega

/-- A round pays for itself. -/
theorem momBud_round {m n k : Nat} (h10 : 10 < n) (hk : k < n) (hb : 1024 < n → k + 2 * fracOf cfg n ≤ n + m) :
    2 * n + 1 + momBud m (fracOf cfg n) + momBud m k ≤ momBud m n := by
  have hf := fracOf_le (cfg := cfg) n
  have hbig := fracOf_big (cfg := cfg) (n := n)
  generalize fracOf cfg n = f at *
  unfold momBud
  by_cases hn : n ≤ bigLen m
  · have e : momRate m n = 10 * n + 1 + n / 12 * smallRate (n / 12) := by
      unfold momRate
      rw [if_pos hn, smallRate, if_neg (by omega)]
    have e2 : momRate m f ≤ smallRate (n / 12) := by
      unfold momRate
      rw [if_pos (by omega)]
      exact smallRate_mono (by omega)
    have h1 : f * momRate m f ≤ n / 12 * smallRate (n / 12) := Nat.mul_le_mul (by omega) e2
    have h2 : k * momRate m k ≤ (n - 1) * momRate m n := Nat.mul_le_mul (by omega) (momRate_mono (by omega))
    obtain ⟨n, rfl⟩ : ∃ n', n = n' + 1 := ⟨n - 1, by omega⟩
    rw [Nat.add_sub_cancel] at h2
    rw [Nat.add_mul, Nat.one_mul]
    omega
  · have e : momRate m n = smallRate (bigLen m) + 8400 := by
      unfold momRate
      rw [if_neg hn]
    have r1 := momRate_le (m := m) (n := f)
    have r2 := momRate_le (m := m) (n := k)
    rw [e]
    generalize smallRate (bigLen m) = r at *
    unfold bigLen at hn
    obtain ⟨hb1, hb2⟩ := hbig (by omega)
    have h3 := hb (by omega)
    have h1 : f * momRate m f ≤ f * (r + 8400) := Nat.mul_le_mul_left _ r1
    have h2 : k * momRate m k ≤ (n + m - 2 * f) * (r + 8400) := Nat.mul_le_mul (by omega) r2
    have h4 : (f - m) * 8400 ≤ (f - m) * (r + 8400) := Nat.mul_le_mul_left _ (by omega)
    have h5 : n * (r + 8400) = f * (r + 8400) + (n + m - 2 * f) * (r + 8400) + (f - m) * (r + 8400) := by
      rw [← Nat.add_mul, ← Nat.add_mul]
      congr 1
      omega
    omega

theorem TriB.sub {R : ι → Option ω → Prop} {p : Prog α ι ω β} {xs : List α} {B a n : Nat} {Q : β → List α → Nat → Prop} (hn : a + n ≤ v.len)
    (hx : xs.length = v.len) (h : TriB c R (v.sub a n).region p ((xs.drop a).take n) B Q) :
    TriB c R v.region p xs B (fun b zs r => ∃ ys, ys.length = n ∧ zs = xs.take a ++ ys ++ xs.drop (a + n) ∧ Q b ys r) := by
  rw [View.region_split v hn]
  have e : xs = xs.take a ++ (xs.drop a).take n ++ xs.drop (a + n) := by
    rw [List.append_assoc, ← List.drop_drop, List.take_append_drop, List.take_append_drop]
  have := TriB.part (l := (v.sub 0 a).region) (r := (v.sub (a + n) (v.len - (a + n))).region) (A := xs.take a) (Z := xs.drop (a + n)) h
    (by simp; omega) (by simp; omega)
  rw [← e] at this
  refine TriB.mono this ?_
  rintro b zs r _ ⟨ys, h1, h2, h3⟩
  exact ⟨ys, by rw [h1]; simp; omega, h2, h3⟩

theorem TriB.slice {R : ι → Option ω → Prop} {rg : List Addr} {xs : List α} {B a b : Nat} {k : View → Prog α ι ω β} {Q : β → List α → Nat → Prop}
    (hab : a ≤ b) (hb : b ≤ v.len) (h : TriB c R rg (k (v.sub a (b - a))) xs B Q) : TriB c R rg (v.slice a b >>= k) xs B Q := by
  unfold View.slice
  simp only [show ¬ b < a by omega, if_false, show a ≤ v.len ∧ b ≤ v.len from ⟨by omega, hb⟩, and_self, if_true]
  exact h

variable (C lt c) in
/-- What is assumed about the recursive calls of `median_of_medians`. -/
def MomB (m d : Nat) (rec : View → Nat → Prog α ι ω Unit) : Prop :=
  ∀ v k (xs : List α), v.len < 2 ^ d → 1 ≤ d → xs.length = v.len → (k < v.len ∨ v.len = 0) → Few lt m xs →
    TriB c C.R v.region (rec v k) xs (momBud m v.len) (fun _ ys _ => ys.Perm xs ∧ (k < v.len → SelectedAt lt k ys))

theorem medianOfNinthers_budget {m d : Nat} {rec : View → Nat → Prog α ι ω Unit} {xs : List α} (hg : C.Good lt) (hl : Asks c C.less)
    (hrec : MomB C lt c m d rec) (hd : v.len < 2 ^ (d + 1)) (hx : xs.length = v.len) (h10 : 10 < v.len) (hfew : Few lt m xs) :
    TriB c C.R v.region (medianOfNinthers cfg C.less rec v) xs (2 * v.len + 1 + momBud m (fracOf cfg v.len))
      (fun r ys _ => ys.Perm xs ∧ ∃ p A B, ys = A ++ p :: B ∧ r = A.length ∧ (∀ a ∈ A, lt a p = true) ∧ (∀ b ∈ B, lt b p = false) ∧
        (1024 < v.len → A.length + 2 * fracOf cfg v.len ≤ v.len + m ∧ B.length + 2 * fracOf cfg v.len ≤ v.len + m)) := by
  unfold medianOfNinthers
  dsimp only
  have hf := fracOf_le (cfg := cfg) v.len
  have hbig := fracOf_big (cfg := cfg) (n := v.len)
  generalize fracOf cfg v.len = f at hf hbig ⊢
  have hd1 : 1 ≤ d := by
    rcases d with _ | d
    · simp at hd; omega
    · omega
  rw [Nat.pow_succ] at hd
  refine TriB.usub (by omega) (TriB.usub (by omega) (TriB.usub (by omega) (TriB.usub (by omega) ?_)))
  generalize ha : v.len / 2 - f / 2 - 4 * f - (v.len - 9 * f) / 4 = a
  generalize hb : f + (v.len / 2 - f / 2) + (v.len - 9 * f) / 4 = b
  generalize hlo : v.len / 2 - f / 2 = lo at *
  rw [Nat.add_sub_cancel]
  refine TriB.bindN (n := 12 * f) (B' := v.len + 1 + momBud m f) (Q' := fun _ ys => ys.Perm xs ∧ (1024 < v.len →
      ∀ j, j < f → ∃ m, ys[lo + j]? = some m ∧ Mid lt 4 m (vals ys (grp f a lo b j)))) ?_ (by omega) ?_
  · by_cases h1024 : 1024 < v.len
    · obtain ⟨hb1, hb2⟩ := hbig h1024
      refine TriB.mono (TriB.of_tri (nintherLoop_mid hg hx (.refl _) (Nat.le_refl _) (by omega) (by omega) (by omega)) (nintherLoop_cost hl)) ?_
      rintro _ ys _ _ ⟨⟨h1, _, h2⟩, _⟩
      exact ⟨h1, fun _ => h2⟩
    · refine TriB.mono (TriB.of_tri (nintherLoop_spec C (.refl _) (by omega) (by omega) (by omega) (by omega)) (nintherLoop_cost hl)) ?_
      rintro _ ys _ _ ⟨h1, _⟩
      exact ⟨h1, fun h => absurd h h1024⟩
  rintro _ ys hyl ⟨hy, hmid⟩
  rw [hx] at hyl
  refine TriB.slice (by omega) (by omega) ?_
  rw [Nat.add_sub_cancel_left]
  refine TriB.bindN (n := momBud m f) (B' := v.len + 1) (Q' := fun _ zs => ∃ M, M.length = f ∧ zs = ys.take lo ++ M ++ ys.drop (lo + f) ∧
    M.Perm ((ys.drop lo).take f) ∧ (0 < f → SelectedAt lt (f / 2) M)) ?_ (by omega) ?_
  · refine TriB.mono (TriB.sub (a := lo) (n := f) (by omega) hyl (hrec (v.sub lo f) (f / 2) _ (by simp; omega) hd1 (by simp; omega) (by simp; omega) ?_)) ?_
    · refine hfew.sub (List.Subperm.trans (List.Sublist.subperm ?_) hy.subperm)
      exact (List.take_sublist _ _).trans (List.drop_sublist _ _)
    · rintro _ zs _ _ ⟨M, h1, h2, h3, h4⟩
      exact ⟨M, h1, h2, h3, fun h => h4 (by simp; omega)⟩
  rintro _ zs hzl ⟨M, hM, rfl, hMp, hsel⟩
  have hzy : (ys.take lo ++ M ++ ys.drop (lo + f)).Perm ys := by
    have e : ys = ys.take lo ++ (ys.drop lo).take f ++ ys.drop (lo + f) := by
      rw [List.append_assoc, ← List.drop_drop, List.take_append_drop, List.take_append_drop]
    conv_rhs => rw [e]
    exact (hMp.append_left _).append_right _
  have hMi : (ys.take lo ++ M ++ ys.drop (lo + f))[lo + f / 2]? = M[f / 2]? ∨ f = 0 := by
    by_cases h0 : f = 0
    · exact .inr h0
    · left
      rw [List.append_assoc, List.getElem?_append_right (by simp), List.getElem?_append_left (by simp; omega)]
      congr 1
      simp
      omega
  generalize hzs : ys.take lo ++ M ++ ys.drop (lo + f) = zs at *
  refine TriB.bindN (n := v.len + 1) (B' := 0) (TriB.mono (TriB.of_tri (partition_spec C (xs := zs) (by omega) (by omega)) (partition_cost hl)) ?_)
    (Q' := fun r ws => ws.Perm zs ∧ ∃ p A B, zs[lo + f / 2]? = some p ∧ ws = A ++ p :: B ∧ r.1 = A.length ∧ (∀ a ∈ A, lt a p = true) ∧
      (∀ b ∈ B, lt b p = false)) (by omega) ?_
  · rintro r ws _ _ ⟨⟨h1, p, A, B, h2, h3, h4, h5, h6⟩, _⟩
    exact ⟨h1, p, A, B, h2, h3, h4, fun a ha => (hg.2 _ _ _ (h5 a ha)).symm, fun b hb => (hg.2 _ _ _ (h6 b hb)).symm⟩
  rintro ⟨r, wp⟩ ws hwl ⟨hw, p, A, B, hp, rfl, hr, hA, hB⟩
  dsimp only at hr ⊢
  refine TriB.pure ⟨(hw.trans hzy).trans hy, p, A, B, rfl, hr, hA, hB, fun h1024 => ?_⟩
  obtain ⟨hb1, hb2⟩ := hbig h1024
  have hlen : A.length + 1 + B.length = v.len := by
    have := (hw.trans hzy).length_eq; simp at this; omega
  have hf0 : 0 < f := by omega
  have hMp' : M[f / 2]? = some p := by
    rcases hMi with h | h
    · rw [← h, hp]
    · omega
  have hin : ∀ j, j < f → ∀ q ∈ grp f a lo b j, q < ys.length := by
    intro j hj q hq
    simp only [grp, List.mem_cons, List.not_mem_nil, or_false] at hq
    omega
  obtain ⟨c1, c2⟩ := mid_groups hg.1 (G := grp f a lo b) (fun j hj => grp_nodup (Nat.le_refl f) (by omega) (by omega) hj)
    (fun j k hj hk q hq => grp_disjoint (Nat.le_refl f) (by omega) (by omega) hj hk hq) hin (hmid h1024) hMp (hsel hf0) hMp'
  rw [← (hw.trans hzy).countP_eq, List.countP_append, List.countP_cons] at c1 c2
  have a1 : A.countP (fun x => !lt p x) ≤ A.length := List.countP_le_length
  have a2 : A.countP (fun x => !lt x p) = 0 := List.countP_eq_zero.mpr (by simpa using hA)
  have a3 : B.countP (fun x => !lt x p) ≤ B.length := List.countP_le_length
  have a4 : B.countP (fun x => !lt p x) ≤ B.countP (eqv lt p) := by
    refine List.countP_mono_left fun x hx h => ?_
    simp only [eqv, hB x hx, Bool.not_false, Bool.and_true]
    exact h
  have a5 : B.countP (eqv lt p) ≤ m := by
    have hsub : B.Subperm xs := List.Subperm.trans (List.Sublist.subperm (by simp)) ((hw.trans hzy).trans hy).subperm
    have := (hfew p (((hw.trans hzy).trans hy).mem_iff.mp (by simp)))
    exact Nat.le_trans (hsub.countP_le _) this
  simp only [hg.1.irrefl, Bool.not_false, if_true] at c1 c2
  rw [hM] at c2
  omega

theorem TriB.onLeft {R : ι → Option ω → Prop} {p : Prog α ι ω β} {A B : List α} {x : α} {Bd : Nat} {Q : β → List α → Nat → Prop}
    (hl : A.length + 1 + B.length = v.len) (h : TriB c R (v.sub 0 A.length).region p A Bd Q) :
    TriB c R v.region p (A ++ x :: B) Bd (fun b zs r => ∃ A', A'.length = A.length ∧ zs = A' ++ x :: B ∧ Q b A' r) := by
  refine TriB.mono (TriB.sub (a := 0) (n := A.length) (by omega) (by simp; omega) (by simpa using h)) ?_
  rintro b zs r _ ⟨A', h1, h2, h3⟩
  exact ⟨A', h1, by simpa using h2, h3⟩

theorem TriB.onRight {R : ι → Option ω → Prop} {p : Prog α ι ω β} {A B : List α} {x : α} {Bd : Nat} {Q : β → List α → Nat → Prop}
    (hl : A.length + 1 + B.length = v.len) (h : TriB c R (v.sub (A.length + 1) (v.len - (A.length + 1))).region p B Bd Q) :
    TriB c R v.region p (A ++ x :: B) Bd (fun b zs r => ∃ B', B'.length = B.length ∧ zs = A ++ x :: B' ∧ Q b B' r) := by
  have h1 : (A ++ x :: B).drop (A.length + 1) = B := by
    rw [show A ++ x :: B = (A ++ [x]) ++ B by simp]
    exact List.drop_left' (by simp)
  have h2 : (A ++ x :: B).take (A.length + 1) = A ++ [x] := by
    rw [show A ++ x :: B = (A ++ [x]) ++ B by simp]
    exact List.take_left' (by simp)
  have h3 : v.len - (A.length + 1) = B.length := by omega
  refine TriB.mono (TriB.sub (a := A.length + 1) (n := v.len - (A.length + 1)) (by omega) (by simp; omega)
    (by rw [h1, h3, List.take_length, ← h3]; exact h)) ?_
  rintro b zs r _ ⟨B', g1, g2, g3⟩
  rw [h2, List.drop_eq_nil_of_le (by simp; omega)] at g2
  exact ⟨B', by omega, by simpa using g2, g3⟩

theorem TriB.throw {R : ι → Option ω → Prop} {rg : List Addr} {xs : List α} {B : Nat} {e : Panic} {Q : β → List α → Nat → Prop} :
    TriB c R rg (Prog.throw e : Prog α ι ω β) xs B Q := fun _ _ _ _ => Nat.le_add_right _ _

theorem TriB.debugAssert {R : ι → Option ω → Prop} {rg : List Addr} {xs : List α} {B : Nat} {b : Bool} {k : Unit → Prog α ι ω β}
    {Q : β → List α → Nat → Prop} (h : TriB c R rg (k ()) xs B Q) : TriB c R rg (NdSlice.debugAssert cfg b >>= k) xs B Q := by
  unfold NdSlice.debugAssert
  split
  · exact TriB.throw
  · exact h

theorem selectMax_cost {less : α → α → Prog α ι ω Bool} (hl : Asks c less) {k : Nat} :
    Cost c (do let m ← maxIndex less v; v.swap m k) (v.len - 1) (fun _ _ => True) :=
  Cost.bindN (B' := 0) (maxIndex_cost hl) (Q' := fun _ => True) (by omega) fun _ _ => Cost.silent Silent.swap fun _ => trivial

theorem selectMin_cost {less : α → α → Prog α ι ω Bool} (hl : Asks c less) {k : Nat} :
    Cost c (do let m ← minIndex less v; v.swap m k) (v.len - 1) (fun _ _ => True) :=
  Cost.bindN (B' := 0) (minIndex_cost hl) (Q' := fun _ => True) (by omega) fun _ _ => Cost.silent Silent.swap fun _ => trivial

theorem momBud_ten {m n : Nat} : n * 10 ≤ momBud m n := Nat.mul_le_mul_left _ momRate_ten

theorem part_lt (so : SWO lt) {A : List α} {p : α} (hA : ∀ a ∈ A, lt a p = true) : ∀ a ∈ A, lt p a = false := fun a ha => so.asymm (hA a ha)

theorem momLoop_budget {m d n : Nat} {rec : View → Nat → Prog α ι ω Unit} {k : Nat} {xs : List α} (hg : C.Good lt) (hl : Asks c C.less)
    (hrec : MomB C lt c m d rec) (hd : v.len < 2 ^ (d + 1)) (hx : xs.length = v.len) (hn : v.len < n) (hk : k < v.len ∨ v.len = 0)
    (hfew : Few lt m xs) :
    TriB c C.R v.region (momLoop cfg C.less rec n v k) xs (momBud m v.len)
      (fun _ ys _ => ys.Perm xs ∧ (k < v.len → SelectedAt lt k ys)) := by
  induction n generalizing v k xs with
  | zero => omega
  | succ n ih =>
    have hten := momBud_ten (m := m) (n := v.len)
    unfold momLoop
    by_cases h10 : v.len ≤ 10
    · rw [if_pos h10]
      by_cases h1 : v.len > 1
      · rw [if_pos h1]
        have : (v.len - 1) * (v.len - 1) ≤ v.len * 10 := Nat.mul_le_mul (by omega) (by omega)
        refine TriB.mono (TriB.weaken (TriB.of_tri (insertionSortShiftLeft_spec C (by omega) (by omega) hx)
          (insertionSortShiftLeft_cost hl)) (by omega)) ?_
        rintro _ ys _ _ ⟨⟨h2, h3⟩, _⟩
        refine ⟨h2, fun hk => SelectedAt.of_sorted (h3 lt hg ?_).1 (by rw [h2.length_eq, hx]; exact hk)⟩
        cases xs with
        | nil => simpa using Sorted.nil
        | cons x _ => simpa using Sorted.single x
      · rw [if_neg h1]
        refine TriB.pure ⟨.refl _, fun hk => SelectedAt.of_sorted ?_ (by omega)⟩
        match xs, hx with
        | [], _ => exact Sorted.nil
        | [x], _ => exact Sorted.single x
        | _ :: _ :: _, h => simp at h; omega
    · rw [if_neg h10]
      refine TriB.usub (by omega) ?_
      by_cases hlast : k = v.len - 1
      · rw [if_pos hlast]
        refine TriB.mono (TriB.weaken (TriB.of_tri (selectMax_spec C (by omega) hx) (selectMax_cost hl)) (by omega)) ?_
        exact fun _ ys _ _ h => ⟨h.1.1, fun _ => h.1.2 lt hg⟩
      rw [if_neg hlast]
      by_cases h0 : k = 0
      · rw [if_pos h0]
        subst h0
        refine TriB.mono (TriB.weaken (TriB.of_tri (selectMin_spec C (by omega) hx) (selectMin_cost hl)) (by omega)) ?_
        exact fun _ ys _ _ h => ⟨h.1.1, fun _ => h.1.2 lt hg⟩
      rw [if_neg h0]
      have hround := fun k h1 h2 => momBud_round (cfg := cfg) (m := m) (n := v.len) (k := k) (by omega) h1 h2
      have hr0 := hround 0 (by omega) (fun _ => by have := fracOf_le (cfg := cfg) v.len; omega)
      refine TriB.bindN (B' := momBud m v.len - (2 * v.len + 1 + momBud m (fracOf cfg v.len)))
        (medianOfNinthers_budget hg hl hrec hd hx (by omega) hfew) (by omega) ?_
      rintro _ _ _ ⟨hperm, p, A, B, rfl, rfl, hA, hB, hbal⟩
      have hlen : A.length + 1 + B.length = v.len := by
        have := hperm.length_eq; simp at this; omega
      replace hA := part_lt hg.1 hA
      by_cases he : A.length = k
      · rw [if_pos he]
        exact TriB.pure ⟨hperm, fun _ => ⟨A, p, B, rfl, he, hA, hB⟩⟩
      rw [if_neg he]
      by_cases hgt : A.length > k
      · rw [if_pos hgt]
        refine TriB.splitAt (by omega) ?_
        dsimp only
        have h2 := hround A.length (by omega) (fun h => (hbal h).1)
        refine TriB.mono (TriB.onLeft hlen (TriB.weaken (ih (v := v.sub 0 A.length) (k := k) (by simp; omega) (by simp) (by simp; omega)
          (by simp; omega) (hfew.sub (List.Subperm.trans (List.Sublist.subperm (by simp)) hperm.subperm))) (by simp; omega))) ?_
        rintro _ _ _ _ ⟨A', _, rfl, h1, h2⟩
        exact ⟨(h1.append_right _).trans hperm, fun _ => SelectedAt.left hg.1 (h2 (by simpa using hgt)) h1 hA hB⟩
      · rw [if_neg hgt]
        refine TriB.splitAt (by omega) (TriB.usub (by omega) ?_)
        have h2 := hround B.length (by omega) (fun h => (hbal h).2)
        have e : v.len - (A.length + 1) = B.length := by omega
        refine TriB.mono (TriB.onRight hlen (TriB.weaken (ih (v := v.sub (A.length + 1) (v.len - (A.length + 1))) (by simp; omega)
          (by simp; omega) (by simp; omega) (by simp; omega)
          (hfew.sub (List.Subperm.trans (List.Sublist.subperm (by simp)) hperm.subperm))) (by rw [View.sub_len, e]; omega))) ?_
        rintro _ _ _ _ ⟨B', _, rfl, h1, h2⟩
        refine ⟨((h1.cons p).append_left A).trans hperm, fun hk => ?_⟩
        have := SelectedAt.right hg.1 (h2 (by simp; omega)) h1 hA hB
        rwa [show A.length + 1 + (k - (A.length + 1)) = k by omega] at this

theorem medianOfMedians_budget (hg : C.Good lt) (hl : Asks c C.less) (m d : Nat) : MomB C lt c m d (medianOfMedians cfg C.less d) := by
  induction d with
  | zero => intro v k xs _ h; omega
  | succ d ih =>
    intro v k xs hd _ hx hk hfew
    unfold medianOfMedians
    exact TriB.debugAssert (TriB.debugAssert (momLoop_budget hg hl ih hd hx (by omega) hk hfew))

/-! ### Quickselect -/

/-- The rate of `median_of_medians` for all lengths. -/
def topRate (m : Nat) : Nat := smallRate (bigLen m) + 8400

/-- The budget of the selection loop with limit `L`, balanced `b`, with a predecessor `f`. -/
def selBud (m n L b f : Nat) : Nat := n * (topRate m + 90 + 6 * (L + b) + 3 * f)

theorem selBud_partition {m n k L L' b b' f f' : Nat} (hk : k < n) (hL : (b = 1 ∧ L' = L) ∨ L' + 1 ≤ L) (hf : f' ≤ 1)
    (hb : b' = 0 ∨ (b' = 1 ∧ 15 * k ≤ 14 * n)) : 3 * n + selBud m k L' b' f' ≤ selBud m n L b f := by
  unfold selBud
  generalize topRate m = K
  rcases hb with rfl | ⟨rfl, hb⟩
  · have h1 : k * (K + 90 + 6 * (L' + 0) + 3 * f') ≤ n * (K + 90 + 6 * L' + 3) := Nat.mul_le_mul (by omega) (by omega)
    have h2 : n * (K + 90 + 6 * L' + 3 + 3) ≤ n * (K + 90 + 6 * (L + b) + 3 * f) := Nat.mul_le_mul_left _ (by omega)
    rw [Nat.mul_add n (K + 90 + 6 * L' + 3) 3] at h2
    omega
  · generalize hr : K + 90 + 6 * (L' + 1) = r
    have h1 : k * (r + 3 * f') ≤ k * (r + 3) := Nat.mul_le_mul_left _ (by omega)
    have h2 : n * r ≤ n * (K + 90 + 6 * (L + b) + 3 * f) := Nat.mul_le_mul_left _ (by omega)
    have h3 : (n - k) * 90 ≤ (n - k) * r := Nat.mul_le_mul_left _ (by omega)
    have h4 : n * r = (n - k) * r + k * r := by rw [← Nat.add_mul]; congr 1; omega
    rw [Nat.mul_add] at h1
    rw [Nat.mul_add] at h1
    rw [Nat.mul_add k r]
    omega

theorem selBud_equal {m n k L L' b : Nat} (hk : k < n) (hL : L' ≤ L) : 3 * n + selBud m k L' b 0 ≤ selBud m n L b 1 := by
  unfold selBud
  generalize topRate m = K
  have h1 : k * (K + 90 + 6 * (L' + b) + 3 * 0) ≤ n * (K + 90 + 6 * (L + b)) := Nat.mul_le_mul (by omega) (by omega)
  rw [Nat.mul_add n (K + 90 + 6 * (L + b)) (3 * 1)]
  omega

theorem selLoop_budget (hg : C.Good lt) (hl : Asks c C.less) {m n k limit : Nat} {bal : Bool} {pred : Option Addr} {P xs : List α}
    (hP : P.length = pred.toList.length) (hx : xs.length = v.len) (hn : v.len < n) (hk : k < v.len) (hfew : Few lt m xs) :
    TriB c C.R (qrg pred v) (selLoop cfg C.less n v k pred limit bal) (P ++ xs) (selBud m v.len limit bal.toNat pred.toList.length)
      (fun _ zs _ => QB P xs zs) := by
  induction n generalizing v k pred limit bal P xs with
  | zero => omega
  | succ n ih =>
    have hbase : v.len * 90 ≤ selBud m v.len limit bal.toNat pred.toList.length := Nat.mul_le_mul_left _ (by omega)
    have htop : v.len * topRate m ≤ selBud m v.len limit bal.toNat pred.toList.length := Nat.mul_le_mul_left _ (by omega)
    unfold selLoop
    by_cases h10 : v.len ≤ 10
    · rw [if_pos h10, if_pos (by omega)]
      have : (v.len - 1) * (v.len - 1) ≤ v.len * 10 := Nat.mul_le_mul (by omega) (by omega)
      refine TriB.mono (TriB.weaken (TriB.onView hP hx (TriB.of_tri (insertionSortShiftLeft_spec C (by omega) (by omega) hx)
        (insertionSortShiftLeft_cost hl))) (by omega)) ?_
      rintro _ _ _ _ ⟨ys, _, rfl, ⟨h1, _⟩, _⟩
      exact ⟨ys, rfl, h1⟩
    rw [if_neg h10]
    by_cases hlim : limit = 0
    · rw [if_pos hlim]
      have hm : momBud m v.len ≤ v.len * topRate m := Nat.mul_le_mul_left _ momRate_le
      refine TriB.mono (TriB.weaken (TriB.onView hP hx (medianOfMedians_budget hg hl m _ v k xs Nat.lt_log2_self (by omega) hx (.inl hk) hfew))
        (by omega)) ?_
      rintro _ _ _ _ ⟨ys, _, rfl, h1, _⟩
      exact ⟨ys, rfl, h1⟩
    rw [if_neg hlim]
    generalize hB : selBud m v.len limit bal.toNat pred.toList.length = Bd at *
    refine TriB.bindN (n := 0) (B' := Bd) (Q' := fun l zs => (∃ ys, zs = P ++ ys ∧ ys.Perm xs) ∧
      ((bal.toNat = 1 ∧ l = limit) ∨ l + 1 ≤ limit)) ?_ (by omega) ?_
    · cases bal with
      | true => exact TriB.pure ⟨⟨xs, rfl, .refl _⟩, .inl ⟨rfl, rfl⟩⟩
      | false =>
        simp only [Bool.not_false, if_true]
        refine TriB.bindN (n := 0) (B' := 0) (Q' := fun _ zs => ∃ ys, zs = P ++ ys ∧ ys.Perm xs) ?_ (by omega) ?_
        · refine TriB.mono (TriB.onView hP hx (TriB.of_tri (breakPatterns_spec (E := fun _ _ => True) hx)
            (Cost.silent (Q := fun _ _ => True) breakPatterns_silent fun _ => trivial))) ?_
          rintro _ _ _ _ ⟨ys, _, rfl, h1, _⟩
          exact ⟨ys, rfl, h1⟩
        · rintro _ _ _ ⟨ys, rfl, h1⟩
          unfold NdSlice.usub
          rw [if_pos (by omega)]
          exact TriB.pure ⟨⟨ys, rfl, h1⟩, .inr (by omega)⟩
    rintro l _ _ ⟨⟨ys, rfl, hy⟩, hL⟩
    have hyl : ys.length = v.len := by rw [hy.length_eq, hx]
    refine TriB.bindN (n := 12) (B' := Bd - 12) (Q' := fun r ws => ∃ zs, ws = P ++ zs ∧ zs.Perm ys ∧ r.1 < v.len) ?_ (by omega) ?_
    · refine TriB.mono (TriB.onView hP hyl (TriB.of_tri (choosePivot_spec C (by omega) hyl) (choosePivot_cost hl))) ?_
      rintro _ _ _ _ ⟨zs, _, rfl, ⟨h1, h2⟩, _⟩
      exact ⟨zs, rfl, h1, h2⟩
    rintro ⟨pivot, likely⟩ _ _ ⟨us, rfl, hu, hpv⟩
    dsimp only at hpv ⊢
    replace hu := hu.trans hy
    have hul : us.length = v.len := by rw [hu.length_eq, hx]
    rw [selPredCheck_eq]
    refine TriB.bindN (n := 1) (B' := Bd - 12 - 1) (TriB.mono (TriB.of_tri (predCheck_spec (C := C) (E := fun _ _ => True) hP hpv (fun _ => trivial))
      (predCheck_cost hl)) (fun b ys r _ h => h.1)) (by omega) ?_
    rintro cc _ _ ⟨rfl, hc⟩
    cases cc with
    | true =>
      simp only [if_true]
      obtain ⟨p, x, rfl, hxp, hpx⟩ := hc rfl
      refine TriB.bindN (n := v.len - 1) (B' := Bd - 12 - 1 - (v.len - 1)) (TriB.mono (TriB.onView hP hul (TriB.of_tri (partitionEqual_spec C hul (by omega) hpv)
        (partitionEqual_cost hl)))
        (Q' := fun b zs _ => ∃ ys, zs = [p] ++ ys ∧ ys.Perm us ∧ ∃ x A B, ys = x :: A ++ B ∧ b = A.length + 1) ?_) (by omega) ?_
      · rintro b _ _ _ ⟨ys, _, rfl, ⟨h1, x, A, B, _, h2, h3, _⟩, _⟩
        exact ⟨ys, rfl, h1, x, A, B, h2, h3⟩
      rintro mid _ _ ⟨_, rfl, hperm, x, A, B, rfl, rfl⟩
      have hlen : A.length + 1 + B.length = v.len := by
        have := hperm.length_eq; simp at this; omega
      have hpermx := hperm.trans hu
      by_cases hmk : A.length + 1 > k
      · rw [if_pos hmk]
        exact TriB.pure ⟨_, rfl, hpermx⟩
      · rw [if_neg hmk]
        refine TriB.splitAt (by omega) (TriB.usub (by omega) ?_)
        dsimp only
        have ih' := ih (v := v.sub (A.length + 1) (v.len - (A.length + 1))) (k := k - (A.length + 1)) (pred := none)
          (P := []) (xs := B) (limit := l) (bal := bal) rfl (by simp; omega) (by simp; omega) (by simp; omega)
          (hfew.sub (List.Subperm.trans (List.Sublist.subperm (by simp)) hpermx.subperm))
        have hreg : qrg pred v = (pred.toList ++ (v.sub 0 (A.length + 1)).region) ++
            qrg none (v.sub (A.length + 1) (v.len - (A.length + 1))) ++ [] := by
          unfold qrg
          rw [View.region_split v (a := A.length + 1) (n := v.len - (A.length + 1)) (by omega),
            show v.len - (A.length + 1 + (v.len - (A.length + 1))) = 0 by omega]
          simp [View.region]
        have hpay := selBud_equal (m := m) (n := v.len) (k := v.len - (A.length + 1)) (L := limit) (L' := l) (b := bal.toNat) (by omega) (by omega)
        have e1 : pred.toList.length = 1 := by rw [← hP]; rfl
        rw [e1] at hB
        rw [hreg, show [p] ++ (x :: A ++ B) = (p :: x :: A) ++ ([] ++ B) ++ [] by simp]
        refine TriB.mono (TriB.part (TriB.weaken ih' ?_) (by rw [List.length_append, ← hP]; simp; omega) (by simp [qrg]; omega)) ?_
        · simp only [View.sub_len, Option.toList_none, List.length_nil]
          omega
        · rintro _ _ _ _ ⟨B', _, rfl, _, hzB, h1⟩
          rw [List.nil_append] at hzB; subst hzB
          exact ⟨x :: A ++ B', by simp, (h1.append_left (x :: A)).trans hpermx⟩
    | false =>
      simp only [Bool.false_eq_true, if_false]
      refine TriB.bindN (n := v.len + 1) (B' := Bd - 12 - 1 - (v.len + 1)) (TriB.mono (TriB.onView hP hul (TriB.of_tri (partition_spec C hul hpv)
        (partition_cost hl)))
        (Q' := fun b zs _ => ∃ ys, zs = P ++ ys ∧ ys.Perm us ∧ ∃ p A B, ys = A ++ p :: B ∧ b.1 = A.length) ?_) (by omega) ?_
      · rintro b _ _ _ ⟨ys, _, rfl, ⟨h1, x, A, B, _, h2, h3, _⟩, _⟩
        exact ⟨ys, rfl, h1, x, A, B, h2, h3⟩
      rintro ⟨mid, wasP⟩ _ _ ⟨_, rfl, hperm, p, A, B, rfl, hm⟩
      dsimp only at hm
      subst hm
      have hlen : A.length + 1 + B.length = v.len := by
        have := hperm.length_eq; simp at this; omega
      have hpermx := hperm.trans hu
      dsimp only
      refine TriB.usub (by omega) (TriB.splitAt (by omega) (TriB.splitAt (by simp; omega) (TriB.vref (by simp) ?_)))
      dsimp only
      rw [View.sub_sub, View.sub_addr, View.sub_addr, Nat.add_zero, Nat.add_zero, View.sub_len,
        show v.len - A.length - 1 = v.len - (A.length + 1) by omega]
      have hreg : qrg pred v = qrg pred (v.sub 0 A.length) ++
          qrg (some (v.addr A.length)) (v.sub (A.length + 1) (v.len - (A.length + 1))) := by
        unfold qrg
        rw [region_three (v := v) (mid := A.length) (by omega)]
        simp
      have hpf : pred.toList.length ≤ 1 := by cases pred <;> simp
      have hbal : ∀ k, (k = A.length ∨ k = v.len - (A.length + 1)) → (decide (min A.length (v.len - A.length) ≥ v.len / 8)).toNat = 0 ∨
          ((decide (min A.length (v.len - A.length) ≥ v.len / 8)).toNat = 1 ∧ 15 * k ≤ 14 * v.len) := by
        intro k hk
        by_cases h : min A.length (v.len - A.length) ≥ v.len / 8
        · right
          rw [decide_eq_true h]
          refine ⟨rfl, ?_⟩
          omega
        · left
          rw [decide_eq_false h]
          rfl
      by_cases hlt : A.length < k
      · rw [if_pos hlt]
        refine TriB.usub (by omega) (TriB.usub (by omega) ?_)
        have hpay := selBud_partition (m := m) (n := v.len) (k := v.len - (A.length + 1)) (f := pred.toList.length) (f' := 1)
          (by omega) hL (by omega) (hbal _ (.inr rfl))
        have ih' := ih (v := v.sub (A.length + 1) (v.len - (A.length + 1))) (k := k - A.length - 1) (pred := some (v.addr A.length))
          (P := [p]) (xs := B) (limit := l) (bal := decide (min A.length (v.len - A.length) ≥ v.len / 8))
          rfl (by simp; omega) (by simp; omega) (by simp; omega) (hfew.sub (List.Subperm.trans (List.Sublist.subperm (by simp)) hpermx.subperm))
        rw [hreg, show P ++ (A ++ p :: B) = (P ++ A) ++ ([p] ++ B) ++ [] by simp, ← List.append_nil (qrg pred _ ++ _)]
        refine TriB.mono (TriB.part (TriB.weaken ih' ?_) (by simp [qrg, hP]) (by simp [qrg]; omega)) ?_
        · simp only [View.sub_len, Option.toList_some, List.length_cons, List.length_nil, Nat.zero_add]
          omega
        · rintro _ _ _ _ ⟨zs, _, rfl, B', rfl, h1⟩
          exact ⟨A ++ p :: B', by simp, ((h1.cons p).append_left A).trans hpermx⟩
      rw [if_neg hlt]
      by_cases hgt : A.length > k
      · rw [if_pos hgt]
        have hpay := selBud_partition (m := m) (n := v.len) (k := A.length) (f := pred.toList.length) (f' := pred.toList.length)
          (by omega) hL (by omega) (hbal _ (.inl rfl))
        have ih' := ih (v := v.sub 0 A.length) (k := k) (pred := pred)
          (P := P) (xs := A) (limit := l) (bal := decide (min A.length (v.len - A.length) ≥ v.len / 8))
          hP (by simp) (by simp; omega) (by simp; omega) (hfew.sub (List.Subperm.trans (List.Sublist.subperm (by simp)) hpermx.subperm))
        rw [hreg, show P ++ (A ++ p :: B) = [] ++ (P ++ A) ++ ([p] ++ B) by simp,
          ← List.nil_append (qrg pred (v.sub 0 A.length))]
        refine TriB.mono (TriB.part (TriB.weaken ih' ?_) rfl (by simp [qrg, hP])) ?_
        · simp only [View.sub_len]
          omega
        · rintro _ _ _ _ ⟨zs, _, rfl, A', rfl, h1⟩
          exact ⟨A' ++ p :: B, by simp, (h1.append_right _).trans hpermx⟩
      · rw [if_neg hgt]
        exact TriB.pure ⟨_, rfl, hpermx⟩

/-- The rate of selection. -/
def selRate (m : Nat) : Nat := topRate m + 192

theorem partitionAtIndex_budget (hg : C.Good lt) (hl : Asks c C.less) {m k : Nat} {xs : List α} (hx : xs.length = v.len) (hfew : Few lt m xs) :
    TriB c C.R v.region (partitionAtIndex cfg C.less v k) xs (v.len * selRate m)
      (fun r ys _ => k < v.len ∧ r = (v.sub 0 k, v.addr k, v.sub (k + 1) (v.len - (k + 1))) ∧ ys.Perm xs) := by
  unfold partitionAtIndex
  by_cases hk : k ≥ v.len
  · rw [if_pos hk]
    exact TriB.throw
  rw [if_neg hk]
  have hone : v.len * 1 ≤ v.len * selRate m := Nat.mul_le_mul_left _ (by unfold selRate; omega)
  refine TriB.bindN (n := v.len * selRate m) (B' := 0) (Q' := fun _ ys => ys.Perm xs) ?_ (by omega) ?_
  · split
    · exact TriB.pure (.refl _)
    · refine TriB.usub (by omega) ?_
      by_cases hlast : k = v.len - 1
      · rw [if_pos hlast]
        exact TriB.mono (TriB.weaken (TriB.of_tri (selectMax_spec C (by omega) hx) (selectMax_cost hl)) (by omega)) (fun _ ys _ _ h => h.1.1)
      rw [if_neg hlast]
      by_cases h0 : k = 0
      · rw [if_pos h0]
        subst h0
        exact TriB.mono (TriB.weaken (TriB.of_tri (selectMin_spec C (by omega) hx) (selectMin_cost hl)) (by omega)) (fun _ ys _ _ h => h.1.1)
      rw [if_neg h0]
      unfold partitionAtIndexLoop
      refine TriB.mono (TriB.weaken (selLoop_budget hg hl (m := m) (pred := none) (P := []) rfl hx (by omega) (by omega) hfew) ?_) ?_
      · exact Nat.mul_le_mul_left _ (by unfold selRate; simp)
      · rintro _ _ _ _ ⟨ys, rfl, h1⟩
        exact h1
  · rintro _ ys _ h
    refine TriB.splitAt (by omega) (TriB.splitAt (by simp; omega) (TriB.vref (by simp) (TriB.pure ⟨by omega, ?_, h⟩)))
    simp only [View.sub_sub, View.sub_addr, Nat.add_zero, View.sub_len]
    rw [show v.len - k - 1 = v.len - (k + 1) by omega]

theorem TriB.usubAny {R : ι → Option ω → Prop} {rg : List Addr} {xs : List α} {B a b : Nat} {k : Nat → Prog α ι ω β}
    {Q : β → List α → Nat → Prop} (h : ∀ i, TriB c R rg (k i) xs B Q) : TriB c R rg (NdSlice.usub cfg a b >>= k) xs B Q := by
  unfold NdSlice.usub
  split
  · exact h _
  · split
    · exact TriB.throw
    · exact h _

theorem partitionAtIndices_budget (hg : C.Good lt) (hl : Asks c C.less) {m n off d : Nat} {is : List Nat} {xs : List α}
    (hx : xs.length = v.len) (hn : is.length < n) (hd : is.length < 2 ^ d) (hfew : Few lt m xs) :
    TriB c C.R v.region (partitionAtIndices cfg C.less n v off is) xs (v.len * selRate m * d) (fun _ ys _ => ys.Perm xs) := by
  induction n generalizing v off is xs d with
  | zero => omega
  | succ n ih =>
    unfold partitionAtIndices
    split
    · exact TriB.pure (.refl _)
    · rename_i pivot h
      have hpos : is.length / 2 < is.length := by
        by_contra hh
        rw [List.getElem?_eq_none (by omega)] at h
        exact absurd h (by simp)
      obtain ⟨d, rfl⟩ : ∃ e, d = e + 1 := by
        cases d with
        | zero =>
          rw [Nat.pow_zero] at hd
          omega
        | succ e => exact ⟨e, rfl⟩
      rw [Nat.pow_succ] at hd
      rw [Nat.mul_add, Nat.mul_one]
      refine TriB.usubAny fun i => TriB.bindN (B' := v.len * selRate m * d) (partitionAtIndex_budget hg hl hx hfew) (by omega) ?_
      rintro _ ys hyl ⟨hi, rfl, hperm⟩
      dsimp only
      obtain ⟨A, p, B, rfl, rfl⟩ := split_at (xs := ys) (i := i) (by omega)
      have hlen : A.length + 1 + B.length = v.len := by simp at hyl; omega
      have hpay : A.length * selRate m * d + B.length * selRate m * d ≤ v.len * selRate m * d := by
        rw [← Nat.add_mul, ← Nat.add_mul]
        exact Nat.mul_le_mul_right _ (Nat.mul_le_mul_right _ (by omega))
      refine TriB.bindN (n := A.length * selRate m * d) (B' := B.length * selRate m * d)
        (Q' := fun _ zs => ∃ A', zs = A' ++ p :: B ∧ A'.Perm A)
        (TriB.mono (TriB.onLeft hlen (TriB.weaken (ih (v := v.sub 0 A.length) (d := d) (by simp) (by simp; omega) (by simp; omega)
          (hfew.sub (List.Subperm.trans (List.Sublist.subperm (by simp)) hperm.subperm))) (by simp))) ?_) hpay ?_
      · rintro _ _ _ _ ⟨A', _, rfl, h1⟩
        exact ⟨A', rfl, h1⟩
      rintro _ _ _ ⟨A', rfl, hA⟩
      rw [← hA.length_eq] at hlen ⊢
      refine TriB.bindN (n := B.length * selRate m * d) (B' := 0) (Q' := fun _ zs => zs.Perm xs)
        (TriB.mono (TriB.onRight hlen (TriB.weaken (ih (v := v.sub (A'.length + 1) (v.len - (A'.length + 1))) (d := d) (by simp; omega) (by simp; omega)
          (by simp; omega) (hfew.sub (List.Subperm.trans (List.Sublist.subperm (by simp)) hperm.subperm))) ?_)) ?_) (by omega) ?_
      · rw [View.sub_len, show v.len - (A'.length + 1) = B.length by omega]
      · rintro _ _ _ _ ⟨B', _, rfl, h1⟩
        exact (hA.append (h1.cons p)).trans hperm
      · rintro _ _ _ h1
        exact TriB.pure h1

/-! ### In parallel -/

theorem TriB.rayonJoin {R : ι → Option ω → Prop} {β γ : Type} {rg1 rg2 : List Addr} {p : Prog α ι ω β} {q : Prog α ι ω γ}
    {A Z : List α} {B1 B2 : Nat} {Q1 : β → List α → Nat → Prop} {Q2 : γ → List α → Nat → Prop} {Q : β × γ → List α → Nat → Prop}
    (hA : A.length = rg1.length) (hp : TriB c R rg1 p A B1 Q1) (hq : TriB c R rg2 q Z B2 Q2)
    (h : ∀ b d A' Z' r t, A'.length = A.length → Z'.length = Z.length → Q1 b A' r → Q2 d Z' t → Q (b, d) (A' ++ Z') (r + t)) :
    TriB c R (rg1 ++ rg2) (Prog.rayonJoin p q) (A ++ Z) (B1 + B2) Q := by
  intro m lg nd hm
  rw [List.map_append] at hm
  obtain ⟨hm1, hm2⟩ := List.append_inj hm (by simp [hA])
  rw [List.nodup_append] at nd
  rw [Nat.mul_add]
  refine ⟨(· ∈ rg1), (· ∈ rg2), fun a h => by simp [h], fun a h => by simp [h], fun a h1 h2 => nd.2.2 a h1 a h2 rfl,
    fun r m' l => match r with
      | .ok b => ∃ t, l.length + c * t ≤ c * B1 ∧ Q1 b (rg1.map m') t
      | .panic _ => l.length ≤ c * B1,
    fun r m' l => match r with
      | .ok b => ∃ t, l.length + c * t ≤ c * B2 ∧ Q2 b (rg2.map m') t
      | .panic _ => l.length ≤ c * B2,
    by simpa using hp m [] nd.1 hm1, by simpa using hq m [] nd.2.1 hm2, ?_⟩
  intro r t m1 m2 l1 l2 h1 h2 m' d e1 e2 _ hd
  have f1 : rg1.map m' = rg1.map m1 := List.map_congr_left fun a ha => e1 a ha
  have f2 : rg2.map m' = rg2.map m2 := List.map_congr_left fun a ha => e2 a ha
  have hl : d.length = l1.length + l2.length := by rw [hd.length_eq, List.length_append]
  cases r with
  | ok b =>
    cases t with
    | ok d' =>
      obtain ⟨r1, a1, a2⟩ := h1
      obtain ⟨r2, b1, b2⟩ := h2
      refine ⟨r1 + r2, ?_, ?_⟩
      · rw [List.length_append, Nat.mul_add]; omega
      · rw [List.map_append, f1, f2]
        exact h _ _ _ _ _ _ (by simp [hA]) (by rw [← hm2]; simp) a2 b2
    | panic e =>
      obtain ⟨r1, a1, a2⟩ := h1
      have h2 : l2.length ≤ c * B2 := h2
      show (lg ++ d).length ≤ _
      rw [List.length_append]; omega
  | panic e =>
    have h1 : l1.length ≤ c * B1 := h1
    cases t with
    | ok d' =>
      obtain ⟨r2, b1, b2⟩ := h2
      show (lg ++ d).length ≤ _
      rw [List.length_append]; omega
    | panic e' =>
      have h2 : l2.length ≤ c * B2 := h2
      show (lg ++ d).length ≤ _
      rw [List.length_append]; omega

theorem TriB.assertP {R : ι → Option ω → Prop} {rg : List Addr} {xs : List α} {B : Nat} {b : Bool} {k : Unit → Prog α ι ω β}
    {Q : β → List α → Nat → Prop} (h : TriB c R rg (k ()) xs B Q) : TriB c R rg (NdSlice.assertP b >>= k) xs B Q := by
  unfold NdSlice.assertP
  split
  · exact h
  · exact TriB.throw

theorem parPartitionAtIndices_budget (hg : C.Good lt) (hl : Asks c C.less) {m n off d vs vl : Nat} {is : List Nat} {xs : List α}
    (hx : xs.length = v.len) (hn : is.length < n) (hd : is.length < 2 ^ d) (hfew : Few lt m xs) :
    TriB c C.R v.region (parPartitionAtIndices cfg C.less n v off is vs vl) xs (v.len * selRate m * d) (fun _ ys _ => ys.Perm xs) := by
  induction n generalizing v off is xs d vs vl with
  | zero => omega
  | succ n ih =>
    unfold parPartitionAtIndices
    split
    · exact TriB.pure (.refl _)
    · rename_i pivot h
      have hpos : is.length / 2 < is.length := by
        by_contra hh
        rw [List.getElem?_eq_none (by omega)] at h
        exact absurd h (by simp)
      obtain ⟨d, rfl⟩ : ∃ e, d = e + 1 := by
        cases d with
        | zero =>
          rw [Nat.pow_zero] at hd
          omega
        | succ e => exact ⟨e, rfl⟩
      rw [Nat.pow_succ] at hd
      rw [Nat.mul_add, Nat.mul_one]
      refine TriB.usubAny fun i => TriB.bindN (B' := v.len * selRate m * d) (partitionAtIndex_budget hg hl hx hfew) (by omega) ?_
      rintro _ ys hyl ⟨hi, rfl, hperm⟩
      dsimp only
      refine TriB.assertP (TriB.assertP (TriB.assertP (TriB.usubAny fun i' => ?_)))
      obtain ⟨A, p, B, rfl, rfl⟩ := split_at (xs := ys) (i := i) (by omega)
      have hlen : A.length + 1 + B.length = v.len := by simp at hyl; omega
      have hpay : A.length * selRate m * d + B.length * selRate m * d ≤ v.len * selRate m * d := by
        rw [← Nat.add_mul, ← Nat.add_mul]
        exact Nat.mul_le_mul_right _ (Nat.mul_le_mul_right _ (by omega))
      have ihL := fun vs vl => ih (v := v.sub 0 A.length) (d := d) (off := off) (is := is.take (is.length / 2)) (vs := vs) (vl := vl) (xs := A)
        (by simp) (by simp; omega) (by simp; omega) (hfew.sub (List.Subperm.trans (List.Sublist.subperm (by simp)) hperm.subperm))
      have ihR := fun vs vl => ih (v := v.sub (A.length + 1) (v.len - (A.length + 1))) (d := d) (off := pivot + 1)
        (is := is.drop (is.length / 2 + 1)) (vs := vs) (vl := vl) (xs := B)
        (by simp; omega) (by simp; omega) (by simp; omega) (hfew.sub (List.Subperm.trans (List.Sublist.subperm (by simp)) hperm.subperm))
      simp only [View.sub_len, show v.len - (A.length + 1) = B.length by omega] at ihL ihR
      rw [show v.len - (A.length + 1) = B.length by omega]
      split
      · refine TriB.bindN (n := A.length * selRate m * d) (B' := B.length * selRate m * d)
          (Q' := fun _ zs => ∃ A', zs = A' ++ p :: B ∧ A'.Perm A) (TriB.mono (TriB.onLeft hlen (ihL _ _)) ?_) hpay ?_
        · rintro _ _ _ _ ⟨A', _, rfl, h1⟩
          exact ⟨A', rfl, h1⟩
        rintro _ _ _ ⟨A', rfl, hA⟩
        rw [← hA.length_eq] at hlen
        refine TriB.bindN (n := B.length * selRate m * d) (B' := 0) (Q' := fun _ zs => zs.Perm xs)
          (TriB.mono (TriB.onRight hlen (by
            rw [hA.length_eq, show v.len - (A.length + 1) = B.length by rw [← hA.length_eq]; omega]; exact ihR _ _)) ?_) (by omega) ?_
        · rintro _ _ _ _ ⟨B', _, rfl, h1⟩
          exact (hA.append (h1.cons p)).trans hperm
        · rintro _ _ _ h1
          exact TriB.pure h1
      · have hR' := fun vs vl => TriB.part (l := [v.addr A.length]) (r := []) (A := [p]) (Z := []) (ihR vs vl) (by simp) (by simp)
        rw [region_three (v := v) (mid := A.length) (by omega), show v.len - (A.length + 1) = B.length by omega]
        simp only [List.append_nil, List.singleton_append] at hR'
        refine TriB.bindN (n := A.length * selRate m * d + B.length * selRate m * d) (B' := 0) (Q' := fun _ zs => zs.Perm xs)
          (TriB.rayonJoin (by simp) (ihL _ _) (hR' _ _) ?_) (by omega) ?_
        · rintro _ _ A' Z' _ _ _ _ h1 ⟨B', _, rfl, h2⟩
          exact (h1.append (h2.cons p)).trans hperm
        · rintro ⟨_, _⟩ _ _ h1
          exact TriB.pure h1

end NdSlice
