import Verif.Core.TriB
import Verif.Proof.CostLeaf
import Verif.Proof.Quick

/-
How many comparisons the sequential quicksort makes with a consistent comparator.
-/

namespace NdSlice

variable {α ι ω : Type} {cfg : Cfg} {C : Cmp α ι ω} {c : Nat} {lt : α → α → Bool}

/-- The potential of the length: one less for every balanced partition. -/
def lev (n : Nat) : Nat := Nat.log2 (n ^ 8)

theorem lev_mono {a b : Nat} (h : a ≤ b) : lev a ≤ lev b := log2_mono (Nat.pow_le_pow_left h 8)

theorem lev_lt {k n : Nat} (hk : 23 * k ≤ 21 * n) (hn : 2 ≤ n) : lev k + 1 ≤ lev n := by
  unfold lev
  have h1 := Nat.pow_le_pow_left hk 8
  rw [Nat.mul_pow, Nat.mul_pow] at h1
  have h2 : 2 * k ^ 8 ≤ n ^ 8 := by
    have : 2 * 21 ^ 8 ≤ 23 ^ 8 := by decide
    have h3 : 21 ^ 8 * (2 * k ^ 8) ≤ 21 ^ 8 * n ^ 8 := by
      calc 21 ^ 8 * (2 * k ^ 8) = (2 * 21 ^ 8) * k ^ 8 := by ring
        _ ≤ 23 ^ 8 * k ^ 8 := Nat.mul_le_mul_right _ this
        _ ≤ _ := h1
    exact Nat.le_of_mul_le_mul_left h3 (Nat.pow_pos (by omega))
  have hn8 : 2 ^ 8 ≤ n ^ 8 := Nat.pow_le_pow_left hn 8
  by_cases hk0 : k = 0
  · subst hk0
    have : 8 ≤ Nat.log2 (n ^ 8) := (Nat.le_log2 (by omega)).mpr hn8
    simp
    omega
  · have hk8 : k ^ 8 ≠ 0 := (Nat.pow_pos (by omega)).ne'
    rw [Nat.le_log2 (by omega), pow_succ]
    have := Nat.log2_self_le hk8
    omega

theorem lev_le (n : Nat) : lev n ≤ 8 * Nat.log2 n + 7 := by
  unfold lev
  by_cases hn : n = 0
  · subst hn; simp
  · have h1 : n ^ 8 < (2 ^ (Nat.log2 n + 1)) ^ 8 := Nat.pow_lt_pow_left Nat.lt_log2_self (by norm_num)
    rw [← pow_mul] at h1
    have := (Nat.log2_lt (Nat.pow_pos (Nat.pos_of_ne_zero hn)).ne').mpr h1
    omega

/-- What a call of `recurse` needs per element: limit `L`, balanced `b`, elements equal to the predecessor possible `f`. -/
def rate (n L b f : Nat) : Nat := 26 * (lev n + 2 * L + b) + 13 * f + 3 * Nat.log2 n + 19

/-- A call of `recurse`. -/
def QBudget (n L b f : Nat) : Nat := n * rate n L b f

variable (C lt) in
/-- What is known of the predecessor `P` of the contents `xs`. -/
structure PredOk (P xs : List α) (f : Nat) : Prop where
  le : ∀ p ∈ P, ∀ x ∈ xs, lt x p = false
  flag : f = 0 → ∀ p ∈ P, ∀ x ∈ xs, lt p x = true

/-- The result of a call of `recurse`. -/
def QB (P xs zs : List α) : Prop := ∃ ys, zs = P ++ ys ∧ ys.Perm xs

theorem PredOk.perm {P xs ys : List α} {f : Nat} (h : PredOk lt P xs f) (hp : ys.Perm xs) : PredOk lt P ys f :=
  ⟨fun p hp' x hx => h.le p hp' x (hp.mem_iff.mp hx), fun hf p hp' x hx => h.flag hf p hp' x (hp.mem_iff.mp hx)⟩

theorem PredOk.sub {P xs ys : List α} {f : Nat} (h : PredOk lt P xs f) (hp : ∀ x ∈ ys, x ∈ xs) : PredOk lt P ys f :=
  ⟨fun p hp' x hx => h.le p hp' x (hp x hx), fun hf p hp' x hx => h.flag hf p hp' x (hp x hx)⟩

variable (C c lt) in
/-- What is assumed about recursive calls. -/
def RecB (d : Nat) (rec : View → Option Addr → Nat → Prog α ι ω Unit) : Prop :=
  ∀ v pred limit f (P xs : List α), DepthOk none d v.len → P.length = pred.toList.length → xs.length = v.len → PredOk lt P xs f →
    TriB c C.R (qrg pred v) (rec v pred limit) (P ++ xs) (QBudget v.len limit 1 f) (fun _ zs _ => QB P xs zs)

variable (C c lt) in
/-- What is assumed about the rest of the loop. -/
def ContB (n : Nat) (K : QSt → Prog α ι ω Unit) : Prop :=
  ∀ (s : QSt) f (P xs : List α), s.v.len < n → P.length = s.pred.toList.length → xs.length = s.v.len → PredOk lt P xs f →
    TriB c C.R (qrg s.pred s.v) (K s) (P ++ xs) (QBudget s.v.len s.limit s.bal.toNat f) (fun _ zs _ => QB P xs zs)

variable (C c) in
/-- The postcondition of an iteration: go on with the rest of the loop, or done. -/
def StepB (rg : List Addr) (K : QSt → Prog α ι ω Unit) (P xs : List α) : QSt ⊕ Unit → List α → Nat → Prop
  | .inl s', zs, r => TriB c C.R rg (K s') zs r (fun _ zs _ => QB P xs zs)
  | .inr _, zs, _ => QB P xs zs

theorem TriB.onView {β : Type} {pred : Option Addr} {v : View} {p : Prog α ι ω β} {P xs : List α} {B : Nat}
    {Q : β → List α → Nat → Prop} (hP : P.length = pred.toList.length) (hx : xs.length = v.len)
    (h : TriB c C.R v.region p xs B Q) :
    TriB c C.R (qrg pred v) p (P ++ xs) B (fun b zs r => ∃ ys, ys.length = xs.length ∧ zs = P ++ ys ∧ Q b ys r) := by
  have := TriB.part (l := pred.toList) (r := []) (A := P) (Z := []) h hP (by simpa using hx)
  simp only [List.append_nil] at this
  exact this

theorem rate_pay {k1 k2 n r1 r2 r : Nat} (hk : k1 + k2 + 1 = n) (h1 : r1 + 13 ≤ r) (h2 : r2 + 13 ≤ r) :
    13 * n + (k1 * r1 + k2 * r2) ≤ n * r := by
  obtain ⟨r, rfl⟩ : ∃ r', r = r' + 13 := ⟨r - 13, by omega⟩
  have e1 : k1 * r1 ≤ k1 * r := Nat.mul_le_mul_left _ (by omega)
  have e2 : k2 * r2 ≤ k2 * r := Nat.mul_le_mul_left _ (by omega)
  subst hk
  have : (k1 + k2 + 1) * (r + 13) = k1 * r + k2 * r + r + 13 * (k1 + k2 + 1) := by ring
  omega

/-- The potential drops for both parts of a partition. -/
theorem rate_split {n k1 k2 L L' b f b1 b2 : Nat} (hk : k1 + k2 + 1 = n) (hn : 20 < n) (hb1 : b1 ≤ 1) (hb2 : b2 ≤ 1)
    (hL : (b = 1 ∧ L' = L) ∨ L' + 1 ≤ L) (hs1 : b1 = 0 ∨ 23 * k1 ≤ 21 * n) (hs2 : b2 = 0 ∨ 23 * k2 ≤ 21 * n) :
    rate k1 L' b1 f + 13 ≤ rate n L b f ∧ rate k2 L' b2 1 + 13 ≤ rate n L b f := by
  have g1 := log2_mono (show k1 ≤ n by omega)
  have g2 := log2_mono (show k2 ≤ n by omega)
  have l1 := lev_mono (show k1 ≤ n by omega)
  have l2 := lev_mono (show k2 ≤ n by omega)
  have s1 : b1 = 0 ∨ lev k1 + 1 ≤ lev n := hs1.imp_right fun h => lev_lt h (by omega)
  have s2 : b2 = 0 ∨ lev k2 + 1 ≤ lev n := hs2.imp_right fun h => lev_lt h (by omega)
  unfold rate
  constructor <;> omega

theorem quickSplit_budget {d : Nat} {rec : View → Option Addr → Nat → Prog α ι ω Unit} (hg : C.Good lt) (hl : Asks c C.less)
    {s : QSt} {limit pivot f B : Nat} {K : QSt → Prog α ι ω Unit} {P xs : List α}
    (hrec : RecB C c lt d rec) (hd : DepthOk none (d + 1) s.v.len) (hK : ContB C c lt s.v.len K)
    (hP : P.length = s.pred.toList.length) (hx : xs.length = s.v.len) (hpv : pivot < s.v.len) (h20 : 20 < s.v.len)
    (hf : PredOk lt P xs f) (hL : (s.bal.toNat = 1 ∧ limit = s.limit) ∨ limit + 1 ≤ s.limit)
    (hB : s.v.len + 1 + (QBudget s.v.len s.limit s.bal.toNat f - 13 * s.v.len) ≤ B) :
    TriB c C.R (qrg s.pred s.v) (quickSplit cfg C.less none rec s limit pivot) (P ++ xs) B
      (StepB C c (qrg s.pred s.v) K P xs) := by
  obtain ⟨v, pred, lim, bal, part⟩ := s
  dsimp only at *
  unfold quickSplit
  refine TriB.bindN (TriB.mono (TriB.onView hP hx (TriB.of_tri (partition_spec C hx hpv) (partition_cost hl)))
    (Q' := fun b zs _ => ∃ ys, ys.length = xs.length ∧ zs = P ++ ys ∧ ys.Perm xs ∧ ∃ p A B, xs[pivot]? = some p ∧ ys = A ++ p :: B ∧ b.1 = A.length ∧
        (∀ a ∈ A, C.ans a p true) ∧ (∀ b ∈ B, C.ans b p false)) ?_) hB ?_
  · rintro b zs r _ ⟨ys, h1, h2, h3, _⟩
    exact ⟨ys, h1, h2, h3⟩
  rintro ⟨mid, wasP⟩ _ _ ⟨_, hyl, rfl, hperm, p, A, B, _, rfl, hm, hA, hB⟩
  dsimp only at hm
  subst hm
  have hl : A.length + B.length + 1 = v.len := by
    have := hperm.length_eq; simp at this; omega
  dsimp only
  refine TriB.usub (by omega) (TriB.splitAt (by omega) ?_)
  dsimp only
  refine TriB.splitAt (by simp; omega) (TriB.vref (by simp) ?_)
  dsimp only
  rw [View.sub_sub, View.sub_addr, View.sub_addr, Nat.add_zero, Nat.add_zero, View.sub_len,
    show v.len - A.length - 1 = v.len - (A.length + 1) by omega]
  generalize hlft : v.sub 0 A.length = left
  generalize hrgt : v.sub (A.length + 1) (v.len - (A.length + 1)) = right
  have hll : left.len = A.length := by rw [← hlft]; rfl
  have hrl : right.len = B.length := by rw [← hrgt, View.sub_len]; omega
  have hreg : qrg pred v = qrg pred left ++ qrg (some (v.addr A.length)) right := by
    unfold qrg
    rw [region_three (v := v) (mid := A.length) (by omega), hlft, hrgt]
    simp
  have hcont : P ++ (A ++ p :: B) = (P ++ A) ++ ([p] ++ B) := by simp
  rw [hreg, hcont]
  have hPl : (P ++ A).length = (qrg pred left).length := by simp [qrg, hP, hll]
  have hfA : PredOk lt P A f := hf.sub fun x hx => hperm.mem_iff.mp (by simp [hx])
  have hfB : PredOk lt [p] B 1 :=
    ⟨fun q hq x hx => by rw [List.mem_singleton.mp hq]; exact (hg.2 _ _ _ (hB x hx)).symm, by simp⟩
  have toQ : ∀ A' B', A'.Perm A → B'.Perm B → QB P xs ((P ++ A') ++ ([p] ++ B')) := by
    intro A' B' h1 h2
    exact ⟨A' ++ p :: B', by simp, (h1.append (h2.cons p)).trans hperm⟩
  unfold quickDescend
  have hseq : goesSeq none (max left.len right.len) = true := rfl
  rw [if_pos hseq]
  generalize hbal : decide (min A.length (v.len - A.length) ≥ v.len / 8) = bal'
  have hs : bal' = true → 23 * A.length ≤ 21 * v.len ∧ 23 * B.length ≤ 21 * v.len := by
    intro h
    rw [h, decide_eq_true_eq] at hbal
    omega
  have hb1 : bal'.toNat ≤ 1 := by cases bal' <;> simp
  have hb0 : bal' = true ∨ bal'.toNat = 0 := by cases bal' <;> simp
  by_cases hlr : left.len < right.len
  · rw [if_pos hlr]
    have hr := rate_split (f := f) (b1 := 1) (b2 := bal'.toNat) hl h20 (Nat.le_refl 1) hb1 hL (.inr (by omega))
      (hb0.symm.imp_right fun h => (hs h).2)
    have hpay := rate_pay hl hr.1 hr.2
    refine TriB.bindN (n := QBudget left.len limit 1 f) (B' := QBudget right.len limit bal'.toNat 1)
      (Q' := fun _ zs => ∃ A', A'.Perm A ∧ zs = (P ++ A') ++ ([p] ++ B)) ?_ ?_ ?_
    · have := TriB.part (l := []) (r := qrg (some (v.addr A.length)) right) (A := []) (Z := [p] ++ B)
        (hrec left pred limit f P A (hd.half (by omega) (by omega)) hP hll.symm hfA) rfl hPl
      simp only [List.nil_append] at this
      refine TriB.mono this ?_
      rintro _ _ _ _ ⟨_, _, rfl, A', rfl, h⟩
      exact ⟨A', h, rfl⟩
    · rw [hll, hrl]
      unfold QBudget
      omega
    · rintro _ _ _ ⟨A', hA1, rfl⟩
      refine TriB.pure ?_
      dsimp only [StepB]
      have hl' : (P ++ A').length = (qrg pred left).length := by rw [← hPl]; simp [hA1.length_eq]
      have := TriB.part (l := qrg pred left) (r := []) (A := P ++ A') (Z := [])
        (hK ⟨right, some (v.addr A.length), limit, bal', wasP⟩ 1 [p] B (by dsimp only; omega) (by simp) hrl.symm hfB) hl' (by simp [qrg, hrl])
      simp only [List.append_nil] at this
      refine TriB.mono this ?_
      rintro _ _ _ _ ⟨_, _, rfl, B', rfl, h⟩
      exact toQ A' B' hA1 h
  · rw [if_neg hlr]
    have hr := rate_split (f := f) (b1 := bal'.toNat) (b2 := 1) hl h20 hb1 (Nat.le_refl 1) hL 
      (hb0.symm.imp_right fun h => (hs h).1) (.inr (by omega))
    have hpay := rate_pay hl hr.1 hr.2
    refine TriB.bindN (n := QBudget right.len limit 1 1) (B' := QBudget left.len limit bal'.toNat f)
      (Q' := fun _ zs => ∃ B', B'.Perm B ∧ zs = (P ++ A) ++ ([p] ++ B')) ?_ ?_ ?_
    · have := TriB.part (l := qrg pred left) (r := []) (A := P ++ A) (Z := [])
        (hrec right (some (v.addr A.length)) limit 1 [p] B (hd.half (by omega) (by omega)) rfl hrl.symm hfB) hPl (by simp [qrg, hrl])
      simp only [List.append_nil] at this
      refine TriB.mono this ?_
      rintro _ _ _ _ ⟨_, _, rfl, B', rfl, h⟩
      exact ⟨B', h, rfl⟩
    · rw [hll, hrl]
      unfold QBudget
      omega
    · rintro _ _ _ ⟨B', hB1, rfl⟩
      refine TriB.pure ?_
      dsimp only [StepB]
      have := TriB.part (l := []) (r := qrg (some (v.addr A.length)) right) (A := []) (Z := [p] ++ B')
        (hK ⟨left, pred, limit, bal', wasP⟩ f P A (by dsimp only; omega) hP hll.symm hfA) rfl hPl
      simp only [List.nil_append] at this
      refine TriB.mono this ?_
      rintro _ _ _ _ ⟨_, _, rfl, A', rfl, h⟩
      exact toQ A' B' h hB1

theorem quickStep_budget {d : Nat} {rec : View → Option Addr → Nat → Prog α ι ω Unit} (hg : C.Good lt) (hl : Asks c C.less)
    {s : QSt} {f : Nat} {K : QSt → Prog α ι ω Unit} {P xs : List α}
    (hrec : RecB C c lt d rec) (hd : DepthOk none (d + 1) s.v.len) (hK : ContB C c lt s.v.len K)
    (hP : P.length = s.pred.toList.length) (hx : xs.length = s.v.len) (hf : PredOk lt P xs f) :
    TriB c C.R (qrg s.pred s.v) (quickStep cfg C.less none rec s) (P ++ xs) (QBudget s.v.len s.limit s.bal.toNat f)
      (StepB C c (qrg s.pred s.v) K P xs) := by
  unfold quickStep
  dsimp only
  by_cases h20 : s.v.len ≤ 20
  · rw [if_pos h20]
    by_cases h2 : s.v.len ≥ 2
    · rw [if_pos h2]
      refine TriB.bindN (n := (s.v.len - 1) * (s.v.len - 1)) (B' := 0) (Q' := fun _ zs => QB P xs zs) ?_ ?_ (fun _ _ _ h => TriB.pure h)
      · refine TriB.mono (TriB.onView hP hx (TriB.of_tri (insertionSortShiftLeft_spec C (by omega) (by omega) hx) (insertionSortShiftLeft_cost hl))) ?_
        rintro _ _ _ _ ⟨ys, _, rfl, ⟨h1, _⟩, _⟩
        exact ⟨ys, rfl, h1⟩
      · unfold QBudget
        have : (s.v.len - 1) * (s.v.len - 1) ≤ s.v.len * 19 := Nat.mul_le_mul (by omega) (by omega)
        have : s.v.len * 19 ≤ s.v.len * rate s.v.len s.limit s.bal.toNat f := Nat.mul_le_mul_left _ (by unfold rate; omega)
        omega
    · rw [if_neg h2]
      exact TriB.pure ⟨xs, rfl, .refl _⟩
  rw [if_neg h20]
  by_cases hlim : s.limit = 0
  · rw [if_pos hlim]
    refine TriB.bindN (n := s.v.len * (3 * Nat.log2 s.v.len)) (B' := 0) (Q' := fun _ zs => QB P xs zs) ?_ ?_ (fun _ _ _ h => TriB.pure h)
    · refine TriB.mono (TriB.onView hP hx (TriB.of_tri (heapSort_spec C hx) (heapSort_cost hl))) ?_
      rintro _ _ _ _ ⟨ys, _, rfl, ⟨h1, _⟩, _⟩
      exact ⟨ys, rfl, h1⟩
    · exact Nat.mul_le_mul_left _ (by unfold rate; omega)
  rw [if_neg hlim]
  have hbig : 13 * s.v.len ≤ QBudget s.v.len s.limit s.bal.toNat f := by
    rw [Nat.mul_comm]
    exact Nat.mul_le_mul_left _ (by unfold rate; omega)
  refine TriB.bindN (n := 0) (B' := QBudget s.v.len s.limit s.bal.toNat f)
    (Q' := fun limit zs => (∃ ys, zs = P ++ ys ∧ ys.Perm xs) ∧ ((s.bal.toNat = 1 ∧ limit = s.limit) ∨ limit + 1 ≤ s.limit)) ?_ (by omega) ?_
  · by_cases hb : s.bal = true
    · simp only [hb, Bool.not_true, Bool.false_eq_true, if_false]
      exact TriB.pure ⟨⟨xs, rfl, .refl _⟩, .inl ⟨rfl, rfl⟩⟩
    · simp only [hb, Bool.not_false, if_true]
      refine TriB.bindN (n := 0) (B' := 0) (Q' := fun _ zs => ∃ ys, zs = P ++ ys ∧ ys.Perm xs) ?_ (by omega) ?_
      · refine TriB.mono (TriB.onView hP hx (TriB.of_tri (breakPatterns_spec (E := fun _ _ => True) hx)
          (Cost.silent (Q := fun _ _ => True) breakPatterns_silent fun _ => trivial))) ?_
        rintro _ _ _ _ ⟨ys, _, rfl, h1, _⟩
        exact ⟨ys, rfl, h1⟩
      · rintro _ _ _ ⟨ys, rfl, h1⟩
        unfold NdSlice.usub
        rw [if_pos (by omega)]
        exact TriB.pure ⟨⟨ys, rfl, h1⟩, .inr (by omega)⟩
  rintro limit _ _ ⟨⟨ys, rfl, hy⟩, hL⟩
  have hyl : ys.length = s.v.len := by rw [hy.length_eq, hx]
  refine TriB.bindN (n := 12) (B' := QBudget s.v.len s.limit s.bal.toNat f - 12)
    (Q' := fun r ws => ∃ zs, ws = P ++ zs ∧ zs.Perm ys ∧ r.1 < s.v.len) ?_ (by omega) ?_
  · refine TriB.mono (TriB.onView hP hyl (TriB.of_tri (choosePivot_spec C (by omega) hyl) (choosePivot_cost hl))) ?_
    rintro _ _ _ _ ⟨zs, _, rfl, ⟨h1, h2⟩, _⟩
    exact ⟨zs, rfl, h1, h2⟩
  rintro ⟨pivot, likely⟩ _ _ ⟨zs, rfl, hz, hpv⟩
  dsimp only at hpv ⊢
  replace hz := hz.trans hy
  have hzl : zs.length = s.v.len := by rw [hz.length_eq, hx]
  refine TriB.bindN (n := 11 * s.v.len + 4) (B' := QBudget s.v.len s.limit s.bal.toNat f - 12 - (11 * s.v.len + 4))
    (Q' := fun _ ws => ∃ us, ws = P ++ us ∧ us.Perm xs) ?_ (by omega) ?_
  · by_cases hc : (s.bal && s.part && likely) = true
    · rw [if_pos hc]
      refine TriB.mono (TriB.onView hP hzl (TriB.of_tri (partialInsertionSort_spec C hzl (by omega)) (partialInsertionSort_cost hl (by omega)))) ?_
      rintro _ _ _ _ ⟨us, _, rfl, ⟨h1, _⟩, _⟩
      exact ⟨us, rfl, h1.trans hz⟩
    · rw [if_neg hc]
      exact TriB.pure ⟨zs, rfl, hz⟩
  rintro done _ _ ⟨us, rfl, hu⟩
  have hul : us.length = s.v.len := by rw [hu.length_eq, hx]
  cases done with
  | true =>
    simp only [if_true]
    exact TriB.pure ⟨us, rfl, hu⟩
  | false =>
    simp only [Bool.false_eq_true, if_false]
    refine TriB.bindN (n := 1) (B' := QBudget s.v.len s.limit s.bal.toNat f - 12 - (11 * s.v.len + 4) - 1)
      (Q' := fun b zs => zs = P ++ us ∧ (b = true → ∃ p x, P = [p] ∧ us[pivot]? = some x ∧ C.ans p x false)) ?_ (by omega) ?_
    · refine TriB.mono (TriB.of_tri (predCheck_spec (C := C) (E := fun _ _ => True) hP hpv fun _ => trivial) (predCheck_cost hl)) ?_
      rintro _ _ _ _ ⟨h1, _⟩
      exact h1
    rintro b _ _ ⟨rfl, hc⟩
    cases b with
    | false =>
      simp only [Bool.false_eq_true, if_false]
      refine TriB.mono (quickSplit_budget hg hl hrec hd hK hP hul hpv (by omega) (hf.perm hu) hL (by omega)) ?_
      rintro (s' | _) ws _ _ h
      · refine TriB.mono (Q := fun _ zs _ => QB P us zs) (Q' := fun _ zs _ => QB P xs zs) h ?_
        rintro _ _ _ _ ⟨ys', h1, h2⟩
        exact ⟨ys', h1, h2.trans hu⟩
      · obtain ⟨ys', h1, h2⟩ := h
        exact ⟨ys', h1, h2.trans hu⟩
    | true =>
      simp only [if_true]
      obtain ⟨p, x, rfl, hxp, hpx⟩ := hc rfl
      have hxm : x ∈ us := List.mem_of_getElem? hxp
      have hpx' : lt p x = false := (hg.2 _ _ _ hpx).symm
      have hf1 : 1 ≤ f := by
        rcases Nat.eq_zero_or_pos f with h | h
        · have := (hf.perm hu).flag h p (by simp) x hxm
          rw [hpx'] at this
          cases this
        · exact h
      refine TriB.bindN (n := s.v.len - 1) (B' := QBudget s.v.len s.limit s.bal.toNat f - 13 * s.v.len)
        (Q' := fun k zs => ∃ ys, ys.length = us.length ∧ zs = [p] ++ ys ∧ ys.Perm us ∧ ∃ p A B, us[pivot]? = some p ∧ ys = p :: A ++ B ∧ k = A.length + 1 ∧
          (∀ a ∈ A, C.ans p a false) ∧ (∀ b ∈ B, C.ans p b true)) ?_ (by omega) ?_
      · refine TriB.mono (TriB.onView hP hul (TriB.of_tri (partitionEqual_spec C hul (by omega) hpv) (partitionEqual_cost hl))) ?_
        rintro b zs r _ ⟨ys, h1, h2, h3, _⟩
        exact ⟨ys, h1, h2, h3⟩
      rintro k _ _ ⟨_, hyl', rfl, hperm, x', A, B, hx', rfl, rfl, hA, hB⟩
      rw [hxp] at hx'; injection hx' with hx'; subst hx'
      have hl : A.length + 1 + B.length = s.v.len := by simp at hyl'; omega
      refine TriB.splitAt (by omega) ?_
      refine TriB.pure ?_
      dsimp only [StepB]
      have hreg : qrg s.pred s.v = s.pred.toList ++ (s.v.sub 0 (A.length + 1)).region ++ (s.v.sub (A.length + 1) (s.v.len - (A.length + 1))).region := by
        unfold qrg
        rw [View.region_split s.v (a := A.length + 1) (n := s.v.len - (A.length + 1)) (by omega), List.append_assoc, List.append_assoc]
        congr 2
        have : s.v.len - (A.length + 1 + (s.v.len - (A.length + 1))) = 0 := by omega
        rw [this]
        simp [View.region]
      rw [hreg, show [p] ++ (x :: A ++ B) = [p] ++ (x :: A) ++ B by simp]
      have hBm : ∀ b ∈ B, b ∈ xs := fun b hb => (hperm.trans hu).mem_iff.mp (by simp [hb])
      have hfB : PredOk lt [p] B 0 := by
        refine ⟨(hf.sub hBm).le, fun _ q hq b hb => ?_⟩
        rw [List.mem_singleton.mp hq]
        have h1 : lt x b = true := (hg.2 _ _ _ (hB b hb)).symm
        have h2 : lt x p = false := hf.le p (by simp) x (hu.mem_iff.mp hxm)
        by_contra h3
        rw [Bool.not_eq_true] at h3
        have := hg.1.ntrans _ _ _ h2 h3
        rw [h1] at this
        cases this
      have hcont := hK ⟨s.v.sub (A.length + 1) (s.v.len - (A.length + 1)), s.pred, limit, s.bal, s.part⟩ 0 [p] B
        (by simp; omega) hP (by simp; omega) hfB
      refine TriB.mono (TriB.weaken (TriB.outer (mid := (s.v.sub 0 (A.length + 1)).region) (M := x :: A) hcont hP (by simp)) ?_) ?_
      · dsimp only [View.sub_len]
        unfold QBudget
        have h1 : rate (s.v.len - (A.length + 1)) limit s.bal.toNat 0 + 13 ≤ rate s.v.len s.limit s.bal.toNat f := by
          have g1 := log2_mono (show s.v.len - (A.length + 1) ≤ s.v.len by omega)
          have l1 := lev_mono (show s.v.len - (A.length + 1) ≤ s.v.len by omega)
          unfold rate
          omega
        generalize rate (s.v.len - (A.length + 1)) limit s.bal.toNat 0 = r1 at *
        generalize rate s.v.len s.limit s.bal.toNat f = r2 at *
        obtain ⟨r2, rfl⟩ : ∃ r, r2 = r + 13 := ⟨r2 - 13, by omega⟩
        have : (s.v.len - (A.length + 1)) * r1 ≤ s.v.len * r2 := Nat.mul_le_mul (by omega) (by omega)
        rw [Nat.mul_add]
        omega
      · rintro _ _ _ _ ⟨A', B', h1, rfl, us', h3, h4⟩
        obtain ⟨p', rfl⟩ := List.length_eq_one_iff.mp (by simpa using h1)
        simp only [List.cons_append, List.nil_append, List.cons.injEq] at h3
        obtain ⟨rfl, rfl⟩ := h3
        exact ⟨(x :: A) ++ B', by simp, (h4.append_left (x :: A)).trans (hperm.trans hu)⟩

theorem recurse_budget (hg : C.Good lt) (hl : Asks c C.less) (d : Nat) : RecB C c lt d (recurse cfg C.less none d) := by
  induction d with
  | zero =>
    intro v pred limit f P xs hd
    unfold DepthOk at hd
    dsimp only at hd
    omega
  | succ d ih =>
    intro v pred limit f P xs hd hP hx hf
    have H : ∀ n, ∀ (s : QSt) f (P xs : List α), s.v.len < n → DepthOk none (d + 1) s.v.len → P.length = s.pred.toList.length →
        xs.length = s.v.len → PredOk lt P xs f →
        TriB c C.R (qrg s.pred s.v) (Prog.loop (quickStep cfg C.less none (recurse cfg C.less none d)) n s) (P ++ xs)
          (QBudget s.v.len s.limit s.bal.toNat f) (fun _ zs _ => QB P xs zs) := by
      intro n
      induction n with
      | zero => intro s f P xs h; omega
      | succ n ihn =>
        intro s f P xs hn hd hP hx hf
        unfold Prog.loop
        have hK : ContB C c lt s.v.len (Prog.loop (quickStep cfg C.less none (recurse cfg C.less none d)) n) := by
          intro s' f' P' xs' hlt hP' hx' hf'
          refine ihn s' f' P' xs' (by omega) ?_ hP' hx' hf'
          unfold DepthOk at *
          dsimp only at *
          omega
        refine TriB.bind (quickStep_budget hg hl ih hd hK hP hx hf) ?_
        rintro (s' | _) zs _ _ h
        · exact h
        · exact TriB.pure h
    exact H _ ⟨v, pred, limit, true, true⟩ f P xs (by simp) hd hP hx hf

theorem quickSort_budget (hg : C.Good lt) (hl : Asks c C.less) {v : View} {xs : List α} (hx : xs.length = v.len) :
    TriB c C.R v.region (quickSort cfg C.less v) xs (v.len * (263 * Nat.log2 v.len + 279)) (fun _ _ _ => True) := by
  unfold quickSort
  split
  · exact TriB.pure trivial
  · have := recurse_budget (cfg := cfg) hg hl (Nat.log2 v.len + 1) v none (bitLen v.len) 0 [] xs ⟨Nat.lt_log2_self, by omega⟩ rfl hx
      ⟨by simp, by simp⟩
    refine TriB.mono (TriB.weaken this (Nat.mul_le_mul_left _ ?_)) fun _ _ _ _ _ => trivial
    have h1 := lev_le v.len
    have h2 : bitLen v.len ≤ Nat.log2 v.len + 1 := by unfold bitLen; split <;> omega
    unfold rate
    omega

end NdSlice
