import Verif.Proof.SelectLinear

/-
How many comparisons the unstable sorts make if there are few different values: every second round on a path of the recursion does away with a value.
-/

namespace NdSlice

variable {α ι ω : Type} {cfg : Cfg} {C : Cmp α ι ω} {c : Nat} {lt : α → α → Bool} {N k0 : Nat} {maxSeq : Option Nat}

variable (lt) in
/-- There are at most `M / 2` different values, or so many above the predecessor and one more. -/
def FewP (P xs : List α) (M : Nat) : Prop :=
  (∀ l : List α, (∀ x ∈ l, x ∈ xs) → l.Pairwise (fun x y => lt x y = true) → 2 * l.length ≤ M) ∨
    ∃ p ∈ P, ∀ l : List α, (∀ x ∈ l, x ∈ xs ∧ lt p x = true) → l.Pairwise (fun x y => lt x y = true) → 2 * l.length + 1 ≤ M

theorem FewP.perm {P xs ys : List α} {M : Nat} (h : FewP lt P xs M) (hp : ys.Perm xs) : FewP lt P ys M :=
  h.imp (fun h l h1 => h l fun x hx => hp.mem_iff.mp (h1 x hx)) fun ⟨p, hP, h⟩ =>
    ⟨p, hP, fun l h1 => h l fun x hx => ⟨hp.mem_iff.mp (h1 x hx).1, (h1 x hx).2⟩⟩

/-- The values below one of the values. -/
theorem FewP.left {P xs A : List α} {M : Nat} {q : α} (h : FewP lt P xs M) (hq : q ∈ xs) (hP : ∀ p ∈ P, lt p q = true)
    (hA : ∀ a ∈ A, a ∈ xs ∧ lt a q = true) : 1 ≤ M ∧ FewP lt P A (M - 1) := by
  rcases h with h | ⟨p, hp, h⟩
  · have key : ∀ l : List α, (∀ x ∈ l, x ∈ A) → l.Pairwise (fun x y => lt x y = true) → 2 * (l.length + 1) ≤ M := by
      intro l h1 h2
      have := h (l ++ [q]) (by
        intro x hx
        rcases List.mem_append.mp hx with hx | hx
        · exact (hA x (h1 x hx)).1
        · rw [List.mem_singleton.mp hx]; exact hq) (by
        rw [List.pairwise_append]
        refine ⟨h2, by simp, fun a ha b hb => ?_⟩
        rw [List.mem_singleton.mp hb]
        exact (hA a (h1 a ha)).2)
      simpa using this
    have := key [] (by simp) (by simp)
    simp at this
    exact ⟨by omega, .inl fun l h1 h2 => by have := key l h1 h2; omega⟩
  · have key : ∀ l : List α, (∀ x ∈ l, x ∈ A ∧ lt p x = true) → l.Pairwise (fun x y => lt x y = true) → 2 * (l.length + 1) + 1 ≤ M := by
      intro l h1 h2
      have := h (l ++ [q]) (by
        intro x hx
        rcases List.mem_append.mp hx with hx | hx
        · exact ⟨(hA x (h1 x hx).1).1, (h1 x hx).2⟩
        · rw [List.mem_singleton.mp hx]; exact ⟨hq, hP p hp⟩) (by
        rw [List.pairwise_append]
        refine ⟨h2, by simp, fun a ha b hb => ?_⟩
        rw [List.mem_singleton.mp hb]
        exact (hA a (h1 a ha).1).2)
      simpa using this
    have := key [] (by simp) (by simp)
    simp at this
    exact ⟨by omega, .inr ⟨p, hp, fun l h1 h2 => by have := key l h1 h2; omega⟩⟩

/-- The values from one of the values on. -/
theorem FewP.right (so : SWO lt) {P xs B : List α} {M : Nat} {q : α} (h : FewP lt P xs M) (hq : q ∈ xs) (hP : ∀ p ∈ P, lt p q = true)
    (hB : ∀ b ∈ B, b ∈ xs) : FewP lt [q] B (M - 1) := by
  refine .inr ⟨q, by simp, fun l h1 h2 => ?_⟩
  have hc : (q :: l).Pairwise (fun x y => lt x y = true) := List.pairwise_cons.mpr ⟨fun x hx => (h1 x hx).2, h2⟩
  rcases h with h | ⟨p, hp, h⟩
  · have := h (q :: l) (by
      intro x hx
      rcases List.mem_cons.mp hx with rfl | hx
      · exact hq
      · exact hB x (h1 x hx).1) hc
    simp at this
    omega
  · have := h (q :: l) (by
      intro x hx
      rcases List.mem_cons.mp hx with rfl | hx
      · exact ⟨hq, hP p hp⟩
      · exact ⟨hB x (h1 x hx).1, so.trans _ _ _ (hP p hp) (h1 x hx).2⟩) hc
    simp at this
    omega

/-- The values above the predecessor, one of which was there. -/
theorem FewP.above {p q : α} {xs B : List α} {M : Nat} (h : FewP lt [p] xs M) (hq : q ∈ xs)
    (hB : ∀ b ∈ B, b ∈ xs ∧ lt p b = true ∧ lt q b = true) : 1 ≤ M ∧ FewP lt [p] B (M - 1) := by
  rcases h with h | ⟨p', hp, h⟩
  · have key : ∀ l : List α, (∀ x ∈ l, x ∈ B) → l.Pairwise (fun x y => lt x y = true) → 2 * (l.length + 1) ≤ M := by
      intro l h1 h2
      have := h (q :: l) (by
        intro x hx
        rcases List.mem_cons.mp hx with rfl | hx
        · exact hq
        · exact (hB x (h1 x hx)).1) (List.pairwise_cons.mpr ⟨fun x hx => (hB x (h1 x hx)).2.2, h2⟩)
      simpa using this
    have := key [] (by simp) (by simp)
    simp at this
    exact ⟨by omega, .inl fun l h1 h2 => by have := key l h1 h2; omega⟩
  · rw [List.mem_singleton.mp hp] at h
    have key : ∀ l : List α, (∀ x ∈ l, x ∈ B) → l.Pairwise (fun x y => lt x y = true) → 2 * l.length + 1 ≤ M := fun l h1 h2 =>
      h l (fun x hx => ⟨(hB x (h1 x hx)).1, (hB x (h1 x hx)).2.1⟩) h2
    have := key [] (by simp) (by simp)
    exact ⟨by omega, .inl fun l h1 h2 => by have := key l h1 h2; omega⟩

/-- What a call of `recurse` needs per element. -/
def rateF (k0 M : Nat) : Nat := 13 * M + 3 * k0 + 19

variable (lt N k0) in
/-- What is known about a call of `recurse`: `N` is the length and `k0` twice the number of values for the whole. -/
structure FewOk (P xs : List α) (limit M : Nat) : Prop where
  le : ∀ p ∈ P, ∀ x ∈ xs, lt x p = false
  few : FewP lt P xs M
  lim : bitLen N + M ≤ limit + k0
  len : xs.length ≤ N

theorem FewOk.perm {P xs ys : List α} {limit M : Nat} (h : FewOk lt N k0 P xs limit M) (hp : ys.Perm xs) : FewOk lt N k0 P ys limit M :=
  ⟨fun p hp' x hx => h.le p hp' x (hp.mem_iff.mp hx), h.few.perm hp, h.lim, by rw [hp.length_eq]; exact h.len⟩

variable (C c lt N k0 maxSeq) in
/-- What is assumed about recursive calls. -/
def RecF (d : Nat) (rec : View → Option Addr → Nat → Prog α ι ω Unit) : Prop :=
  ∀ v pred limit M (P xs : List α), DepthOk maxSeq d v.len → P.length = pred.toList.length → xs.length = v.len → FewOk lt N k0 P xs limit M →
    TriB c C.R (qrg pred v) (rec v pred limit) (P ++ xs) (v.len * rateF k0 M) (fun _ zs _ => QB P xs zs)

variable (C c lt N k0) in
/-- What is assumed about the rest of the loop. -/
def ContF (n : Nat) (K : QSt → Prog α ι ω Unit) : Prop :=
  ∀ (s : QSt) M (P xs : List α), s.v.len < n → P.length = s.pred.toList.length → xs.length = s.v.len → FewOk lt N k0 P xs s.limit M →
    TriB c C.R (qrg s.pred s.v) (K s) (P ++ xs) (s.v.len * rateF k0 M) (fun _ zs _ => QB P xs zs)

theorem predCheck_spec2 {v : View} {pred : Option Addr} {pivot : Nat} {P xs : List α} {E : Panic → List α → Prop}
    (hP : P.length = pred.toList.length) (hpv : pivot < v.len) (hE : C.pan → E .user (P ++ xs)) :
    Tri C.R (qrg pred v) (predCheck C.less v pivot pred) (P ++ xs)
      (fun b zs => zs = P ++ xs ∧ (b = true → ∃ p x, P = [p] ∧ xs[pivot]? = some x ∧ C.ans p x false) ∧
        (b = false → ∀ p ∈ P, ∀ x, xs[pivot]? = some x → C.ans p x true)) E := by
  cases pred with
  | none =>
    obtain rfl : P = [] := by simpa using hP
    exact Tri.pure ⟨rfl, by simp, by simp⟩
  | some a =>
    obtain ⟨p, rfl⟩ : ∃ p, P = [p] := List.length_eq_one_iff.mp (by simpa using hP)
    unfold predCheck
    refine Tri.deref (j := 0) (by simp [qrg]) fun p' hp => ?_
    obtain rfl : p = p' := by simpa using hp
    refine Tri.vidx' (j := 1) (View.at_right (v := v) [a]) hpv fun x hx => ?_
    rw [List.singleton_append, Nat.add_comm, List.getElem?_cons_succ] at hx
    refine Tri.lessB C (fun b hb => Tri.pure ⟨rfl, fun h => ⟨p, x, rfl, hx, ?_⟩, fun h q hq y hy => ?_⟩) hE
    · cases b with
      | false => exact hb
      | true => simp at h
    · rw [List.mem_singleton.mp hq]
      rw [hx] at hy
      cases hy
      cases b with
      | false => simp at h
      | true => exact hb

theorem quickSplit_few {d : Nat} {rec : View → Option Addr → Nat → Prog α ι ω Unit} (hg : C.Good lt) (hl : Asks c C.less)
    {s : QSt} {limit pivot M B : Nat} {K : QSt → Prog α ι ω Unit} {P xs : List α}
    (hrec : RecF C c lt N k0 maxSeq d rec) (hd : DepthOk maxSeq (d + 1) s.v.len) (hK : ContF C c lt N k0 s.v.len K)
    (hP : P.length = s.pred.toList.length) (hx : xs.length = s.v.len) (hpv : pivot < s.v.len) (h20 : 20 < s.v.len)
    (hf : FewOk lt N k0 P xs s.limit M) (hL : s.limit ≤ limit + 1) (hpc : ∀ p ∈ P, ∀ x, xs[pivot]? = some x → lt p x = true)
    (hB : s.v.len + 1 + (s.v.len * rateF k0 M - 13 * s.v.len) ≤ B) :
    TriB c C.R (qrg s.pred s.v) (quickSplit cfg C.less maxSeq rec s limit pivot) (P ++ xs) B
      (StepB C c (qrg s.pred s.v) K P xs) := by
  obtain ⟨v, pred, lim, bal, part⟩ := s
  dsimp only at *
  unfold quickSplit
  refine TriB.bindN (TriB.mono (TriB.onView hP hx (TriB.of_tri (partition_spec C hx hpv) (partition_cost hl)))
    (Q' := fun b zs _ => ∃ ys, ys.length = xs.length ∧ zs = P ++ ys ∧ ys.Perm xs ∧ ∃ p A B, xs[pivot]? = some p ∧ ys = A ++ p :: B ∧ b.1 = A.length ∧
        (∀ a ∈ A, C.ans a p true) ∧ (∀ b ∈ B, C.ans b p false)) ?_) hB ?_
  · rintro b zs r _ ⟨ys, h1, h2, h3, _⟩
    exact ⟨ys, h1, h2, h3⟩
  rintro ⟨mid, wasP⟩ _ _ ⟨_, hyl, rfl, hperm, p, A, B, hpx, rfl, hm, hA, hB⟩
  dsimp only at hm
  subst hm
  have hl : A.length + B.length + 1 = v.len := by
    have := hperm.length_eq; simp at this; omega
  dsimp only
  refine TriB.usub (by omega) (TriB.splitAt (by omega) ?_)
  dsimp only
  refine TriB.splitAt (by simp; omega) (TriB.vref (by simp) ?_)
  dsimp only
  rw [View.sub_sub, View.sub_addr, View.sub_addr, Nat.add_zero, Nat.add_zero, View.sub_len,
    show v.len - A.length - 1 = v.len - (A.length + 1) by omega]
  generalize hlft : v.sub 0 A.length = left
  generalize hrgt : v.sub (A.length + 1) (v.len - (A.length + 1)) = right
  have hll : left.len = A.length := by rw [← hlft]; rfl
  have hrl : right.len = B.length := by rw [← hrgt, View.sub_len]; omega
  have hreg : qrg pred v = qrg pred left ++ qrg (some (v.addr A.length)) right := by
    unfold qrg
    rw [region_three (v := v) (mid := A.length) (by omega), hlft, hrgt]
    simp
  have hcont : P ++ (A ++ p :: B) = (P ++ A) ++ ([p] ++ B) := by simp
  rw [hreg, hcont]
  have hPl : (P ++ A).length = (qrg pred left).length := by simp [qrg, hP, hll]
  have hpm : p ∈ xs := List.mem_of_getElem? hpx
  have hPp : ∀ q ∈ P, lt q p = true := fun q hq => hpc q hq p hpx
  have hAm : ∀ a ∈ A, a ∈ xs := fun x hx => hperm.mem_iff.mp (by simp [hx])
  have hBm : ∀ b ∈ B, b ∈ xs := fun x hx => hperm.mem_iff.mp (by simp [hx])
  have hlim := hf.lim
  have hlen := hf.len
  obtain ⟨hM, hfl⟩ := hf.few.left hpm hPp fun a ha => ⟨hAm a ha, (hg.2 _ _ _ (hA a ha)).symm⟩
  have hfA : FewOk lt N k0 P A limit (M - 1) :=
    ⟨fun q hq x hx => hf.le q hq x (hAm x hx), hfl, by omega, by omega⟩
  have hfB : FewOk lt N k0 [p] B limit (M - 1) :=
    ⟨fun q hq x hx => by rw [List.mem_singleton.mp hq]; exact (hg.2 _ _ _ (hB x hx)).symm, hf.few.right hg.1 hpm hPp hBm, by omega, by omega⟩
  have hr : rateF k0 (M - 1) + 13 ≤ rateF k0 M := by unfold rateF; omega
  have hpay := rate_pay hl hr hr
  have toQ : ∀ A' B', A'.Perm A → B'.Perm B → QB P xs ((P ++ A') ++ ([p] ++ B')) := by
    intro A' B' h1 h2
    exact ⟨A' ++ p :: B', by simp, (h1.append (h2.cons p)).trans hperm⟩
  unfold quickDescend
  generalize decide (min A.length (v.len - A.length) ≥ v.len / 8) = bal'
  by_cases hseq : goesSeq maxSeq (max left.len right.len) = true
  · rw [if_pos hseq]
    by_cases hlr : left.len < right.len
    · rw [if_pos hlr]
      refine TriB.bindN (n := left.len * rateF k0 (M - 1)) (B' := right.len * rateF k0 (M - 1))
        (Q' := fun _ zs => ∃ A', A'.Perm A ∧ zs = (P ++ A') ++ ([p] ++ B)) ?_ ?_ ?_
      · have := TriB.part (l := []) (r := qrg (some (v.addr A.length)) right) (A := []) (Z := [p] ++ B)
          (hrec left pred limit (M - 1) P A (hd.half (by omega) (by omega)) hP hll.symm hfA) rfl hPl
        simp only [List.nil_append] at this
        refine TriB.mono this ?_
        rintro _ _ _ _ ⟨_, _, rfl, A', rfl, h⟩
        exact ⟨A', h, rfl⟩
      · rw [hll, hrl]
        omega
      · rintro _ _ _ ⟨A', hA1, rfl⟩
        refine TriB.pure ?_
        dsimp only [StepB]
        have hl' : (P ++ A').length = (qrg pred left).length := by rw [← hPl]; simp [hA1.length_eq]
        have := TriB.part (l := qrg pred left) (r := []) (A := P ++ A') (Z := [])
          (hK ⟨right, some (v.addr A.length), limit, bal', wasP⟩ (M - 1) [p] B (by dsimp only; omega) (by simp) hrl.symm hfB) hl' (by simp [qrg, hrl])
        simp only [List.append_nil] at this
        refine TriB.mono this ?_
        rintro _ _ _ _ ⟨_, _, rfl, B', rfl, h⟩
        exact toQ A' B' hA1 h
    · rw [if_neg hlr]
      refine TriB.bindN (n := right.len * rateF k0 (M - 1)) (B' := left.len * rateF k0 (M - 1))
        (Q' := fun _ zs => ∃ B', B'.Perm B ∧ zs = (P ++ A) ++ ([p] ++ B')) ?_ ?_ ?_
      · have := TriB.part (l := qrg pred left) (r := []) (A := P ++ A) (Z := [])
          (hrec right (some (v.addr A.length)) limit (M - 1) [p] B (hd.half (by omega) (by omega)) rfl hrl.symm hfB) hPl (by simp [qrg, hrl])
        simp only [List.append_nil] at this
        refine TriB.mono this ?_
        rintro _ _ _ _ ⟨_, _, rfl, B', rfl, h⟩
        exact ⟨B', h, rfl⟩
      · rw [hll, hrl]
        omega
      · rintro _ _ _ ⟨B', hB1, rfl⟩
        refine TriB.pure ?_
        dsimp only [StepB]
        have := TriB.part (l := []) (r := qrg (some (v.addr A.length)) right) (A := []) (Z := [p] ++ B')
          (hK ⟨left, pred, limit, bal', wasP⟩ (M - 1) P A (by dsimp only; omega) hP hll.symm hfA) rfl hPl
        simp only [List.nil_append] at this
        refine TriB.mono this ?_
        rintro _ _ _ _ ⟨_, _, rfl, A', rfl, h⟩
        exact toQ A' B' h hB1
  · rw [if_neg hseq]
    cases maxSeq with
    | none => exact absurd rfl hseq
    | some n =>
      have hd1 : DepthOk (some n) d left.len := by unfold DepthOk at *; dsimp only at *; omega
      have hd2 : DepthOk (some n) d right.len := by unfold DepthOk at *; dsimp only at *; omega
      refine TriB.bindN (n := left.len * rateF k0 (M - 1) + right.len * rateF k0 (M - 1)) (B' := 0) (Q' := fun _ zs => QB P xs zs)
        (TriB.rayonJoin hPl (hrec left pred limit (M - 1) P A hd1 hP hll.symm hfA)
          (hrec right (some (v.addr A.length)) limit (M - 1) [p] B hd2 rfl hrl.symm hfB) ?_) ?_ fun _ _ _ h => TriB.pure h
      · rintro _ _ _ _ _ _ _ _ ⟨A', rfl, hA1⟩ ⟨B', rfl, hB1⟩
        exact toQ A' B' hA1 hB1
      · rw [hll, hrl]
        omega

theorem quickStep_few {d : Nat} {rec : View → Option Addr → Nat → Prog α ι ω Unit} (hg : C.Good lt) (hl : Asks c C.less)
    {s : QSt} {M : Nat} {K : QSt → Prog α ι ω Unit} {P xs : List α}
    (hrec : RecF C c lt N k0 maxSeq d rec) (hd : DepthOk maxSeq (d + 1) s.v.len) (hK : ContF C c lt N k0 s.v.len K)
    (hP : P.length = s.pred.toList.length) (hx : xs.length = s.v.len) (hf : FewOk lt N k0 P xs s.limit M) :
    TriB c C.R (qrg s.pred s.v) (quickStep cfg C.less maxSeq rec s) (P ++ xs) (s.v.len * rateF k0 M)
      (StepB C c (qrg s.pred s.v) K P xs) := by
  unfold quickStep
  dsimp only
  by_cases h20 : s.v.len ≤ 20
  · rw [if_pos h20]
    by_cases h2 : s.v.len ≥ 2
    · rw [if_pos h2]
      refine TriB.bindN (n := (s.v.len - 1) * (s.v.len - 1)) (B' := 0) (Q' := fun _ zs => QB P xs zs) ?_ ?_ (fun _ _ _ h => TriB.pure h)
      · refine TriB.mono (TriB.onView hP hx (TriB.of_tri (insertionSortShiftLeft_spec C (by omega) (by omega) hx) (insertionSortShiftLeft_cost hl))) ?_
        rintro _ _ _ _ ⟨ys, _, rfl, ⟨h1, _⟩, _⟩
        exact ⟨ys, rfl, h1⟩
      · have : (s.v.len - 1) * (s.v.len - 1) ≤ s.v.len * 19 := Nat.mul_le_mul (by omega) (by omega)
        have : s.v.len * 19 ≤ s.v.len * rateF k0 M := Nat.mul_le_mul_left _ (by unfold rateF; omega)
        omega
    · rw [if_neg h2]
      exact TriB.pure ⟨xs, rfl, .refl _⟩
  rw [if_neg h20]
  by_cases hlim : s.limit = 0
  · rw [if_pos hlim]
    refine TriB.bindN (n := s.v.len * (3 * Nat.log2 s.v.len)) (B' := 0) (Q' := fun _ zs => QB P xs zs) ?_ ?_ (fun _ _ _ h => TriB.pure h)
    · refine TriB.mono (TriB.onView hP hx (TriB.of_tri (heapSort_spec C hx) (heapSort_cost hl))) ?_
      rintro _ _ _ _ ⟨ys, _, rfl, ⟨h1, _⟩, _⟩
      exact ⟨ys, rfl, h1⟩
    · refine Nat.mul_le_mul_left _ ?_
      have h1 := hf.lim
      have h2 := log2_mono hf.len
      have h3 : Nat.log2 N + 1 ≤ bitLen N := by
        have := hf.len
        unfold bitLen
        rw [if_neg (by omega)]
      rw [hx] at h2
      unfold rateF
      omega
  rw [if_neg hlim]
  have hbig : 13 * s.v.len ≤ s.v.len * rateF k0 M := by
    rw [Nat.mul_comm]
    exact Nat.mul_le_mul_left _ (by unfold rateF; omega)
  refine TriB.bindN (n := 0) (B' := s.v.len * rateF k0 M)
    (Q' := fun limit zs => (∃ ys, zs = P ++ ys ∧ ys.Perm xs) ∧ s.limit ≤ limit + 1) ?_ (by omega) ?_
  · by_cases hb : s.bal = true
    · simp only [hb, Bool.not_true, Bool.false_eq_true, if_false]
      exact TriB.pure ⟨⟨xs, rfl, .refl _⟩, by omega⟩
    · simp only [hb, Bool.not_false, if_true]
      refine TriB.bindN (n := 0) (B' := 0) (Q' := fun _ zs => ∃ ys, zs = P ++ ys ∧ ys.Perm xs) ?_ (by omega) ?_
      · refine TriB.mono (TriB.onView hP hx (TriB.of_tri (breakPatterns_spec (E := fun _ _ => True) hx)
          (Cost.silent (Q := fun _ _ => True) breakPatterns_silent fun _ => trivial))) ?_
        rintro _ _ _ _ ⟨ys, _, rfl, h1, _⟩
        exact ⟨ys, rfl, h1⟩
      · rintro _ _ _ ⟨ys, rfl, h1⟩
        unfold NdSlice.usub
        rw [if_pos (by omega)]
        exact TriB.pure ⟨⟨ys, rfl, h1⟩, by omega⟩
  rintro limit _ _ ⟨⟨ys, rfl, hy⟩, hL⟩
  have hyl : ys.length = s.v.len := by rw [hy.length_eq, hx]
  refine TriB.bindN (n := 12) (B' := s.v.len * rateF k0 M - 12)
    (Q' := fun r ws => ∃ zs, ws = P ++ zs ∧ zs.Perm ys ∧ r.1 < s.v.len) ?_ (by omega) ?_
  · refine TriB.mono (TriB.onView hP hyl (TriB.of_tri (choosePivot_spec C (by omega) hyl) (choosePivot_cost hl))) ?_
    rintro _ _ _ _ ⟨zs, _, rfl, ⟨h1, h2⟩, _⟩
    exact ⟨zs, rfl, h1, h2⟩
  rintro ⟨pivot, likely⟩ _ _ ⟨zs, rfl, hz, hpv⟩
  dsimp only at hpv ⊢
  replace hz := hz.trans hy
  have hzl : zs.length = s.v.len := by rw [hz.length_eq, hx]
  refine TriB.bindN (n := 11 * s.v.len + 4) (B' := s.v.len * rateF k0 M - 12 - (11 * s.v.len + 4))
    (Q' := fun _ ws => ∃ us, ws = P ++ us ∧ us.Perm xs) ?_ (by omega) ?_
  · by_cases hc : (s.bal && s.part && likely) = true
    · rw [if_pos hc]
      refine TriB.mono (TriB.onView hP hzl (TriB.of_tri (partialInsertionSort_spec C hzl (by omega)) (partialInsertionSort_cost hl (by omega)))) ?_
      rintro _ _ _ _ ⟨us, _, rfl, ⟨h1, _⟩, _⟩
      exact ⟨us, rfl, h1.trans hz⟩
    · rw [if_neg hc]
      exact TriB.pure ⟨zs, rfl, hz⟩
  rintro done _ _ ⟨us, rfl, hu⟩
  have hul : us.length = s.v.len := by rw [hu.length_eq, hx]
  cases done with
  | true =>
    simp only [if_true]
    exact TriB.pure ⟨us, rfl, hu⟩
  | false =>
    simp only [Bool.false_eq_true, if_false]
    refine TriB.bindN (n := 1) (B' := s.v.len * rateF k0 M - 12 - (11 * s.v.len + 4) - 1)
      (Q' := fun b zs => zs = P ++ us ∧ (b = true → ∃ p x, P = [p] ∧ us[pivot]? = some x ∧ C.ans p x false) ∧
        (b = false → ∀ p ∈ P, ∀ x, us[pivot]? = some x → C.ans p x true)) ?_ (by omega) ?_
    · refine TriB.mono (TriB.of_tri (predCheck_spec2 (C := C) (E := fun _ _ => True) hP hpv fun _ => trivial) (predCheck_cost hl)) ?_
      rintro _ _ _ _ ⟨h1, _⟩
      exact h1
    rintro b _ _ ⟨rfl, hc, hc2⟩
    cases b with
    | false =>
      simp only [Bool.false_eq_true, if_false]
      refine TriB.mono (quickSplit_few hg hl hrec hd hK hP hul hpv (by omega) (hf.perm hu) hL
        (fun p hp x hx => (hg.2 _ _ _ (hc2 rfl p hp x hx)).symm) (by omega)) ?_
      rintro (s' | _) ws _ _ h
      · refine TriB.mono (Q := fun _ zs _ => QB P us zs) (Q' := fun _ zs _ => QB P xs zs) h ?_
        rintro _ _ _ _ ⟨ys', h1, h2⟩
        exact ⟨ys', h1, h2.trans hu⟩
      · obtain ⟨ys', h1, h2⟩ := h
        exact ⟨ys', h1, h2.trans hu⟩
    | true =>
      simp only [if_true]
      obtain ⟨p, x, rfl, hxp, hpx⟩ := hc rfl
      have hxm : x ∈ us := List.mem_of_getElem? hxp
      refine TriB.bindN (n := s.v.len - 1) (B' := s.v.len * rateF k0 M - 13 * s.v.len)
        (Q' := fun k zs => ∃ ys, ys.length = us.length ∧ zs = [p] ++ ys ∧ ys.Perm us ∧ ∃ p A B, us[pivot]? = some p ∧ ys = p :: A ++ B ∧ k = A.length + 1 ∧
          (∀ a ∈ A, C.ans p a false) ∧ (∀ b ∈ B, C.ans p b true)) ?_ (by omega) ?_
      · refine TriB.mono (TriB.onView hP hul (TriB.of_tri (partitionEqual_spec C hul (by omega) hpv) (partitionEqual_cost hl))) ?_
        rintro b zs r _ ⟨ys, h1, h2, h3, _⟩
        exact ⟨ys, h1, h2, h3⟩
      rintro k _ _ ⟨_, hyl', rfl, hperm, x', A, B, hx', rfl, rfl, hA, hB⟩
      rw [hxp] at hx'; injection hx' with hx'; subst hx'
      have hl : A.length + 1 + B.length = s.v.len := by simp at hyl'; omega
      refine TriB.splitAt (by omega) ?_
      refine TriB.pure ?_
      dsimp only [StepB]
      have hreg : qrg s.pred s.v = s.pred.toList ++ (s.v.sub 0 (A.length + 1)).region ++ (s.v.sub (A.length + 1) (s.v.len - (A.length + 1))).region := by
        unfold qrg
        rw [View.region_split s.v (a := A.length + 1) (n := s.v.len - (A.length + 1)) (by omega), List.append_assoc, List.append_assoc]
        congr 2
        have : s.v.len - (A.length + 1 + (s.v.len - (A.length + 1))) = 0 := by omega
        rw [this]
        simp [View.region]
      rw [hreg, show [p] ++ (x :: A ++ B) = [p] ++ (x :: A) ++ B by simp]
      have hBm : ∀ b ∈ B, b ∈ xs := fun b hb => (hperm.trans hu).mem_iff.mp (by simp [hb])
      have hxp' : lt x p = false := hf.le p (by simp) x (hu.mem_iff.mp hxm)
      have hB' : ∀ b ∈ B, b ∈ xs ∧ lt p b = true ∧ lt x b = true := by
        intro b hb
        have h1 : lt x b = true := (hg.2 _ _ _ (hB b hb)).symm
        refine ⟨hBm b hb, ?_, h1⟩
        by_contra h3
        rw [Bool.not_eq_true] at h3
        have := hg.1.ntrans _ _ _ hxp' h3
        rw [h1] at this
        cases this
      obtain ⟨hM, hfl⟩ := hf.few.above (hu.mem_iff.mp hxm) hB'
      have hlim' := hf.lim
      have hlen := hf.len
      have hfB : FewOk lt N k0 [p] B limit (M - 1) := ⟨fun q hq y hy => hf.le q hq y (hBm y hy), hfl, by omega, by omega⟩
      have hcont := hK ⟨s.v.sub (A.length + 1) (s.v.len - (A.length + 1)), s.pred, limit, s.bal, s.part⟩ (M - 1) [p] B
        (by simp; omega) hP (by simp; omega) hfB
      refine TriB.mono (TriB.weaken (TriB.outer (mid := (s.v.sub 0 (A.length + 1)).region) (M := x :: A) hcont hP (by simp)) ?_) ?_
      · dsimp only [View.sub_len]
        have h1 : rateF k0 (M - 1) + 13 ≤ rateF k0 M := by unfold rateF; omega
        generalize rateF k0 (M - 1) = r1 at *
        generalize rateF k0 M = r2 at *
        obtain ⟨r2, rfl⟩ : ∃ r, r2 = r + 13 := ⟨r2 - 13, by omega⟩
        have : (s.v.len - (A.length + 1)) * r1 ≤ s.v.len * r2 := Nat.mul_le_mul (by omega) (by omega)
        rw [Nat.mul_add]
        omega
      · rintro _ _ _ _ ⟨A', B', h1, rfl, us', h3, h4⟩
        obtain ⟨p', rfl⟩ := List.length_eq_one_iff.mp (by simpa using h1)
        simp only [List.cons_append, List.nil_append, List.cons.injEq] at h3
        obtain ⟨rfl, rfl⟩ := h3
        exact ⟨(x :: A) ++ B', by simp, (h4.append_left (x :: A)).trans (hperm.trans hu)⟩

theorem recurse_few (hg : C.Good lt) (hl : Asks c C.less) (d : Nat) : RecF C c lt N k0 maxSeq d (recurse cfg C.less maxSeq d) := by
  induction d with
  | zero =>
    intro v pred limit M P xs hd
    unfold DepthOk at hd
    cases maxSeq <;> dsimp only at hd <;> omega
  | succ d ih =>
    intro v pred limit M P xs hd hP hx hf
    have H : ∀ n, ∀ (s : QSt) M (P xs : List α), s.v.len < n → DepthOk maxSeq (d + 1) s.v.len → P.length = s.pred.toList.length →
        xs.length = s.v.len → FewOk lt N k0 P xs s.limit M →
        TriB c C.R (qrg s.pred s.v) (Prog.loop (quickStep cfg C.less maxSeq (recurse cfg C.less maxSeq d)) n s) (P ++ xs)
          (s.v.len * rateF k0 M) (fun _ zs _ => QB P xs zs) := by
      intro n
      induction n with
      | zero => intro s M P xs h; omega
      | succ n ihn =>
        intro s M P xs hn hd hP hx hf
        unfold Prog.loop
        have hK : ContF C c lt N k0 s.v.len (Prog.loop (quickStep cfg C.less maxSeq (recurse cfg C.less maxSeq d)) n) := by
          intro s' M' P' xs' hlt hP' hx' hf'
          refine ihn s' M' P' xs' (by omega) ?_ hP' hx' hf'
          unfold DepthOk at *
          cases maxSeq <;> dsimp only at * <;> omega
        refine TriB.bind (quickStep_few hg hl ih hd hK hP hx hf) ?_
        rintro (s' | _) zs _ _ h
        · exact h
        · exact TriB.pure h
    exact H _ ⟨v, pred, limit, true, true⟩ M P xs (by simp) hd hP hx hf

theorem FewOk.top {k : Nat} {xs : List α} (h : ∀ l : List α, (∀ x ∈ l, x ∈ xs) → l.Pairwise (fun x y => lt x y = true) → l.length ≤ k) :
    FewOk lt xs.length (2 * k) [] xs (bitLen xs.length) (2 * k) :=
  ⟨by simp, .inl fun l h1 h2 => by have := h l h1 h2; omega, Nat.le_refl _, Nat.le_refl _⟩

theorem quickSort_few (hg : C.Good lt) (hl : Asks c C.less) {v : View} {xs : List α} (hx : xs.length = v.len) {k : Nat}
    (h : ∀ l : List α, (∀ x ∈ l, x ∈ xs) → l.Pairwise (fun x y => lt x y = true) → l.length ≤ k) :
    TriB c C.R v.region (quickSort cfg C.less v) xs (v.len * (32 * k + 19)) (fun _ _ _ => True) := by
  unfold quickSort
  split
  · exact TriB.pure trivial
  · have := recurse_few (cfg := cfg) (maxSeq := none) hg hl (Nat.log2 v.len + 1) v none (bitLen v.len) (2 * k) [] xs ⟨Nat.lt_log2_self, by omega⟩ rfl hx
      (hx ▸ FewOk.top h)
    refine TriB.mono (TriB.weaken this (Nat.mul_le_mul_left _ ?_)) fun _ _ _ _ _ => trivial
    unfold rateF
    omega

theorem parQuickSort_few (hg : C.Good lt) (hl : Asks c C.less) {v : View} {xs : List α} (hx : xs.length = v.len) {k : Nat}
    (h : ∀ l : List α, (∀ x ∈ l, x ∈ xs) → l.Pairwise (fun x y => lt x y = true) → l.length ≤ k) :
    TriB c C.R v.region (parQuickSort cfg C.less v) xs (v.len * (32 * k + 19)) (fun _ _ _ => True) := by
  unfold parQuickSort
  split
  · exact TriB.pure trivial
  · have := recurse_few (cfg := cfg) (maxSeq := some 2000) hg hl (v.len + 1) v none (bitLen v.len) (2 * k) [] xs (Nat.lt_succ_self _) rfl hx
      (hx ▸ FewOk.top h)
    refine TriB.mono (TriB.weaken this (Nat.mul_le_mul_left _ ?_)) fun _ _ _ _ _ => trivial
    unfold rateF
    omega

end NdSlice
