import Verif.Proof.SelectShort
import Verif.Proof.CostFew

/-
Selection from few elements with a consistent comparator: /repo/src/partition.rs:96-179.
-/

namespace NdSlice

variable {α ι ω : Type} {cfg : Cfg} (C : Cmp α ι ω) {v : View} {lt : α → α → Bool}

theorem two_le_countP {p : α → Bool} {xs : List α} {i j : Nat} {x y : α} (hij : i ≠ j) (hi : xs[i]? = some x) (hj : xs[j]? = some y)
    (hx : p x = true) (hy : p y = true) : 2 ≤ xs.countP p := by
  induction xs generalizing i j with
  | nil => simp at hi
  | cons z xs ih =>
    have one : ∀ {k : Nat} {u : α}, xs[k]? = some u → p u = true → 1 ≤ xs.countP p := fun hk hu =>
      List.countP_pos_iff.mpr ⟨_, List.mem_iff_getElem?.mpr ⟨_, hk⟩, hu⟩
    rw [List.countP_cons]
    match i, j with
    | 0, 0 => exact absurd rfl hij
    | 0, j + 1 =>
      simp at hi hj
      subst hi
      have := one hj hy
      rw [if_pos hx]; omega
    | i + 1, 0 =>
      simp at hi hj
      subst hj
      have := one hi hx
      rw [if_pos hy]; omega
    | i + 1, j + 1 =>
      simp at hi hj hij
      have := ih hij hi hj
      omega

/-- There are at least two elements not greater than `x`, and at least two not less. -/
def Inner (lt : α → α → Bool) (x : α) (xs : List α) : Prop :=
  2 ≤ xs.countP (fun y => !lt x y) ∧ 2 ≤ xs.countP (fun y => !lt y x)

theorem Inner.perm {x : α} {xs ys : List α} (h : Inner lt x xs) (hp : ys.Perm xs) : Inner lt x ys := by
  unfold Inner
  rw [hp.countP_eq, hp.countP_eq]
  exact h

theorem sort2_mid (hg : C.Good lt) {xs : List α} {a b s : Nat} (ha : a < v.len) (hb : b < v.len) :
    Tri C.R v.region (sort2 C.less v a b s) xs
      (fun r ys => ys = xs ∧ r.2.2 ≤ s + 1 ∧ (r.1 = a ∧ r.2.1 = b ∨ r.1 = b ∧ r.2.1 = a) ∧
        ∃ x y, xs[r.1]? = some x ∧ xs[r.2.1]? = some y ∧ lt y x = false) (EP C xs) := by
  unfold sort2
  refine Tri.vget hb fun x hx => Tri.vget ha fun y hy => ?_
  refine Tri.lessB C (fun r hr => ?_) (fun hp => ⟨rfl, hp, .refl _⟩)
  have hr := hg.2 _ _ _ hr
  cases r with
  | true => exact Tri.pure ⟨rfl, by simp, .inr ⟨rfl, rfl⟩, x, y, hx, hy, hg.1.asymm hr.symm⟩
  | false => exact Tri.pure ⟨rfl, by simp, .inl ⟨rfl, rfl⟩, y, x, hy, hx, hr.symm⟩

theorem sort3_mid (hg : C.Good lt) {xs : List α} {a b c s : Nat} (ha : a < v.len) (hb : b < v.len) (hc : c < v.len) (hab : a ≠ b) (hac : a ≠ c)
    (hbc : b ≠ c) :
    Tri C.R v.region (sort3 C.less v a b c s) xs
      (fun r ys => ys = xs ∧ r.2.2.2 ≤ s + 3 ∧ r.2.1 < v.len ∧ ∃ x, xs[r.2.1]? = some x ∧ Inner lt x xs) (EP C xs) := by
  unfold sort3
  refine Tri.bind (sort2_mid C hg ha hb) ?_
  rintro ⟨a1, b1, s1⟩ _ _ ⟨rfl, q1, o1, x1, y1, hx1, hy1, h1⟩
  dsimp only at q1 o1 hx1 hy1 ⊢
  refine Tri.bind (sort2_mid C hg (a := b1) (b := c) (by omega) hc) ?_
  rintro ⟨b2, c2, s2⟩ _ _ ⟨rfl, q2, o2, x2, y2, hx2, hy2, h2⟩
  dsimp only at q2 o2 hx2 hy2 ⊢
  refine Tri.bind (sort2_mid C hg (a := a1) (b := b2) (by omega) (by omega)) ?_
  rintro ⟨a3, b3, s3⟩ zs _ ⟨rfl, q3, o3, x3, y3, hx3, hy3, h3⟩
  dsimp only at q3 o3 hx3 hy3 ⊢
  refine Tri.pure ⟨rfl, by dsimp only; omega, by dsimp only; omega, y3, hy3, ?_, ?_⟩
  · exact two_le_countP (i := a3) (j := b3) (by omega) hx3 hy3 (by simp [h3]) (by simp [hg.1.irrefl])
  · refine two_le_countP (i := c2) (j := b3) (by omega) hy2 hy3 ?_ (by simp [hg.1.irrefl])
    -- the element at `c2` is not less than those at `a1` and `b2`
    have hb : lt y2 x2 = false := h2
    have ha : lt y2 x1 = false := by
      have hyb : lt y2 y1 = false := by
        rcases o2 with ⟨e1, e2⟩ | ⟨e1, e2⟩
        · subst e1
          rw [hy1] at hx2; cases hx2
          exact h2
        · subst e2
          rw [hy1] at hy2; cases hy2
          exact hg.1.irrefl _
      exact hg.1.le_trans h1 hyb
    rcases o3 with ⟨e1, e2⟩ | ⟨e1, e2⟩
    · subst e2
      rw [hx2] at hy3; cases hy3
      simp [hb]
    · subst e2
      rw [hx1] at hy3; cases hy3
      simp [ha]

theorem choosePivot_mid (hg : C.Good lt) {xs : List α} (h8 : 8 ≤ v.len) (h50 : v.len < 50) :
    Tri C.R v.region (choosePivot cfg C.less v) xs
      (fun r ys => ys = xs ∧ r.1 < v.len ∧ ∃ x, xs[r.1]? = some x ∧ Inner lt x xs) (EP C xs) := by
  unfold choosePivot chooseMedian
  simp only [ge_iff_le, h8, if_true, if_neg (Nat.not_le.mpr h50)]
  refine Tri.bind (Q' := fun r ys => ys = xs ∧ r.2 ≤ 3 ∧ r.1 < v.len ∧ ∃ x, xs[r.1]? = some x ∧ Inner lt x xs) ?_ ?_
  · refine Tri.pureB ?_
    dsimp only
    refine Tri.bind (sort3_mid C hg (by omega) (by omega) (by omega) (by omega) (by omega) (by omega)) ?_
    rintro ⟨a, b, c, s⟩ _ _ ⟨rfl, h⟩
    exact Tri.pure ⟨rfl, by simpa using h⟩
  · rintro ⟨b, s⟩ _ _ ⟨rfl, h1, h2, h3⟩
    dsimp only at h1 h2 h3 ⊢
    rw [if_pos (by omega)]
    exact Tri.pure ⟨rfl, h2, h3⟩

/-- So few elements that `d` rounds leave at most ten of them, if a round that takes away only one element is followed by one that takes away
two.  `tied` says that the round before was such a one. -/
def FewAway (d len : Nat) (tied : Prop) : Prop := len ≤ 10 + d + d / 2 ∨ (tied ∧ len ≤ 10 + d + (d + 1) / 2)

/-- The number of unbalanced rounds before `limit` is used up. -/
def roundsLeft (limit : Nat) (bal : Bool) : Nat := if limit = 0 then 0 else if bal then limit + 1 else limit

/-- An element is not greater than the predecessor. -/
def Tied (lt : α → α → Bool) (P xs : List α) : Prop := ∃ p ∈ P, ∃ x ∈ xs, lt p x = false

theorem selLoop_few (hg : C.Good lt) {n k limit : Nat} {bal : Bool} {pred : Option Addr} {P xs : List α}
    (hP : P.length = pred.toList.length) (hx : xs.length = v.len) (hn : v.len < n) (hk : k < v.len) (h50 : v.len < 50)
    (hs : FewAway (roundsLeft limit bal) v.len (Tied lt P xs)) :
    Tri C.R (qrg pred v) (selLoop cfg C.less n v k pred limit bal) (P ++ xs) (fun _ _ => True) (SU C) := by
  induction n generalizing v k pred limit bal P xs with
  | zero => omega
  | succ n ih =>
    unfold selLoop
    by_cases h10 : v.len ≤ 10
    · rw [if_pos h10, if_pos (by omega)]
      refine Tri.mono (Tri.onQrg hP hx (insertionSortShiftLeft_spec C (by omega) (by omega) hx)) (fun _ _ _ _ => trivial) ?_
      rintro _ _ _ ⟨ys, rfl, h⟩
      exact h.su
    rw [if_neg h10]
    have hlim : limit ≠ 0 := by
      rintro rfl
      unfold FewAway roundsLeft at hs
      simp at hs
      omega
    rw [if_neg hlim]
    -- what is left afterwards
    obtain ⟨d, hd⟩ : ∃ d, roundsLeft limit bal = d + 1 := ⟨roundsLeft limit bal - 1, by unfold roundsLeft; rw [if_neg hlim]; split <;> omega⟩
    rw [hd] at hs
    refine Tri.bind (Q' := fun l zs => (∃ ys, zs = P ++ ys ∧ ys.Perm xs) ∧ l = d) ?_ ?_
    · cases bal with
      | true => exact Tri.pure ⟨⟨xs, rfl, .refl _⟩, by unfold roundsLeft at hd; simpa [hlim] using hd⟩
      | false =>
        simp only [Bool.not_false, if_true]
        refine Tri.bind (Tri.mono (Tri.onQrg hP hx (breakPatterns_spec (E := SU C) hx)) (fun _ _ _ h => h) (fun _ _ _ ⟨_, _, h⟩ => h)) ?_
        rintro _ _ _ ⟨ys, rfl, h1⟩
        unfold roundsLeft at hd
        simp only [hlim, Bool.false_eq_true, if_false] at hd
        exact Tri.usubR (by omega) ⟨⟨ys, rfl, h1⟩, by omega⟩
    rintro limit _ _ ⟨⟨ys, rfl, hyp⟩, rfl⟩
    clear hd hlim
    have hyl : ys.length = v.len := by rw [hyp.length_eq, hx]
    replace hs : FewAway (limit + 1) v.len (Tied lt P ys) := by
      refine hs.imp id fun ⟨⟨p, hp, x, hx, h⟩, h'⟩ => ⟨⟨p, hp, x, hyp.mem_iff.mpr hx, h⟩, h'⟩
    have hmono : ∀ (b : Bool) (len : Nat) (t : Prop), FewAway limit len t → FewAway (roundsLeft limit b) len t := by
      intro b len t h
      unfold roundsLeft
      split
      · rename_i h0
        rwa [h0] at h
      split
      · unfold FewAway at h ⊢
        rcases h with h | ⟨h, h'⟩
        · left; omega
        · right; exact ⟨h, by omega⟩
      · exact h
    -- two elements less
    have two : ∀ (len : Nat) (t : Prop), len + 2 ≤ v.len → FewAway limit len t := by
      intro len t h
      unfold FewAway at hs ⊢
      omega
    refine Tri.bind (Tri.mono (Tri.onQrg hP hyl (choosePivot_mid C hg (by omega) h50)) (fun _ _ _ h => h) ?_) ?_
    · rintro _ _ _ ⟨zs, rfl, h⟩
      exact h.su
    rintro ⟨pivot, likely⟩ _ _ ⟨us, rfl, rfl, hpv, z, hz, hmid⟩
    dsimp only at hpv hz ⊢
    rw [selPredCheck_eq]
    refine Tri.bind (predCheck_spec2 (C := C) hP hpv (fun hpan => ⟨rfl, hpan⟩)) ?_
    rintro c _ _ ⟨rfl, hc, hc'⟩
    cases c with
    | true =>
      simp only [if_true]
      obtain ⟨p, x, rfl, hxp, hpx⟩ := hc rfl
      refine Tri.bind (Tri.mono (Tri.onQrg hP hyl (partitionEqual_spec C hyl (by omega) hpv)) (fun _ _ _ h => h) ?_) ?_
      · rintro _ _ _ ⟨zs, rfl, h⟩
        exact h.su
      rintro mid _ _ ⟨_, rfl, hperm, x', A, B, hx', rfl, rfl, hA, hB⟩
      rw [hz] at hx'; cases hx'
      have hl : A.length + 1 + B.length = v.len := by
        have := hperm.length_eq; simp at this; omega
      have hA1 : 1 ≤ A.length := by
        have := (hmid.perm hperm).1
        have h0 : B.countP (fun y => !lt z y) = 0 :=
          List.countP_eq_zero.mpr fun b hb => by simp [← hg.2 _ _ _ (hB b hb)]
        rw [List.countP_append, List.countP_cons, h0] at this
        have h1 := List.countP_le_length (p := fun y => !lt z y) (l := A)
        split at this <;> omega
      by_cases hmk : A.length + 1 > k
      · rw [if_pos hmk]
        exact Tri.pure trivial
      · rw [if_neg hmk]
        refine Tri.splitAt (by omega) (Tri.usub (by omega) ?_)
        dsimp only
        have ih' := ih (v := v.sub (A.length + 1) (v.len - (A.length + 1))) (k := k - (A.length + 1)) (pred := none)
          (P := []) (xs := B) (limit := limit) (bal := bal) rfl (by simp; omega) (by simp; omega) (by simp; omega) (by simp; omega)
          (hmono _ _ _ (two _ _ (by simp; omega)))
        have hreg : qrg pred v = (pred.toList ++ (v.sub 0 (A.length + 1)).region) ++
            qrg none (v.sub (A.length + 1) (v.len - (A.length + 1))) ++ [] := by
          unfold qrg
          rw [View.region_split v (a := A.length + 1) (n := v.len - (A.length + 1)) (by omega),
            show v.len - (A.length + 1 + (v.len - (A.length + 1))) = 0 by omega]
          simp [View.region]
        rw [hreg, show [p] ++ (z :: A ++ B) = (p :: z :: A) ++ ([] ++ B) ++ [] by simp]
        refine Tri.mono (Tri.part ih' (by rw [List.length_append, ← hP]; simp; omega) (by simp [qrg]; omega)) (fun _ _ _ _ => trivial) ?_
        rintro _ _ _ ⟨B', _, rfl, h⟩
        exact h
    | false =>
      simp only [Bool.false_eq_true, if_false]
      refine Tri.bind (Tri.mono (Tri.onQrg hP hyl (partition_spec C hyl hpv)) (fun _ _ _ h => h) ?_) ?_
      · rintro _ _ _ ⟨zs, rfl, h⟩
        exact h.su
      rintro ⟨mid, wasP⟩ _ _ ⟨_, rfl, hperm, p, A, B, hp', rfl, hm, hA, hB⟩
      rw [hz] at hp'; cases hp'
      dsimp only at hm
      subst hm
      have hl : A.length + 1 + B.length = v.len := by
        have := hperm.length_eq; simp at this; omega
      have hmid' := hmid.perm hperm
      have hB1 : 1 ≤ B.length := by
        have := hmid'.2
        have h0 : A.countP (fun y => !lt y z) = 0 :=
          List.countP_eq_zero.mpr fun b hb => by simp [← hg.2 _ _ _ (hA b hb)]
        rw [List.countP_append, List.countP_cons, h0] at this
        have h1 := List.countP_le_length (p := fun y => !lt y z) (l := B)
        split at this <;> omega
      dsimp only
      refine Tri.usub (by omega) (Tri.splitAt (by omega) (Tri.splitAt (by simp; omega) (Tri.vref (by simp) ?_)))
      dsimp only
      rw [View.sub_sub, View.sub_addr, View.sub_addr, Nat.add_zero, Nat.add_zero, View.sub_len,
        show v.len - A.length - 1 = v.len - (A.length + 1) by omega]
      have hreg : qrg pred v = qrg pred (v.sub 0 A.length) ++
          qrg (some (v.addr A.length)) (v.sub (A.length + 1) (v.len - (A.length + 1))) := by
        unfold qrg
        rw [region_three (v := v) (mid := A.length) (by omega)]
        simp
      by_cases hlt : A.length < k
      · rw [if_pos hlt]
        refine Tri.usub (by omega) (Tri.usub (by omega) ?_)
        have hfew : FewAway limit B.length (Tied lt [z] B) := by
          by_cases hA0 : 1 ≤ A.length
          · exact two _ _ (by omega)
          · -- the pivot is as small as any, so there is another such one
            obtain rfl : A = [] := List.eq_nil_of_length_eq_zero (by omega)
            have htied : Tied lt [z] B := by
              have := hmid'.1
              rw [List.nil_append, List.countP_cons] at this
              have h1 : 0 < B.countP (fun y => !lt z y) := by split at this <;> omega
              obtain ⟨x, hx, h⟩ := List.countP_pos_iff.mp h1
              exact ⟨z, by simp, x, hx, by simpa using h⟩
            rcases hs with hs | ⟨⟨p, hp, x, hx, h⟩, -⟩
            · right
              refine ⟨htied, ?_⟩
              simp at hl; omega
            · -- not possible after another such round
              exfalso
              have hpz := hg.2 _ _ _ (hc' rfl p hp z hz)
              have hxz : lt x z = true := by
                by_contra hxz
                have hxz : lt x z = false := by simpa using hxz
                have := hg.1.ntrans _ _ _ h hxz
                rw [← hpz] at this; cases this
              have hx' : x ∈ z :: B := by simpa using hperm.mem_iff.mpr hx
              rcases List.mem_cons.mp hx' with rfl | hx'
              · rw [hg.1.irrefl] at hxz; cases hxz
              · have := hg.2 _ _ _ (hB x hx')
                rw [hxz] at this; cases this
        have ih' := ih (v := v.sub (A.length + 1) (v.len - (A.length + 1))) (k := k - A.length - 1) (pred := some (v.addr A.length))
          (P := [z]) (xs := B) (limit := limit) (bal := decide (min A.length (v.len - A.length) ≥ v.len / 8))
          rfl (by simp; omega) (by simp; omega) (by simp; omega) (by simp; omega)
          (hmono _ _ _ (by rw [View.sub_len, show v.len - (A.length + 1) = B.length by omega]; exact hfew))
        rw [hreg, show P ++ (A ++ z :: B) = (P ++ A) ++ ([z] ++ B) ++ [] by simp, ← List.append_nil (qrg pred _ ++ _)]
        refine Tri.mono (Tri.part ih' (by simp [qrg, hP]) (by simp [qrg]; omega)) (fun _ _ _ _ => trivial) ?_
        rintro _ _ _ ⟨zs, _, rfl, h⟩
        exact h
      rw [if_neg hlt]
      by_cases hgt : A.length > k
      · rw [if_pos hgt]
        have ih' := ih (v := v.sub 0 A.length) (k := k) (pred := pred)
          (P := P) (xs := A) (limit := limit) (bal := decide (min A.length (v.len - A.length) ≥ v.len / 8))
          hP (by simp) (by simp; omega) (by simp; omega) (by simp; omega) (hmono _ _ _ (two _ _ (by simp; omega)))
        rw [hreg, show P ++ (A ++ z :: B) = [] ++ (P ++ A) ++ ([z] ++ B) by simp,
          ← List.nil_append (qrg pred (v.sub 0 A.length))]
        refine Tri.mono (Tri.part ih' rfl (by simp [qrg, hP])) (fun _ _ _ _ => trivial) ?_
        rintro _ _ _ ⟨zs, _, rfl, h⟩
        exact h
      · rw [if_neg hgt]
        exact Tri.pure trivial

theorem partitionAtIndex_few (hg : C.Good lt) : SelFine cfg C 35 :=
  selFine_of C fun hx hk hs => selLoop_few C hg (pred := none) (P := []) rfl hx (by omega) hk (by omega)
    (.inl (by unfold roundsLeft; simp; omega))

end NdSlice
