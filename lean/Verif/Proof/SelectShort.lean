import Verif.Proof.Select

/-
Selection from few elements does not get to the median of medians: /repo/src/partition.rs:96-179.
-/

namespace NdSlice

variable {α ι ω : Type} {cfg : Cfg} (C : Cmp α ι ω) {v : View}

/-- So few elements that `limit` unbalanced rounds leave at most ten of them. -/
def Short (limit : Nat) (bal : Bool) (len : Nat) : Prop := len ≤ limit + 10 ∨ (bal = true ∧ 1 ≤ limit ∧ len ≤ limit + 11)

/-- Only user code panics. -/
def SU (C : Cmp α ι ω) (e : Panic) (_ : List α) : Prop := e = .user ∧ C.pan

theorem EP.su {xs ys : List α} {e : Panic} (h : EP C xs e ys) : SU C e ys := ⟨h.1, h.2.1⟩

theorem selLoop_short {n k limit : Nat} {bal : Bool} {pred : Option Addr} {P xs : List α}
    (hP : P.length = pred.toList.length) (hx : xs.length = v.len) (hn : v.len < n) (hk : k < v.len) (hs : Short limit bal v.len) :
    Tri C.R (qrg pred v) (selLoop cfg C.less n v k pred limit bal) (P ++ xs) (fun _ _ => True) (SU C) := by
  induction n generalizing v k pred limit bal P xs with
  | zero => omega
  | succ n ih =>
    unfold selLoop
    by_cases h10 : v.len ≤ 10
    · rw [if_pos h10, if_pos (by omega)]
      refine Tri.mono (Tri.onQrg hP hx (insertionSortShiftLeft_spec C (by omega) (by omega) hx)) (fun _ _ _ _ => trivial) ?_
      rintro _ _ _ ⟨ys, rfl, h⟩
      exact h.su
    rw [if_neg h10]
    have hlim : limit ≠ 0 := by unfold Short at hs; omega
    rw [if_neg hlim]
    refine Tri.bind (Q' := fun l zs => (∃ ys, zs = P ++ ys ∧ ys.length = v.len) ∧ v.len ≤ l + 11 ∧ (bal = false → v.len ≤ l + 11)) ?_ ?_
    · cases bal with
      | true => exact Tri.pure ⟨⟨xs, rfl, hx⟩, by unfold Short at hs; omega, by simp⟩
      | false =>
        simp only [Bool.not_false, if_true]
        refine Tri.bind (Tri.mono (Tri.onQrg hP hx (breakPatterns_spec (E := SU C) hx)) (fun _ _ _ h => h) (fun _ _ _ ⟨_, _, h⟩ => h)) ?_
        rintro _ _ _ ⟨ys, rfl, h1⟩
        have : v.len ≤ limit + 10 := by unfold Short at hs; simpa using hs
        exact Tri.usubR (by omega) ⟨⟨ys, rfl, by rw [h1.length_eq, hx]⟩, by omega, fun _ => by omega⟩
    rintro limit _ _ ⟨⟨ys, rfl, hyl⟩, hlim, -⟩
    have hnew : ∀ b len, len < v.len → Short limit b len := fun b len h => .inl (by omega)
    refine Tri.bind (Tri.mono (Tri.onQrg hP hyl (choosePivot_spec C (by omega) hyl)) (fun _ _ _ h => h) ?_) ?_
    · rintro _ _ _ ⟨zs, rfl, h⟩
      exact h.su
    rintro ⟨pivot, likely⟩ _ _ ⟨us, rfl, hu, hpv⟩
    dsimp only at hpv ⊢
    have hul : us.length = v.len := by rw [hu.length_eq, hyl]
    rw [selPredCheck_eq]
    refine Tri.bind (predCheck_spec (C := C) hP hpv (fun hpan => ⟨rfl, hpan⟩)) ?_
    rintro c _ _ ⟨rfl, hc⟩
    cases c with
    | true =>
      simp only [if_true]
      obtain ⟨p, x, rfl, hxp, hpx⟩ := hc rfl
      refine Tri.bind (Tri.mono (Tri.onQrg hP hul (partitionEqual_spec C hul (by omega) hpv)) (fun _ _ _ h => h) ?_) ?_
      · rintro _ _ _ ⟨zs, rfl, h⟩
        exact h.su
      rintro mid _ _ ⟨_, rfl, hperm, x', A, B, hx', rfl, rfl, hA, hB⟩
      have hl : A.length + 1 + B.length = v.len := by
        have := hperm.length_eq; simp at this; omega
      by_cases hmk : A.length + 1 > k
      · rw [if_pos hmk]
        exact Tri.pure trivial
      · rw [if_neg hmk]
        refine Tri.splitAt (by omega) (Tri.usub (by omega) ?_)
        dsimp only
        have ih' := ih (v := v.sub (A.length + 1) (v.len - (A.length + 1))) (k := k - (A.length + 1)) (pred := none)
          (P := []) (xs := B) (limit := limit) (bal := bal) rfl (by simp; omega) (by simp; omega) (by simp; omega)
          (hnew _ _ (by simp; omega))
        have hreg : qrg pred v = (pred.toList ++ (v.sub 0 (A.length + 1)).region) ++
            qrg none (v.sub (A.length + 1) (v.len - (A.length + 1))) ++ [] := by
          unfold qrg
          rw [View.region_split v (a := A.length + 1) (n := v.len - (A.length + 1)) (by omega),
            show v.len - (A.length + 1 + (v.len - (A.length + 1))) = 0 by omega]
          simp [View.region]
        rw [hreg, show [p] ++ (x' :: A ++ B) = (p :: x' :: A) ++ ([] ++ B) ++ [] by simp]
        refine Tri.mono (Tri.part ih' (by rw [List.length_append, ← hP]; simp; omega) (by simp [qrg]; omega)) (fun _ _ _ _ => trivial) ?_
        rintro _ _ _ ⟨B', _, rfl, h⟩
        exact h
    | false =>
      simp only [Bool.false_eq_true, if_false]
      refine Tri.bind (Tri.mono (Tri.onQrg hP hul (partition_spec C hul hpv)) (fun _ _ _ h => h) ?_) ?_
      · rintro _ _ _ ⟨zs, rfl, h⟩
        exact h.su
      rintro ⟨mid, wasP⟩ _ _ ⟨_, rfl, hperm, p, A, B, _, rfl, hm, hA, hB⟩
      dsimp only at hm
      subst hm
      have hl : A.length + 1 + B.length = v.len := by
        have := hperm.length_eq; simp at this; omega
      dsimp only
      refine Tri.usub (by omega) (Tri.splitAt (by omega) (Tri.splitAt (by simp; omega) (Tri.vref (by simp) ?_)))
      dsimp only
      rw [View.sub_sub, View.sub_addr, View.sub_addr, Nat.add_zero, Nat.add_zero, View.sub_len,
        show v.len - A.length - 1 = v.len - (A.length + 1) by omega]
      have hreg : qrg pred v = qrg pred (v.sub 0 A.length) ++
          qrg (some (v.addr A.length)) (v.sub (A.length + 1) (v.len - (A.length + 1))) := by
        unfold qrg
        rw [region_three (v := v) (mid := A.length) (by omega)]
        simp
      by_cases hlt : A.length < k
      · rw [if_pos hlt]
        refine Tri.usub (by omega) (Tri.usub (by omega) ?_)
        have ih' := ih (v := v.sub (A.length + 1) (v.len - (A.length + 1))) (k := k - A.length - 1) (pred := some (v.addr A.length))
          (P := [p]) (xs := B) (limit := limit) (bal := decide (min A.length (v.len - A.length) ≥ v.len / 8))
          rfl (by simp; omega) (by simp; omega) (by simp; omega) (hnew _ _ (by simp; omega))
        rw [hreg, show P ++ (A ++ p :: B) = (P ++ A) ++ ([p] ++ B) ++ [] by simp, ← List.append_nil (qrg pred _ ++ _)]
        refine Tri.mono (Tri.part ih' (by simp [qrg, hP]) (by simp [qrg]; omega)) (fun _ _ _ _ => trivial) ?_
        rintro _ _ _ ⟨zs, _, rfl, h⟩
        exact h
      rw [if_neg hlt]
      by_cases hgt : A.length > k
      · rw [if_pos hgt]
        have ih' := ih (v := v.sub 0 A.length) (k := k) (pred := pred)
          (P := P) (xs := A) (limit := limit) (bal := decide (min A.length (v.len - A.length) ≥ v.len / 8))
          hP (by simp) (by simp; omega) (by simp; omega) (hnew _ _ (by simp; omega))
        rw [hreg, show P ++ (A ++ p :: B) = [] ++ (P ++ A) ++ ([p] ++ B) by simp,
          ← List.nil_append (qrg pred (v.sub 0 A.length))]
        refine Tri.mono (Tri.part ih' rfl (by simp [qrg, hP])) (fun _ _ _ _ => trivial) ?_
        rintro _ _ _ ⟨zs, _, rfl, h⟩
        exact h
      · rw [if_neg hgt]
        exact Tri.pure trivial

/-- Selection from up to `N` elements goes well. -/
def SelFine (cfg : Cfg) (C : Cmp α ι ω) (N : Nat) : Prop :=
  ∀ {v : View} {xs : List α} {k : Nat}, xs.length = v.len → k < v.len → v.len ≤ N →
    Tri C.R v.region (partitionAtIndex cfg C.less v k) xs
      (fun r _ => r = (v.sub 0 k, v.addr k, v.sub (k + 1) (v.len - (k + 1)))) (SU C)

theorem selFine_of {N : Nat} (h : ∀ {v : View} {xs : List α} {k : Nat}, xs.length = v.len → k < v.len → v.len ≤ N →
    Tri C.R (qrg none v) (selLoop cfg C.less (v.len + 1) v k none 16 true) ([] ++ xs) (fun _ _ => True) (SU C)) : SelFine cfg C N := by
  intro v xs k hx hk hs
  unfold partitionAtIndex
  rw [if_neg (by omega)]
  refine Tri.bind (Q' := fun _ _ => True) ?_ ?_
  · by_cases hzst : cfg.zst = true
    · rw [if_pos hzst]
      exact Tri.pure trivial
    · rw [if_neg hzst]
      refine Tri.usub (by omega) ?_
      by_cases hlast : k = v.len - 1
      · rw [if_pos hlast]
        exact Tri.mono (selectMax_spec C (by omega) hx) (fun _ _ _ _ => trivial) (fun _ _ _ h => h.su)
      rw [if_neg hlast]
      by_cases h0 : k = 0
      · rw [if_pos h0]
        subst h0
        exact Tri.mono (selectMin_spec C (by omega) hx) (fun _ _ _ _ => trivial) (fun _ _ _ h => h.su)
      rw [if_neg h0]
      exact h hx hk hs
  · rintro _ ys _ h
    refine Tri.splitAt (by omega) (Tri.splitAt (by simp; omega) (Tri.vref (by simp) (Tri.pure ?_)))
    simp only [View.sub_sub, View.sub_addr, Nat.add_zero, View.sub_len]
    rw [show v.len - k - 1 = v.len - (k + 1) by omega]

theorem partitionAtIndex_short : SelFine cfg C 27 :=
  selFine_of C fun hx hk hs => selLoop_short C (pred := none) (P := []) rfl hx (by omega) hk (.inr ⟨rfl, by omega, by omega⟩)

/-- No `debug_assert!` fails. -/
def NoDebug {α : Type} (e : Panic) (_ : List α) : Prop := e ≠ .debugAssert

theorem SU.noDebug {e : Panic} {ys : List α} (h : SU C e ys) : NoDebug e ys := by
  rintro rfl
  cases h.1

theorem partitionAtIndices_short {N : Nat} (H : SelFine cfg C N) {n off : Nat} {is : List Nat} {xs : List α}
    (hx : xs.length = v.len) (hn : is.length < n) (hb : 2 * (off + v.len) ≤ 2 ^ cfg.bits) (hs : v.len ≤ N) :
    Tri C.R v.region (partitionAtIndices cfg C.less n v off is) xs (fun _ _ => True) NoDebug := by
  induction n generalizing v off is xs with
  | zero => omega
  | succ n ih =>
    unfold partitionAtIndices
    split
    · exact Tri.pure trivial
    · rename_i pivot h
      have hsp := split_mid h
      generalize hI : is.take (is.length / 2) = I at hsp ⊢
      generalize hJ : is.drop (is.length / 2 + 1) = J at hsp ⊢
      clear h hI hJ
      subst hsp
      simp only [List.length_append, List.length_cons] at hn
      by_cases hlo : pivot < off
      · refine Tri.usubBad (n := v.len) hlo (by omega) (by omega) (fun hd => by simp [NoDebug]) ?_
        intro i hi
        exact partitionAtIndex_bad hi (by simp [NoDebug])
      refine Tri.usub (by omega) ?_
      by_cases hhi : off + v.len ≤ pivot
      · exact partitionAtIndex_bad (by omega) (by simp [NoDebug])
      refine Tri.bind (Tri.mono (H hx (by omega) hs) (fun _ _ _ h => h) (fun _ _ _ h => SU.noDebug C h)) ?_
      rintro _ ys hyl rfl
      dsimp only
      obtain ⟨A, p, B, rfl, hAl⟩ := split_at (xs := ys) (i := pivot - off) (by omega)
      have hl : A.length + 1 + B.length = v.len := by simp at hyl; omega
      rw [← hAl]
      refine Tri.bind (Tri.onLeft hl (Q := fun _ ys => ∃ A', A'.length = A.length ∧ ys = A' ++ p :: B) (E' := NoDebug)
        (ih (v := v.sub 0 A.length) (by simp) (by omega) (by simp; omega) (by simp; omega))
        (fun _ A' h _ => ⟨A', h, rfl⟩) (fun _ _ _ h => h)) ?_
      rintro r _ _ ⟨A', hA'l, rfl⟩
      refine Tri.bind (Tri.onRight (A := A') (by omega) (Q := fun _ _ => True) (E' := NoDebug)
        (by rw [hA'l]
            exact ih (v := v.sub (A.length + 1) (v.len - (A.length + 1))) (off := pivot + 1) (is := J) (by simp; omega) (by omega)
              (by simp; omega) (by simp; omega)) (fun _ _ _ _ => trivial) (fun _ _ _ h => h)) ?_
      exact fun _ _ _ _ => Tri.pure trivial

theorem parPartitionAtIndices_short {N : Nat} (hN : N ≤ 2000) (H : SelFine cfg C N) {n off vs vl : Nat} {is : List Nat} {xs : List α}
    (hx : xs.length = v.len) (hn : is.length < n) (hb : 2 * (off + v.len) ≤ 2 ^ cfg.bits) (hvl : is.length ≤ vl) (hs : v.len ≤ N) :
    Tri C.R v.region (parPartitionAtIndices cfg C.less n v off is vs vl) xs (fun _ _ => True) NoDebug := by
  induction n generalizing v off is xs vs vl with
  | zero => omega
  | succ n ih =>
    unfold parPartitionAtIndices
    split
    · exact Tri.pure trivial
    · rename_i pivot h
      have hsp := split_mid h
      have hIl : (is.take (is.length / 2)).length = is.length / 2 := by simp; omega
      generalize hI : is.take (is.length / 2) = I at hsp hIl ⊢
      generalize hJ : is.drop (is.length / 2 + 1) = J at hsp ⊢
      rw [← hIl]
      clear h hI hJ hIl
      subst hsp
      simp only [List.length_append, List.length_cons] at hn hvl
      by_cases hlo : pivot < off
      · refine Tri.usubBad (n := v.len) hlo (by omega) (by omega) (fun hd => by simp [NoDebug]) ?_
        intro i hi
        exact partitionAtIndex_bad hi (by simp [NoDebug])
      refine Tri.usub (by omega) ?_
      by_cases hhi : off + v.len ≤ pivot
      · exact partitionAtIndex_bad (by omega) (by simp [NoDebug])
      refine Tri.bind (Tri.mono (H hx (by omega) hs) (fun _ _ _ h => h) (fun _ _ _ h => SU.noDebug C h)) ?_
      rintro _ ys hyl rfl
      dsimp only
      obtain ⟨A, p, B, rfl, hAl⟩ := split_at (xs := ys) (i := pivot - off) (by omega)
      have hl : A.length + 1 + B.length = v.len := by simp at hyl; omega
      refine Tri.assertP (by simp; omega) (Tri.assertP (by simp; omega) (Tri.assertP (by simp; omega) (Tri.usub (by omega) ?_)))
      rw [← hAl]
      rw [if_pos (by right; omega)]
      refine Tri.bind (Tri.onLeft hl (Q := fun _ ys => ∃ A', A'.length = A.length ∧ ys = A' ++ p :: B) (E' := NoDebug)
        (ih (v := v.sub 0 A.length) (vs := vs) (vl := I.length) (by simp) (by omega) (by simp; omega) le_rfl (by simp; omega))
        (fun _ A' h _ => ⟨A', h, rfl⟩) (fun _ _ _ h => h)) ?_
      rintro r _ _ ⟨A', hA'l, rfl⟩
      refine Tri.bind (Tri.onRight (A := A') (by omega) (Q := fun _ _ => True) (E' := NoDebug)
        (by rw [hA'l]
            exact ih (v := v.sub (A.length + 1) (v.len - (A.length + 1))) (off := pivot + 1) (is := J) (by simp; omega) (by omega)
              (by simp; omega) (by omega) (by simp; omega)) (fun _ _ _ _ => trivial) (fun _ _ _ h => h)) ?_
      exact fun _ _ _ _ => Tri.pure trivial

end NdSlice
