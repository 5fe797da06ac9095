import Verif.Proof.Blocks
import Verif.Proof.Heap
import Verif.Model.Quick

/-
Quicksort: /repo/src/quick_sort.rs and /repo/src/par/quick_sort.rs.
-/

namespace NdSlice

variable {α ι ω : Type} {cfg : Cfg} (C : Cmp α ι ω)

/-- The cells of a call of `recurse`: that of the predecessor, if any, and those of the slice. -/
def qrg (pred : Option Addr) (v : View) : List Addr := pred.toList ++ v.region

/-- The result of a call of `recurse` with predecessor value(s) `P` on `xs`. -/
def QPost (P xs zs : List α) : Prop :=
  ∃ ys, zs = P ++ ys ∧ ys.Perm xs ∧ ∀ lt, C.Good lt → (∀ p ∈ P, ∀ x ∈ xs, lt x p = false) → Sorted lt ys

/-- After a panic. -/
def QE (P xs : List α) (e : Panic) (zs : List α) : Prop :=
  e = .user ∧ C.pan ∧ ∃ ys, zs = P ++ ys ∧ ys.Perm xs

variable {C}

/-- Something on the slice only. -/
theorem Tri.onView {β : Type} {pred : Option Addr} {v : View} {p : Prog α ι ω β} {P xs ys : List α}
    {Q : β → List α → Prop} (hP : P.length = pred.toList.length) (hx : xs.length = v.len) (hxy : xs.Perm ys)
    (h : Tri C.R v.region p xs Q (EP C xs)) :
    Tri C.R (qrg pred v) p (P ++ xs) (fun b zs => ∃ ys, ys.length = xs.length ∧ zs = P ++ ys ∧ Q b ys) (QE C P ys) := by
  have := Tri.part (l := pred.toList) (r := []) (A := P) (B := []) h hP (by simpa using hx)
  simp only [List.append_nil] at this
  refine Tri.mono this (fun _ _ _ h => h) ?_
  rintro e _ _ ⟨zs, h1, rfl, h2⟩
  exact ⟨h2.1, h2.2.1, zs, rfl, h2.2.2.trans hxy⟩

theorem QPost.of_perm {P xs ys zs : List α} (h : xs.Perm ys) (hz : QPost C P xs zs) : QPost C P ys zs := by
  obtain ⟨us, h1, h2, h3⟩ := hz
  exact ⟨us, h1, h2.trans h, fun lt hg hp => h3 lt hg fun p hp' x hx => hp p hp' x (h.mem_iff.mp hx)⟩

theorem QE.of_perm {P xs ys zs : List α} {e : Panic} (h : xs.Perm ys) (hz : QE C P xs e zs) : QE C P ys e zs := by
  obtain ⟨h1, h2, us, h3, h4⟩ := hz
  exact ⟨h1, h2, us, h3, h4.trans h⟩

/-- Putting the parts of a partition together. -/
theorem QPost.parts {P xs A B A' B' : List α} {p : α} (h : (A ++ p :: B).Perm xs)
    (hA : ∀ a ∈ A, C.ans a p true) (hB : ∀ b ∈ B, C.ans b p false)
    (h1 : QPost C P A (P ++ A')) (h2 : QPost C [p] B ([p] ++ B')) : QPost C P xs (P ++ (A' ++ p :: B')) := by
  obtain ⟨us, e1, p1, s1⟩ := h1
  obtain ⟨ws, e2, p2, s2⟩ := h2
  obtain rfl := List.append_cancel_left e1
  obtain rfl := List.append_cancel_left e2
  refine ⟨_, rfl, (p1.append (p2.cons p)).trans h, fun lt hg hp => ?_⟩
  have sA := s1 lt hg fun q hq x hx => hp q hq x (h.mem_iff.mp (by simp [hx]))
  have hBp : ∀ x ∈ B', lt x p = false := fun x hx => (hg.2 _ _ _ (hB x (p2.mem_iff.mp hx))).symm
  have sB := s2 lt hg fun q hq x hx => by
    rw [List.mem_singleton.mp hq]; exact (hg.2 _ _ _ (hB x hx)).symm
  have hAp : ∀ x ∈ A', lt x p = true := fun x hx => (hg.2 _ _ _ (hA x (p1.mem_iff.mp hx))).symm
  rw [Sorted.append_iff, Sorted.cons_iff]
  refine ⟨sA, ⟨hBp, sB⟩, fun x hx y hy => ?_⟩
  have hxp := hg.1.asymm (hAp x hx)
  rcases List.mem_cons.mp hy with rfl | hy
  · exact hxp
  · exact hg.1.le_trans hxp (hBp y hy)

theorem region_three {v : View} {mid : Nat} (h : mid < v.len) :
    v.region = (v.sub 0 mid).region ++ (v.addr mid :: (v.sub (mid + 1) (v.len - (mid + 1))).region) := by
  rw [View.region_split v (a := mid) (n := 1) (by omega), List.append_assoc]
  congr 1
  simp only [View.region, View.sub_len, List.range_one, List.map_cons, List.map_nil, View.sub_addr, Nat.add_zero, List.singleton_append]

variable (C)

/-- Depth bound needed for a slice of length `n`. -/
def DepthOk (maxSeq : Option Nat) (d n : Nat) : Prop :=
  match maxSeq with
  | none => n < 2 ^ d ∧ 1 ≤ d
  | some _ => n < d

theorem DepthOk.half {maxSeq : Option Nat} {d n k : Nat} (h : DepthOk maxSeq (d + 1) n) (hk : 2 * k < n) (hn : 2 ≤ n) :
    DepthOk maxSeq d k := by
  unfold DepthOk at *
  cases maxSeq with
  | none =>
    dsimp only at *
    rw [Nat.pow_succ] at h
    refine ⟨by omega, ?_⟩
    cases d with
    | zero => simp at h; omega
    | succ d => omega
  | some m => dsimp only at *; omega

/-- What is assumed about recursive calls. -/
def RecOk (maxSeq : Option Nat) (d : Nat) (rec : View → Option Addr → Nat → Prog α ι ω Unit) : Prop :=
  ∀ v pred limit (P xs : List α), DepthOk maxSeq d v.len → P.length = pred.toList.length → xs.length = v.len →
    Tri C.R (qrg pred v) (rec v pred limit) (P ++ xs) (fun _ => QPost C P xs) (QE C P xs)

/-- What is assumed about the rest of the loop. -/
def ContOk (n : Nat) (K : QSt → Prog α ι ω Unit) : Prop :=
  ∀ (s : QSt) (P xs : List α), s.v.len < n → P.length = s.pred.toList.length → xs.length = s.v.len →
    Tri C.R (qrg s.pred s.v) (K s) (P ++ xs) (fun _ => QPost C P xs) (QE C P xs)

/-- The postcondition of an iteration: go on with the rest of the loop, or done. -/
def StepPost (rg : List Addr) (K : QSt → Prog α ι ω Unit) (P xs : List α) : QSt ⊕ Unit → List α → Prop
  | .inl s', zs => Tri C.R rg (K s') zs (fun _ => QPost C P xs) (QE C P xs)
  | .inr _, zs => QPost C P xs zs

variable {C}

theorem quickSplit_spec {maxSeq : Option Nat} {d : Nat} {rec : View → Option Addr → Nat → Prog α ι ω Unit}
    {s : QSt} {limit pivot : Nat} {K : QSt → Prog α ι ω Unit} {P xs : List α}
    (hrec : RecOk C maxSeq d rec) (hd : DepthOk maxSeq (d + 1) s.v.len) (hK : ContOk C s.v.len K)
    (hP : P.length = s.pred.toList.length) (hx : xs.length = s.v.len) (hpv : pivot < s.v.len) (h2 : 2 ≤ s.v.len) :
    Tri C.R (qrg s.pred s.v) (quickSplit cfg C.less maxSeq rec s limit pivot) (P ++ xs)
      (StepPost C (qrg s.pred s.v) K P xs) (QE C P xs) := by
  obtain ⟨v, pred, lim, bal, part⟩ := s
  dsimp only at *
  unfold quickSplit
  refine Tri.bind (Tri.onView hP hx (.refl _) (partition_spec C hx hpv)) ?_
  rintro ⟨mid, wasP⟩ _ _ ⟨_, hyl, rfl, hperm, p, A, B, _, rfl, hm, hA, hB⟩
  dsimp only at hm
  subst hm
  have hl : A.length + B.length + 1 = v.len := by
    have := hperm.length_eq; simp at this; omega
  dsimp only
  refine Tri.usub (by omega) (Tri.splitAt (by omega) ?_)
  dsimp only
  refine Tri.splitAt (by simp; omega) (Tri.vref (by simp) ?_)
  dsimp only
  rw [View.sub_sub, View.sub_addr, View.sub_addr, Nat.add_zero, Nat.add_zero, View.sub_len,
    show v.len - A.length - 1 = v.len - (A.length + 1) by omega]
  generalize hlft : v.sub 0 A.length = left
  generalize hrgt : v.sub (A.length + 1) (v.len - (A.length + 1)) = right
  have hll : left.len = A.length := by rw [← hlft]; rfl
  have hrl : right.len = B.length := by rw [← hrgt, View.sub_len]; omega
  have hreg : qrg pred v = qrg pred left ++ qrg (some (v.addr A.length)) right := by
    unfold qrg
    rw [region_three (v := v) (mid := A.length) (by omega), hlft, hrgt]
    simp
  have hcont : P ++ (A ++ p :: B) = (P ++ A) ++ ([p] ++ B) := by simp
  rw [hreg, hcont]
  have hPl : (P ++ A).length = (qrg pred left).length := by simp [qrg, hP, hll]
  have toE : ∀ e ys A' B', e = Panic.user → C.pan → A'.Perm A → B'.Perm B → ys = (P ++ A') ++ ([p] ++ B') → QE C P xs e ys := by
    rintro e _ A' B' rfl hpan h1 h2 rfl
    exact ⟨rfl, hpan, A' ++ p :: B', by simp, (h1.append (h2.cons p)).trans hperm⟩
  have toQ : ∀ A' B', QPost C P A (P ++ A') → QPost C [p] B ([p] ++ B') → QPost C P xs ((P ++ A') ++ ([p] ++ B')) := by
    intro A' B' h1 h2
    have := QPost.parts hperm hA hB h1 h2
    simpa using this
  -- working on the left part only
  have onLeft : ∀ {β : Type} {f : Prog α ι ω β} {A1 B1 : List α} {Q : β → List α → Prop} {E : Panic → List α → Prop},
      (P ++ A1).length = (qrg pred left).length → Tri C.R (qrg pred left) f (P ++ A1) Q E →
      Tri C.R (qrg pred left ++ qrg (some (v.addr A.length)) right) f ((P ++ A1) ++ ([p] ++ B1))
        (fun b zs => ∃ us, zs = us ++ ([p] ++ B1) ∧ Q b us) (fun b zs => ∃ us, zs = us ++ ([p] ++ B1) ∧ E b us) := by
    intro β f A1 B1 Q E hl1 h
    have := Tri.part (l := []) (r := qrg (some (v.addr A.length)) right) (A := []) (B := [p] ++ B1) h rfl hl1
    simp only [List.nil_append] at this
    refine Tri.mono this ?_ ?_
    · rintro b _ _ ⟨us, _, rfl, h⟩; exact ⟨us, rfl, h⟩
    · rintro b _ _ ⟨us, _, rfl, h⟩; exact ⟨us, rfl, h⟩
  have onRight : ∀ {β : Type} {f : Prog α ι ω β} {A1 B1 : List α} {Q : β → List α → Prop} {E : Panic → List α → Prop},
      (P ++ A1).length = (qrg pred left).length → B1.length = B.length →
      Tri C.R (qrg (some (v.addr A.length)) right) f ([p] ++ B1) Q E →
      Tri C.R (qrg pred left ++ qrg (some (v.addr A.length)) right) f ((P ++ A1) ++ ([p] ++ B1))
        (fun b zs => ∃ us, zs = (P ++ A1) ++ us ∧ Q b us) (fun b zs => ∃ us, zs = (P ++ A1) ++ us ∧ E b us) := by
    intro β f A1 B1 Q E hl1 hl2 h
    have := Tri.part (l := qrg pred left) (r := []) (A := P ++ A1) (B := []) h hl1 (by simp [qrg, hrl, hl2])
    simp only [List.append_nil] at this
    refine Tri.mono this ?_ ?_
    · rintro b _ _ ⟨us, _, rfl, h⟩; exact ⟨us, rfl, h⟩
    · rintro b _ _ ⟨us, _, rfl, h⟩; exact ⟨us, rfl, h⟩
  unfold quickDescend
  simp only [Nat.add_zero]
  by_cases hseq : goesSeq maxSeq (max left.len right.len) = true
  · rw [if_pos hseq]
    by_cases hlr : left.len < right.len
    · rw [if_pos hlr]
      refine Tri.bind (Tri.mono (onLeft (B1 := B) hPl (hrec left pred limit P A (hd.half (by omega) h2) hP hll.symm)) (fun _ _ _ h => h) ?_) ?_
      · rintro e _ _ ⟨_, rfl, rfl, hpan, A', rfl, hA'⟩
        exact toE _ _ A' B rfl hpan hA' (.refl _) rfl
      · rintro _ _ _ ⟨us, rfl, A', rfl, hA1, hA2⟩
        refine Tri.pure ?_
        dsimp only [StepPost]
        have hl' : (P ++ A').length = (qrg pred left).length := by rw [← hPl]; simp [hA1.length_eq]
        refine Tri.mono (onRight (A1 := A') hl' rfl (hK ⟨right, some (v.addr A.length), limit, _, wasP⟩ [p] B (by dsimp only; omega) (by simp) hrl.symm)) ?_ ?_
        · rintro _ _ _ ⟨_, rfl, B', rfl, hB1, hB2⟩
          exact toQ A' B' ⟨A', rfl, hA1, hA2⟩ ⟨B', rfl, hB1, hB2⟩
        · rintro e _ _ ⟨_, rfl, rfl, hpan, B', rfl, hB'⟩
          exact toE _ _ A' B' rfl hpan hA1 hB' rfl
    · rw [if_neg hlr]
      refine Tri.bind (Tri.mono (onRight (A1 := A) hPl rfl (hrec right (some (v.addr A.length)) limit [p] B (hd.half (by omega) h2) rfl hrl.symm)) (fun _ _ _ h => h) ?_) ?_
      · rintro e _ _ ⟨_, rfl, rfl, hpan, B', rfl, hB'⟩
        exact toE _ _ A B' rfl hpan (.refl _) hB' rfl
      · rintro _ _ _ ⟨us, rfl, B', rfl, hB1, hB2⟩
        refine Tri.pure ?_
        dsimp only [StepPost]
        refine Tri.mono (onLeft (A1 := A) (B1 := B') hPl (hK ⟨left, pred, limit, _, wasP⟩ P A (by dsimp only; omega) hP hll.symm)) ?_ ?_
        · rintro _ _ _ ⟨_, rfl, A', rfl, hA1, hA2⟩
          exact toQ A' B' ⟨A', rfl, hA1, hA2⟩ ⟨B', rfl, hB1, hB2⟩
        · rintro e _ _ ⟨_, rfl, rfl, hpan, A', rfl, hA'⟩
          exact toE _ _ A' B' rfl hpan hA' hB1 rfl
  · rw [if_neg hseq]
    cases maxSeq with
    | none => exact absurd rfl hseq
    | some n =>
      have hd1 : DepthOk (some n) d left.len := by unfold DepthOk at *; dsimp only at *; omega
      have hd2 : DepthOk (some n) d right.len := by unfold DepthOk at *; dsimp only at *; omega
      refine Tri.bind (Tri.rayonJoin (Q := fun _ => QPost C P xs) hPl (hrec left pred limit P A hd1 hP hll.symm)
        (hrec right (some (v.addr A.length)) limit [p] B hd2 rfl hrl.symm) ?_ ?_ ?_ ?_) ?_
      · rintro _ _ _ _ _ _ ⟨A', rfl, hA1, hA2⟩ ⟨B', rfl, hB1, hB2⟩
        exact toQ A' B' ⟨A', rfl, hA1, hA2⟩ ⟨B', rfl, hB1, hB2⟩
      · rintro _ _ _ _ _ _ ⟨rfl, hpan, A', rfl, hA1⟩ ⟨B', rfl, hB1, hB2⟩
        exact toE _ _ A' B' rfl hpan hA1 hB1 rfl
      · rintro _ _ _ _ _ _ ⟨A', rfl, hA1, hA2⟩ ⟨rfl, hpan, B', rfl, hB1⟩
        exact toE _ _ A' B' rfl hpan hA1 hB1 rfl
      · rintro _ _ _ _ _ _ ⟨rfl, hpan, A', rfl, hA1⟩ ⟨rfl, _, B', rfl, hB1⟩
        exact toE _ _ A' B' rfl hpan hA1 hB1 rfl
      · intro _ zs _ h
        exact Tri.pure h

theorem predCheck_spec {v : View} {pred : Option Addr} {pivot : Nat} {P xs : List α} {E : Panic → List α → Prop}
    (hP : P.length = pred.toList.length) (hpv : pivot < v.len) (hE : C.pan → E .user (P ++ xs)) :
    Tri C.R (qrg pred v) (predCheck C.less v pivot pred) (P ++ xs)
      (fun b zs => zs = P ++ xs ∧ (b = true → ∃ p x, P = [p] ∧ xs[pivot]? = some x ∧ C.ans p x false)) E := by
  cases pred with
  | none => exact Tri.pure ⟨rfl, by simp⟩
  | some a =>
    obtain ⟨p, rfl⟩ : ∃ p, P = [p] := List.length_eq_one_iff.mp (by simpa using hP)
    unfold predCheck
    refine Tri.deref (j := 0) (by simp [qrg]) fun p' hp => ?_
    obtain rfl : p = p' := by simpa using hp
    refine Tri.vidx' (j := 1) (View.at_right (v := v) [a]) hpv fun x hx => ?_
    refine Tri.lessB C (fun b hb => Tri.pure ⟨rfl, fun h => ?_⟩) hE
    refine ⟨p, x, rfl, ?_, ?_⟩
    · rwa [List.singleton_append, Nat.add_comm, List.getElem?_cons_succ] at hx
    · cases b with
      | false => exact hb
      | true => simp at h

theorem quickStep_spec {maxSeq : Option Nat} {d : Nat} {rec : View → Option Addr → Nat → Prog α ι ω Unit}
    {s : QSt} {K : QSt → Prog α ι ω Unit} {P xs : List α}
    (hrec : RecOk C maxSeq d rec) (hd : DepthOk maxSeq (d + 1) s.v.len) (hK : ContOk C s.v.len K)
    (hP : P.length = s.pred.toList.length) (hx : xs.length = s.v.len) :
    Tri C.R (qrg s.pred s.v) (quickStep cfg C.less maxSeq rec s) (P ++ xs)
      (StepPost C (qrg s.pred s.v) K P xs) (QE C P xs) := by
  unfold quickStep
  dsimp only
  by_cases h20 : s.v.len ≤ 20
  · rw [if_pos h20]
    by_cases h2 : s.v.len ≥ 2
    · rw [if_pos h2]
      refine Tri.bind (Q' := fun _ => QPost C P xs) ?_ (fun _ _ _ h => Tri.pure h)
      refine Tri.mono (Tri.onView hP hx (.refl _) (insertionSortShiftLeft_spec C (by omega) (by omega) hx)) ?_ (fun _ _ _ h => h)
      rintro _ _ _ ⟨ys, _, rfl, h1, h2⟩
      refine ⟨ys, rfl, h1, fun lt hg _ => (h2 lt hg ?_).1⟩
      cases xs with
      | nil => simpa using Sorted.nil
      | cons x _ => simpa using Sorted.single x
    · rw [if_neg h2]
      refine Tri.pure ⟨xs, rfl, .refl _, fun lt _ _ => ?_⟩
      match xs, hx with
      | [], _ => exact Sorted.nil
      | [x], _ => exact Sorted.single x
      | _ :: _ :: _, h => simp at h; omega
  rw [if_neg h20]
  by_cases hlim : s.limit = 0
  · rw [if_pos hlim]
    refine Tri.bind (Q' := fun _ => QPost C P xs) ?_ (fun _ _ _ h => Tri.pure h)
    refine Tri.mono (Tri.onView hP hx (.refl _) (heapSort_spec C hx)) ?_ (fun _ _ _ h => h)
    rintro _ _ _ ⟨ys, _, rfl, h1, h2⟩
    exact ⟨ys, rfl, h1, fun lt hg _ => h2 lt hg⟩
  rw [if_neg hlim]
  refine Tri.bind (Q' := fun _ zs => ∃ ys, zs = P ++ ys ∧ ys.Perm xs) ?_ ?_
  · by_cases hb : s.bal = true
    · simp only [hb, Bool.not_true, Bool.false_eq_true, if_false]
      exact Tri.pure ⟨xs, rfl, .refl _⟩
    · simp only [hb, Bool.not_false, if_true]
      refine Tri.bind (Tri.onView hP hx (.refl _) (breakPatterns_spec hx)) ?_
      rintro _ _ _ ⟨ys, _, rfl, h1⟩
      exact Tri.usubR (by omega) ⟨ys, rfl, h1⟩
  rintro limit _ _ ⟨ys, rfl, hy⟩
  have hyl : ys.length = s.v.len := by rw [hy.length_eq, hx]
  refine Tri.bind (Tri.onView hP hyl hy (choosePivot_spec C (by omega) hyl)) ?_
  rintro ⟨pivot, likely⟩ _ _ ⟨zs, _, rfl, hz, hpv⟩
  dsimp only at hpv ⊢
  replace hz := hz.trans hy
  have hzl : zs.length = s.v.len := by rw [hz.length_eq, hx]
  refine Tri.bind (Q' := fun b ws => ∃ us, ws = P ++ us ∧ us.Perm xs ∧ (b = true → ∀ lt, C.Good lt → Sorted lt us)) ?_ ?_
  · by_cases hc : (s.bal && s.part && likely) = true
    · rw [if_pos hc]
      refine Tri.mono (Tri.onView hP hzl hz (partialInsertionSort_spec C hzl (by omega))) ?_ (fun _ _ _ h => h)
      rintro b _ _ ⟨us, _, rfl, h1, h2⟩
      exact ⟨us, rfl, h1.trans hz, fun hb lt hg => h2 lt hg hb⟩
    · rw [if_neg hc]
      exact Tri.pure ⟨zs, rfl, hz, by simp⟩
  rintro done _ _ ⟨us, rfl, hu, hs⟩
  have hul : us.length = s.v.len := by rw [hu.length_eq, hx]
  cases done with
  | true =>
    simp only [if_true]
    exact Tri.pure ⟨us, rfl, hu, fun lt hg _ => hs rfl lt hg⟩
  | false =>
    simp only [Bool.false_eq_true, if_false]
    refine Tri.bind (predCheck_spec (C := C) hP hpv (fun hpan => ⟨rfl, hpan, us, rfl, hu⟩)) ?_
    rintro c _ _ ⟨rfl, hc⟩
    cases c with
    | false =>
      simp only [Bool.false_eq_true, if_false]
      refine Tri.mono (quickSplit_spec hrec hd hK hP hul hpv (by omega)) ?_ (fun _ _ _ h => h.of_perm hu)
      rintro (s' | _) ws _ h
      · exact Tri.mono h (fun _ _ _ h => h.of_perm hu) (fun _ _ _ h => h.of_perm hu)
      · exact QPost.of_perm hu h
    | true =>
      simp only [if_true]
      obtain ⟨p, x, rfl, hxp, hpx⟩ := hc rfl
      refine Tri.bind (Tri.onView hP hul hu (partitionEqual_spec C hul (by omega) hpv)) ?_
      rintro k _ _ ⟨_, hyl', rfl, hperm, x', A, B, hx', rfl, rfl, hA, hB⟩
      rw [hxp] at hx'; injection hx' with hx'; subst hx'
      have hl : A.length + 1 + B.length = s.v.len := by simp at hyl'; omega
      refine Tri.splitAt (by omega) ?_
      refine Tri.pure ?_
      dsimp only [StepPost]
      have hreg : qrg s.pred s.v = s.pred.toList ++ (s.v.sub 0 (A.length + 1)).region ++ (s.v.sub (A.length + 1) (s.v.len - (A.length + 1))).region := by
        unfold qrg
        rw [View.region_split s.v (a := A.length + 1) (n := s.v.len - (A.length + 1)) (by omega), List.append_assoc, List.append_assoc]
        congr 2
        have : s.v.len - (A.length + 1 + (s.v.len - (A.length + 1))) = 0 := by omega
        rw [this]
        simp [View.region]
      rw [hreg, show [p] ++ (x :: A ++ B) = [p] ++ (x :: A) ++ B by simp]
      have hcont := hK ⟨s.v.sub (A.length + 1) (s.v.len - (A.length + 1)), s.pred, limit, s.bal, s.part⟩ [p] B
        (by simp; omega) hP (by simp; omega)
      refine Tri.mono (Tri.outer (mid := (s.v.sub 0 (A.length + 1)).region) (M := x :: A) hcont hP (by simp)) ?_ ?_
      · rintro _ _ _ ⟨A', B', h1, rfl, us', h3, h4, h5⟩
        obtain ⟨p', rfl⟩ := List.length_eq_one_iff.mp (by simpa using h1)
        simp only [List.cons_append, List.nil_append, List.cons.injEq] at h3
        obtain ⟨rfl, rfl⟩ := h3
        have hpermx : ((x :: A) ++ B').Perm xs := (h4.append_left (x :: A)).trans (hperm.trans hu)
        refine ⟨(x :: A) ++ B', by simp, hpermx, fun lt hg hpx' => ?_⟩
        have hmin : ∀ y ∈ xs, lt y x = false := fun y hy =>
          hg.1.le_trans ((hg.2 _ _ _ hpx).symm) (hpx' p' (by simp) y hy)
        have hA' : ∀ a ∈ x :: A, lt x a = false := by
          intro a ha
          rcases List.mem_cons.mp ha with rfl | ha
          · exact hg.1.irrefl _
          · exact (hg.2 _ _ _ (hA a ha)).symm
        have hAx : ∀ a ∈ x :: A, a ∈ xs := fun a ha => hpermx.mem_iff.mp (by simp at ha ⊢; tauto)
        have hBx : ∀ a ∈ B', a ∈ xs := fun a ha => hpermx.mem_iff.mp (by simp [ha])
        rw [Sorted.append_iff]
        refine ⟨?_, h5 lt hg ?_, ?_⟩
        · exact List.pairwise_iff_forall_sublist.mpr fun {a b} hab => by
            have ha : a ∈ x :: A := hab.subset (by simp)
            have hb : b ∈ x :: A := hab.subset (by simp)
            exact hg.1.ntrans _ _ _ (hmin b (hAx b hb)) (hA' a ha)
        · intro q hq y hy
          rw [List.mem_singleton.mp hq]
          exact hpx' p' (by simp) y (hBx y (h4.mem_iff.mpr hy))
        · intro a ha b hb
          exact hg.1.ntrans _ _ _ (hmin b (hBx b hb)) (hA' a ha)
      · rintro e _ _ ⟨A', B', h1, rfl, rfl, hpan, us', h3, h4⟩
        obtain ⟨p', rfl⟩ := List.length_eq_one_iff.mp (by simpa using h1)
        simp only [List.cons_append, List.nil_append, List.cons.injEq] at h3
        obtain ⟨rfl, rfl⟩ := h3
        exact ⟨rfl, hpan, (x :: A) ++ B', by simp, (h4.append_left (x :: A)).trans (hperm.trans hu)⟩

theorem recurse_spec (maxSeq : Option Nat) (d : Nat) : RecOk C maxSeq d (recurse cfg C.less maxSeq d) := by
  induction d with
  | zero =>
    intro v pred limit P xs hd
    unfold DepthOk at hd
    cases maxSeq <;> dsimp only at hd <;> omega
  | succ d ih =>
    intro v pred limit P xs hd hP hx
    have H : ∀ n, ∀ (s : QSt) (P xs : List α), s.v.len < n → DepthOk maxSeq (d + 1) s.v.len → P.length = s.pred.toList.length →
        xs.length = s.v.len →
        Tri C.R (qrg s.pred s.v) (Prog.loop (quickStep cfg C.less maxSeq (recurse cfg C.less maxSeq d)) n s) (P ++ xs)
          (fun _ => QPost C P xs) (QE C P xs) := by
      intro n
      induction n with
      | zero => intro s P xs h; omega
      | succ n ihn =>
        intro s P xs hn hd hP hx
        unfold Prog.loop
        have hK : ContOk C s.v.len (Prog.loop (quickStep cfg C.less maxSeq (recurse cfg C.less maxSeq d)) n) := by
          intro s' P' xs' hlt hP' hx'
          refine ihn s' P' xs' (by omega) ?_ hP' hx'
          unfold DepthOk at *
          cases maxSeq <;> dsimp only at * <;> omega
        refine Tri.bind (quickStep_spec ih hd hK hP hx) ?_
        rintro (s' | _) zs _ h
        · exact h
        · exact Tri.pure h
    exact H _ ⟨v, pred, limit, true, true⟩ P xs (by simp) hd hP hx

theorem sorted_of_subsingleton [Subsingleton α] {lt : α → α → Bool} (h : SWO lt) (xs : List α) : Sorted lt xs :=
  List.pairwise_of_forall fun a b => by rw [Subsingleton.elim a b]; exact h.irrefl b

variable (C)

theorem recurse_top {maxSeq : Option Nat} {d limit : Nat} {v : View} {xs : List α} (hx : xs.length = v.len)
    (hd : DepthOk maxSeq d v.len) :
    Tri C.R v.region (recurse cfg C.less maxSeq d v none limit) xs
      (fun _ ys => ys.Perm xs ∧ ∀ lt, C.Good lt → Sorted lt ys) (EP C xs) := by
  have := recurse_spec (C := C) (cfg := cfg) maxSeq d v none limit [] xs hd rfl hx
  refine Tri.mono this ?_ ?_
  · rintro _ _ _ ⟨ys, rfl, h1, h2⟩
    exact ⟨h1, fun lt hg => h2 lt hg (by simp)⟩
  · rintro e _ _ ⟨h1, h2, ys, rfl, h3⟩
    exact ⟨h1, h2, h3⟩

theorem quickSort_spec {v : View} {xs : List α} (hz : cfg.zst = true → Subsingleton α) (hx : xs.length = v.len) :
    Tri C.R v.region (quickSort cfg C.less v) xs
      (fun _ ys => ys.Perm xs ∧ ∀ lt, C.Good lt → Sorted lt ys) (EP C xs) := by
  unfold quickSort
  by_cases hzst : cfg.zst = true
  · rw [if_pos hzst]
    have := hz hzst
    exact Tri.pure ⟨.refl _, fun lt hg => sorted_of_subsingleton hg.1 xs⟩
  · rw [if_neg hzst]
    exact recurse_top C hx ⟨Nat.lt_log2_self, by omega⟩

theorem parQuickSort_spec {v : View} {xs : List α} (hz : cfg.zst = true → Subsingleton α) (hx : xs.length = v.len) :
    Tri C.R v.region (parQuickSort cfg C.less v) xs
      (fun _ ys => ys.Perm xs ∧ ∀ lt, C.Good lt → Sorted lt ys) (EP C xs) := by
  unfold parQuickSort
  by_cases hzst : cfg.zst = true
  · rw [if_pos hzst]
    have := hz hzst
    exact Tri.pure ⟨.refl _, fun lt hg => sorted_of_subsingleton hg.1 xs⟩
  · rw [if_neg hzst]
    exact recurse_top C hx (by unfold DepthOk; dsimp only; omega)

end NdSlice
