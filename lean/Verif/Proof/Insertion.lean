import Verif.Core.Tri
import Verif.Proof.Order
import Verif.Model.Insertion

/-
Insertion sort: /repo/src/insertion_sort.rs.
-/

namespace NdSlice

variable {α ι ω : Type}

/-- All answers of the comparator are those of the strict weak order `lt`. -/
def Cmp.Good (C : Cmp α ι ω) (lt : α → α → Bool) : Prop := SWO lt ∧ ∀ x y b, C.ans x y b → b = lt x y

/-- What holds after a panic: it came from the comparator and all elements are there. -/
def EP (C : Cmp α ι ω) (xs : List α) : Panic → List α → Prop :=
  fun e ys => e = .user ∧ C.pan ∧ ys.Perm xs

theorem EP.of_perm {C : Cmp α ι ω} {xs ys : List α} (h : ys.Perm xs) {e : Panic} {zs : List α} (hz : EP C ys e zs) :
    EP C xs e zs := ⟨hz.1, hz.2.1, hz.2.2.trans h⟩

theorem set_mid {B A : List α} {x y : α} {h : Nat} (hh : B.length = h) : (B ++ x :: A).set h y = B ++ y :: A := by
  subst hh; simp

theorem get_mid {B A : List α} {x : α} {h : Nat} (hh : B.length = h) : (B ++ x :: A)[h]? = some x := by
  subst hh; simp

theorem Tri.subMono {R : ι → Option ω → Prop} {v : View} {β : Type} {xs : List α} {a n : Nat} {p : Prog α ι ω β}
    {Q' Q : β → List α → Prop} {E' E : Panic → List α → Prop} (ha : a + n ≤ v.len)
    (h : Tri R (v.sub a n).region p ((xs.drop a).take n) Q' E')
    (hQ : ∀ b ys, ys.length = n → Q' b ys → Q b (xs.take a ++ ys ++ xs.drop (a + n)))
    (hE : ∀ e ys, ys.length = n → E' e ys → E e (xs.take a ++ ys ++ xs.drop (a + n))) :
    Tri R v.region p xs Q E := by
  refine Tri.of_length fun hl => ?_
  rw [View.region_length] at hl
  refine Tri.mono (Tri.sub ha hl h) ?_ ?_
  · rintro b _ _ ⟨ys, h1, rfl, h2⟩; exact hQ b ys h1 h2
  · rintro b _ _ ⟨ys, h1, rfl, h2⟩; exact hE b ys h1 h2

theorem take_mid_drop {xs : List α} (a n : Nat) : xs.take a ++ (xs.drop a).take n ++ xs.drop (a + n) = xs := by
  rw [List.append_assoc, ← List.drop_drop, List.take_append_drop, List.take_append_drop]

theorem perm_part {xs ys : List α} {a n : Nat} (h : ys.Perm ((xs.drop a).take n)) :
    (xs.take a ++ ys ++ xs.drop (a + n)).Perm xs := by
  have h2 := ((h.append_left (xs.take a)).append_right (xs.drop (a + n)))
  rwa [take_mid_drop] at h2

theorem stable_part {lt : α → α → Bool} {xs ys : List α} {a n : Nat} (h : StableArr lt ((xs.drop a).take n) ys) :
    StableArr lt xs (xs.take a ++ ys ++ xs.drop (a + n)) := by
  have h2 := ((StableArr.refl (lt := lt) (xs.take a)).append h).append (StableArr.refl (xs.drop (a + n)))
  rwa [take_mid_drop] at h2

theorem Tri.forUp {R : ι → Option ω → Prop} {rg : List Addr} {body : Nat → Prog α ι ω Unit} {xs : List α}
    {Inv : Nat → List α → Prop} {E : Panic → List α → Prop} {a n : Nat} (h0 : Inv a xs)
    (hb : ∀ i ys, ys.length = xs.length → a ≤ i → i < a + n → Inv i ys →
      Tri R rg (body i) ys (fun _ zs => Inv (i + 1) zs) E) :
    Tri R rg (Prog.forUp body a n) xs (fun _ zs => Inv (a + n) zs) E := by
  induction n generalizing a xs with
  | zero => exact Tri.pure h0
  | succ n ih =>
    refine Tri.bind (hb a xs rfl (Nat.le_refl _) (by omega) h0) ?_
    intro _ ys hl hy
    have := ih (a := a + 1) hy (fun i zs hz h1 h2 h3 => hb i zs (hz.trans hl) (by omega) (by omega) h3)
    rwa [show a + 1 + n = a + (n + 1) by omega] at this

theorem Tri.forDown {R : ι → Option ω → Prop} {rg : List Addr} {body : Nat → Prog α ι ω Unit} {xs : List α}
    {Inv : Nat → List α → Prop} {E : Panic → List α → Prop} {a n : Nat} (h0 : Inv (a + n) xs)
    (hb : ∀ i ys, ys.length = xs.length → a ≤ i → i < a + n → Inv (i + 1) ys →
      Tri R rg (body i) ys (fun _ zs => Inv i zs) E) :
    Tri R rg (Prog.forDown body a n) xs (fun _ zs => Inv a zs) E := by
  induction n generalizing xs with
  | zero => exact Tri.pure h0
  | succ n ih =>
    refine Tri.bind (hb (a + n) xs rfl (by omega) (by omega) h0) ?_
    intro _ ys hl hy
    exact ih hy (fun i zs hz h1 h2 h3 => hb i zs (hz.trans hl) (by omega) (by omega) h3)

theorem Tri.assertP {R : ι → Option ω → Prop} {rg : List Addr} {xs : List α} {β : Type} {c : Bool}
    {k : Unit → Prog α ι ω β} {Q : β → List α → Prop} {E : Panic → List α → Prop} (hc : c = true)
    (h : Tri R rg (k ()) xs Q E) : Tri R rg (assertP c >>= k) xs Q E := by
  subst hc; exact h

variable (C : Cmp α ι ω) {cfg : Cfg} {v : View}

/-- `ys` is `A` with `g` inserted where the comparator said it belongs, seen from the right. -/
def InsR (A : List α) (g : α) (ys : List α) : Prop :=
  ∃ A1 A2, A = A1 ++ A2 ∧ ys = A1 ++ g :: A2 ∧ (∀ a ∈ A2, C.ans g a true) ∧ (∀ a ∈ A1.getLast?, C.ans g a false)

/-- `ys` is `A` with `g` inserted where the comparator said it belongs, seen from the left. -/
def InsL (A : List α) (g : α) (ys : List α) : Prop :=
  ∃ A1 A2, A = A1 ++ A2 ∧ ys = A1 ++ g :: A2 ∧ (∀ a ∈ A1, C.ans a g true) ∧ (∀ a ∈ A2.head?, C.ans a g false)

theorem InsR.perm {A ys : List α} {g : α} (h : InsR C A g ys) : ys.Perm (A ++ [g]) := by
  obtain ⟨A1, A2, rfl, rfl, -, -⟩ := h
  rw [List.append_assoc]
  exact (List.perm_append_singleton g A2).symm.append_left A1

theorem InsL.perm {A ys : List α} {g : α} (h : InsL C A g ys) : ys.Perm (g :: A) := by
  obtain ⟨A1, A2, rfl, rfl, -, -⟩ := h
  exact List.perm_middle

theorem InsR.good {A ys : List α} {g : α} (h : InsR C A g ys) {lt : α → α → Bool} (hg : C.Good lt) (hs : Sorted lt A) :
    Sorted lt ys ∧ StableArr lt (A ++ [g]) ys := by
  obtain ⟨A1, A2, rfl, rfl, h1, h2⟩ := h
  obtain ⟨so, hans⟩ := hg
  rw [Sorted.append_iff] at hs
  obtain ⟨s1, s2, s12⟩ := hs
  have k2 : ∀ a ∈ A2, lt g a = true := fun a ha => (hans _ _ _ (h1 a ha)).symm
  have k1 : ∀ a ∈ A1, lt g a = false := by
    rcases List.eq_nil_or_concat A1 with rfl | ⟨A0, l, rfl⟩
    · simp
    · have hl : lt g l = false := (hans _ _ _ (h2 l (by simp))).symm
      intro a ha
      rw [List.concat_eq_append] at ha s1
      rcases List.mem_append.mp ha with ha | ha
      · have := (Sorted.append_iff.mp s1).2.2 a ha l (by simp)
        exact so.le_trans this hl
      · rw [List.mem_singleton.mp ha]; exact hl
  constructor
  · rw [Sorted.append_iff, Sorted.cons_iff]
    refine ⟨s1, ⟨fun y hy => so.asymm (k2 y hy), s2⟩, ?_⟩
    intro x hx y hy
    rcases List.mem_cons.mp hy with rfl | hy
    · exact k1 x hx
    · exact s12 x hx y hy
  · rw [List.append_assoc]
    refine (StableArr.refl A1).append ?_
    refine (StableArr.move so ?_).symm
    intro a ha
    simp [eqv, k2 a ha]

theorem InsL.good {A ys : List α} {g : α} (h : InsL C A g ys) {lt : α → α → Bool} (hg : C.Good lt) (hs : Sorted lt A) :
    Sorted lt ys ∧ StableArr lt (g :: A) ys := by
  obtain ⟨A1, A2, rfl, rfl, h1, h2⟩ := h
  obtain ⟨so, hans⟩ := hg
  rw [Sorted.append_iff] at hs
  obtain ⟨s1, s2, s12⟩ := hs
  have k1 : ∀ a ∈ A1, lt a g = true := fun a ha => (hans _ _ _ (h1 a ha)).symm
  have k2 : ∀ a ∈ A2, lt a g = false := by
    cases A2 with
    | nil => simp
    | cons l A0 =>
      have hl : lt l g = false := (hans _ _ _ (h2 l (by simp))).symm
      intro a ha
      rcases List.mem_cons.mp ha with rfl | ha
      · exact hl
      · exact so.le_trans hl ((Sorted.cons_iff.mp s2).1 a ha)
  constructor
  · rw [Sorted.append_iff, Sorted.cons_iff]
    refine ⟨s1, ⟨k2, s2⟩, ?_⟩
    intro x hx y hy
    rcases List.mem_cons.mp hy with rfl | hy
    · exact so.asymm (k1 x hx)
    · exact s12 x hx y hy
  · have : StableArr lt ((g :: A1) ++ A2) ((A1 ++ [g]) ++ A2) :=
      (StableArr.move so (fun a ha => by simp [eqv, k1 a ha])).append (StableArr.refl A2)
    simpa using this

theorem insertTailLoop_spec {tmp z : α} {A B : List α} {h : Nat} (hB : B.length = h) (hv : h < v.len) :
    Tri C.R v.region (insertTailLoop C.less v tmp h) (B ++ z :: A)
      (fun _ ys => ∃ B1 B2, B = B1 ++ B2 ∧ ys = B1 ++ tmp :: (B2 ++ A) ∧ (∀ b ∈ B2, C.ans tmp b true) ∧
        ∀ b ∈ B1.getLast?, C.ans tmp b false)
      (fun e ys => e = .user ∧ C.pan ∧ ∃ B1 B2, B = B1 ++ B2 ∧ ys = B1 ++ tmp :: (B2 ++ A)) := by
  induction h generalizing B A z with
  | zero =>
    obtain rfl := List.length_eq_zero_iff.mp hB
    exact Tri.vsetU hv ⟨[], [], rfl, by simp, by simp, by simp⟩
  | succ h ih =>
    obtain ⟨B', b, rfl⟩ : ∃ B' b, B = B' ++ [b] := by
      rcases List.eq_nil_or_concat B with rfl | ⟨B', b, rfl⟩
      · simp at hB
      · exact ⟨B', b, by simp⟩
    have hB' : B'.length = h := by simpa using hB
    refine Tri.vget (by omega) fun x hx => ?_
    obtain rfl : b = x := by simpa [← hB'] using hx
    refine Tri.bind (Tri.onPanic (Tri.less C (Q := fun r ys => ys = B' ++ [b] ++ z :: A ∧ C.ans tmp b r)
      (E := fun e ys => e = .user ∧ C.pan ∧ ys = B' ++ [b] ++ z :: A) (fun r hr => ⟨rfl, hr⟩) (fun hp => ⟨rfl, hp, rfl⟩))
      ?_) ?_
    · rintro e ys _ ⟨rfl, hp, rfl⟩
      exact Tri.vsetU hv ⟨rfl, hp, B' ++ [b], [], by simp, by rw [set_mid hB]; simp⟩
    · rintro r ys _ ⟨rfl, hr⟩
      cases r with
      | false =>
        refine Tri.vsetU hv ⟨B' ++ [b], [], by simp, by rw [set_mid hB]; simp, by simp, ?_⟩
        intro a ha
        simp at ha; subst ha; exact hr
      | true =>
        refine Tri.vset hv ?_
        rw [set_mid hB, List.append_assoc]
        refine Tri.mono (ih hB' (by omega)) ?_ ?_
        · rintro _ ys _ ⟨B1, B2, rfl, rfl, h1, h2⟩
          refine ⟨B1, B2 ++ [b], by simp, by simp, ?_, h2⟩
          intro a ha
          rcases List.mem_append.mp ha with ha | ha
          · exact h1 a ha
          · rw [List.mem_singleton.mp ha]; exact hr
        · rintro e ys _ ⟨rfl, hp, B1, B2, rfl, rfl⟩
          exact ⟨rfl, hp, B1, B2 ++ [b], by simp, by simp⟩

theorem insertTail_spec {A : List α} {g : α} (hv : 2 ≤ v.len) (hA : A.length + 1 = v.len) :
    Tri C.R v.region (insertTail cfg C.less v) (A ++ [g]) (fun _ ys => InsR C A g ys) (EP C (A ++ [g])) := by
  obtain ⟨B, y, rfl⟩ : ∃ B y, A = B ++ [y] := by
    rcases List.eq_nil_or_concat A with rfl | ⟨B', b, rfl⟩
    · simp at hA; omega
    · exact ⟨B', b, by simp⟩
  have hB : B.length + 2 = v.len := by simpa using hA
  unfold insertTail
  refine Tri.debugAssert (by simpa using hv) (Tri.usub (by omega) (Tri.usub (by omega) ?_))
  refine Tri.vget (by omega) fun x hx => Tri.vget (by omega) fun y' hy => ?_
  have e1 : v.len - 1 = B.length + 1 := by omega
  have e2 : v.len - 1 - 1 = B.length := by omega
  rw [e1] at hx ⊢
  rw [show B.length + 1 - 1 = B.length by omega]
  rw [e2] at hy
  obtain rfl : g = x := by simpa using hx
  obtain rfl : y = y' := by simpa using hy
  refine Tri.lessB C (fun b hb => ?_) (fun hp => ⟨rfl, hp, .refl _⟩)
  cases b with
  | false =>
    refine Tri.pure ⟨B ++ [y], [], by simp, by simp, by simp, ?_⟩
    intro a ha; simp at ha; subst ha; exact hb
  | true =>
    refine Tri.vget (by omega) fun x hx => Tri.vget (by omega) fun y' hy => Tri.vset (by omega) ?_
    obtain rfl : g = x := by simpa using hx
    obtain rfl : y = y' := by simpa using hy
    have : ((B ++ [y] ++ [g]).set (B.length + 1) y) = B ++ y :: [y] := by
      simp
    rw [this]
    refine Tri.mono (insertTailLoop_spec C rfl (by omega)) ?_ ?_
    · rintro _ ys _ ⟨B1, B2, rfl, rfl, h1, h2⟩
      refine ⟨B1, B2 ++ [y], by simp, by simp, ?_, h2⟩
      intro a ha
      rcases List.mem_append.mp ha with ha | ha
      · exact h1 a ha
      · rw [List.mem_singleton.mp ha]; exact hb
    · rintro e ys _ ⟨rfl, hp, B1, B2, rfl, rfl⟩
      refine ⟨rfl, hp, ?_⟩
      simp only [List.append_assoc]
      refine List.Perm.append_left _ ?_
      have := List.perm_append_singleton g (B2 ++ [y])
      simpa using this.symm

theorem insertHeadLoop_spec {tmp z : α} {A B : List α} {d n : Nat} (hA : A.length = d) (hB : B.length = n)
    (hv : d + n + 1 = v.len) :
    Tri C.R v.region (insertHeadLoop C.less v tmp d n) (A ++ z :: B)
      (fun _ ys => ∃ B1 B2, B = B1 ++ B2 ∧ ys = A ++ B1 ++ tmp :: B2 ∧ (∀ b ∈ B1, C.ans b tmp true) ∧
        ∀ b ∈ B2.head?, C.ans b tmp false)
      (fun e ys => e = .user ∧ C.pan ∧ ∃ B1 B2, B = B1 ++ B2 ∧ ys = A ++ B1 ++ tmp :: B2) := by
  induction n generalizing A B d z with
  | zero =>
    obtain rfl := List.length_eq_zero_iff.mp hB
    unfold insertHeadLoop
    exact Tri.vsetU (by omega) ⟨[], [], rfl, by rw [set_mid hA]; simp, by simp, by simp⟩
  | succ n ih =>
    obtain ⟨b, B', rfl⟩ : ∃ b B', B = b :: B' := by
      cases B with
      | nil => simp at hB
      | cons b B' => exact ⟨b, B', rfl⟩
    have hB' : B'.length = n := by simpa using hB
    unfold insertHeadLoop
    refine Tri.vget (by omega) fun x hx => ?_
    obtain rfl : b = x := by simpa [← hA] using hx
    refine Tri.bind (Tri.onPanic (Tri.less C (Q := fun r ys => ys = A ++ z :: b :: B' ∧ C.ans b tmp r)
      (E := fun e ys => e = .user ∧ C.pan ∧ ys = A ++ z :: b :: B') (fun r hr => ⟨rfl, hr⟩) (fun hp => ⟨rfl, hp, rfl⟩))
      ?_) ?_
    · rintro e ys _ ⟨rfl, hp, rfl⟩
      exact Tri.vsetU (by omega) ⟨rfl, hp, [], b :: B', by simp, by rw [set_mid hA]; simp⟩
    · rintro r ys _ ⟨rfl, hr⟩
      cases r with
      | false =>
        refine Tri.vsetU (by omega) ⟨[], b :: B', by simp, by rw [set_mid hA]; simp, by simp, ?_⟩
        intro a ha
        simp at ha; subst ha; exact hr
      | true =>
        refine Tri.vset (by omega) ?_
        rw [set_mid hA, show A ++ b :: b :: B' = (A ++ [b]) ++ b :: B' by simp]
        refine Tri.mono (ih (by simp [hA]) hB' (by omega)) ?_ ?_
        · rintro _ ys _ ⟨B1, B2, rfl, rfl, h1, h2⟩
          refine ⟨b :: B1, B2, by simp, by simp, ?_, h2⟩
          intro a ha
          rcases List.mem_cons.mp ha with rfl | ha
          · exact hr
          · exact h1 a ha
        · rintro e ys _ ⟨rfl, hp, B1, B2, rfl, rfl⟩
          exact ⟨rfl, hp, b :: B1, B2, by simp, by simp⟩

theorem insertHead_spec {A : List α} {g : α} (hv : 2 ≤ v.len) (hA : A.length + 1 = v.len) :
    Tri C.R v.region (insertHead cfg C.less v) (g :: A) (fun _ ys => InsL C A g ys) (EP C (g :: A)) := by
  obtain ⟨y, B, rfl⟩ : ∃ y B, A = y :: B := by
    cases A with
    | nil => simp at hA; omega
    | cons y B => exact ⟨y, B, rfl⟩
  have hB : B.length + 2 = v.len := by simpa using hA
  unfold insertHead
  refine Tri.debugAssert (by simpa using hv) ?_
  refine Tri.vget (by omega) fun x hx => Tri.vget (by omega) fun y' hy => ?_
  obtain rfl : y = x := by simpa using hx
  obtain rfl : g = y' := by simpa using hy
  refine Tri.lessB C (fun b hb => ?_) (fun hp => ⟨rfl, hp, .refl _⟩)
  cases b with
  | false =>
    refine Tri.pure ⟨[], y :: B, by simp, by simp, by simp, ?_⟩
    intro a ha; simp at ha; subst ha; exact hb
  | true =>
    refine Tri.vget (by omega) fun x hx => Tri.vget (by omega) fun y' hy => Tri.vset (by omega) ?_
    obtain rfl : g = x := by simpa using hx
    obtain rfl : y = y' := by simpa using hy
    rw [show (g :: y :: B).set 0 y = [y] ++ y :: B by simp]
    refine Tri.mono (insertHeadLoop_spec C (n := v.len - 2) (by simp) (by omega) (by omega)) ?_ ?_
    · rintro _ ys _ ⟨B1, B2, rfl, rfl, h1, h2⟩
      refine ⟨y :: B1, B2, by simp, by simp, ?_, h2⟩
      intro a ha
      rcases List.mem_cons.mp ha with rfl | ha
      · exact hb
      · exact h1 a ha
    · rintro e ys _ ⟨rfl, hp, B1, B2, rfl, rfl⟩
      refine ⟨rfl, hp, ?_⟩
      have := List.perm_middle (a := g) (l₁ := y :: B1) (l₂ := B2)
      simpa using this

theorem insertionSortShiftLeft_spec {xs : List α} {offset : Nat} (h0 : offset ≠ 0) (hv : offset ≤ v.len)
    (hx : xs.length = v.len) :
    Tri C.R v.region (insertionSortShiftLeft cfg C.less v offset) xs
      (fun _ ys => ys.Perm xs ∧ ∀ lt, C.Good lt → Sorted lt (xs.take offset) → Sorted lt ys ∧ StableArr lt xs ys)
      (EP C xs) := by
  unfold insertionSortShiftLeft
  refine Tri.assertP (by simp [h0, hv]) ?_
  have key := Tri.forUp (R := C.R) (rg := v.region) (a := offset) (n := v.len - offset) (xs := xs) (E := EP C xs)
    (body := fun i => do let w ← v.slice 0 (i + 1); insertTail cfg C.less w)
    (Inv := fun i ys => ys.Perm xs ∧ ∀ lt, C.Good lt → Sorted lt (xs.take offset) →
      Sorted lt (ys.take i) ∧ StableArr lt xs ys)
    ⟨.refl _, fun lt _ hs => ⟨hs, .refl _⟩⟩ ?_
  · refine Tri.mono key ?_ (fun _ _ _ h => h)
    rintro _ ys hl ⟨h1, h2⟩
    refine ⟨h1, fun lt hg hs => ?_⟩
    have := h2 lt hg hs
    rwa [List.take_of_length_le (by omega)] at this
  · rintro i ys hl h1 h2 ⟨hp, hs⟩
    refine Tri.slice (by omega) (by omega) ?_
    simp only [Nat.sub_zero]
    obtain ⟨g, hgi⟩ : ∃ g, ys[i]? = some g := ⟨ys[i]'(by omega), by simp⟩
    have htake : ys.take (i + 1) = ys.take i ++ [g] := by
      rw [List.take_add_one, hgi]; rfl
    refine Tri.subMono (a := 0) (n := i + 1) (by omega) (Q' := fun _ zs => InsR C (ys.take i) g zs)
      (E' := EP C (ys.take i ++ [g])) ?_ ?_ ?_
    · rw [List.drop_zero, htake]
      exact insertTail_spec C (by simp; omega) (by simp; omega)
    · intro _ zs hzl hz
      have hperm : (ys.take 0 ++ zs ++ ys.drop (0 + (i + 1))).Perm ys :=
        perm_part (by rw [List.drop_zero, htake]; exact hz.perm)
      refine ⟨hperm.trans hp, fun lt hg hss => ?_⟩
      obtain ⟨s1, s2⟩ := hs lt hg hss
      obtain ⟨t1, t2⟩ := hz.good C hg s1
      refine ⟨?_, s2.trans (stable_part (by rw [List.drop_zero, htake]; exact t2))⟩
      simp only [List.take_zero, List.nil_append]
      rw [List.take_append_of_le_length (by omega), List.take_of_length_le (by omega)]
      exact t1
    · rintro e zs hzl ⟨rfl, hpan, hz⟩
      exact ⟨rfl, hpan, (perm_part (by rw [List.drop_zero, htake]; exact hz)).trans hp⟩

theorem insertionSortShiftRight_spec {xs : List α} {offset : Nat} (h0 : offset ≠ 0) (hv : offset ≤ v.len)
    (hv2 : 2 ≤ v.len) (ho : offset < v.len) (hx : xs.length = v.len) :
    Tri C.R v.region (insertionSortShiftRight cfg C.less v offset) xs
      (fun _ ys => ys.Perm xs ∧ ∀ lt, C.Good lt → Sorted lt (xs.drop offset) → Sorted lt ys ∧ StableArr lt xs ys)
      (EP C xs) := by
  unfold insertionSortShiftRight
  refine Tri.assertP (by simp [h0, hv, hv2]) ?_
  have key := Tri.forDown (R := C.R) (rg := v.region) (a := 0) (n := offset) (xs := xs) (E := EP C xs)
    (body := fun i => do let w ← v.slice i v.len; insertHead cfg C.less w)
    (Inv := fun i ys => ys.Perm xs ∧ ∀ lt, C.Good lt → Sorted lt (xs.drop offset) →
      Sorted lt (ys.drop i) ∧ StableArr lt xs ys)
    ⟨.refl _, fun lt _ hs => ⟨by rwa [Nat.zero_add], .refl _⟩⟩ ?_
  · refine Tri.mono key ?_ (fun _ _ _ h => h)
    rintro _ ys hl ⟨h1, h2⟩
    refine ⟨h1, fun lt hg hs => ?_⟩
    have := h2 lt hg hs
    rwa [List.drop_zero] at this
  · rintro i ys hl h1 h2 ⟨hp, hs⟩
    refine Tri.slice (by omega) (by omega) ?_
    obtain ⟨g, hgi⟩ : ∃ g, ys[i]? = some g := ⟨ys[i]'(by omega), by simp⟩
    have hdrop : ys.drop i = g :: ys.drop (i + 1) := by
      rw [List.drop_eq_getElem_cons (by omega)]
      congr 1
      rw [List.getElem?_eq_getElem (by omega)] at hgi; injection hgi
    have hfull : (ys.drop i).take (v.len - i) = g :: ys.drop (i + 1) := by
      rw [List.take_of_length_le (by simp; omega), hdrop]
    have hrest : ys.drop (i + (v.len - i)) = [] := List.drop_eq_nil_of_le (by omega)
    refine Tri.subMono (a := i) (n := v.len - i) (by omega) (Q' := fun _ zs => InsL C (ys.drop (i + 1)) g zs)
      (E' := EP C (g :: ys.drop (i + 1))) ?_ ?_ ?_
    · rw [hfull]
      exact insertHead_spec C (by simp; omega) (by simp; omega)
    · intro _ zs hzl hz
      have hperm : (ys.take i ++ zs ++ ys.drop (i + (v.len - i))).Perm ys :=
        perm_part (by rw [hfull]; exact hz.perm)
      refine ⟨hperm.trans hp, fun lt hg hss => ?_⟩
      obtain ⟨s1, s2⟩ := hs lt hg hss
      obtain ⟨t1, t2⟩ := hz.good C hg s1
      refine ⟨?_, s2.trans (stable_part (by rw [hfull]; exact t2))⟩
      rw [hrest, List.append_nil, List.drop_append_of_le_length (by simp; omega),
        List.drop_eq_nil_of_le (by simp)]
      simpa using t1
    · rintro e zs hzl ⟨rfl, hpan, hz⟩
      exact ⟨rfl, hpan, (perm_part (by rw [hfull]; exact hz)).trans hp⟩

theorem sorted_snoc {lt : α → α → Bool} (so : SWO lt) {xs : List α} {i : Nat} {x y : α} (hi : 1 ≤ i)
    (hx : xs[i]? = some x) (hy : xs[i - 1]? = some y) (h : lt x y = false) (hs : Sorted lt (xs.take i)) :
    Sorted lt (xs.take (i + 1)) := by
  rw [List.take_add_one, hx, Option.toList_some, Sorted.append_iff]
  refine ⟨hs, Sorted.single x, ?_⟩
  intro a ha b hb
  rw [List.mem_singleton.mp hb]
  obtain ⟨j, rfl⟩ : ∃ j, i = j + 1 := ⟨i - 1, by omega⟩
  simp only [Nat.add_sub_cancel] at hy
  rw [List.take_add_one, hy, Option.toList_some] at hs ha
  rcases List.mem_append.mp ha with ha | ha
  · exact so.le_trans ((Sorted.append_iff.mp hs).2.2 a ha y (by simp)) h
  · rw [List.mem_singleton.mp ha]; exact h

theorem findOutOfOrder_spec {xs : List α} {i n : Nat} (hx : xs.length = v.len) (hi : 1 ≤ i) (hin : i + n = v.len) :
    Tri C.R v.region (findOutOfOrder cfg C.less v i n) xs
      (fun j ys => ys = xs ∧ i ≤ j ∧ j ≤ v.len ∧ ∀ lt, C.Good lt → Sorted lt (xs.take i) → Sorted lt (xs.take j))
      (EP C xs) := by
  induction n generalizing i with
  | zero => exact Tri.pure ⟨rfl, Nat.le_refl _, by omega, fun _ _ h => h⟩
  | succ n ih =>
    unfold findOutOfOrder
    refine Tri.usub (by omega) (Tri.vget (by omega) fun x hx' => Tri.vget (by omega) fun y hy => ?_)
    refine Tri.lessB C (fun b hb => ?_) (fun hp => ⟨rfl, hp, .refl _⟩)
    cases b with
    | true => exact Tri.pure ⟨rfl, Nat.le_refl _, by omega, fun _ _ h => h⟩
    | false =>
      refine Tri.mono (ih (by omega) (by omega)) ?_ (fun _ _ _ h => h)
      rintro j ys _ ⟨rfl, h1, h2, h3⟩
      refine ⟨rfl, by omega, h2, fun lt hg hs => h3 lt hg ?_⟩
      exact sorted_snoc hg.1 hi hx' hy (hg.2 _ _ _ hb).symm hs

theorem swap_perm {xs : List α} {i j : Nat} {x y : α} (hi : xs[i]? = some x) (hj : xs[j]? = some y) :
    ((xs.set i y).set j x).Perm xs := by
  obtain ⟨hi', hi⟩ := List.getElem?_eq_some_iff.mp hi
  obtain ⟨hj', hj⟩ := List.getElem?_eq_some_iff.mp hj
  subst hi hj
  exact List.set_set_perm hi' hj'

theorem Tri.vswap {R : ι → Option ω → Prop} {β : Type} {xs : List α} {i j : Nat} {k : Unit → Prog α ι ω β}
    {Q : β → List α → Prop} {E : Panic → List α → Prop} (hi : i < v.len) (hj : j < v.len)
    (h : ∀ x y, xs[i]? = some x → xs[j]? = some y →
      Tri R v.region (k ()) ((xs.set i y).set j x) Q E) : Tri R v.region (v.swap i j >>= k) xs Q E :=
  Tri.vswap' (View.at_self v) hi hj (by simpa using h)

theorem partialInsertionLoop_spec {xs : List α} {i n : Nat} (hx : xs.length = v.len) (hi : 1 ≤ i) (hiv : i ≤ v.len) :
    Tri C.R v.region (partialInsertionLoop cfg C.less v n i) xs
      (fun b ys => ys.Perm xs ∧ ∀ lt, C.Good lt → Sorted lt (xs.take i) → b = true → Sorted lt ys)
      (EP C xs) := by
  induction n generalizing i xs with
  | zero => exact Tri.pure ⟨.refl _, by simp⟩
  | succ n ih =>
    unfold partialInsertionLoop
    refine Tri.bind (findOutOfOrder_spec C hx hi (by omega)) ?_
    rintro j ys _ ⟨rfl, h1, h2, h3⟩
    by_cases hj : j = v.len
    · simp only [hj, beq_self_eq_true, if_true]
      refine Tri.pure ⟨.refl _, fun lt hg hs _ => ?_⟩
      have := h3 lt hg hs
      rwa [List.take_of_length_le (by omega)] at this
    · simp only [beq_iff_eq, hj, if_false]
      by_cases h50 : v.len < 50
      · simp only [h50, if_true]
        exact Tri.pure ⟨.refl _, by simp⟩
      · simp only [h50, if_false]
        refine Tri.usub (by omega) (Tri.vswap (by omega) (by omega) fun x y ha hb => ?_)
        have hsp := swap_perm ha hb
        generalize hzs : (ys.set (j - 1) y).set j x = zs at hsp ⊢
        have hzl : zs.length = v.len := by rw [← hzs]; simp [hx]
        have hzt : zs.take (j - 1) = ys.take (j - 1) := by
          rw [← hzs, List.take_set_of_le (by omega), List.take_set_of_le (by omega)]
        by_cases hj2 : j ≥ 2
        · simp only [hj2, if_true]
          refine Tri.slice (by omega) (by omega) ?_
          simp only [Nat.sub_zero]
          refine Tri.bind (Q' := fun _ ws => ws.Perm ys ∧ ∀ lt, C.Good lt → Sorted lt (ys.take i) → Sorted lt (ws.take j)) ?_ ?_
          · refine Tri.subMono (a := 0) (n := j) (by omega) (insertionSortShiftLeft_spec C (by omega) (by simp)
              (by simp; omega)) ?_ ?_
            · rintro _ ws hwl ⟨hw1, hw2⟩
              refine ⟨(perm_part hw1).trans hsp, fun lt hg hs => ?_⟩
              have h4 := h3 lt hg hs
              simp only [List.take_zero, List.nil_append]
              rw [List.take_append_of_le_length (by omega), List.take_of_length_le (by omega)]
              refine (hw2 lt hg ?_).1
              rw [List.drop_zero, List.take_take, Nat.min_eq_left (by omega), hzt]
              have := h4.take (j - 1)
              rwa [List.take_take, Nat.min_eq_left (by omega)] at this
            · rintro e ws hwl ⟨rfl, hp, hw⟩
              exact ⟨rfl, hp, (perm_part hw).trans hsp⟩
          · rintro _ ws hwl ⟨hw1, hw2⟩
            refine Tri.slice (by omega) (by omega) ?_
            simp only [Nat.sub_zero]
            refine Tri.bind (Q' := fun _ us => us.Perm ys ∧ ∀ lt, C.Good lt → Sorted lt (ys.take i) → Sorted lt (us.take j)) ?_ ?_
            · refine Tri.subMono (a := 0) (n := j) (by omega) (insertionSortShiftRight_spec C (by omega)
                (by simp; omega) (by simp; omega) (by simp; omega) (by simp; omega)) ?_ ?_
              · rintro _ us hul ⟨hu1, hu2⟩
                refine ⟨(perm_part hu1).trans hw1, fun lt hg hs => ?_⟩
                simp only [List.take_zero, List.nil_append]
                rw [List.take_append_of_le_length (by omega), List.take_of_length_le (by omega)]
                refine (hu2 lt hg ?_).1
                rw [List.drop_zero]
                exact (hw2 lt hg hs).drop 1
              · rintro e us hul ⟨rfl, hp, hu⟩
                exact ⟨rfl, hp, (perm_part hu).trans hw1⟩
            · rintro _ us hul ⟨hu1, hu2⟩
              refine Tri.mono (ih (by omega) (by omega) h2) ?_ ?_
              · rintro b ts _ ⟨ht1, ht2⟩
                exact ⟨ht1.trans hu1, fun lt hg hs hb => ht2 lt hg (hu2 lt hg hs) hb⟩
              · intro e ts _ ht
                exact ht.of_perm hu1
        · simp only [hj2, if_false]
          obtain rfl : j = 1 := by omega
          refine Tri.mono (ih hzl (by omega) h2) ?_ ?_
          · rintro b ts _ ⟨ht1, ht2⟩
            refine ⟨ht1.trans hsp, fun lt hg hs hb => ht2 lt hg ?_ hb⟩
            cases zs with
            | nil => exact Sorted.nil
            | cons z zs => exact Sorted.single z
          · intro e ts _ ht
            exact ht.of_perm hsp

theorem partialInsertionSort_spec {xs : List α} (hx : xs.length = v.len) (hv : 1 ≤ v.len) :
    Tri C.R v.region (partialInsertionSort cfg C.less v) xs
      (fun b ys => ys.Perm xs ∧ ∀ lt, C.Good lt → b = true → Sorted lt ys)
      (EP C xs) := by
  refine Tri.mono (partialInsertionLoop_spec C hx (Nat.le_refl 1) hv) ?_ (fun _ _ _ h => h)
  rintro b ys _ ⟨h1, h2⟩
  refine ⟨h1, fun lt hg hb => h2 lt hg ?_ hb⟩
  cases xs with
  | nil => exact Sorted.nil
  | cons z zs => exact Sorted.single z

end NdSlice
