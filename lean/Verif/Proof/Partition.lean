import Verif.Proof.Pivot

/-
`partition_equal`, `partition` and `partition_in_blocks` of /repo/src/partition.rs.
-/

namespace NdSlice

variable {α ι ω : Type} {R : ι → Option ω → Prop} {cfg : Cfg} {v : View}

/-- Position `i` of `ys` holds an element with property `P`. -/
def AtP (P : α → Prop) (ys : List α) (i : Nat) : Prop := ∃ y, ys[i]? = some y ∧ P y

theorem AtP.of_get {P : α → Prop} {ys : List α} {i : Nat} {y : α} (h : ys[i]? = some y) (hy : P y) : AtP P ys i :=
  ⟨y, h, hy⟩

theorem AtP.val {P : α → Prop} {ys : List α} {i : Nat} {y : α} (h : AtP P ys i) (hy : ys[i]? = some y) : P y := by
  obtain ⟨z, h1, h2⟩ := h
  rw [hy] at h1; injection h1 with h1; rwa [h1]

theorem AtP.lt {P : α → Prop} {ys : List α} {i : Nat} (h : AtP P ys i) : i < ys.length := by
  obtain ⟨z, h1, h2⟩ := h
  exact (List.getElem?_eq_some_iff.mp h1).1

theorem AtP.set_self {P : α → Prop} {ys : List α} {i : Nat} {x : α} (hi : i < ys.length) (hx : P x) :
    AtP P (ys.set i x) i := ⟨x, by simp [hi], hx⟩

theorem AtP.set_ne {P : α → Prop} {ys : List α} {i j : Nat} {x : α} (hij : i ≠ j) (h : AtP P ys j) :
    AtP P (ys.set i x) j := by
  obtain ⟨y, h1, h2⟩ := h
  exact ⟨y, by rw [List.getElem?_set_ne hij, h1], h2⟩

theorem AtP.swap_l {P : α → Prop} {ys : List α} {i j : Nat} {x y : α} (hi : i < ys.length) (hj : ys[j]? = some y)
    (hx : ys[i]? = some x) (hy : P y) : AtP P ((ys.set i y).set j x) i := by
  by_cases hij : j = i
  · subst hij
    rw [hx] at hj; injection hj with hj; subst hj
    exact set_self (by simpa using hi) hy
  · exact set_ne hij (set_self hi hy)

theorem AtP.swap_r {P : α → Prop} {ys : List α} {i j : Nat} {x y : α} (hj : j < ys.length) (hx : P x) :
    AtP P ((ys.set i y).set j x) j := set_self (by simpa using hj) hx

theorem AtP.swap_ne {P : α → Prop} {ys : List α} {i j k : Nat} {x y : α} (h1 : i ≠ k) (h2 : j ≠ k) (h : AtP P ys k) :
    AtP P ((ys.set i y).set j x) k := set_ne h2 (set_ne h1 h)

theorem mem_take_of_AtP {P : α → Prop} {ys : List α} {k : Nat} (h : ∀ i, i < k → AtP P ys i) : ∀ y ∈ ys.take k, P y := by
  intro y hy
  obtain ⟨i, hi, he⟩ := List.mem_iff_getElem.mp hy
  rw [List.getElem_take] at he
  simp only [List.length_take] at hi
  exact (h i (by omega)).val (by rw [List.getElem?_eq_getElem (by omega), he])

theorem mem_drop_of_AtP {P : α → Prop} {ys : List α} {k : Nat} (h : ∀ i, k ≤ i → i < ys.length → AtP P ys i) :
    ∀ y ∈ ys.drop k, P y := by
  intro y hy
  obtain ⟨i, hi, he⟩ := List.mem_iff_getElem.mp hy
  rw [List.getElem_drop] at he
  simp only [List.length_drop] at hi
  exact (h (k + i) (by omega) (by omega)).val (by rw [List.getElem?_eq_getElem (by omega), he])

section scan
variable {rg : List Addr} {xs : List α} {E : Panic → List α → Prop} {test : Nat → Prog α ι ω Bool}
  {P : Nat → Bool → Prop}

theorem scanUp_spec {n l : Nat}
    (ht : ∀ i, l ≤ i → i < l + n → Tri R rg (test i) xs (fun b ys => ys = xs ∧ P i b) E) :
    Tri R rg (scanUp test n l) xs (fun j ys => ys = xs ∧ l ≤ j ∧ j ≤ l + n ∧ (∀ i, l ≤ i → i < j → P i true) ∧
      (j < l + n → P j false)) E := by
  induction n generalizing l with
  | zero => exact Tri.pure ⟨rfl, Nat.le_refl _, Nat.le_refl _, by omega, by omega⟩
  | succ n ih =>
    unfold scanUp
    refine Tri.bind (ht l (Nat.le_refl _) (by omega)) ?_
    rintro b ys _ ⟨rfl, hb⟩
    cases b with
    | true =>
      refine Tri.mono (ih fun i h1 h2 => ht i (by omega) (by omega)) ?_ (fun _ _ _ h => h)
      rintro j ys _ ⟨rfl, h1, h2, h3, h4⟩
      refine ⟨rfl, by omega, by omega, fun i hi1 hi2 => ?_, fun hj => h4 (by omega)⟩
      rcases Nat.eq_or_lt_of_le hi1 with rfl | hi1
      · exact hb
      · exact h3 i hi1 hi2
    | false => exact Tri.pure ⟨rfl, Nat.le_refl _, by omega, by omega, fun _ => hb⟩

theorem scanDown_spec {n r : Nat} (hn : n ≤ r)
    (ht : ∀ i, r - n ≤ i → i < r → Tri R rg (test i) xs (fun b ys => ys = xs ∧ P i b) E) :
    Tri R rg (scanDown test n r) xs (fun j ys => ys = xs ∧ r - n ≤ j ∧ j ≤ r ∧ (∀ i, j ≤ i → i < r → P i true) ∧
      (r - n < j → P (j - 1) false)) E := by
  induction n generalizing r with
  | zero => exact Tri.pure ⟨rfl, by omega, Nat.le_refl _, by omega, by omega⟩
  | succ n ih =>
    unfold scanDown
    refine Tri.bind (ht (r - 1) (by omega) (by omega)) ?_
    rintro b ys _ ⟨rfl, hb⟩
    cases b with
    | true =>
      refine Tri.mono (ih (by omega) fun i h1 h2 => ht i (by omega) (by omega)) ?_ (fun _ _ _ h => h)
      rintro j ys _ ⟨rfl, h1, h2, h3, h4⟩
      refine ⟨rfl, by omega, by omega, fun i hi1 hi2 => ?_, fun hj => h4 (by omega)⟩
      by_cases hi : i = r - 1
      · rw [hi]; exact hb
      · exact h3 i hi1 (by omega)
    | false => exact Tri.pure ⟨rfl, by omega, Nat.le_refl _, by omega, fun _ => hb⟩

/-- `n` is the number of positions between `l` and the start `r`. -/
theorem scanEqual_spec {n r : Nat} (hn : n ≤ r)
    (ht : ∀ i, r - n < i → i ≤ r → Tri R rg (test i) xs (fun b ys => ys = xs ∧ P i b) E) :
    Tri R rg (scanEqual cfg test n r) xs (fun j ys => ys = xs ∧ r - n ≤ j ∧ j ≤ r ∧ (∀ i, j < i → i ≤ r → P i true) ∧
      (r - n < j → P j false)) E := by
  induction n generalizing r with
  | zero => exact Tri.pure ⟨rfl, by omega, Nat.le_refl _, by omega, by omega⟩
  | succ n ih =>
    unfold scanEqual
    refine Tri.bind (ht r (by omega) (by omega)) ?_
    rintro b ys _ ⟨rfl, hb⟩
    cases b with
    | true =>
      refine Tri.usub (by omega) ?_
      refine Tri.mono (ih (by omega) fun i h1 h2 => ht i (by omega) (by omega)) ?_ (fun _ _ _ h => h)
      rintro j ys _ ⟨rfl, h1, h2, h3, h4⟩
      refine ⟨rfl, by omega, by omega, fun i hi1 hi2 => ?_, fun hj => h4 (by omega)⟩
      by_cases hi : i = r
      · rw [hi]; exact hb
      · exact h3 i hi1 (by omega)
    | false => exact Tri.pure ⟨rfl, by omega, Nat.le_refl _, by omega, fun _ => hb⟩

end scan

variable (C : Cmp α ι ω)

theorem Tri.vuswap {β : Type} {xs : List α} {i j : Nat} {k : Unit → Prog α ι ω β}
    {Q : β → List α → Prop} {E : Panic → List α → Prop} (hi : i < v.len) (hj : j < v.len)
    (h : ∀ x y, xs[i]? = some x → xs[j]? = some y →
      Tri R v.region (k ()) ((xs.set i y).set j x) Q E) : Tri R v.region (v.uswap i j >>= k) xs Q E :=
  Tri.vuswap' (View.at_self v) hi hj (by simpa using h)

/-! ### `partition_equal` -/

theorem partitionEqualLoop_spec {xs : List α} {p : α} (hx : xs.length = v.len) (hv : 1 ≤ v.len) :
    Tri C.R v.region (Prog.loop (partitionEqualStep cfg C.less v p) (v.len + 1) (0, v.len)) xs
      (fun l ys => ys.Perm xs ∧ l ≤ v.len ∧ (∀ i, i < l → AtP (C.ans p · false) ys i) ∧
        (∀ i, l ≤ i → i < v.len → AtP (C.ans p · true) ys i))
      (EP C xs) := by
  refine Tri.loop (Inv := fun s ys => ys.Perm xs ∧ s.1 ≤ s.2 ∧ 1 ≤ s.2 ∧ s.2 ≤ v.len ∧ (∀ i, i < s.1 → AtP (C.ans p · false) ys i) ∧
        (∀ i, s.2 ≤ i → i < v.len → AtP (C.ans p · true) ys i)) (μ := fun s _ => s.2 - s.1)
    ⟨.refl _, by simp, hv, by simp, by simp, by simp; omega⟩ (by simp) ?_
  rintro ⟨l, r⟩ ys hyl ⟨hp, hlr, h1r, hrv, hF, hT⟩
  dsimp only at hlr h1r hrv hF hT
  have hyv : ys.length = v.len := by omega
  unfold partitionEqualStep
  refine Tri.bind (scanUp_spec (P := fun i b => AtP (C.ans p · (!b)) ys i) ?_) ?_
  · intro i h1 h2
    refine Tri.vget (by omega) fun x hx' => ?_
    refine Tri.lessB C (fun b hb => Tri.pure ⟨rfl, ?_⟩) (fun hp' => ⟨rfl, hp', hp⟩)
    rw [Bool.not_not]; exact ⟨x, hx', hb⟩
  rintro l' ys' _ ⟨rfl, h1, h2, h3, h4⟩
  refine Tri.usub (by omega) ?_
  refine Tri.bind (scanEqual_spec (P := fun i b => AtP (C.ans p · b) ys' i) (by omega) ?_) ?_
  · intro i h1 h2
    refine Tri.vget (by omega) fun x hx' => ?_
    exact Tri.less C (fun b hb => ⟨rfl, x, hx', hb⟩) (fun hp' => ⟨rfl, hp', hp⟩)
  rintro r' ys' _ ⟨rfl, k1, k2, k3, k4⟩
  have hF' : ∀ i, i < l' → AtP (C.ans p · false) ys' i := by
    intro i hi
    rcases Nat.lt_or_ge i l with h | h
    · exact hF i h
    · exact h3 i h hi
  have hT' : ∀ i, r' < i → i < v.len → AtP (C.ans p · true) ys' i := by
    intro i hi hi2
    rcases Nat.lt_or_ge i r with h | h
    · exact k3 i hi (by omega)
    · exact hT i h hi2
  by_cases hd : l' ≥ r'
  · rw [if_pos hd]
    refine Tri.pure ⟨hp, by omega, hF', ?_⟩
    intro i hi1 hi2
    rcases Nat.lt_or_ge r' i with h | h
    · exact hT' i h hi2
    · obtain rfl : i = l' := by omega
      rcases Nat.lt_or_ge i r with h' | h'
      · exact h4 (by omega)
      · exact hT i (by omega) hi2
  · rw [if_neg hd]
    refine Tri.vuswap (by omega) (by omega) fun x y hx1 hy1 => ?_
    refine Tri.pure ⟨⟨(swap_perm hx1 hy1).trans hp, by dsimp only; omega, by dsimp only; omega, by dsimp only; omega, ?_, ?_⟩, by dsimp only; omega⟩
    · dsimp only
      intro i hi
      by_cases hil : i = l'
      · subst hil
        exact AtP.swap_l (by omega) hy1 hx1 ((k4 (by omega)).val hy1)
      · exact AtP.swap_ne (by omega) (by omega) (hF' i (by omega))
    · dsimp only
      intro i hi1 hi2
      by_cases hil : i = r'
      · subst hil
        exact AtP.swap_r (by omega) ((h4 (by omega)).val hx1)
      · exact AtP.swap_ne (by omega) (by omega) (hT' i (by omega) hi2)

/-! ### `partition_in_blocks` -/

/-- The block of `b` elements from `l` on has been traced: the offsets in `ol` are those of elements which
belong to the right side. -/
structure LBlk (p : α) (ys : List α) (l b : Nat) (ol : List Nat) : Prop where
  inc : ol.Pairwise (· < ·)
  lt : ∀ o ∈ ol, o < b
  bad : ∀ o, o < b → o ∈ ol → AtP (C.ans · p false) ys (l + o)
  good : ∀ o, o < b → o ∉ ol → AtP (C.ans · p true) ys (l + o)

/-- The block of `b` elements before `r` has been traced: the offsets in `or` (counted from the end) are those
of elements which belong to the left side. -/
structure RBlk (p : α) (ys : List α) (r b : Nat) (or : List Nat) : Prop where
  inc : or.Pairwise (· < ·)
  lt : ∀ o ∈ or, o < b
  bad : ∀ o, o < b → o ∈ or → AtP (C.ans · p true) ys (r - (o + 1))
  good : ∀ o, o < b → o ∉ or → AtP (C.ans · p false) ys (r - (o + 1))

variable {C}

theorem length_le_of_inc {l : List Nat} {b : Nat} (h : l.Pairwise (· < ·)) (hb : ∀ o ∈ l, o < b) : l.length ≤ b := by
  have hn : l.Nodup := h.imp (fun h => Nat.ne_of_lt h)
  have := (List.subperm_of_subset hn (l₂ := List.range b) (fun o ho => List.mem_range.mpr (hb o ho))).length_le
  simpa using this

theorem LBlk.step {p : α} {ys zs : List α} {l b o : Nat} {ol : List Nat} (h : LBlk C p ys l b (o :: ol))
    (h1 : AtP (C.ans · p true) zs (l + o)) (h2 : ∀ o', o' < b → o' ≠ o → zs[l + o']? = ys[l + o']?) :
    LBlk C p zs l b ol := by
  have hn := List.pairwise_cons.mp h.inc
  refine ⟨hn.2, fun x hx => h.lt x (List.mem_cons_of_mem _ hx), ?_, ?_⟩
  · intro x hx hm
    have hne : x ≠ o := fun e => by have := hn.1 x hm; omega
    unfold AtP
    rw [h2 x hx hne]
    exact h.bad x hx (List.mem_cons_of_mem _ hm)
  · intro x hx hm
    by_cases hxo : x = o
    · rw [hxo]; exact h1
    · unfold AtP
      rw [h2 x hx hxo]
      exact h.good x hx (by simp [hxo, hm])

theorem RBlk.step {p : α} {ys zs : List α} {r b o : Nat} {or : List Nat} (h : RBlk C p ys r b (o :: or))
    (h1 : AtP (C.ans · p false) zs (r - (o + 1)))
    (h2 : ∀ o', o' < b → o' ≠ o → zs[r - (o' + 1)]? = ys[r - (o' + 1)]? ∨
      (o' ∉ or ∧ AtP (C.ans · p false) zs (r - (o' + 1)))) :
    RBlk C p zs r b or := by
  have hn := List.pairwise_cons.mp h.inc
  refine ⟨hn.2, fun x hx => h.lt x (List.mem_cons_of_mem _ hx), ?_, ?_⟩
  · intro x hx hm
    have hne : x ≠ o := fun e => by have := hn.1 x hm; omega
    rcases h2 x hx hne with h3 | h3
    · unfold AtP
      rw [h3]
      exact h.bad x hx (List.mem_cons_of_mem _ hm)
    · exact absurd hm h3.1
  · intro x hx hm
    by_cases hxo : x = o
    · rw [hxo]; exact h1
    · rcases h2 x hx hxo with h3 | h3
      · unfold AtP
        rw [h3]
        exact h.good x hx (by simp [hxo, hm])
      · exact h3.2

variable (C)

theorem traceL_spec {xs zs : List α} {p : α} {l n i : Nat} {acc : List Nat} (hx : xs.Perm zs) (hl : l + i + n ≤ v.len)
    (hb : i + n ≤ 128) (h : LBlk C p xs l i acc) :
    Tri C.R v.region (traceL C.less v p l n i acc) xs (fun ol ys => ys = xs ∧ LBlk C p xs l (i + n) ol) (EP C zs) := by
  induction n generalizing i acc with
  | zero => exact Tri.pure ⟨rfl, h⟩
  | succ n ih =>
    unfold traceL
    have hlen := length_le_of_inc h.inc h.lt
    rw [if_pos (show acc.length < BLOCK by unfold BLOCK; omega)]
    refine Tri.vidx (by omega) fun x hx1 => Tri.lessB C (fun b hb' => ?_) (fun hp => ⟨rfl, hp, hx⟩)
    rw [Nat.mod_eq_of_lt (by omega), show i + (n + 1) = i + 1 + n by omega]
    refine ih (by omega) (by omega) ?_
    have hni : i ∉ acc := fun hm => by have := h.lt i hm; omega
    cases b with
    | true =>
      refine ⟨h.inc, fun o ho => by have := h.lt o ho; omega, ?_, ?_⟩
      · intro o ho hm
        exact h.bad o (h.lt o hm) hm
      · intro o ho hm
        by_cases hoi : o = i
        · rw [hoi]; exact ⟨x, hx1, hb'⟩
        · exact h.good o (by omega) hm
    | false =>
      refine ⟨?_, ?_, ?_, ?_⟩
      · exact List.pairwise_append.mpr ⟨h.inc, List.pairwise_singleton _ _, fun a ha b hb => by
          rw [List.mem_singleton.mp hb]; exact h.lt a ha⟩
      · intro o ho
        rcases List.mem_append.mp ho with ho | ho
        · have := h.lt o ho; omega
        · have := List.mem_singleton.mp ho; omega
      · intro o ho hm
        by_cases hoi : o = i
        · rw [hoi]; exact ⟨x, hx1, hb'⟩
        · refine h.bad o (by omega) ?_
          rcases List.mem_append.mp hm with hm | hm
          · exact hm
          · exact absurd (List.mem_singleton.mp hm) hoi
      · intro o ho hm
        have hm' : o ∉ acc ∧ o ≠ i := by simpa using hm
        exact h.good o (by omega) hm'.1

theorem traceR_spec {xs zs : List α} {p : α} {r n e i : Nat} {acc : List Nat} (hx : xs.Perm zs) (hr : r ≤ v.len)
    (he : e + i = r) (hn : n ≤ e) (hb : i + n ≤ 128) (h : RBlk C p xs r i acc) :
    Tri C.R v.region (traceR cfg C.less v p n e i acc) xs (fun or ys => ys = xs ∧ RBlk C p xs r (i + n) or) (EP C zs) := by
  induction n generalizing i e acc with
  | zero => exact Tri.pure ⟨rfl, h⟩
  | succ n ih =>
    unfold traceR
    have hlen := length_le_of_inc h.inc h.lt
    rw [if_pos (show acc.length < BLOCK by unfold BLOCK; omega)]
    refine Tri.usub (by omega) ?_
    refine Tri.vidx (by omega) fun x hx1 => Tri.lessB C (fun b hb' => ?_) (fun hp => ⟨rfl, hp, hx⟩)
    rw [Nat.mod_eq_of_lt (by omega), show i + (n + 1) = i + 1 + n by omega]
    refine ih (by omega) (by omega) (by omega) ?_
    have hei : e - 1 = r - (i + 1) := by omega
    rw [hei] at hx1
    have hni : i ∉ acc := fun hm => by have := h.lt i hm; omega
    cases b with
    | false =>
      refine ⟨h.inc, fun o ho => by have := h.lt o ho; omega, ?_, ?_⟩
      · intro o ho hm
        exact h.bad o (h.lt o hm) hm
      · intro o ho hm
        by_cases hoi : o = i
        · rw [hoi]; exact ⟨x, hx1, hb'⟩
        · exact h.good o (by omega) hm
    | true =>
      refine ⟨?_, ?_, ?_, ?_⟩
      · exact List.pairwise_append.mpr ⟨h.inc, List.pairwise_singleton _ _, fun a ha b hb => by
          rw [List.mem_singleton.mp hb]; exact h.lt a ha⟩
      · intro o ho
        rcases List.mem_append.mp ho with ho | ho
        · have := h.lt o ho; omega
        · have := List.mem_singleton.mp ho; omega
      · intro o ho hm
        by_cases hoi : o = i
        · rw [hoi]; exact ⟨x, hx1, hb'⟩
        · refine h.bad o (by omega) ?_
          rcases List.mem_append.mp hm with hm | hm
          · exact hm
          · exact absurd (List.mem_singleton.mp hm) hoi
      · intro o ho hm
        have hm' : o ∉ acc ∧ o ≠ i := by simpa using hm
        exact h.good o (by omega) hm'.1

theorem set3_perm {zs : List α} {j i k : Nat} {t x y : α} (hj : zs[j]? = some t) (hi : zs[i]? = some x)
    (hk : zs[k]? = some y) (hik : i ≠ k) (hjk : j ≠ k) :
    (((zs.set j x).set i y).set k t).Perm zs := by
  have h1 := swap_perm hj hi
  have h2 : ((((zs.set j x).set i t).set i y).set k t).Perm ((zs.set j x).set i t) := by
    apply swap_perm
    · simp [(List.getElem?_eq_some_iff.mp hi).1]
    · rw [List.getElem?_set_ne hik, List.getElem?_set_ne hjk]; exact hk
  rw [List.set_set] at h2
  exact h2.trans h1

/-- What one round of exchanging leaves alone. -/
def SameOut (l r : Nat) (ys zs : List α) : Prop := ∀ k, k < l ∨ r ≤ k → zs[k]? = ys[k]?

theorem cycleLoop_spec {E : Panic → List α → Prop} {xs ys : List α} {p tmp : α} {l bl r br n o q : Nat}
    {ol or : List Nat} (hlr : l + bl + br ≤ r)
    (hr : r ≤ v.len) (hy : ys.length = v.len) (ho : o < bl) (hq : q < br)
    (hol : n ≤ ol.length) (hor : n ≤ or.length) (hqor : q ∉ or)
    (hL : LBlk C p (ys.set (r - (q + 1)) tmp) l bl ol) (hR : RBlk C p (ys.set (r - (q + 1)) tmp) r br or)
    (hp : (ys.set (r - (q + 1)) tmp).Perm xs) (hs : SameOut l r xs (ys.set (r - (q + 1)) tmp)) :
    Tri C.R v.region (cycleLoop cfg v l r n (o :: ol) (q :: or)) ys
      (fun s zs => ∃ o' q', s.1 = o' :: ol.drop n ∧ s.2 = q' :: or.drop n ∧ q' < br ∧
        LBlk C p (zs.set (r - (q' + 1)) tmp) l bl (ol.drop n) ∧ RBlk C p (zs.set (r - (q' + 1)) tmp) r br (or.drop n) ∧
        (zs.set (r - (q' + 1)) tmp).Perm xs ∧ SameOut l r xs (zs.set (r - (q' + 1)) tmp)) E := by
  induction n generalizing o q ol or ys with
  | zero => exact Tri.pure ⟨o, q, rfl, rfl, hq, hL, hR, hp, hs⟩
  | succ n ih =>
    obtain ⟨o2, ol, rfl⟩ : ∃ o2 ol', ol = o2 :: ol' := by
      cases ol with
      | nil => simp at hol
      | cons a b => exact ⟨a, b, rfl⟩
    obtain ⟨q2, or, rfl⟩ : ∃ q2 or', or = q2 :: or' := by
      cases or with
      | nil => simp at hor
      | cons a b => exact ⟨a, b, rfl⟩
    have ho2 := hL.lt o2 (by simp)
    have hq2 := hR.lt q2 (by simp)
    have hqq : q ≠ q2 := by rintro rfl; simp at hqor
    simp only [cycleLoop, List.tail_cons, leftIdx, rightIdx, copyIdx]
    refine Tri.pureB ?_
    refine Tri.usub (by omega) ?_
    refine Tri.bind (Q' := fun _ zs => ∃ x, ys[l + o2]? = some x ∧ zs = ys.set (r - (q + 1)) x)
      (Tri.vidx (by omega) fun x hx => Tri.vcsetU' (View.at_self v) (by omega) ⟨x, hx, by simp⟩) ?_
    rintro _ _ _ ⟨x, hx, rfl⟩
    refine Tri.usub (by omega) ?_
    refine Tri.pureB ?_
    refine Tri.bind (Q' := fun _ zs => ∃ y, ys[r - (q2 + 1)]? = some y ∧ zs = (ys.set (r - (q + 1)) x).set (l + o2) y)
      (Tri.vidx (by omega) fun y hy => Tri.vcsetU' (View.at_self v) (by omega) ⟨y, ?_, by simp⟩) ?_
    · rw [List.getElem?_set_ne (by omega)] at hy; exact hy
    rintro _ _ _ ⟨y, hyy, rfl⟩
    have hxL : C.ans x p false := by
      refine (hL.bad o2 ho2 (by simp)).val ?_
      rw [List.getElem?_set_ne (by omega), hx]
    have hyR : C.ans y p true := by
      refine (hR.bad q2 hq2 (by simp)).val ?_
      rw [List.getElem?_set_ne (by omega), hyy]
    have htmp : C.ans tmp p false := by
      refine (hR.good q hq hqor).val ?_
      exact List.getElem?_set_self (by omega)
    have hlen : (((ys.set (r - (q + 1)) x).set (l + o2) y).set (r - (q2 + 1)) tmp).length = v.len := by simp [hy]
    refine ih (by simp [hy]) ho2 hq2 (by simpa using hol) (by simpa using hor) ?_ ?_ ?_ ?_ ?_
    · intro hm
      have := (List.pairwise_cons.mp hR.inc).1 q2 hm
      omega
    · refine hL.step ?_ ?_
      · exact AtP.set_ne (by omega) (AtP.set_self (by simp; omega) hyR)
      · intro o' ho' hne
        rw [List.getElem?_set_ne (by omega), List.getElem?_set_ne (by omega), List.getElem?_set_ne (by omega),
          List.getElem?_set_ne (by omega)]
    · refine hR.step ?_ ?_
      · exact AtP.set_self (by simp; omega) htmp
      · intro o' ho' hne
        by_cases hoq : o' = q
        · subst hoq
          right
          refine ⟨fun hm => hqor (List.mem_cons_of_mem _ hm), ?_⟩
          exact AtP.set_ne (by omega) (AtP.set_ne (by omega) (AtP.set_self (by omega) hxL))
        · left
          rw [List.getElem?_set_ne (by omega), List.getElem?_set_ne (by omega), List.getElem?_set_ne (by omega),
            List.getElem?_set_ne (by omega)]
    · refine List.Perm.trans ?_ hp
      have := set3_perm (zs := ys.set (r - (q + 1)) tmp) (j := r - (q + 1)) (i := l + o2) (k := r - (q2 + 1))
        (t := tmp) (x := x) (y := y) (List.getElem?_set_self (by omega)) (by rw [List.getElem?_set_ne (by omega), hx])
        (by rw [List.getElem?_set_ne (by omega), hyy]) (by omega) (by omega)
      rwa [List.set_set] at this
    · intro k hk
      rw [← hs k hk]
      rw [List.getElem?_set_ne (by omega), List.getElem?_set_ne (by omega), List.getElem?_set_ne (by omega),
            List.getElem?_set_ne (by omega)]

theorem cycle_spec {E : Panic → List α → Prop} {ys : List α} {p : α} {l bl r br n : Nat}
    {ol or : List Nat} (hlr : l + bl + br ≤ r)
    (hr : r ≤ v.len) (hy : ys.length = v.len) (hn : 0 < n)
    (hol : n ≤ ol.length) (hor : n ≤ or.length)
    (hL : LBlk C p ys l bl ol) (hR : RBlk C p ys r br or) :
    Tri C.R v.region (cycle cfg v l r n ol or) ys
      (fun s zs => s = (ol.drop n, or.drop n) ∧
        LBlk C p zs l bl (ol.drop n) ∧ RBlk C p zs r br (or.drop n) ∧ zs.Perm ys ∧ SameOut l r ys zs) E := by
  obtain ⟨o, ol, rfl⟩ : ∃ o2 ol', ol = o2 :: ol' := by
    cases ol with
    | nil => simp at hol; omega
    | cons a b => exact ⟨a, b, rfl⟩
  obtain ⟨q, or, rfl⟩ : ∃ q2 or', or = q2 :: or' := by
    cases or with
    | nil => simp at hor; omega
    | cons a b => exact ⟨a, b, rfl⟩
  obtain ⟨n, rfl⟩ : ∃ k, n = k + 1 := ⟨n - 1, by omega⟩
  have ho := hL.lt o (by simp)
  have hq := hR.lt q (by simp)
  simp only [cycle, leftIdx, rightIdx, copyIdx]
  refine Tri.pureB ?_
  refine Tri.vidx (by omega) fun tmp ht => Tri.usub (by omega) ?_
  refine Tri.bind (Q' := fun _ zs => ∃ y, ys[r - (q + 1)]? = some y ∧ zs = ys.set (l + o) y)
    (Tri.vidx (by omega) fun x hx => Tri.vcsetU' (View.at_self v) (by omega) ⟨x, hx, by simp⟩) ?_
  rintro _ _ _ ⟨y, hyy, rfl⟩
  have hF : C.ans tmp p false := (hL.bad o ho (by simp)).val ht
  have hT : C.ans y p true := (hR.bad q hq (by simp)).val hyy
  refine Tri.bind (cycleLoop_spec C (xs := ys) (ys := ys.set (l + o) y) (tmp := tmp) (p := p) (bl := bl) (br := br) hlr hr (by simp [hy]) ho hq
    (by simpa using hol) (by simpa using hor) ?_ ?_ ?_ ?_ ?_) ?_
  · intro hm
    have := (List.pairwise_cons.mp hR.inc).1 q hm
    omega
  · refine hL.step (AtP.set_ne (by omega) (AtP.set_self (by omega) hT)) ?_
    intro o' ho' hne
    rw [List.getElem?_set_ne (by omega), List.getElem?_set_ne (by omega)]
  · refine hR.step (AtP.set_self (by simp; omega) hF) ?_
    intro o' ho' hne
    left
    rw [List.getElem?_set_ne (by omega), List.getElem?_set_ne (by omega)]
  · exact swap_perm ht hyy
  · intro k hk
    rw [List.getElem?_set_ne (by omega), List.getElem?_set_ne (by omega)]
  · rintro ⟨s1, s2⟩ zs hzl ⟨o', q', h1, h2, h3, h4, h5, h6, h7⟩
    dsimp only at h1 h2 ⊢
    subst h1 h2
    dsimp only
    refine Tri.usub (by omega) (Tri.vcset' (View.at_self v) (by omega) ?_)
    rw [Nat.zero_add]
    exact Tri.pure ⟨rfl, h4, h5, h6, h7⟩

end NdSlice
