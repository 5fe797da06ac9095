import Verif.Proof.Select
import Mathlib.Logic.Equiv.Basic
import Mathlib.Data.List.Nodup
import Mathlib.Data.List.Perm.Subperm

/-
What `ninther` is good for: /repo/src/partition.rs:241-331.
-/

namespace NdSlice

variable {α ι ω : Type} {cfg : Cfg} {C : Cmp α ι ω} {v : View} {lt : α → α → Bool}

/-- At least `n` of `l` are not greater than `m`, and at least `n` are not less. -/
def Mid (lt : α → α → Bool) (n : Nat) (m : α) (l : List α) : Prop :=
  n ≤ l.countP (fun x => !lt m x) ∧ n ≤ l.countP (fun x => !lt x m)

theorem Mid.perm {n : Nat} {m : α} {l l' : List α} (h : Mid lt n m l) (hp : l.Perm l') : Mid lt n m l' := by
  unfold Mid at *
  rwa [← hp.countP_eq, ← hp.countP_eq]

/-- The decisions of `median_idx`. -/
theorem mid_three (so : SWO lt) {x y z : α} (h : lt z x = false) :
    Mid lt 2 (if lt z y then z else if lt y x then x else y) [x, y, z] := by
  have hx := so.irrefl x
  have hy := so.irrefl y
  have hz := so.irrefl z
  have a1 := fun h => so.asymm (x := z) (y := y) h
  have a2 := fun h => so.asymm (x := y) (y := x) h
  have hm : ∀ m, (m = if lt z y then z else if lt y x then x else y) → Mid lt 2 m [x, y, z] := by
    intro m hm
    unfold Mid
    simp only [List.countP_cons, List.countP_nil, Bool.not_eq_true']
    cases h1 : lt z y with
    | true =>
      rw [h1, if_pos rfl] at hm
      subst hm
      simp only [h, hz, a1 h1, if_true]
      omega
    | false =>
      rw [h1, if_neg (by simp)] at hm
      cases h2 : lt y x with
      | true =>
        rw [h2, if_pos rfl] at hm
        subst hm
        simp only [h, hx, a2 h2, if_true]
        omega
      | false =>
        rw [h2, if_neg (by simp)] at hm
        subst hm
        simp only [h1, h2, hy, if_true]
        omega
  exact hm _ rfl

theorem countP_le_of {m m' : α} (so : SWO lt) (h : lt m m' = false) (l : List α) :
    l.countP (fun x => !lt m' x) ≤ l.countP (fun x => !lt m x) := by
  refine List.countP_mono_left fun x _ hx => ?_
  simp only [Bool.not_eq_true'] at hx ⊢
  exact so.ntrans _ _ _ h hx

theorem countP_ge_of {m m' : α} (so : SWO lt) (h : lt m' m = false) (l : List α) :
    l.countP (fun x => !lt x m') ≤ l.countP (fun x => !lt x m) := by
  refine List.countP_mono_left fun x _ hx => ?_
  simp only [Bool.not_eq_true'] at hx ⊢
  exact so.ntrans _ _ _ hx h

/-- The median of medians. -/
theorem mid_trans (so : SWO lt) {m1 m2 m3 m : α} {l1 l2 l3 : List α} (h1 : Mid lt 2 m1 l1) (h2 : Mid lt 2 m2 l2) (h3 : Mid lt 2 m3 l3)
    (h : Mid lt 2 m [m1, m2, m3]) : Mid lt 4 m (l1 ++ l2 ++ l3) := by
  unfold Mid at *
  simp only [List.countP_cons, List.countP_nil, List.countP_append, Bool.not_eq_true'] at *
  have a1 := fun hh => countP_le_of so (m := m) (m' := m1) hh l1
  have a2 := fun hh => countP_le_of so (m := m) (m' := m2) hh l2
  have a3 := fun hh => countP_le_of so (m := m) (m' := m3) hh l3
  have b1 := fun hh => countP_ge_of so (m := m) (m' := m1) hh l1
  have b2 := fun hh => countP_ge_of so (m := m) (m' := m2) hh l2
  have b3 := fun hh => countP_ge_of so (m := m) (m' := m3) hh l3
  obtain ⟨hl, hg⟩ := h
  constructor
  · clear b1 b2 b3 hg
    cases e1 : lt m m1 <;> cases e2 : lt m m2 <;> cases e3 : lt m m3 <;> simp only [e1, e2, e3, forall_true_left, Bool.true_eq_false, if_true, if_false] at * <;> omega
  · clear a1 a2 a3 hl
    cases e1 : lt m1 m <;> cases e2 : lt m2 m <;> cases e3 : lt m3 m <;> simp only [e1, e2, e3, forall_true_left, Bool.true_eq_false, if_true, if_false] at * <;> omega

/-- The values at positions `ps`. -/
def vals (xs : List α) (ps : List Nat) : List α := ps.filterMap (xs[·]?)

theorem lessAt_val (hg : C.Good lt) {xs : List α} {i j : Nat} {x y : α} (hx : xs[i]? = some x) (hy : xs[j]? = some y) (hl : xs.length = v.len) :
    Tri C.R v.region (lessAt C.less v i j) xs (fun b ys => ys = xs ∧ b = lt x y) (EP C xs) := by
  have hi : i < v.len := by rw [← hl]; exact (List.getElem?_eq_some_iff.mp hx).1
  have hj : j < v.len := by rw [← hl]; exact (List.getElem?_eq_some_iff.mp hy).1
  unfold lessAt
  refine Tri.vidx hi fun x' hx' => Tri.vidx hj fun y' hy' => ?_
  rw [hx] at hx'; rw [hy] at hy'; injection hx' with hx'; injection hy' with hy'; subst hx' hy'
  exact Tri.less C (fun b hb => ⟨rfl, hg.2 _ _ _ hb⟩) (fun hp => ⟨rfl, hp, .refl _⟩)

theorem medianIdx_mid (hg : C.Good lt) {xs : List α} {a b c : Nat} {x y z : α} (hx : xs[a]? = some x) (hy : xs[b]? = some y)
    (hz : xs[c]? = some z) (hl : xs.length = v.len) :
    Tri C.R v.region (medianIdx C.less v a b c) xs
      (fun r ys => ys = xs ∧ (r = a ∨ r = b ∨ r = c) ∧ ∃ m, xs[r]? = some m ∧ Mid lt 2 m [x, y, z]) (EP C xs) := by
  unfold medianIdx
  refine Tri.bind (lessAt_val hg hz hx hl) ?_
  rintro s xs _ ⟨rfl, hs⟩
  have key : ∀ a' c' x' z', xs[a']? = some x' → xs[c']? = some z' → lt z' x' = false → Tri C.R v.region (do
      let s ← lessAt C.less v c' b
      if s then pure c'
      else do
        let s ← lessAt C.less v b a'
        if s then pure a' else pure b) xs
      (fun r ys => ys = xs ∧ (r = a' ∨ r = b ∨ r = c') ∧ ∃ m, xs[r]? = some m ∧ Mid lt 2 m [x', y, z']) (EP C xs) := by
    intro a' c' x' z' hx' hz' h
    have hm := mid_three hg.1 (y := y) h
    refine Tri.bind (lessAt_val hg hz' hy hl) ?_
    rintro s xs _ ⟨rfl, rfl⟩
    cases h1 : lt z' y with
    | true =>
      rw [if_pos h1] at hm
      exact Tri.pure ⟨rfl, by simp, z', hz', hm⟩
    | false =>
      rw [if_neg (by simp [h1])] at hm
      simp only [Bool.false_eq_true, if_false]
      refine Tri.bind (lessAt_val hg hy hx' hl) ?_
      rintro s xs _ ⟨rfl, rfl⟩
      cases h2 : lt y x' with
      | true =>
        rw [if_pos h2] at hm
        exact Tri.pure ⟨rfl, by simp, x', hx', hm⟩
      | false =>
        rw [if_neg (by simp [h2])] at hm
        exact Tri.pure ⟨rfl, by simp, y, hy, hm⟩
  cases s with
  | true =>
    refine Tri.mono (key c a z x hz hx (hg.1.asymm hs.symm)) ?_ (fun _ _ _ h => h)
    rintro r xs _ ⟨rfl, h1, m, h2, h3⟩
    exact ⟨rfl, by tauto, m, h2, h3.perm (List.reverse_perm [x, y, z])⟩
  | false => exact key a c x z hx hz hs.symm

/-- The elements at `i` and `j` are swapped. -/
theorem swap_getElem? {xs : List α} {i j : Nat} {x y : α} (hi : xs[i]? = some x) (hj : xs[j]? = some y) (q : Nat) :
    ((xs.set i y).set j x)[q]? = xs[Equiv.swap i j q]? := by
  have hi' := (List.getElem?_eq_some_iff.mp hi).1
  have hj' := (List.getElem?_eq_some_iff.mp hj).1
  by_cases h1 : q = j
  · subst h1
    rw [List.getElem?_set_self (by simpa using hj'), Equiv.swap_apply_right, hi]
  · rw [List.getElem?_set_ne (by omega)]
    by_cases h2 : q = i
    · subst h2
      rw [List.getElem?_set_self (by simpa using hi'), Equiv.swap_apply_left, hj]
    · rw [List.getElem?_set_ne (by omega), Equiv.swap_apply_of_ne_of_ne h2 h1]

theorem vals_swap {xs ys : List α} {i j : Nat} {ps : List Nat} (h : ∀ q, ys[q]? = xs[Equiv.swap i j q]?) (hn : ps.Nodup) (hi : i ∈ ps)
    (hj : j ∈ ps) : (vals ys ps).Perm (vals xs ps) := by
  have e : vals ys ps = vals xs (ps.map (Equiv.swap i j)) := by
    unfold vals
    rw [List.filterMap_map]
    congr 1
    funext q
    exact h q
  rw [e]
  refine List.Perm.filterMap _ ?_
  rw [List.perm_ext_iff_of_nodup (hn.map (Equiv.swap i j).injective) hn]
  intro q
  simp only [List.mem_map]
  constructor
  · rintro ⟨p, hp, rfl⟩
    rw [Equiv.swap_apply_def]
    split
    · exact hj
    · split
      · exact hi
      · exact hp
  · intro hq
    refine ⟨Equiv.swap i j q, ?_, Equiv.swap_apply_self ..⟩
    rw [Equiv.swap_apply_def]
    split
    · exact hj
    · split
      · exact hi
      · exact hq

/-- What a `ninther` of the positions `ps` with centre `e` does. -/
def NineOk (lt : α → α → Bool) (ps : List Nat) (e : Nat) (xs ys : List α) : Prop :=
  ys.Perm xs ∧ ∃ r ∈ ps, ∃ m, xs[r]? = some m ∧ (∀ q, ys[q]? = xs[Equiv.swap r e q]?) ∧ Mid lt 4 m (vals xs ps)

theorem swap_nine {xs : List α} {ps : List Nat} {r e : Nat} {m : α} {E : Panic → List α → Prop} (hl : xs.length = v.len) (hr : r ∈ ps) (he : e < v.len)
    (hm : xs[r]? = some m) (h : Mid lt 4 m (vals xs ps)) :
    Tri C.R v.region (v.swap r e) xs (fun _ ys => NineOk lt ps e xs ys) E ∧ Tri C.R v.region (v.swap e r) xs (fun _ ys => NineOk lt ps e xs ys) E := by
  have hrl : r < v.len := by rw [← hl]; exact (List.getElem?_eq_some_iff.mp hm).1
  constructor
  · refine Tri.vswapU hrl he fun x y hx hy => ⟨swap_perm hx hy, r, hr, m, hm, swap_getElem? hx hy, h⟩
  · refine Tri.vswapU he hrl fun x y hx hy => ⟨swap_perm hx hy, r, hr, m, hm, fun q => ?_, h⟩
    rw [swap_getElem? hx hy, Equiv.swap_comm]

theorem ninther_mid (hg : C.Good lt) {xs : List α} {a b c d e f g h i : Nat} (hl : xs.length = v.len) (ha : a < v.len) (hb : b < v.len)
    (hc : c < v.len) (hd : d < v.len) (he : e < v.len) (hf : f < v.len) (hg' : g < v.len) (hh : h < v.len) (hi : i < v.len) :
    Tri C.R v.region (ninther C.less v a b c d e f g h i) xs
      (fun _ ys => NineOk lt [a, b, c, d, e, f, g, h, i] e xs ys) (EP C xs) := by
  have so := hg.1
  have val : ∀ q, q < v.len → ∃ x, xs[q]? = some x := fun q hq => ⟨_, List.getElem?_eq_getElem (hl ▸ hq)⟩
  obtain ⟨xa, xha⟩ := val a ha
  obtain ⟨xb, xhb⟩ := val b hb
  obtain ⟨xc, xhc⟩ := val c hc
  obtain ⟨xd, xhd⟩ := val d hd
  obtain ⟨xe, xhe⟩ := val e he
  obtain ⟨xf, xhf⟩ := val f hf
  obtain ⟨xg, xhg⟩ := val g hg'
  obtain ⟨xh, xhh⟩ := val h hh
  obtain ⟨xi, xhi⟩ := val i hi
  have hv : vals xs [a, b, c, d, e, f, g, h, i] = [xa, xb, xc, xd, xe, xf, xg, xh, xi] := by
    simp [vals, xha, xhb, xhc, xhd, xhe, xhf, xhg, xhh, xhi]
  generalize hps : [a, b, c, d, e, f, g, h, i] = ps at hv ⊢
  have hmem : ∀ q, (q = a ∨ q = b ∨ q = c ∨ q = d ∨ q = e ∨ q = f ∨ q = g ∨ q = h ∨ q = i) → q ∈ ps := by
    intro q hq; rw [← hps]; simpa using hq
  unfold ninther
  refine Tri.bind (medianIdx_mid hg xha xhb xhc hl) ?_
  rintro b' xs _ ⟨rfl, hb', mb, hmb, Mb⟩
  refine Tri.bind (medianIdx_mid hg xhg xhh xhi hl) ?_
  rintro h' xs _ ⟨rfl, hh', mh, hmh, Mh⟩
  replace hb' : b' ∈ ps := hmem _ (by tauto)
  replace hh' : h' ∈ ps := hmem _ (by tauto)
  refine Tri.bind (lessAt_val hg hmh hmb hl) ?_
  rintro s xs _ ⟨rfl, hs⟩
  -- the two outer medians in order
  obtain ⟨b2, h2, y, z, hbh, hb2, hh2, hy, hz, hzy, fin⟩ : ∃ b2 h2 y z, (if s then (h', b') else (b', h')) = (b2, h2) ∧ b2 ∈ ps ∧ h2 ∈ ps ∧
      xs[b2]? = some y ∧ xs[h2]? = some z ∧ lt z y = false ∧ ∀ md m, Mid lt 2 md [xd, xe, xf] → Mid lt 2 m [y, md, z] → Mid lt 4 m (vals xs ps) := by
    cases s with
    | true =>
      refine ⟨h', b', mh, mb, rfl, hh', hb', hmh, hmb, so.asymm hs.symm, fun md m h1 h2 => ?_⟩
      rw [hv]
      exact mid_trans so Mb h1 Mh (h2.perm (List.reverse_perm [mb, md, mh]))
    | false =>
      refine ⟨b', h', mb, mh, rfl, hb', hh', hmb, hmh, hs.symm, fun md m h1 h2 => ?_⟩
      rw [hv]
      exact mid_trans so Mb h1 Mh h2
  rw [hbh]
  dsimp only
  refine Tri.bind (lessAt_val hg xhf xhd hl) ?_
  rintro s xs _ ⟨rfl, hs⟩
  obtain ⟨d', f', x1, x3, hdf, hd', hf', hx1, hx3, h31, fin2⟩ : ∃ d' f' x1 x3, (if s then (f, d) else (d, f)) = (d', f') ∧ d' ∈ ps ∧ f' ∈ ps ∧
      xs[d']? = some x1 ∧ xs[f']? = some x3 ∧ lt x3 x1 = false ∧ ∀ m, Mid lt 2 m [x1, xe, x3] → Mid lt 2 m [xd, xe, xf] := by
    cases s with
    | true =>
      exact ⟨f, d, xf, xd, rfl, hmem _ (by tauto), hmem _ (by tauto), xhf, xhd, so.asymm hs.symm, fun m h => h.perm (List.reverse_perm [xd, xe, xf])⟩
    | false => exact ⟨d, f, xd, xf, rfl, hmem _ (by tauto), hmem _ (by tauto), xhd, xhf, hs.symm, fun m h => h⟩
  rw [hdf]
  dsimp only
  have hee : e ∈ ps := hmem _ (by tauto)
  -- the end of the function
  have last : ∀ q w, q ∈ ps → xs[q]? = some w → Mid lt 2 w [xd, xe, xf] →
      Tri C.R v.region (nintherEnd C.less v b2 q e h2) xs (fun _ ys => NineOk lt ps e xs ys) (EP C xs) := by
    intro q w hq hw hmw
    have hm := mid_three so (x := y) (y := w) (z := z) hzy
    unfold nintherEnd
    refine Tri.bind (lessAt_val hg hw hy hl) ?_
    rintro s xs _ ⟨rfl, hs⟩
    cases s with
    | true =>
      have h1 : lt z w = false := by
        cases hzw : lt z w with
        | false => rfl
        | true =>
          have := so.lt_of_lt_of_le hzw (so.asymm hs.symm)
          rw [hzy] at this; exact this.symm
      rw [if_neg (by simp [h1]), if_pos hs.symm] at hm
      exact (swap_nine hl hb2 he hy (fin w _ hmw hm)).1
    | false =>
      simp only [Bool.false_eq_true, if_false]
      refine Tri.bind (lessAt_val hg hz hw hl) ?_
      rintro s xs _ ⟨rfl, hs2⟩
      cases s with
      | true =>
        rw [if_pos hs2.symm] at hm
        exact (swap_nine hl hh2 he hz (fin w _ hmw hm)).1
      | false =>
        rw [if_neg (by simp [← hs2]), if_neg (by simp [← hs])] at hm
        exact (swap_nine hl hq he hw (fin w _ hmw hm)).1
  have hm2 := mid_three so (x := x1) (y := xe) (z := x3) h31
  refine Tri.bind (lessAt_val hg xhe hx1 hl) ?_
  rintro s xs _ ⟨rfl, hs1⟩
  cases s with
  | true =>
    have h1 : lt x3 xe = false := by
      cases hzw : lt x3 xe with
      | false => rfl
      | true =>
        have := so.lt_of_lt_of_le hzw (so.asymm hs1.symm)
        rw [h31] at this; exact this.symm
    rw [if_neg (by simp [h1]), if_pos hs1.symm] at hm2
    exact last d' x1 hd' hx1 (fin2 _ hm2)
  | false =>
    simp only [Bool.false_eq_true, if_false]
    refine Tri.bind (lessAt_val hg hx3 xhe hl) ?_
    rintro s xs _ ⟨rfl, hs2⟩
    cases s with
    | true =>
      rw [if_pos hs2.symm] at hm2
      exact last f' x3 hf' hx3 (fin2 _ hm2)
    | false =>
      rw [if_neg (by simp [← hs2]), if_neg (by simp [← hs1])] at hm2
      have hm := mid_three so (x := y) (y := xe) (z := z) hzy
      simp only [Bool.false_eq_true, if_false]
      refine Tri.bind (lessAt_val hg xhe hy hl) ?_
      rintro s xs _ ⟨rfl, hs3⟩
      cases s with
      | true =>
        have h1 : lt z xe = false := by
          cases hzw : lt z xe with
          | false => rfl
          | true =>
            have := so.lt_of_lt_of_le hzw (so.asymm hs3.symm)
            rw [hzy] at this; exact this.symm
        rw [if_neg (by simp [h1]), if_pos hs3.symm] at hm
        exact (swap_nine hl hb2 he hy (fin xe _ (fin2 _ hm2) hm)).2
      | false =>
        simp only [Bool.false_eq_true, if_false]
        refine Tri.bind (lessAt_val hg hz xhe hl) ?_
        rintro s xs _ ⟨rfl, hs4⟩
        cases s with
        | true =>
          rw [if_pos hs4.symm] at hm
          exact (swap_nine hl hh2 he hz (fin xe _ (fin2 _ hm2) hm)).2
        | false =>
          rw [if_neg (by simp [← hs4]), if_neg (by simp [← hs3])] at hm
          exact Tri.pure ⟨.refl _, e, hee, xe, xhe, by simp, fin xe _ (fin2 _ hm2) hm⟩

/-- The positions of the `j`-th of the nine. -/
def grp (frac a i b j : Nat) : List Nat :=
  [a + 3 * j, i + j - frac, b + 3 * j, a + 3 * j + 1, i + j, b + 3 * j + 1, a + 3 * j + 2, i + j + frac, b + 3 * j + 2]

theorem vals_congr {xs ys : List α} {ps : List Nat} (h : ∀ q ∈ ps, ys[q]? = xs[q]?) : vals ys ps = vals xs ps :=
  List.filterMap_congr h

theorem grp_nodup {frac a i b n j : Nat} (hn : n ≤ frac) (ha : a + 3 * n + frac ≤ i) (hb : i + frac + n ≤ b) (hj : j < n) :
    (grp frac a i b j).Nodup := by
  simp [grp]
  omega

theorem grp_disjoint {frac a i b n j k q : Nat} (hn : n ≤ frac) (ha : a + 3 * n + frac ≤ i) (hb : i + frac + n ≤ b) (hj : j < k) (hk : k < n)
    (hq : q ∈ grp frac a i b j) : q ∉ grp frac a i b k := by
  simp only [grp, List.mem_cons, List.not_mem_nil, or_false, not_or] at *
  omega

theorem nintherLoop_mid (hg : C.Good lt) {xs zs : List α} {frac a i b n : Nat} (hl : xs.length = v.len) (hz : xs.Perm zs) (hn : n ≤ frac)
    (ha : a + 3 * n + frac ≤ i) (hb : i + frac + n ≤ b) (hbl : b + 3 * n ≤ v.len) :
    Tri C.R v.region (nintherLoop cfg C.less v frac a i b n) xs
      (fun _ ys => ys.Perm zs ∧ (∀ q, (∀ j, j < n → q ∉ grp frac a i b j) → ys[q]? = xs[q]?) ∧
        ∀ j, j < n → ∃ m, ys[i + j]? = some m ∧ Mid lt 4 m (vals ys (grp frac a i b j))) (EP C zs) := by
  induction n generalizing a i b xs with
  | zero => exact Tri.pure ⟨hz, fun _ _ => rfl, fun j hj => absurd hj (by omega)⟩
  | succ n ih =>
    unfold nintherLoop
    refine Tri.usub (by omega) ?_
    refine Tri.bind (Tri.mono (ninther_mid hg (xs := xs) hl (by omega) (by omega) (by omega) (by omega) (by omega) (by omega) (by omega)
      (by omega) (by omega)) (fun _ _ _ h => h) (fun _ _ _ h => h.of_perm hz)) ?_
    rintro _ ys hyl ⟨hp, r, hr, m, hm, hs, hmid⟩
    have eg : [a, i - frac, b, a + 1, i, b + 1, a + 2, i + frac, b + 2] = grp frac a i b 0 := by simp [grp]
    rw [eg] at hr hmid
    have hee : i ∈ grp frac a i b 0 := by simp [grp]
    have hnd : (grp frac a i b 0).Nodup := grp_nodup hn ha hb (by omega)
    have esucc : ∀ j, grp frac (a + 3) (i + 1) (b + 3) j = grp frac a i b (j + 1) := by
      intro j
      simp only [grp, List.cons.injEq, and_true]
      omega
    have hms : ys[i]? = some m := by rw [hs, Equiv.swap_apply_right, hm]
    have hmid' : Mid lt 4 m (vals ys (grp frac a i b 0)) := hmid.perm (vals_swap hs hnd hr hee).symm
    have hout : ∀ q, q ∉ grp frac a i b 0 → ys[q]? = xs[q]? := by
      intro q hq
      rw [hs, Equiv.swap_apply_of_ne_of_ne]
      · rintro rfl; exact hq hr
      · rintro rfl; exact hq hee
    refine Tri.mono (ih (by omega) (hp.trans hz) (by omega) (by omega) (by omega) (by omega)) ?_ (fun _ _ _ h => h)
    rintro _ ws _ ⟨h1, h2, h3⟩
    refine ⟨h1, fun q hq => ?_, fun j hj => ?_⟩
    · rw [h2 q fun j hj => by rw [esucc]; exact hq (j + 1) (by omega)]
      exact hout q (hq 0 (by omega))
    · have hkeep : ∀ q ∈ grp frac a i b 0, ws[q]? = ys[q]? := fun q hq =>
        h2 q fun j hj => by rw [esucc]; exact grp_disjoint hn ha hb (by omega) (by omega) hq
      cases j with
      | zero =>
        refine ⟨m, by rw [Nat.add_zero, hkeep i hee, hms], ?_⟩
        rw [vals_congr hkeep]
        exact hmid'
      | succ j =>
        obtain ⟨m', h4, h5⟩ := h3 j (by omega)
        exact ⟨m', by rw [← h4]; congr 1; omega, by rw [← esucc]; exact h5⟩

/-! ### Counting -/

theorem vals_range' (ys : List α) (k n : Nat) : vals ys (List.range' k n) = (ys.drop k).take n := by
  induction n generalizing k with
  | zero => simp [vals]
  | succ n ih =>
    have ih := ih (k + 1)
    unfold vals at ih ⊢
    rw [List.range'_succ, List.filterMap_cons]
    by_cases hk : k < ys.length
    · rw [List.getElem?_eq_getElem hk, List.drop_eq_getElem_cons hk, List.take_succ_cons]
      dsimp only
      rw [ih]
    · rw [List.getElem?_eq_none (by omega), List.drop_eq_nil_of_le (by omega)]
      dsimp only
      rw [ih, List.drop_eq_nil_of_le (by omega)]
      simp

/-- Counting in disjoint groups of positions. -/
theorem count_groups {ys : List α} {f : Nat} {G : Nat → List Nat} {P : α → Bool} {w : Nat → Nat} (hnd : ∀ j, j < f → (G j).Nodup)
    (hd : ∀ j k, j < k → k < f → ∀ q ∈ G j, q ∉ G k) (hlt : ∀ j, j < f → ∀ q ∈ G j, q < ys.length)
    (hc : ∀ j, j < f → w j ≤ (vals ys (G j)).countP P) : ((List.range f).map w).sum ≤ ys.countP P := by
  have hsub : ((List.range f).flatMap G).Subperm (List.range' 0 ys.length) := by
    refine List.subperm_of_subset ?_ ?_
    · rw [List.nodup_flatMap]
      refine ⟨fun j hj => hnd j (by simpa using hj), ?_⟩
      rw [List.pairwise_iff_getElem]
      intro i j hi hj hij q hq hq'
      simp only [List.length_range] at hi hj
      simp only [List.getElem_range] at hq hq'
      exact hd i j hij hj q hq hq'
    · intro q hq
      obtain ⟨j, hj, hq⟩ := List.mem_flatMap.mp hq
      have := hlt j (by simpa using hj) q hq
      simp [List.mem_range'_1, this]
  have h1 : (vals ys ((List.range f).flatMap G)).countP P ≤ ys.countP P := by
    obtain ⟨l, hl1, hl2⟩ := hsub
    have e : vals ys (List.range' 0 ys.length) = ys := by rw [vals_range']; simp
    have h2 : (vals ys l).countP P ≤ (vals ys (List.range' 0 ys.length)).countP P := (hl2.filterMap _).countP_le
    rw [e] at h2
    have h3 : (vals ys l).countP P = (vals ys ((List.range f).flatMap G)).countP P := (hl1.filterMap _).countP_eq P
    rwa [h3] at h2
  refine Nat.le_trans ?_ h1
  unfold vals
  rw [List.filterMap_flatMap, List.countP_flatMap]
  clear h1 hsub hnd hd hlt
  induction f with
  | zero => simp
  | succ f ih =>
    rw [List.range_succ, List.map_append, List.map_append, List.sum_append, List.sum_append]
    refine Nat.add_le_add (ih fun j hj => hc j (by omega)) ?_
    simpa [vals] using hc f (by omega)

theorem sum_centres {ys : List α} {lo f : Nat} {P : α → Bool} :
    ((List.range f).map fun j => 4 * (vals ys [lo + j]).countP P).sum = 4 * ((ys.drop lo).take f).countP P := by
  rw [← vals_range']
  induction f with
  | zero => simp [vals]
  | succ f ih =>
    rw [List.range_succ, List.map_append, List.sum_append, ih, List.range'_concat]
    simp [vals, List.filterMap_append, Nat.mul_add]

/-- If the centres of the groups are in the middle of their groups then an element in the middle of the centres is in the middle. -/
theorem mid_groups (so : SWO lt) {ys : List α} {lo f k : Nat} {G : Nat → List Nat} {p : α} {M : List α}
    (hnd : ∀ j, j < f → (G j).Nodup) (hd : ∀ j k, j < k → k < f → ∀ q ∈ G j, q ∉ G k) (hlt : ∀ j, j < f → ∀ q ∈ G j, q < ys.length)
    (hc : ∀ j, j < f → ∃ m, ys[lo + j]? = some m ∧ Mid lt 4 m (vals ys (G j)))
    (hM : M.Perm ((ys.drop lo).take f)) (hs : SelectedAt lt k M) (hp : M[k]? = some p) :
    4 * (k + 1) ≤ ys.countP (fun x => !lt p x) ∧ 4 * (M.length - k) ≤ ys.countP (fun x => !lt x p) := by
  obtain ⟨A, q, B, rfl, rfl, hA, hB⟩ := hs
  obtain rfl : q = p := by simpa using hp
  constructor
  · have h1 := count_groups (P := fun x => !lt q x) (w := fun j => 4 * (vals ys [lo + j]).countP fun x => !lt q x) hnd hd hlt ?_
    · rw [sum_centres, ← hM.countP_eq, List.countP_append, List.countP_cons_of_pos (by simp [so.irrefl]),
        List.countP_eq_length.mpr (by simpa using hA)] at h1
      omega
    · intro j hj
      obtain ⟨m, h1, h2, _⟩ := hc j hj
      simp only [vals, List.filterMap_cons, h1, List.filterMap_nil, List.countP_cons, List.countP_nil]
      cases h3 : lt q m with
      | true => simp
      | false =>
        have := countP_le_of so h3 (vals ys (G j))
        unfold vals at h2 this
        simp
        omega
  · have h1 := count_groups (P := fun x => !lt x q) (w := fun j => 4 * (vals ys [lo + j]).countP fun x => !lt x q) hnd hd hlt ?_
    · rw [sum_centres, ← hM.countP_eq, List.countP_append, List.countP_cons_of_pos (by simp [so.irrefl]),
        List.countP_eq_length (l := B).mpr (by simpa using hB)] at h1
      simp
      omega
    · intro j hj
      obtain ⟨m, h1, _, h2⟩ := hc j hj
      simp only [vals, List.filterMap_cons, h1, List.filterMap_nil, List.countP_cons, List.countP_nil]
      cases h3 : lt m q with
      | true => simp
      | false =>
        have := countP_ge_of so h3 (vals ys (G j))
        unfold vals at h2 this
        simp
        omega

end NdSlice
