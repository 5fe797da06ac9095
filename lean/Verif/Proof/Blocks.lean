import Verif.Proof.Partition

/-
`partition_in_blocks`, `partition` and `partition_equal` as a whole.
-/

namespace NdSlice

variable {α ι ω : Type} {cfg : Cfg} {v : View} (C : Cmp α ι ω)

/-- Everything before `l` belongs to the left side, everything from `r` on to the right side. -/
structure Outer (p : α) (n : Nat) (l r : Nat) (ys : List α) : Prop where
  left : ∀ i, i < l → AtP (C.ans · p true) ys i
  right : ∀ i, r ≤ i → i < n → AtP (C.ans · p false) ys i

/-- Loop invariant of `partition_in_blocks`. -/
structure BInv (p : α) (n : Nat) (xs : List α) (s : BlockSt) (ys : List α) : Prop where
  perm : ys.Perm xs
  lr : s.l ≤ s.r
  rn : s.r ≤ n
  hbl : s.bl = 128
  hbr : s.br = 128
  one : s.ol = [] ∨ s.or = []
  out : Outer C p n s.l s.r ys
  left : s.ol ≠ [] → s.l + 128 ≤ s.r ∧ LBlk C p ys s.l 128 s.ol
  right : s.or ≠ [] → s.l + 128 ≤ s.r ∧ RBlk C p ys s.r 128 s.or

/-- What holds when the loop is left. -/
structure FInv (p : α) (n : Nat) (xs : List α) (s : BlockSt) (ys : List α) : Prop where
  perm : ys.Perm xs
  lr : s.l ≤ s.r
  rn : s.r ≤ n
  out : Outer C p n s.l s.r ys
  one : s.ol = [] ∨ s.or = []
  left : s.ol ≠ [] → s.l + s.bl = s.r ∧ LBlk C p ys s.l s.bl s.ol
  right : s.or ≠ [] → s.l + s.br = s.r ∧ RBlk C p ys s.r s.br s.or
  none : s.ol = [] → s.or = [] → s.l = s.r

/-- What `blockSizes` gives. -/
structure MInv (p : α) (n : Nat) (s0 s : BlockSt) (ys : List α) : Prop where
  l : s.l = s0.l
  r : s.r = s0.r
  ol : s.ol = s0.ol
  or : s.or = s0.or
  bl : s.bl ≤ 128
  br : s.br ≤ 128
  fit : s.l + s.bl + s.br ≤ s.r
  done : s.r - s.l ≤ 256 → s.l + s.bl + s.br = s.r
  more : ¬ s.r - s.l ≤ 256 → s.bl = 128 ∧ s.br = 128
  left : s.ol ≠ [] → LBlk C p ys s.l s.bl s.ol
  right : s.or ≠ [] → RBlk C p ys s.r s.br s.or

theorem blockSizes_spec {E : Panic → List α → Prop} {p : α} {xs ys : List α} {s : BlockSt} (h : BInv C p v.len xs s ys) :
    Tri C.R v.region (blockSizes cfg s) ys (fun s' zs => zs = ys ∧ MInv C p v.len s s' ys) E := by
  obtain ⟨l, bl, ol, r, br, or⟩ := s
  obtain ⟨perm, lr, rn, hbl, hbr, one, out, left, right⟩ := h
  dsimp only at *
  subst hbl hbr
  unfold blockSizes
  refine Tri.usub lr ?_
  dsimp only
  by_cases hw : r - l ≤ 2 * BLOCK
  · rw [if_pos hw]
    unfold BLOCK at hw ⊢
    by_cases hol : ol = []
    · by_cases hor : or = []
      · subst hol hor
        simp only [ne_eq, not_true_eq_false, or_self, if_false]
        refine Tri.pureB ?_
        refine Tri.bind (Tri.usub (k := fun b => pure (BlockSt.mk l ((r - l) / 2) [] r b []))
          (Q := fun s' zs => zs = ys ∧ s' = BlockSt.mk l ((r - l) / 2) [] r (r - l - (r - l) / 2) []) (by omega) (Tri.pure ⟨rfl, rfl⟩)) ?_
        rintro _ ys _ ⟨rfl, rfl⟩
        refine (Tri.debugAssert (by simp; omega) (Tri.debugAssert (by simp; omega) (Tri.pure ⟨rfl, ?_⟩)))
        constructor <;> first | (dsimp only; done) | (dsimp only; omega) | (intro h; exact absurd rfl h)
      · subst hol
        obtain ⟨r1, r2⟩ := right hor
        simp only [ne_eq, not_true_eq_false, hor, not_false_eq_true, or_true, if_true, if_false]
        refine Tri.usub (by omega) ?_
        refine Tri.pureB (Tri.debugAssert (by simp; omega) (Tri.debugAssert (by simp; omega) (Tri.pure ⟨rfl, ?_⟩)))
        constructor <;> first | (dsimp only; done) | (dsimp only; omega) | (intro h; exact absurd rfl h) | (intro h; exact r2)
    · obtain ⟨r1, r2⟩ := left hol
      have hor : or = [] := by
        rcases one with h | h
        · exact absurd h hol
        · exact h
      subst hor
      simp only [ne_eq, hol, not_false_eq_true, true_or, if_true]
      refine Tri.usub (by omega) ?_
      refine Tri.pureB (Tri.debugAssert (by simp; omega) (Tri.debugAssert (by simp; omega) (Tri.pure ⟨rfl, ?_⟩)))
      constructor <;> first | (dsimp only; done) | (dsimp only; omega) | (intro h; exact absurd rfl h) | (intro h; exact r2)
  · rw [if_neg hw]
    unfold BLOCK at hw
    refine Tri.pure ⟨rfl, ?_⟩
    constructor <;> first | (dsimp only; done) | (dsimp only; omega) | exact fun h => (left h).2 | exact fun h => (right h).2

theorem AtP.same {P : α → Prop} {ys zs : List α} {k : Nat} (h : zs[k]? = ys[k]?) (hk : AtP P ys k) : AtP P zs k := by
  unfold AtP; rw [h]; exact hk

theorem blockStep_spec {p : α} {xs ys : List α} {s : BlockSt} (hy : ys.length = v.len) (h : BInv C p v.len xs s ys) :
    Tri C.R v.region (blockStep cfg C.less v p s) ys
      (fun o zs => match o with
        | .inl s' => BInv C p v.len xs s' zs ∧ s'.r - s'.l < s.r - s.l
        | .inr s' => FInv C p v.len xs s' zs) (EP C xs) := by
  unfold blockStep
  refine Tri.usub h.lr ?_
  dsimp only
  refine Tri.bind (blockSizes_spec C h) ?_
  rintro s1 ys _ ⟨rfl, m⟩
  have hrn : s1.r ≤ v.len := by rw [m.r]; exact h.rn
  have hfit := m.fit
  -- the left block
  refine Tri.bind (Q' := fun ol zs => zs = ys ∧ LBlk C p ys s1.l s1.bl ol) ?_ ?_
  · by_cases hol : s1.ol = []
    · rw [if_pos hol]
      refine Tri.mono (traceL_spec C (i := 0) (n := s1.bl) h.perm (by omega) (by have := m.bl; omega) ?_) ?_ (fun _ _ _ h => h)
      · constructor <;> simp
      · rintro ol zs _ ⟨h1, h2⟩
        rw [Nat.zero_add] at h2
        exact ⟨h1, h2⟩
    · rw [if_neg hol]
      exact Tri.pure ⟨rfl, m.left hol⟩
  rintro ol ys _ ⟨rfl, hL⟩
  -- the right block
  refine Tri.bind (Q' := fun or zs => zs = ys ∧ RBlk C p ys s1.r s1.br or) ?_ ?_
  · by_cases hor : s1.or = []
    · rw [if_pos hor]
      refine Tri.mono (traceR_spec C (i := 0) (n := s1.br) (e := s1.r) (r := s1.r) h.perm hrn (by omega) (by omega) (by have := m.br; omega) ?_) ?_ (fun _ _ _ h => h)
      · constructor <;> simp
      · rintro ol zs _ ⟨h1, h2⟩
        rw [Nat.zero_add] at h2
        exact ⟨h1, h2⟩
    · rw [if_neg hor]
      exact Tri.pure ⟨rfl, m.right hor⟩
  rintro or ys _ ⟨rfl, hR⟩
  -- the exchange
  refine Tri.bind (Q' := fun s zs => (s.1 = [] ∨ s.2 = []) ∧ LBlk C p zs s1.l s1.bl s.1 ∧ RBlk C p zs s1.r s1.br s.2 ∧ zs.Perm ys ∧ SameOut s1.l s1.r ys zs) ?_ ?_
  · by_cases hc : min ol.length or.length > 0
    · rw [if_pos hc]
      refine Tri.mono (cycle_spec C hfit hrn hy hc (by omega) (by omega) hL hR) ?_ (fun _ _ _ h => h)
      rintro _ zs _ ⟨rfl, h1, h2, h3, h4⟩
      refine ⟨?_, h1, h2, h3, h4⟩
      dsimp only
      rw [List.drop_eq_nil_iff, List.drop_eq_nil_iff]
      omega
    · rw [if_neg hc]
      refine Tri.pure ⟨?_, hL, hR, .refl _, fun _ _ => rfl⟩
      dsimp only
      rw [← List.length_eq_zero_iff, ← List.length_eq_zero_iff]
      omega
  rintro ⟨ol', or'⟩ zs hzl ⟨hone, hL', hR', hp, hso⟩
  dsimp only at hone hL' hR' ⊢
  -- moving on
  have hout : Outer C p v.len s1.l s1.r zs := by
    refine ⟨fun i hi => ?_, fun i hi hi2 => ?_⟩
    · exact (h.out.left i (by rw [← m.l]; exact hi)).same (hso i (.inl hi))
    · exact (h.out.right i (by rw [← m.r]; exact hi) hi2).same (hso i (.inr hi))
  refine Tri.bind (Q' := fun r ws => ws = zs ∧ r = if or' = [] then s1.r - s1.br else s1.r) ?_ ?_
  · by_cases hor : or' = []
    · rw [if_pos hor, if_pos hor]
      exact Tri.usubR (by omega) ⟨rfl, rfl⟩
    · rw [if_neg hor, if_neg hor]; exact Tri.pure ⟨rfl, rfl⟩
  rintro r' zs _ ⟨rfl, hr'⟩
  generalize hl' : (if ol' = [] then s1.l + s1.bl else s1.l) = l'
  have hout' : Outer C p v.len l' r' zs := by
    refine ⟨fun i hi => ?_, fun i hi hi2 => ?_⟩
    · rcases Nat.lt_or_ge i s1.l with hi' | hi'
      · exact hout.left i hi'
      · by_cases hol : ol' = []
        · rw [if_pos hol] at hl'
          have := hL'.good (i - s1.l) (by omega) (by simp [hol])
          rwa [show s1.l + (i - s1.l) = i by omega] at this
        · rw [if_neg hol] at hl'; omega
    · rcases Nat.lt_or_ge i s1.r with hi' | hi'
      · by_cases hor : or' = []
        · rw [if_pos hor] at hr'
          have := hR'.good (s1.r - 1 - i) (by omega) (by simp [hor])
          rwa [show s1.r - (s1.r - 1 - i + 1) = i by omega] at this
        · rw [if_neg hor] at hr'; omega
      · exact hout.right i hi' hi2
  have hlr' : l' ≤ r' := by
    rw [← hl', hr']
    split <;> split <;> omega
  have hrn' : r' ≤ v.len := by
    rw [hr']; split <;> omega
  have hw : s.r - s.l = s1.r - s1.l := by rw [m.r, m.l]
  by_cases hd : s.r - s.l ≤ 2 * BLOCK
  · simp only [hd, decide_true, if_true]
    have hd' := m.done (by rw [← hw]; exact hd)
    refine Tri.pure ?_
    dsimp only
    refine ⟨hp.trans h.perm, hlr', hrn', hout', hone, ?_, ?_, ?_⟩
    · intro hol
      dsimp only at hol ⊢
      have hor : or' = [] := hone.resolve_left hol
      rw [if_neg hol] at hl'
      rw [if_pos hor] at hr'
      subst hl'
      exact ⟨by omega, hL'⟩
    · intro hor
      dsimp only at hor ⊢
      have hol : ol' = [] := hone.resolve_right hor
      rw [if_pos hol] at hl'
      rw [if_neg hor] at hr'
      subst hr'
      exact ⟨by omega, hR'⟩
    · intro hol hor
      dsimp only at hol hor ⊢
      rw [if_pos hol] at hl'
      rw [if_pos hor] at hr'
      omega
  · simp only [hd, decide_false, Bool.false_eq_true, if_false]
    obtain ⟨hb1, hb2⟩ := m.more (by rw [← hw]; exact hd)
    unfold BLOCK at hd
    rw [hb1, hb2] at hfit
    refine Tri.pure ?_
    dsimp only
    refine ⟨⟨hp.trans h.perm, hlr', hrn', hb1, hb2, hone, hout', ?_, ?_⟩, ?_⟩
    · intro hol
      dsimp only at hol ⊢
      have hor : or' = [] := hone.resolve_left hol
      rw [if_neg hol] at hl'
      rw [if_pos hor] at hr'
      subst hl'
      rw [hb1] at hL'
      exact ⟨by omega, hL'⟩
    · intro hor
      dsimp only at hor ⊢
      have hol : ol' = [] := hone.resolve_right hor
      rw [if_pos hol] at hl'
      rw [if_neg hor] at hr'
      subst hr'
      rw [hb2] at hR'
      exact ⟨by omega, hR'⟩
    · rw [hw]
      rcases hone with hol | hor
      · rw [if_pos hol] at hl'
        have : r' ≤ s1.r := by rw [hr']; split <;> omega
        omega
      · rw [if_pos hor] at hr'
        have : s1.l ≤ l' := by rw [← hl']; split <;> omega
        omega

theorem moveRemL_spec {E : Panic → List α → Prop} {p : α} {xs ys : List α} {l b r n : Nat} {ol : List Nat}
    (hy : ys.length = v.len) (hp : ys.Perm xs) (hr : l + b = r) (hrn : r ≤ v.len)
    (ho : Outer C p v.len l r ys) (hL : LBlk C p ys l b ol) (hn : ol.length = n) :
    Tri C.R v.region (moveRemL cfg v l n ol r) ys (fun k zs => zs.Perm xs ∧ k ≤ v.len ∧ Outer C p v.len k k zs) E := by
  induction n generalizing ol r ys b with
  | zero =>
    obtain rfl := List.length_eq_zero_iff.mp hn
    refine Tri.pure ⟨hp, hrn, ⟨fun i hi => ?_, ho.right⟩⟩
    rcases Nat.lt_or_ge i l with h | h
    · exact ho.left i h
    · have := hL.good (i - l) (by omega) (by simp)
      rwa [show l + (i - l) = i by omega] at this
  | succ n ih =>
    rcases List.eq_nil_or_concat ol with rfl | ⟨ol, o, rfl⟩
    · simp at hn
    rw [List.concat_eq_append] at *
    have hob := hL.lt o (by simp)
    obtain ⟨hi1, _, hi2⟩ := List.pairwise_append.mp hL.inc
    have hlast : ∀ x ∈ ol, x < o := fun x hx => hi2 x hx o (by simp)
    unfold moveRemL
    rw [List.getLastD_concat, List.dropLast_concat]
    refine Tri.usub (by omega) (Tri.vuswap (by omega) (by omega) fun x y hx1 hy1 => ?_)
    have hxF : C.ans x p false := (hL.bad o hob (by simp)).val hx1
    refine ih (b := b - 1) (by simp [hy]) ((swap_perm hx1 hy1).trans hp) (by omega) (by omega) ?_ ?_ (by simpa using hn)
    · refine ⟨fun i hi => ?_, fun i hi hi2 => ?_⟩
      · exact AtP.swap_ne (by omega) (by omega) (ho.left i hi)
      · by_cases hir : i = r - 1
        · rw [hir]; exact AtP.swap_r (by omega) hxF
        · exact AtP.swap_ne (by omega) (by omega) (ho.right i (by omega) hi2)
    · refine ⟨hi1, fun x hx => by have := hlast x hx; omega, fun x hx hm => ?_, fun x hx hm => ?_⟩
      · have := hlast x hm
        exact AtP.swap_ne (by omega) (by omega) (hL.bad x (by omega) (by simp [hm]))
      · by_cases hxo : x = o
        · subst hxo
          refine AtP.swap_l (by omega) hy1 hx1 ?_
          have h3 := hL.good (b - 1) (by omega) (by
            intro hm'
            rcases List.mem_append.mp hm' with h | h
            · have := hlast _ h; omega
            · have := List.mem_singleton.mp h; omega)
          rw [show l + (b - 1) = r - 1 by omega] at h3
          exact h3.val hy1
        · exact AtP.swap_ne (by omega) (by omega) (hL.good x (by omega) (by simp [hm, hxo]))

theorem moveRemR_spec {E : Panic → List α → Prop} {p : α} {xs ys : List α} {l b r n : Nat} {or : List Nat}
    (hy : ys.length = v.len) (hp : ys.Perm xs) (hr : l + b = r) (hrn : r ≤ v.len)
    (ho : Outer C p v.len l r ys) (hR : RBlk C p ys r b or) (hn : or.length = n) :
    Tri C.R v.region (moveRemR cfg v r n or l) ys (fun k zs => zs.Perm xs ∧ k ≤ v.len ∧ Outer C p v.len k k zs) E := by
  induction n generalizing or l ys b with
  | zero =>
    obtain rfl := List.length_eq_zero_iff.mp hn
    refine Tri.pure ⟨hp, by omega, ⟨ho.left, fun i hi hi2 => ?_⟩⟩
    rcases Nat.lt_or_ge i r with h | h
    · have := hR.good (r - 1 - i) (by omega) (by simp)
      rwa [show r - (r - 1 - i + 1) = i by omega] at this
    · exact ho.right i h hi2
  | succ n ih =>
    rcases List.eq_nil_or_concat or with rfl | ⟨or, o, rfl⟩
    · simp at hn
    rw [List.concat_eq_append] at *
    have hob := hR.lt o (by simp)
    obtain ⟨hi1, _, hi2⟩ := List.pairwise_append.mp hR.inc
    have hlast : ∀ x ∈ or, x < o := fun x hx => hi2 x hx o (by simp)
    unfold moveRemR
    rw [List.getLastD_concat, List.dropLast_concat]
    refine Tri.usub (by omega) (Tri.vuswap (by omega) (by omega) fun x y hx1 hy1 => ?_)
    have hyT : C.ans y p true := (hR.bad o hob (by simp)).val hy1
    refine ih (b := b - 1) (by simp [hy]) ((swap_perm hx1 hy1).trans hp) (by omega) ?_ ?_ (by simpa using hn)
    · refine ⟨fun i hi => ?_, fun i hi hi2 => ?_⟩
      · by_cases hir : i = l
        · rw [hir]; exact AtP.swap_l (by omega) hy1 hx1 hyT
        · exact AtP.swap_ne (by omega) (by omega) (ho.left i (by omega))
      · exact AtP.swap_ne (by omega) (by omega) (ho.right i hi hi2)
    · refine ⟨hi1, fun x hx => by have := hlast x hx; omega, fun x hx hm => ?_, fun x hx hm => ?_⟩
      · have := hlast x hm
        exact AtP.swap_ne (by omega) (by omega) (hR.bad x (by omega) (by simp [hm]))
      · by_cases hxo : x = o
        · subst hxo
          refine AtP.swap_r (by omega) ?_
          have h3 := hR.good (b - 1) (by omega) (by
            intro hm'
            rcases List.mem_append.mp hm' with h | h
            · have := hlast _ h; omega
            · have := List.mem_singleton.mp h; omega)
          rw [show r - (b - 1 + 1) = l by omega] at h3
          exact h3.val hx1
        · exact AtP.swap_ne (by omega) (by omega) (hR.good x (by omega) (by simp [hm, hxo]))

/-- `partition_in_blocks` separates by the answers the comparator gave. -/
theorem partitionInBlocks_spec {p : α} {xs : List α} (hx : xs.length = v.len) :
    Tri C.R v.region (partitionInBlocks cfg C.less v p) xs
      (fun k ys => ys.Perm xs ∧ k ≤ v.len ∧ Outer C p v.len k k ys) (EP C xs) := by
  unfold partitionInBlocks
  by_cases h0 : v.len = 0
  · rw [if_pos h0]
    exact Tri.pure ⟨.refl _, by omega, ⟨by omega, by omega⟩⟩
  rw [if_neg h0]
  refine Tri.bind (Q' := FInv C p v.len xs) ?_ ?_
  · refine Tri.loop (Inv := BInv C p v.len xs) (μ := fun s _ => s.r - s.l) ?_ (by simp) ?_
    · refine ⟨.refl _, by simp, by simp, rfl, rfl, .inl rfl, ⟨by simp, by simp; omega⟩, by simp, by simp⟩
    · intro s ys hyl h
      refine Tri.mono (blockStep_spec C (by omega) h) ?_ (fun _ _ _ h => h)
      rintro (s' | s') zs _ h <;> exact h
  · rintro s ys hyl h
    by_cases hol : s.ol = []
    · by_cases hor : s.or = []
      · simp only [hol, hor, ne_eq, not_true_eq_false, if_false]
        refine Tri.pure ⟨h.perm, by have := h.lr; have := h.rn; omega, ⟨h.out.left, ?_⟩⟩
        rw [h.none hol hor]; exact h.out.right
      · simp only [hol, hor, ne_eq, not_true_eq_false, if_false, not_false_eq_true, if_true]
        obtain ⟨h1, h2⟩ := h.right hor
        refine Tri.usub h.lr (Tri.debugAssert (by simp; omega) ?_)
        exact moveRemR_spec C (by omega) h.perm h1 h.rn h.out h2 rfl
    · simp only [hol, ne_eq, not_false_eq_true, if_true]
      obtain ⟨h1, h2⟩ := h.left hol
      refine Tri.usub h.lr (Tri.debugAssert (by simp; omega) ?_)
      exact moveRemL_spec C (by omega) h.perm h1 h.rn h.out h2 rfl

/-! ### `partition_equal` and `partition` -/

theorem swap_front {xs : List α} {i : Nat} {p : α} (hi : xs[i]? = some p) :
    ∃ (y : α) (rest : List α), xs[0]? = some y ∧ (xs.set 0 p).set i y = p :: rest := by
  cases xs with
  | nil => simp at hi
  | cons y zs =>
    refine ⟨y, ?_⟩
    cases i with
    | zero =>
      simp at hi; subst hi
      exact ⟨zs, by simp, by simp⟩
    | succ i => exact ⟨zs.set i y, by simp, by simp⟩

/-- Run something on the rest of a view whose first element was taken out, with the guard writing it back. -/
theorem Tri.guarded {β : Type} {xs : List α} {p : α} {rest : List α} {f : Prog α ι ω β} {Q : β → List α → Prop}
    (hx : (p :: rest).length = v.len) (hp : (p :: rest).Perm xs)
    (h : Tri C.R (v.sub 1 (v.len - 1)).region f rest Q (EP C rest)) :
    Tri C.R v.region (f.onPanic ((v.sub 0 1).set 0 p)) (p :: rest) (fun b ys => ∃ ws, ws.length = rest.length ∧ ys = p :: ws ∧ Q b ws) (EP C xs) := by
  have hl : rest.length + 1 = v.len := by simpa using hx
  refine Tri.onPanic (E' := fun e ys => ∃ ws, ws.length = rest.length ∧ ys = p :: ws ∧ EP C rest e ws) ?_ ?_
  · refine Tri.subMono (a := 1) (n := v.len - 1) (by omega) (Q' := Q) (E' := EP C rest) ?_ ?_ ?_
    · rw [List.drop_one, List.tail_cons, List.take_of_length_le (by omega)]
      exact h
    · intro b ws hwl hw
      exact ⟨ws, by omega, by rw [List.drop_eq_nil_of_le (by simp; omega)]; simp, hw⟩
    · intro b ws hwl hw
      exact ⟨ws, by omega, by rw [List.drop_eq_nil_of_le (by simp; omega)]; simp, hw⟩
  · rintro e ys _ ⟨ws, hwl, rfl, hw⟩
    refine Tri.vsetU' (j := 0) ((View.at_self v).sub (a := 0) (n := 1) (by omega)) (by simp) ?_
    simp only [Nat.zero_add, List.set_cons_zero]
    exact ⟨hw.1, hw.2.1, (List.Perm.cons p hw.2.2).trans hp⟩

theorem split_outer {k : Nat} {ws : List α} {T F : α → Prop}
    (hT : ∀ i, i < k → AtP T ws i) (hF : ∀ i, k ≤ i → i < ws.length → AtP F ws i) :
    (∀ a ∈ ws.take k, T a) ∧ (∀ b ∈ ws.drop k, F b) :=
  ⟨mem_take_of_AtP hT, mem_drop_of_AtP hF⟩

/-- `partition_equal`: the pivot and the elements it was not found less than come first. -/
theorem partitionEqual_spec {xs : List α} {pivot : Nat} (hx : xs.length = v.len) (hv : 2 ≤ v.len) (hpv : pivot < v.len) :
    Tri C.R v.region (partitionEqual cfg C.less v pivot) xs
      (fun k ys => ys.Perm xs ∧ ∃ p A B, xs[pivot]? = some p ∧ ys = p :: A ++ B ∧ k = A.length + 1 ∧
        (∀ a ∈ A, C.ans p a false) ∧ (∀ b ∈ B, C.ans p b true))
      (EP C xs) := by
  unfold partitionEqual
  refine Tri.vswap (by omega) hpv fun y p hy hpp => ?_
  obtain ⟨y', rest, hy', he⟩ := swap_front hpp
  rw [hy] at hy'; injection hy' with hy'; subst hy'
  have hperm := swap_perm hy hpp
  rw [he] at hperm ⊢
  have hl : rest.length + 1 = v.len := by
    have := hperm.length_eq; simp at this; omega
  refine Tri.splitAt (by omega) ?_
  refine Tri.vidx' (j := 0) ((View.at_self v).sub (a := 0) (n := 1) (by omega)) (by simp) fun x hx1 => ?_
  obtain rfl : p = x := by simpa using hx1
  simp only [View.sub_len, show (v.len - 1 == 0) = false by simp; omega, Bool.false_eq_true, if_false]
  refine Tri.bind (Tri.guarded C (Q := fun k ys => ys.Perm rest ∧ ∃ l, k = l + 1 ∧ l ≤ v.len - 1 ∧ (∀ i, i < l → AtP (C.ans p · false) ys i) ∧
        (∀ i, l ≤ i → i < v.len - 1 → AtP (C.ans p · true) ys i)) (by simpa using hl) hperm ?_) ?_
  · refine Tri.bind (partitionEqualLoop_spec C (v := v.sub 1 (v.len - 1)) (by simp; omega) (by simp; omega)) ?_
    rintro l ys _ ⟨h1, h2, h3, h4⟩
    exact Tri.pure ⟨h1, l, rfl, h2, h3, h4⟩
  rintro k _ _ ⟨ws, hwl, rfl, hw, l, rfl, h2, h3, h4⟩
  refine Tri.vset' (j := 0) ((View.at_self v).sub (a := 0) (n := 1) (by omega)) (by simp) ?_
  simp only [Nat.zero_add, List.set_cons_zero]
  refine Tri.pure ⟨(List.Perm.cons p hw).trans hperm, p, ws.take l, ws.drop l, hpp, by simp, ?_, mem_take_of_AtP h3, mem_drop_of_AtP (fun i h5 h6 => h4 i h5 (by omega))⟩
  rw [List.length_take]; omega

/-- `partition`: elements found less than the pivot, the pivot, the others. -/
theorem partition_spec {xs : List α} {pivot : Nat} (hx : xs.length = v.len) (hpv : pivot < v.len) :
    Tri C.R v.region (partition cfg C.less v pivot) xs
      (fun r ys => ys.Perm xs ∧ ∃ p A B, xs[pivot]? = some p ∧ ys = A ++ p :: B ∧ r.1 = A.length ∧
        (∀ a ∈ A, C.ans a p true) ∧ (∀ b ∈ B, C.ans b p false))
      (EP C xs) := by
  unfold partition
  refine Tri.vswap (by omega) hpv fun y p hy hpp => ?_
  obtain ⟨y', rest, hy', he⟩ := swap_front hpp
  rw [hy] at hy'; injection hy' with hy'; subst hy'
  have hperm := swap_perm hy hpp
  rw [he] at hperm ⊢
  have hl : rest.length + 1 = v.len := by
    have := hperm.length_eq; simp at this; omega
  refine Tri.splitAt (by omega) ?_
  refine Tri.vidx' (j := 0) ((View.at_self v).sub (a := 0) (n := 1) (by omega)) (by simp) fun x hx1 => ?_
  obtain rfl : p = x := by simpa using hx1
  simp only []
  refine Tri.bind (Tri.guarded C (Q := fun k ys => ys.Perm rest ∧ k.1 ≤ v.len - 1 ∧ Outer C p (v.len - 1) k.1 k.1 ys)
    (by simpa using hl) hperm ?_) ?_
  · generalize hwv : v.sub 1 (v.len - 1) = w
    have hwl : w.len = v.len - 1 := by rw [← hwv]; rfl
    rw [← hwl]
    refine Tri.bind (scanUp_spec (P := fun i b => AtP (C.ans · p b) rest i) ?_) ?_
    · intro i h1 h2
      refine Tri.vget (by omega) fun x hx' => ?_
      exact Tri.less C (fun b hb => ⟨rfl, x, hx', hb⟩) (fun hp' => ⟨rfl, hp', .refl _⟩)
    rintro l ys _ ⟨rfl, h1, h2, h3, h4⟩
    refine Tri.bind (scanDown_spec (P := fun i b => AtP (C.ans · p (!b)) ys i) (by omega) ?_) ?_
    · intro i h1 h2
      refine Tri.vget (by omega) fun x hx' => ?_
      refine Tri.lessB C (fun b hb => Tri.pure ⟨rfl, ?_⟩) (fun hp' => ⟨rfl, hp', .refl _⟩)
      rw [Bool.not_not]; exact ⟨x, hx', hb⟩
    rintro r ys' _ ⟨rfl, k1, k2, k3, k4⟩
    refine Tri.slice (by omega) (by omega) ?_
    refine Tri.bind (Q' := fun k zs => zs.Perm ys' ∧ l + k ≤ w.len ∧ Outer C p w.len (l + k) (l + k) zs) ?_ ?_
    · refine Tri.subMono (a := l) (n := r - l) (by omega) (partitionInBlocks_spec C (by simp; omega)) ?_ ?_
      · rintro k zs hzl ⟨g1, g2, g3⟩
        simp only [View.sub_len] at g2 g3
        have hget : ∀ i, (ys'.take l ++ zs ++ ys'.drop (l + (r - l)))[i]? = if i < l then ys'[i]? else if i < r then zs[i - l]? else ys'[i]? := by
          intro i
          by_cases hi1 : i < l
          · rw [if_pos hi1, List.append_assoc, List.getElem?_append_left (by simp; omega), List.getElem?_take_of_lt hi1]
          · rw [if_neg hi1]
            by_cases hi2 : i < r
            · rw [if_pos hi2, List.getElem?_append_left (by simp; omega), List.getElem?_append_right (by simp; omega)]
              congr 1; simp; omega
            · rw [if_neg hi2, List.getElem?_append_right (by simp; omega), List.getElem?_drop]
              congr 1; simp; omega
        refine ⟨perm_part g1, by omega, ⟨fun i hi => ?_, fun i hi hi2 => ?_⟩⟩
        · unfold AtP
          rw [hget]
          by_cases hi1 : i < l
          · rw [if_pos hi1]; exact h3 i (by omega) hi1
          · rw [if_neg hi1, if_pos (by omega)]; exact g3.left (i - l) (by omega)
        · unfold AtP
          rw [hget, if_neg (by omega)]
          by_cases hi1 : i < r
          · rw [if_pos hi1]; exact g3.right (i - l) (by omega) (by omega)
          · rw [if_neg hi1]; exact k3 i (by omega) (by omega)
      · rintro e zs hzl ⟨rfl, g1, g2⟩
        exact ⟨rfl, g1, perm_part g2⟩
    · rintro k zs _ ⟨g1, g2, g3⟩
      exact Tri.pure ⟨g1, g2, g3⟩
  rintro ⟨k, was⟩ _ _ ⟨ws, hwl, rfl, hw, h2, h3⟩
  dsimp only at h2 h3 ⊢
  refine Tri.vset' (j := 0) ((View.at_self v).sub (a := 0) (n := 1) (by omega)) (by simp) ?_
  simp only [Nat.zero_add, List.set_cons_zero]
  refine Tri.vswap (by omega) (by omega) fun x z hx1 hz1 => ?_
  have hpx : p = x := by simpa using hx1
  subst hpx
  have hsw := swap_perm hx1 hz1
  obtain ⟨hA, hB⟩ := split_outer h3.left (fun i a b => h3.right i a (by omega))
  refine Tri.pure ⟨hsw.trans ((List.Perm.cons p hw).trans hperm), p, ?_⟩
  cases k with
  | zero =>
    refine ⟨[], ws, hpp, ?_, rfl, by simp, by simpa using hB⟩
    simp
  | succ k =>
    have hzk : ws[k]? = some z := by simpa using hz1
    have ht : ws.take (k + 1) = ws.take k ++ [z] := by
      rw [List.take_add_one, hzk]; rfl
    refine ⟨z :: ws.take k, ws.drop (k + 1), hpp, ?_, by rw [List.length_cons, List.length_take]; omega, ?_, hB⟩
    · have hws : ws = ws.take k ++ z :: ws.drop (k + 1) := by
        conv_lhs => rw [← List.take_append_drop (k + 1) ws, ht]
        simp
      simp only [List.set_cons_zero, List.set_cons_succ, List.cons_append, List.cons.injEq, true_and]
      conv_lhs => rw [hws]
      exact set_mid (by rw [List.length_take]; omega)
    · intro a ha
      apply hA
      rw [ht]
      simpa [or_comm] using ha

end NdSlice
