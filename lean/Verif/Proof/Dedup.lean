import Verif.Model.Search
import Verif.Core.TriL
import Verif.Proof.Order

/-
`partition_dedup` of /repo/src/partition_dedup.rs.
-/

namespace NdSlice

variable {α κ ι ω σ β γ δ : Type}

/-- `same_bucket` as the function sees it: given two different elements `x` and `y` it may leave `x'` and `y'` and say `b`
(`ans x y b x' y' d`, after the questions and answers `d`), or panic (`pan x y x' y'`,
and the last answer is an `isP` one). -/
structure SameFn (α ι ω : Type) where
  R : ι → Option ω → Prop
  prog : Addr → Addr → Prog α ι ω Bool
  ans : α → α → Bool → α → α → List (ι × Option ω) → Prop
  pan : α → α → α → α → Prop
  isP : ι → Option ω → Prop
  cost : Nat
  ok : ∀ (rg : List Addr) (xs : List α) j k a b x y, j ≠ k → rg[j]? = some a → rg[k]? = some b → xs[j]? = some x → xs[k]? = some y →
    TriL R rg (prog a b) xs
      (fun r ys d => ∃ x' y', ys = (xs.set j x').set k y' ∧ d.length = cost ∧ ans x y r x' y' d)
      (fun e ys d => e = .user ∧ ∃ x' y', ys = (xs.set j x').set k y' ∧ pan x y x' y' ∧ ∃ d' q r, d = d' ++ [(q, r)] ∧ isP q r ∧ d'.length < cost)

/-- The loop, with an invariant `I read write contents` and `J` for the contents should user code panic. -/
theorem dedupLoop_spec {cfg : Cfg} {v : View} (f : SameFn α ι ω) {xs : List α} (hx : xs.length = v.len) (h1 : 1 ≤ v.len)
    {I : Nat → Nat → List α → Prop} {J : List α → Prop} (h0 : I 1 1 xs)
    (hstep : ∀ r w (ys : List α) x y b x' y' d, 1 ≤ w → w ≤ r → ys.length = v.len → I r w ys → ys[r]? = some x → ys[w - 1]? = some y →
      f.ans x y b x' y' d →
      (b = true → I (r + 1) w ((ys.set r x').set (w - 1) y')) ∧
      (b = false → ∀ s t, ((ys.set r x').set (w - 1) y')[r]? = some s → ((ys.set r x').set (w - 1) y')[w]? = some t →
        I (r + 1) (w + 1) ((((ys.set r x').set (w - 1) y').set r t).set w s)))
    (hpan : ∀ r w (ys : List α) x y x' y', 1 ≤ w → w ≤ r → ys.length = v.len → I r w ys → ys[r]? = some x → ys[w - 1]? = some y →
      f.pan x y x' y' → J ((ys.set r x').set (w - 1) y')) :
    TriL f.R v.region (Prog.loop (dedupBody cfg f.prog v) (v.len + 1) (1, 1)) xs
      (fun w ys d => 1 ≤ w ∧ w ≤ v.len ∧ I v.len w ys ∧ d.length = f.cost * (v.len - 1))
      (fun e ys d => e = .user ∧ J ys ∧ ∃ d' q r, d = d' ++ [(q, r)] ∧ f.isP q r ∧ d'.length < f.cost * (v.len - 1)) := by
  refine TriL.loop0 (μ := fun s => v.len - s.1)
    (Inv := fun s ys d => 1 ≤ s.2 ∧ s.2 ≤ s.1 ∧ s.1 ≤ v.len ∧ I s.1 s.2 ys ∧ d.length = f.cost * (s.1 - 1)) ?_ ?_ ?_
  · exact ⟨Nat.le_refl _, Nat.le_refl _, h1, h0, by simp⟩
  · simp; omega
  · rintro ⟨r, w⟩ ys d hl ⟨g1, g2, g3, g4, g5⟩
    simp only at g1 g2 g3 g4 g5
    rw [hx] at hl
    unfold dedupBody
    by_cases hr : r < v.len
    · simp only [hr, if_true]
      refine TriL.usub g1 ?_
      unfold dedupBody.uref
      rw [if_pos hr, if_pos (by omega)]
      refine TriL.pureB (TriL.pureB ?_)
      have hxr : ys[r]? = some ys[r] := List.getElem?_eq_getElem _
      have hyw : ys[w - 1]? = some ys[w - 1] := List.getElem?_eq_getElem _
      refine TriL.bind (f.ok v.region ys r (w - 1) _ _ _ _ (by omega) (View.region_get v hr) (View.region_get v (by omega)) hxr hyw) ?_ ?_
      · rintro b zs d' hz ⟨x', y', rfl, hd, ha⟩
        obtain ⟨s1, s2⟩ := hstep r w ys _ _ b x' y' d' g1 g2 hl g4 hxr hyw ha
        have hcost : f.cost * (r - 1) + f.cost = f.cost * (r + 1 - 1) := by
          rw [show r + 1 - 1 = (r - 1) + 1 by omega, Nat.mul_succ]
        cases b with
        | true =>
          refine TriL.pure ⟨⟨g1, by omega, by omega, s1 rfl, ?_⟩, by simp only; omega⟩
          rw [List.append_nil, List.length_append, g5, hd, hcost]
        | false =>
          have hI : ∀ s t, ((ys.set r x').set (w - 1) y')[r]? = some s → ((ys.set r x').set (w - 1) y')[w]? = some t →
            I (r + 1) (w + 1) ((((ys.set r x').set (w - 1) y').set r t).set w s) := s2 rfl
          rw [if_pos (by rfl)]
          by_cases hrw : r = w
          · subst hrw
            unfold whenP
            simp only [bne_self_eq_false, Bool.false_eq_true, if_false]
            refine TriL.pureB (TriL.pure ⟨⟨by omega, by omega, by omega, ?_, ?_⟩, by simp only; omega⟩)
            · have hlt : r < ((ys.set r x').set (r - 1) y').length := by simp; omega
              have := hI _ _ (List.getElem?_eq_getElem hlt) (List.getElem?_eq_getElem hlt)
              rwa [List.set_set, List.set_getElem_self] at this
            · rw [List.append_nil, List.length_append, g5, hd, hcost]
          · unfold whenP
            rw [if_pos (by simpa using hrw), show w - 1 + 1 = w by omega]
            refine TriL.vuswap hr (by omega) fun s t hs ht => TriL.pure ⟨⟨by omega, by omega, by omega, hI s t hs ht, ?_⟩, by simp only; omega⟩
            rw [List.append_nil, List.length_append, g5, hd, hcost]
      · rintro e zs d' ⟨rfl, x', y', rfl, hp, d'', q, r', rfl, hr', hq⟩
        refine ⟨rfl, hpan r w ys _ _ x' y' g1 g2 hl g4 hxr hyw hp, d ++ d'', q, r', by simp, hr', ?_⟩
        rw [List.length_append, g5]
        calc f.cost * (r - 1) + d''.length < f.cost * (r - 1) + f.cost := by omega
          _ = f.cost * (r - 1 + 1) := (Nat.mul_succ _ _).symm
          _ ≤ f.cost * (v.len - 1) := Nat.mul_le_mul_left _ (by omega)
    · simp only [hr, if_false]
      have : r = v.len := by omega
      subst this
      exact TriL.pure ⟨g1, g2, g4, by rw [List.append_nil, g5]⟩

/-! ### What it should do -/

theorem keep_snoc (same : α → α → Bool) (l : α) (A : List α) (x : α) :
    keep same l (A ++ [x]) = if same x ((l :: keep same l A).getLast (by simp)) then keep same l A else keep same l A ++ [x] := by
  induction A generalizing l with
  | nil => rw [List.nil_append]; unfold keep; simp only [List.getLast_singleton]; rfl
  | cons a A ih =>
    simp only [List.cons_append, keep]
    by_cases h : same a l
    · simp only [h, if_true]
      exact ih l
    · simp only [h, Bool.false_eq_true, if_false]
      rw [ih a]
      simp only [List.getLast_cons (List.cons_ne_nil a _)]
      split <;> rfl

theorem dedupOf_snoc (same : α → α → Bool) {A : List α} (x : α) {l : α} (hl : (dedupOf same A).getLast? = some l) :
    dedupOf same (A ++ [x]) = if same x l then dedupOf same A else dedupOf same A ++ [x] := by
  cases A with
  | nil => simp [dedupOf] at hl
  | cons a A =>
    simp only [dedupOf, List.cons_append] at hl ⊢
    rw [keep_snoc]
    rw [List.getLast?_eq_some_getLast (List.cons_ne_nil _ _), Option.some.injEq] at hl
    rw [hl]
    split <;> rfl

theorem keep_sublist (same : α → α → Bool) (l : α) (A : List α) : (keep same l A).Sublist A := by
  induction A generalizing l with
  | nil => exact List.Sublist.refl _
  | cons a A ih =>
    unfold keep
    split
    · exact (ih l).cons _
    · exact (ih a).cons_cons _

theorem dedupOf_sublist (same : α → α → Bool) (A : List α) : (dedupOf same A).Sublist A := by
  cases A with
  | nil => exact List.Sublist.refl _
  | cons a A => exact (keep_sublist same a A).cons_cons _

theorem dedupOf_ne_nil {same : α → α → Bool} {A : List α} (h : A ≠ []) : dedupOf same A ≠ [] := by
  cases A with
  | nil => exact absurd rfl h
  | cons a A => simp [dedupOf]

/-! ### The contents for a `same_bucket` which does not change the elements -/

/-- The array in the loop: what is kept, what has been put behind it, and what is still to be read. -/
def DedupInv (xs : List α) (r w : Nat) (ys : List α) : Prop :=
  ∃ D B : List α, ys = D ++ B ++ xs.drop r ∧ D.length = w ∧ D.length + B.length = r ∧ (D ++ B).Perm (xs.take r)

theorem DedupInv.init {xs : List α} (h : 1 ≤ xs.length) : DedupInv xs 1 1 xs := by
  exact ⟨xs.take 1, [], by rw [List.append_nil, List.take_append_drop], by simp; omega, by simp; omega, by simp⟩

theorem DedupInv.perm {xs ys : List α} {r w : Nat} (h : DedupInv xs r w ys) : ys.Perm xs := by
  obtain ⟨D, B, rfl, -, -, h⟩ := h
  have := h.append_right (xs.drop r)
  rwa [List.take_append_drop] at this

theorem DedupInv.head {xs ys : List α} {r w : Nat} {x : α} (h : DedupInv xs r w ys) (hr : ys[r]? = some x) :
    xs[r]? = some x ∧ xs.take (r + 1) = xs.take r ++ [x] := by
  obtain ⟨D, B, rfl, h1, h2, -⟩ := h
  rw [List.getElem?_append_right (by simp; omega)] at hr
  simp only [List.length_append, List.getElem?_drop] at hr
  rw [show r + (r - (D.length + B.length)) = r by omega] at hr
  exact ⟨hr, by rw [List.take_add_one, hr]; rfl⟩

theorem DedupInv.skip {xs ys : List α} {r w : Nat} {x : α} (h : DedupInv xs r w ys) (hr : ys[r]? = some x) :
    DedupInv xs (r + 1) w ys := by
  obtain ⟨h4, h5⟩ := h.head hr
  obtain ⟨D, B, rfl, h1, h2, h3⟩ := h
  refine ⟨D, B ++ [x], ?_, h1, by simp; omega, ?_⟩
  · rw [List.append_assoc, List.append_assoc, List.append_assoc]
    congr 2
    rw [List.drop_eq_getElem?_toList_append, h4]; rfl
  · rw [h5, ← List.append_assoc]
    exact h3.append_right _

theorem take_snoc (D : List α) (x : α) (t : List α) : (D ++ x :: t).take (D.length + 1) = D ++ [x] := by
  rw [show D ++ x :: t = (D ++ [x]) ++ t by simp]
  exact List.take_left' (by simp)

theorem DedupInv.take {xs ys : List α} {r w : Nat} {x y : α} (h : DedupInv xs r w ys) (hr : ys[r]? = some x)
    (hw : ys[w]? = some y) : DedupInv xs (r + 1) (w + 1) ((ys.set r y).set w x) ∧
      ((ys.set r y).set w x).take (w + 1) = ys.take w ++ [x] := by
  obtain ⟨h4, h5⟩ := h.head hr
  obtain ⟨D, B, rfl, rfl, h2, h3⟩ := h
  have e : xs.drop r = x :: xs.drop (r + 1) := by rw [List.drop_eq_getElem?_toList_append, h4]; rfl
  rw [e] at hw ⊢
  cases B with
  | nil =>
    simp only [List.length_nil, Nat.add_zero, List.append_nil] at h2 h3 hw ⊢
    subst h2
    have hxy : x = y := by simpa using hw
    subst hxy
    have hs : ((D ++ x :: xs.drop (D.length + 1)).set D.length x).set D.length x = D ++ x :: xs.drop (D.length + 1) := by
      simp
    rw [hs]
    refine ⟨⟨D ++ [x], [], by simp, by simp, by simp, ?_⟩, by rw [take_snoc, List.take_left' rfl]⟩
    rw [h5, List.append_nil]
    exact h3.append_right _
  | cons b B =>
    have hyb : y = b := by simpa using hw.symm
    subst hyb
    have hs : ((D ++ y :: B ++ x :: xs.drop (r + 1)).set r y).set D.length x = D ++ x :: (B ++ y :: xs.drop (r + 1)) := by
      have : r = (D ++ y :: B).length := by simpa using h2.symm
      rw [this, List.set_append_right _ _ (Nat.le_refl _), Nat.sub_self]
      simp only [List.set_cons_zero, List.append_assoc, List.cons_append]
      rw [List.set_append_right _ _ (Nat.le_refl _), Nat.sub_self]
      rfl
    rw [hs]
    refine ⟨⟨D ++ [x], B ++ [y], by simp, by simp, by simp at h2 ⊢; omega, ?_⟩,
      by rw [take_snoc, List.append_assoc, List.take_left' rfl]⟩
    rw [h5]
    refine List.Perm.trans ?_ (h3.append_right _)
    simp only [List.append_assoc, List.cons_append, List.nil_append]
    refine List.Perm.append_left D ?_
    refine List.Perm.trans (List.perm_middle (l₁ := x :: B)) ?_
    refine List.Perm.cons _ ?_
    rw [List.append_nil]
    exact (List.perm_append_singleton x B).symm

end NdSlice
