import Verif.Spec

/-
Facts about orders, sortedness and stability on plain lists.
-/

namespace NdSlice

variable {α : Type} {lt : α → α → Bool}

namespace SWO

theorem asymm (h : SWO lt) {x y : α} (hxy : lt x y = true) : lt y x = false := by
  cases hyx : lt y x with
  | false => rfl
  | true => have := h.trans x y x hxy hyx; rw [h.irrefl] at this; cases this

/-- `x < y`, `y ≤ z` gives `x < z`. -/
theorem lt_of_lt_of_le (h : SWO lt) {x y z : α} (hxy : lt x y = true) (hyz : lt z y = false) : lt x z = true := by
  cases hxz : lt x z with
  | true => rfl
  | false => have := h.ntrans x z y hxz hyz; rw [hxy] at this; cases this

/-- `x ≤ y`, `y < z` gives `x < z`. -/
theorem lt_of_le_of_lt (h : SWO lt) {x y z : α} (hxy : lt y x = false) (hyz : lt y z = true) : lt x z = true := by
  cases hxz : lt x z with
  | true => rfl
  | false => have := h.ntrans y x z hxy hxz; rw [hyz] at this; cases this

/-- `x ≤ y`, `y ≤ z` gives `x ≤ z`. -/
theorem le_trans (h : SWO lt) {x y z : α} (hxy : lt y x = false) (hyz : lt z y = false) : lt z x = false :=
  h.ntrans z y x hyz hxy

end SWO

theorem eqv_iff {x y : α} : eqv lt x y = true ↔ lt x y = false ∧ lt y x = false := by
  simp [eqv]

theorem eqv_false_of_lt {x y z : α} (h : SWO lt) (hyz : lt y z = true) (hx : eqv lt x y = true) :
    eqv lt x z = false := by
  rw [eqv_iff] at hx
  have := h.lt_of_le_of_lt hx.2 hyz
  simp [eqv, this]

theorem eqv_false_of_gt {x y z : α} (h : SWO lt) (hyz : lt z y = true) (hx : eqv lt x y = true) :
    eqv lt x z = false := by
  rw [eqv_iff] at hx
  have := h.lt_of_lt_of_le hyz hx.1
  simp [eqv, this]

namespace StableArr

theorem refl (xs : List α) : StableArr lt xs xs := fun _ => rfl

theorem trans {xs ys zs : List α} (h1 : StableArr lt xs ys) (h2 : StableArr lt ys zs) : StableArr lt xs zs :=
  fun x => (h2 x).trans (h1 x)

theorem append {xs ys xs' ys' : List α} (h1 : StableArr lt xs ys) (h2 : StableArr lt xs' ys') :
    StableArr lt (xs ++ xs') (ys ++ ys') := fun x => by
  rw [List.filter_append, List.filter_append, h1 x, h2 x]

/-- Moving one element over elements that are all less, or all greater, than it. -/
theorem move {g : α} {A : List α} (h : SWO lt) (hA : ∀ a ∈ A, eqv lt a g = false) :
    StableArr lt (g :: A) (A ++ [g]) := by
  intro x
  by_cases hx : eqv lt x g = true
  · have : A.filter (eqv lt x) = [] := by
      rw [List.filter_eq_nil_iff]
      intro a ha hxa
      have h1 := hA a ha
      rw [eqv_iff] at hx hxa
      have : eqv lt a g = true := by
        rw [eqv_iff]; exact ⟨h.ntrans _ _ _ hxa.2 hx.1, h.ntrans _ _ _ hx.2 hxa.1⟩
      rw [this] at h1; cases h1
    simp [List.filter_append, this, hx]
  · rw [List.filter_append, List.filter_cons_of_neg hx]
    simp [hx]

theorem symm {xs ys : List α} (h : StableArr lt xs ys) : StableArr lt ys xs := fun x => (h x).symm

end StableArr

namespace Sorted

theorem nil : Sorted lt [] := List.Pairwise.nil
theorem single (x : α) : Sorted lt [x] := List.pairwise_singleton _ _

theorem append_iff {xs ys : List α} : Sorted lt (xs ++ ys) ↔
    Sorted lt xs ∧ Sorted lt ys ∧ ∀ x ∈ xs, ∀ y ∈ ys, lt y x = false := List.pairwise_append

theorem cons_iff {x : α} {ys : List α} : Sorted lt (x :: ys) ↔ (∀ y ∈ ys, lt y x = false) ∧ Sorted lt ys :=
  List.pairwise_cons

theorem take {xs : List α} (h : Sorted lt xs) (n : Nat) : Sorted lt (xs.take n) :=
  h.sublist (List.take_sublist _ _)

theorem drop {xs : List α} (h : Sorted lt xs) (n : Nat) : Sorted lt (xs.drop n) :=
  h.sublist (List.drop_sublist _ _)

end Sorted

/-- There is only one stable sort of a list. -/
theorem StableSortOf.unique (so : SWO lt) {xs ys zs : List α} (hy : StableSortOf lt xs ys) (hz : StableSortOf lt xs zs) : ys = zs := by
  have hyz : StableArr lt ys zs := hy.stable.symm.trans hz.stable
  have hp : zs.Perm ys := hz.perm.trans hy.perm.symm
  have sy := hy.sorted
  have sz := hz.sorted
  clear hy hz
  induction ys generalizing zs with
  | nil => exact (List.perm_nil.mp hp).symm
  | cons y ys ih =>
    match zs, hp with
    | [], hp => exact absurd hp.nil_eq (by simp)
    | z :: zs, hp =>
      rw [Sorted.cons_iff] at sy sz
      have hzy : lt z y = false := by
        rcases List.mem_cons.mp (hp.subset (List.mem_cons_self : z ∈ z :: zs)) with rfl | h
        · exact so.irrefl _
        · exact sy.1 z h
      have hyz' : lt y z = false := by
        rcases List.mem_cons.mp (hp.symm.subset (List.mem_cons_self : y ∈ y :: ys)) with rfl | h
        · exact so.irrefl _
        · exact sz.1 y h
      have h1 := hyz y
      rw [List.filter_cons_of_pos (by simp [eqv, hyz', hzy]), List.filter_cons_of_pos (by simp [eqv, so.irrefl])] at h1
      obtain rfl : z = y := (List.cons.inj h1).1
      refine congrArg _ (ih ?_ ((List.perm_cons z).mp hp) sy.2 sz.2)
      intro x
      have := hyz x
      rw [List.filter_cons, List.filter_cons] at this
      split at this
      · exact (List.cons.inj this).2
      · exact this

end NdSlice
