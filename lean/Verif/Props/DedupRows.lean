import Verif.Props.Dedup
import Verif.Props.SelectRows

/-
`partition_dedup*` at the same time on several arrays (C99), see also Verif/Props/Dedup.lean and Verif/Props/SelectRows.lean.
-/

namespace NdSlice

open Style

variable {α κ σ : Type}

theorem partitionDedup_safe_tri (st : DedupStyle) (cfg : Cfg) (o : Oracle σ (st.Q α κ) (st.A α κ)) {v : View} {xs : List α} (hx : xs.length = v.len) :
    Tri (rel o) v.region (partitionDedup st cfg v) xs
      (fun r ys => r.1.region ++ r.2.region = v.region ∧ (r.1.len = 0 ↔ v.len = 0) ∧ (st.NoMutate o → ys.Perm xs))
      (fun e ys => e = .user ∧ (st.NoMutate o → ys.Perm xs)) := by
  unfold partitionDedup partitionDedupBy
  by_cases hlen : v.len ≤ 1
  · rw [if_pos hlen]
    unfold View.splitAt
    rw [if_pos (Nat.zero_le _)]
    refine Tri.pure ⟨?_, by simp, fun _ => .refl _⟩
    simp [View.region, View.sub_self]
  rw [if_neg hlen]
  apply TriL.tri
  refine TriL.bind (dedupLoop_spec (st.toFn o) hx (by omega)
    (I := fun r w ys => st.NoMutate o → DedupInv xs r w ys) (J := fun ys => st.NoMutate o → ys.Perm xs)
    (fun _ => DedupInv.init (by omega)) ?_ ?_) ?_ (fun _ _ _ h => ⟨h.1, h.2.1⟩)
  · intro r w ys x y b x' y' d h1 h2 h3 h4 h5 h6 h7
    refine ⟨fun hb hm => ?_, fun hb a t ha ht hm => ?_⟩
    · obtain ⟨rfl, rfl⟩ := DedupStyle.noMutate_ans hm h7
      obtain ⟨_, rfl⟩ := List.getElem?_eq_some_iff.mp h5
      obtain ⟨_, rfl⟩ := List.getElem?_eq_some_iff.mp h6
      rw [List.set_getElem_self, List.set_getElem_self]
      exact (h4 hm).skip h5
    · obtain ⟨rfl, rfl⟩ := DedupStyle.noMutate_ans hm h7
      obtain ⟨_, rfl⟩ := List.getElem?_eq_some_iff.mp h5
      obtain ⟨_, rfl⟩ := List.getElem?_eq_some_iff.mp h6
      rw [List.set_getElem_self, List.set_getElem_self] at ha ht ⊢
      exact ((h4 hm).take ha ht).1
  · intro r w ys x y x' y' h1 h2 h3 h4 h5 h6 h7 hm
    obtain ⟨rfl, rfl⟩ := h7.2 hm
    obtain ⟨_, rfl⟩ := List.getElem?_eq_some_iff.mp h5
    obtain ⟨_, rfl⟩ := List.getElem?_eq_some_iff.mp h6
    rw [List.set_getElem_self, List.set_getElem_self]
    exact (h4 hm).perm
  · rintro w ys d - ⟨h1, h2, h3, h4⟩
    unfold View.splitAt
    rw [if_pos h2]
    exact TriL.pure ⟨v.sub_region_append h2, by simp; omega, fun hm => (h3 hm).perm⟩

theorem partitionDedup_tri (st : DedupStyle) (cfg : Cfg) {o : Oracle σ (st.Q α κ) (st.A α κ)} {same : α → α → Bool} (h : st.Agrees o same)
    {v : View} {xs : List α} (hx : xs.length = v.len) :
    Tri (rel o) v.region (partitionDedup st cfg v) xs
      (fun r ys => r.1.region ++ r.2.region = v.region ∧ ys.take r.1.len = dedupOf same xs ∧ ys.Perm xs) (fun _ _ => False) := by
  unfold partitionDedup partitionDedupBy
  by_cases hlen : v.len ≤ 1
  · rw [if_pos hlen]
    unfold View.splitAt
    rw [if_pos (Nat.zero_le _)]
    refine Tri.pure ⟨by simp [View.region, View.sub_self], ?_, .refl _⟩
    show xs.take (v.len - 0) = _
    rw [List.take_of_length_le (by omega)]
    match xs with
    | [] => rfl
    | [x] => rfl
    | x :: y :: l => simp at hx; omega
  rw [if_neg hlen]
  apply TriL.tri
  refine TriL.bind (dedupLoop_spec (st.toFn o) hx (by omega)
    (I := fun r w ys => DedupInv xs r w ys ∧ ys.take w = dedupOf same (xs.take r)) (J := fun ys => False)
    ⟨DedupInv.init (by omega), ?_⟩ ?_ ?_) ?_ (fun _ _ _ h => h.2.1)
  · match xs with
    | [] => rfl
    | x :: l => rfl
  · intro r w ys x y b x' y' d h1 h2 h3 h4 h5 h6 h7
    obtain ⟨rfl, rfl⟩ := DedupStyle.noMutate_ans h.noMutate h7
    have hb := h.ans h7
    have hsnoc := dedupOf_snoc same (A := xs.take r) x' (l := y') (by
      rw [← h4.2, List.getLast?_eq_getElem?, List.length_take, List.getElem?_take]
      have hw : min w ys.length = w := by
        have := (List.getElem?_eq_some_iff.mp h5).1
        omega
      rw [hw, if_pos (by omega)]
      exact h6)
    rw [← (h4.1.head h5).2] at hsnoc
    obtain ⟨_, e5⟩ := List.getElem?_eq_some_iff.mp h5
    obtain ⟨_, e6⟩ := List.getElem?_eq_some_iff.mp h6
    have hset : (ys.set r x').set (w - 1) y' = ys := by
      rw [← e5, List.set_getElem_self, ← e6, List.set_getElem_self]
    rw [hset]
    refine ⟨fun hb' => ⟨h4.1.skip h5, ?_⟩, fun hb' a t ha ht => ?_⟩
    · rw [hsnoc, ← hb, hb']
      exact h4.2
    · obtain ⟨g1, g2⟩ := h4.1.take ha ht
      refine ⟨g1, ?_⟩
      rw [h5] at ha; cases ha
      rw [g2, hsnoc, ← hb, hb', h4.2]
      rfl
  · intro r w ys x y x' y' h1 h2 h3 h4 h5 h6 h7
    exact h.noPanic h7
  · rintro w ys d - ⟨h1, h2, ⟨h3, h3'⟩, h4⟩
    unfold View.splitAt
    rw [if_pos h2]
    refine TriL.pure ⟨v.sub_region_append h2, ?_, h3.perm⟩
    show ys.take w = _
    rw [h3', List.take_of_length_le (by omega)]

/-- The first part returned covers as many elements of the array as it has. -/
theorem View.contents_of_parts {v a b : View} (h : a.region ++ b.region = v.region) (m : Mem α) : a.contents m = (v.contents m).take a.len := by
  unfold View.contents
  rw [← h, List.map_append, List.take_left' (by simp)]

/-- C99: `partition_dedup*` called at the same time on arrays without a common element, with a relation `same`: on every schedule there is neither a race nor
undefined behaviour nor a deadlock, each call splits its own array in two parts, the first one of which is the original sequence without every element that is
the same as the last one kept; each array is a permutation of itself, and nothing else is changed. -/
theorem dedups_at_once (st : DedupStyle) (cfg : Cfg) {o : Oracle σ (st.Q α κ) (st.A α κ)} {same : α → α → Bool} (h : st.Agrees o same)
    {t : Tree View} (nd : (t.cells View.region).Nodup) (s : St α (st.Q α κ) (st.A α κ) σ) :
    Always o (t.atOnce fun v => partitionDedup st cfg v) s
      (fun rs m => List.Forall₂ (fun (v : View) r => r.1.region ++ r.2.region = v.region ∧ r.1.contents m = dedupOf same (v.contents s.mem) ∧
          (v.contents m).Perm (v.contents s.mem)) t.list rs ∧ ∀ a, a ∉ t.cells View.region → m a = s.mem a)
      (fun _ _ => False) := by
  refine (Tree.always (vw := id) (I := fun _ _ _ => True) (E := fun _ _ => False)
    (Q := fun v r xs ys => r.1.region ++ r.2.region = v.region ∧ ys.take r.1.len = dedupOf same xs ∧ ys.Perm xs)
    (fun _ _ _ _ _ => trivial) nd (fun v _ xs hx => (partitionDedup_tri st cfg h hx).mono (fun _ _ _ h => h) (fun _ _ _ h => h.elim)) s).mono
    (fun rs m h => ⟨h.1.imp fun v r h => ⟨h.1, ?_, h.2.2⟩, h.2⟩) (fun _ _ h => by obtain ⟨⟨_, _, h⟩, -⟩ := h; exact h)
  rw [View.contents_of_parts h.1]
  exact h.2.1

/-- C99 with any user code, which may change the elements it is given and panic: each call still splits its own array in two, only the first part being empty with an
empty array; nothing but these arrays is changed, and each of them is a permutation of itself unless user code changes elements, also when one call panics. -/
theorem dedups_at_once_safe (st : DedupStyle) (cfg : Cfg) (o : Oracle σ (st.Q α κ) (st.A α κ)) {t : Tree View} (nd : (t.cells View.region).Nodup)
    (s : St α (st.Q α κ) (st.A α κ) σ) :
    Always o (t.atOnce fun v => partitionDedup st cfg v) s
      (fun rs m => List.Forall₂ (fun (v : View) r => r.1.region ++ r.2.region = v.region ∧ (r.1.len = 0 ↔ v.len = 0) ∧
          (st.NoMutate o → (v.contents m).Perm (v.contents s.mem))) t.list rs ∧ ∀ a, a ∉ t.cells View.region → m a = s.mem a)
      (fun e m => e = .user ∧ (∀ v ∈ t.list, st.NoMutate o → (v.contents m).Perm (v.contents s.mem)) ∧ ∀ a, a ∉ t.cells View.region → m a = s.mem a) :=
  (Tree.always (vw := id) (I := fun _ xs ys => st.NoMutate o → ys.Perm xs) (E := fun _ e => e = .user)
    (Q := fun v r xs ys => r.1.region ++ r.2.region = v.region ∧ (r.1.len = 0 ↔ v.len = 0) ∧ (st.NoMutate o → ys.Perm xs))
    (fun _ _ _ _ h => h.2.2) nd (fun _ _ _ hx => partitionDedup_safe_tri st cfg o hx) s).mono (fun _ _ h => h)
    (fun _ _ h => by obtain ⟨⟨_, _, h1⟩, h2⟩ := h; exact ⟨h1, h2⟩)

/-! ### The hypotheses can be met -/

namespace Sample

/-- The columns of a matrix with 20 rows and 3 columns in row-major order, the last one upwards, and a row somewhere else. -/
def dedupColumns : Tree View := .both (.both (.one ⟨0, 3, 20⟩) (.one ⟨1, 3, 20⟩)) (.both (.one ⟨59, -3, 20⟩) (.one ⟨100, 1, 7⟩))

theorem dedupColumns_nodup : (dedupColumns.cells View.region).Nodup := by decide

-- a relation which is no equivalence
example (st : DedupStyle) := dedups_at_once (κ := Nat) st cfg (dedupAgrees (fun x y => decide (x ≤ y + 1)) st) dedupColumns_nodup ⟨mem, (), []⟩
example := dedups_at_once_safe (κ := Nat) .fn cfg vandal dedupColumns_nodup ⟨mem, 0, []⟩

end Sample

end NdSlice
