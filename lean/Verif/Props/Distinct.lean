import Verif.Props.Compose
import Verif.Props.ParStable

/-
Sort, then partition_dedup, then search (C94): which of several equal elements is kept and found.
-/

namespace NdSlice

variable {α κ κ' κ'' σ σ' σ'' : Type}

theorem eqv_congr {lt : α → α → Bool} (so : SWO lt) {x a b : α} (h : eqv lt a b = true) : eqv lt x a = eqv lt x b := by
  obtain ⟨h1, h2⟩ := eqv_iff.mp h
  rw [Bool.eq_iff_iff, eqv_iff, eqv_iff]
  constructor
  · rintro ⟨h3, h4⟩
    exact ⟨so.ntrans _ _ _ h3 h1, so.ntrans _ _ _ h2 h4⟩
  · rintro ⟨h3, h4⟩
    exact ⟨so.ntrans _ _ _ h3 h2, so.ntrans _ _ _ h1 h4⟩

theorem keep_filter {lt : α → α → Bool} (so : SWO lt) (x : α) {l : α} {xs : List α} (hs : Sorted lt (l :: xs)) :
    (keep (eqv lt) l xs).filter (eqv lt x) = if eqv lt x l then [] else (xs.filter (eqv lt x)).take 1 := by
  induction xs generalizing l with
  | nil => simp [keep]
  | cons a xs ih =>
    obtain ⟨h1, h2⟩ := Sorted.cons_iff.mp hs
    obtain ⟨h3, h4⟩ := Sorted.cons_iff.mp h2
    unfold keep
    by_cases hal : eqv lt a l = true
    · rw [if_pos hal, ih (Sorted.cons_iff.mpr ⟨fun y hy => h1 y (by simp [hy]), h4⟩)]
      by_cases hx : eqv lt x l = true
      · rw [if_pos hx, if_pos hx]
      · rw [if_neg hx, if_neg hx, List.filter_cons_of_neg (by rwa [eqv_congr so hal])]
    · rw [if_neg hal]
      have hla : lt l a = true := by
        cases hla : lt l a with
        | true => rfl
        | false => exact absurd (eqv_iff.mpr ⟨h1 a (by simp), hla⟩) hal
      by_cases hx : eqv lt x l = true
      · have hxl := eqv_iff.mp hx
        have hy : ∀ y, lt y a = false → ¬ eqv lt x y = true := by
          intro y hy h
          have h5 := so.ntrans _ _ _ hxl.2 (eqv_iff.mp h).1
          rw [so.ntrans _ _ _ h5 hy] at hla
          cases hla
        rw [if_pos hx, List.filter_cons_of_neg (hy a (so.irrefl a)), ih h2, if_neg (hy a (so.irrefl a)),
          List.filter_eq_nil_iff.mpr (fun y h => hy y (h3 y h)), List.take_nil]
      · rw [if_neg hx]
        by_cases hxa : eqv lt x a = true
        · rw [List.filter_cons_of_pos hxa, List.filter_cons_of_pos hxa, ih h2, if_pos hxa]
          rfl
        · rw [List.filter_cons_of_neg hxa, List.filter_cons_of_neg hxa, ih h2, if_neg hxa]

theorem dedupOf_filter {lt : α → α → Bool} (so : SWO lt) (x : α) {xs : List α} (hs : Sorted lt xs) :
    (dedupOf (eqv lt) xs).filter (eqv lt x) = (xs.filter (eqv lt x)).take 1 := by
  cases xs with
  | nil => rfl
  | cons a xs =>
    unfold dedupOf
    by_cases h : eqv lt x a = true
    · rw [List.filter_cons_of_pos h, List.filter_cons_of_pos h, keep_filter so x hs, if_pos h]
      rfl
    · rw [List.filter_cons_of_neg h, List.filter_cons_of_neg h, keep_filter so x hs, if_neg h]

/-- Of the elements of `xs` equal to each other, `ds` has the first one and no other; it is strictly ascending. -/
structure FirstsOf (lt : α → α → Bool) (xs ds : List α) : Prop where
  ascending : ds.Pairwise (fun a b => lt a b = true)
  first : ∀ x, ds.filter (eqv lt x) = (xs.filter (eqv lt x)).take 1

/-- `binary_search*` for `x` in such a list gives the first of the original elements equal to it. -/
theorem search_firsts (st : SearchStyle) {cfg : Cfg} {d : View} {o : Oracle σ (st.Q α κ) (st.A κ)} {t : st.T α κ} {c : α → Ordering}
    (h : st.Agrees o t c) {lt : α → α → Bool} (so : SWO lt) {x : α} (hlt : ∀ p, c p = .lt ↔ lt p x = true)
    (hgt : ∀ p, c p = .gt ↔ lt x p = true) {xs : List α} (s : St α (st.Q α κ) (st.A κ) σ) (hf : FirstsOf lt xs (d.contents s.mem)) :
    ∃ r s', run o (binarySearch st cfg d t) s = (.ok r, s') ∧ ((∃ i, r = .ok i) ↔ ∃ y ∈ xs, eqv lt x y = true) ∧
      ∀ i, r = .ok i → (d.contents s.mem)[i]? = xs.find? (eqv lt x) := by
  have hs : Sorted lt (d.contents s.mem) := hf.ascending.imp fun {a b} h => by
    cases h' : lt b a with
    | false => rfl
    | true =>
      have := so.trans _ _ _ h h'
      rw [so.irrefl] at this
      cases this
  obtain ⟨r, s', h1, -, h2, -, h3⟩ := binary_search_sorted (v := d) st cfg h so hlt hgt s hs
  have hiff : (∃ y ∈ d.contents s.mem, eqv lt x y = true) ↔ ∃ y ∈ xs, eqv lt x y = true := by
    have e := hf.first x
    constructor
    · rintro ⟨y, g1, g2⟩
      have : y ∈ (d.contents s.mem).filter (eqv lt x) := List.mem_filter.mpr ⟨g1, g2⟩
      rw [e] at this
      exact ⟨y, List.mem_filter.mp (List.mem_of_mem_take this)⟩
    · rintro ⟨y, g1, g2⟩
      have : y ∈ xs.filter (eqv lt x) := List.mem_filter.mpr ⟨g1, g2⟩
      cases hc : xs.filter (eqv lt x) with
      | nil => rw [hc] at this; cases this
      | cons z zs =>
        rw [hc] at e
        have hz : z ∈ (d.contents s.mem).filter (eqv lt x) := by rw [e]; simp
        exact ⟨z, List.mem_filter.mp hz⟩
  refine ⟨r, s', h1, h2.trans hiff, fun i hi => ?_⟩
  obtain ⟨y, g1, g2⟩ := h3 i hi
  have : y ∈ (d.contents s.mem).filter (eqv lt x) := List.mem_filter.mpr ⟨List.mem_of_getElem? g1, g2⟩
  rw [hf.first x] at this
  rw [g1, ← List.head?_filter]
  cases hc : xs.filter (eqv lt x) with
  | nil => rw [hc] at this; cases this
  | cons z zs =>
    rw [hc] at this
    simp only [List.take_succ_cons, List.take_zero, List.mem_singleton] at this
    rw [this]
    rfl

theorem dedup_firsts (st : DedupStyle) (cfg : Cfg) {v : View} {o : Oracle σ (st.Q α κ) (st.A α κ)} {lt : α → α → Bool} (so : SWO lt)
    (h : st.Agrees o (eqv lt)) (hv : v.WF) {xs : List α} (s : St α (st.Q α κ) (st.A α κ) σ) (hs : StableSortOf lt xs (v.contents s.mem)) :
    ∃ d e s', run o (partitionDedup st cfg v) s = (.ok (d, e), s') ∧ FirstsOf lt xs (d.contents s'.mem) ∧
      (d.contents s'.mem ++ e.contents s'.mem).Perm xs ∧ d.region ++ e.region = v.region := by
  obtain ⟨d, e, s', h1, h2, h3, h4, -⟩ := dedup_correct st cfg h hv s
  obtain ⟨d', e', s'', g1, g2, -⟩ := dedup_sorted st cfg so h hv s hs.sorted
  rw [h1] at g1
  cases g1
  refine ⟨d, e, s', h1, ⟨g2, fun x => ?_⟩, h3.trans hs.perm, h4⟩
  rw [h2, dedupOf_filter so x hs.sorted, hs.stable x]

/-- C94: after `sort*` and `partition_dedup*`, the first part returned has, of the elements that are equal in the order, the one that came first in
the original array, in strictly ascending order; the second part has the others.  `binary_search*` in the first part finds it. -/
theorem sort_then_dedup_then_search (st : Style) (st' : DedupStyle) (st'' : SearchStyle) {cfg : Cfg} {v : View} {lt : α → α → Bool} (so : SWO lt)
    {o : Oracle σ (st.Q α κ) (st.A κ)} (ho : Agrees st o lt) {o' : Oracle σ' (st'.Q α κ') (st'.A α κ')} (ho' : st'.Agrees o' (eqv lt))
    {o'' : Oracle σ'' (st''.Q α κ'') (st''.A κ'')} {t : st''.T α κ''} {c : α → Ordering} (ho'' : st''.Agrees o'' t c)
    {x : α} (hlt : ∀ p, c p = .lt ↔ lt p x = true) (hgt : ∀ p, c p = .gt ↔ lt x p = true)
    (hz : cfg.zst = true → Subsingleton α) (hv : v.WF) {al : Alloc} (hal : al.Succeeds) {heap : Addr}
    (hf : Fresh v (scratch heap (v.len / 2))) (s : St α (st.Q α κ) (st.A κ) σ) :
    ∃ s1, run o (sortStable st cfg v al heap) s = (.ok (), s1) ∧
      ∀ s2 : St α (st'.Q α κ') (st'.A α κ') σ', s2.mem = s1.mem →
        ∃ d e s3, run o' (partitionDedup st' cfg v) s2 = (.ok (d, e), s3) ∧ FirstsOf lt (v.contents s.mem) (d.contents s3.mem) ∧
          (d.contents s3.mem ++ e.contents s3.mem).Perm (v.contents s.mem) ∧ d.region ++ e.region = v.region ∧
          ∀ s4 : St α (st''.Q α κ'') (st''.A κ'') σ'', s4.mem = s3.mem →
            ∃ r s5, run o'' (binarySearch st'' cfg d t) s4 = (.ok r, s5) ∧ ((∃ i, r = .ok i) ↔ ∃ y ∈ v.contents s.mem, eqv lt x y = true) ∧
              ∀ i, r = .ok i → (d.contents s4.mem)[i]? = (v.contents s.mem).find? (eqv lt x) := by
  obtain ⟨s1, h1, h2, -⟩ := sort_sorts (cfg := cfg) so ho hz hv hal hf s
  refine ⟨s1, h1, fun s2 e2 => ?_⟩
  obtain ⟨d, e, s3, h3, h4, h5, h6⟩ := dedup_firsts st' cfg so ho' hv s2 (e2 ▸ h2)
  refine ⟨d, e, s3, h3, h4, h5, h6, fun s4 e4 => ?_⟩
  exact search_firsts st'' ho'' so hlt hgt s4 (e4 ▸ h4)

/-- C94 for `par_sort*`, on every schedule of it. -/
theorem par_sort_then_dedup_then_search (st : Style) (st' : DedupStyle) (st'' : SearchStyle) {cfg : Cfg} {v : View} {lt : α → α → Bool} (so : SWO lt)
    {o : Oracle σ (st.Q α κ) (st.A κ)} (ho : Agrees st o lt) {o' : Oracle σ' (st'.Q α κ') (st'.A α κ')} (ho' : st'.Agrees o' (eqv lt))
    {o'' : Oracle σ'' (st''.Q α κ'') (st''.A κ'')} {t : st''.T α κ''} {c : α → Ordering} (ho'' : st''.Agrees o'' t c)
    {x : α} (hlt : ∀ p, c p = .lt ↔ lt p x = true) (hgt : ∀ p, c p = .gt ↔ lt x p = true)
    (hz : cfg.zst = true → Subsingleton α) (hv : v.WF) {heap : Addr}
    (hf : Fresh v (scratch heap v.len)) (s : St α (st.Q α κ) (st.A κ) σ) :
    Always o (parSortStable st cfg v heap) s (fun _ m =>
      ∀ s2 : St α (st'.Q α κ') (st'.A α κ') σ', s2.mem = m →
        ∃ d e s3, run o' (partitionDedup st' cfg v) s2 = (.ok (d, e), s3) ∧ FirstsOf lt (v.contents s.mem) (d.contents s3.mem) ∧
          (d.contents s3.mem ++ e.contents s3.mem).Perm (v.contents s.mem) ∧ d.region ++ e.region = v.region ∧
          ∀ s4 : St α (st''.Q α κ'') (st''.A κ'') σ'', s4.mem = s3.mem →
            ∃ r s5, run o'' (binarySearch st'' cfg d t) s4 = (.ok r, s5) ∧ ((∃ i, r = .ok i) ↔ ∃ y ∈ v.contents s.mem, eqv lt x y = true) ∧
              ∀ i, r = .ok i → (d.contents s4.mem)[i]? = (v.contents s.mem).find? (eqv lt x)) (fun _ _ => False) := by
  refine (par_sort_sorts (cfg := cfg) so ho hz hv hf s).mono (fun _ m h2 => fun s2 e2 => ?_) (fun _ _ h => h)
  obtain ⟨d, e, s3, h3, h4, h5, h6⟩ := dedup_firsts st' cfg so ho' hv s2 (e2 ▸ h2.1)
  refine ⟨d, e, s3, h3, h4, h5, h6, fun s4 e4 => ?_⟩
  exact search_firsts st'' ho'' so hlt hgt s4 (e4 ▸ h4)

/-! ### The hypotheses can be met -/

namespace Sample

example (st : Style) (st' : DedupStyle) (st'' : SearchStyle) := sort_then_dedup_then_search (v := view) (cfg := cfg) st st' st'' swo (agrees st)
  (dedupAgrees (eqv lt) st') (searchAgrees st'') (x := 17) (fun p => by simp [lt, Nat.compare_eq_lt]) (fun p => by simp [lt, Nat.compare_eq_gt])
  notZst wf alloc_succeeds fresh (state st)
example (st : Style) (st' : DedupStyle) (st'' : SearchStyle) := par_sort_then_dedup_then_search (v := long) (cfg := cfg) st st' st'' swo (agrees st)
  (dedupAgrees (eqv lt) st') (searchAgrees st'') (x := 17) (fun p => by simp [lt, Nat.compare_eq_lt]) (fun p => by simp [lt, Nat.compare_eq_gt])
  notZst long_wf long_fresh (state st)
-- by tens: of 21 and 25 the first one is kept, of 13 and 17 as well
example : FirstsOf (fun x y : Nat => lt (x / 10) (y / 10)) [21, 13, 25, 17] [13, 21] := by
  refine ⟨by decide, fun x => ?_⟩
  have h : ∀ y, eqv (fun x y : Nat => lt (x / 10) (y / 10)) x y = decide (x / 10 = y / 10) := fun y => by
    rw [Bool.eq_iff_iff]; simp [eqv, lt]; omega
  by_cases h1 : x / 10 = 1
  · simp [h, h1]
  · by_cases h2 : x / 10 = 2 <;> simp [h, h1, h2]

end Sample

end NdSlice
