import Verif.Props.Unstable
import Verif.Props.Stable
import Verif.Props.Select
import Verif.Props.Dedup

/-
Operations used together: C42 (sort, then search), C43 (sort and dedup indices, then select many).
Each operation has its own user code; the memory one operation leaves is the memory the next one starts with.
-/

namespace NdSlice

open Style

variable {α κ κ' σ σ' σ'' : Type}

/-- C42: after `sort*`, searching for what compares like `x` gives `Ok` iff the original array had an element equivalent to `x`. -/
theorem sort_then_search (st : Style) (st' : SearchStyle) {cfg : Cfg} {v : View} {lt : α → α → Bool} (so : SWO lt)
    {o : Oracle σ (st.Q α κ) (st.A κ)} (ho : Agrees st o lt)
    {o' : Oracle σ' (st'.Q α κ') (st'.A κ')} {t : st'.T α κ'} {c : α → Ordering} (ho' : st'.Agrees o' t c)
    {x : α} (hlt : ∀ p, c p = .lt ↔ lt p x = true) (hgt : ∀ p, c p = .gt ↔ lt x p = true)
    (hz : cfg.zst = true → Subsingleton α) (hv : v.WF) {al : Alloc} (hal : al.Succeeds) {heap : Addr}
    (hf : Fresh v (scratch heap (v.len / 2))) (s : St α (st.Q α κ) (st.A κ) σ) :
    ∃ s1, run o (sortStable st cfg v al heap) s = (.ok (), s1) ∧
      ∀ s2 : St α (st'.Q α κ') (st'.A κ') σ', s2.mem = s1.mem →
        ∃ r s3, run o' (binarySearch st' cfg v t) s2 = (.ok r, s3) ∧ s3.mem = s1.mem ∧
          ((∃ i, r = .ok i) ↔ ∃ y ∈ v.contents s.mem, eqv lt x y = true) ∧
          ∀ i, r = .ok i → ∃ y, (v.contents s1.mem)[i]? = some y ∧ y ∈ v.contents s.mem ∧ eqv lt x y = true := by
  obtain ⟨s1, h1, h2, -⟩ := sort_sorts so ho hz hv hal hf s
  refine ⟨s1, h1, fun s2 hs2 => ?_⟩
  obtain ⟨r, s3, h3, h4, h5, -, h6⟩ := binary_search_sorted (v := v) st' cfg ho' so hlt hgt s2 (by rw [hs2]; exact h2.sorted)
  rw [hs2] at h4 h5 h6
  refine ⟨r, s3, h3, h4, h5.trans ?_, fun i hi => ?_⟩
  · exact ⟨fun ⟨y, hy, h⟩ => ⟨y, h2.perm.mem_iff.mp hy, h⟩, fun ⟨y, hy, h⟩ => ⟨y, h2.perm.mem_iff.mpr hy, h⟩⟩
  · obtain ⟨y, g1, g2⟩ := h6 i hi
    exact ⟨y, g1, h2.perm.mem_iff.mp (List.mem_of_getElem? g1), g2⟩

/-- C42 for `sort_unstable*`. -/
theorem sort_unstable_then_search (st : Style) (st' : SearchStyle) {cfg : Cfg} {v : View} {lt : α → α → Bool} (so : SWO lt)
    {o : Oracle σ (st.Q α κ) (st.A κ)} (ho : Agrees st o lt)
    {o' : Oracle σ' (st'.Q α κ') (st'.A κ')} {t : st'.T α κ'} {c : α → Ordering} (ho' : st'.Agrees o' t c)
    {x : α} (hlt : ∀ p, c p = .lt ↔ lt p x = true) (hgt : ∀ p, c p = .gt ↔ lt x p = true)
    (hz : cfg.zst = true → Subsingleton α) (hv : v.WF) (s : St α (st.Q α κ) (st.A κ) σ) :
    ∃ s1, run o (sortUnstable st cfg v) s = (.ok (), s1) ∧
      ∀ s2 : St α (st'.Q α κ') (st'.A κ') σ', s2.mem = s1.mem →
        ∃ r s3, run o' (binarySearch st' cfg v t) s2 = (.ok r, s3) ∧ s3.mem = s1.mem ∧
          ((∃ i, r = .ok i) ↔ ∃ y ∈ v.contents s.mem, eqv lt x y = true) ∧
          ∀ i, r = .ok i → ∃ y, (v.contents s1.mem)[i]? = some y ∧ y ∈ v.contents s.mem ∧ eqv lt x y = true := by
  obtain ⟨s1, h1, h2, hp, -⟩ := sort_unstable_sorts so ho hz hv s
  refine ⟨s1, h1, fun s2 hs2 => ?_⟩
  obtain ⟨r, s3, h3, h4, h5, -, h6⟩ := binary_search_sorted (v := v) st' cfg ho' so hlt hgt s2 (by rw [hs2]; exact h2)
  rw [hs2] at h4 h5 h6
  refine ⟨r, s3, h3, h4, h5.trans ?_, fun i hi => ?_⟩
  · exact ⟨fun ⟨y, hy, h⟩ => ⟨y, hp.mem_iff.mp hy, h⟩, fun ⟨y, hy, h⟩ => ⟨y, hp.mem_iff.mpr hy, h⟩⟩
  · obtain ⟨y, g1, g2⟩ := h6 i hi
    exact ⟨y, g1, hp.mem_iff.mp (List.mem_of_getElem? g1), g2⟩

/-- C43: any array of indices below `n`, after `sort_unstable*` and `partition_dedup*`, is a list of indices which `select_many_nth_unstable*` accepts
for an array `w` of `n` elements: it returns (in release builds; in debug builds see C47), and gives each original index its element. -/
theorem indices_then_select_many (st : Style) (st' : DedupStyle) (st'' : Style) {cfg : Cfg} {vi w : View}
    {o : Oracle σ (st.Q Nat κ) (st.A κ)} (ho : Agrees st o (fun x y => decide (x < y)))
    {o' : Oracle σ' (st'.Q Nat κ') (st'.A Nat κ')} (ho' : st'.Agrees o' (fun x y => x == y))
    {o'' : Oracle σ'' (st''.Q α κ) (st''.A κ)} {lt : α → α → Bool} (so : SWO lt) (ho'' : Agrees st'' o'' lt)
    (hzi : cfg.zst = false) (hdbg : cfg.dbg = false) (hvi : vi.WF) (hw : w.WF) (hb : 2 * w.len ≤ 2 ^ cfg.bits)
    (s : St Nat (st.Q Nat κ) (st.A κ) σ) (hin : ∀ i ∈ vi.contents s.mem, i < w.len) :
    ∃ s1, run o (sortUnstable st cfg vi) s = (.ok (), s1) ∧
      ∀ s2 : St Nat (st'.Q Nat κ') (st'.A Nat κ') σ', s2.mem = s1.mem →
        ∃ dedup dup s3, run o' (partitionDedup st' cfg vi) s2 = (.ok (dedup, dup), s3) ∧
          GoodIndices w.len (dedup.contents s3.mem) ∧ (∀ i, i ∈ dedup.contents s3.mem ↔ i ∈ vi.contents s.mem) ∧
          ∀ s4 : St α (st''.Q α κ) (st''.A κ) σ'',
            ∃ s5, run o'' (selectManyNthUnstable st'' cfg w (dedup.contents s3.mem)) s4 =
                (.ok ((dedup.contents s3.mem).map fun i => (i, w.addr i)), s5) ∧
              ∀ i ∈ vi.contents s.mem, SelectedAt lt i (w.contents s5.mem) := by
  have sn : SWO (fun x y : Nat => decide (x < y)) :=
    ⟨by simp, by simp only [decide_eq_true_eq]; omega, by simp only [decide_eq_false_iff_not]; omega⟩
  have heq : (fun x y : Nat => x == y) = eqv (fun x y : Nat => decide (x < y)) := by
    funext x y
    rw [Bool.eq_iff_iff]
    simp [eqv]
    omega
  obtain ⟨s1, h1, h2, hp, -⟩ := sort_unstable_sorts sn ho (fun h => by rw [hzi] at h; cases h) hvi s
  refine ⟨s1, h1, fun s2 hs2 => ?_⟩
  obtain ⟨dedup, dup, s3, h3, h4, h5, h6⟩ := dedup_sorted st' cfg sn (heq ▸ ho') hvi s2 (by rw [hs2]; exact h2)
  rw [hs2] at h5 h6
  have hmem : ∀ i, i ∈ dedup.contents s3.mem ↔ i ∈ vi.contents s.mem := by
    intro i
    rw [← hp.mem_iff]
    refine ⟨fun h => h6.subset h, fun h => ?_⟩
    obtain ⟨y, hy, hxy⟩ := h5 i h
    rw [← heq] at hxy
    rw [show i = y from by simpa using hxy]
    exact hy
  have hgood : GoodIndices w.len (dedup.contents s3.mem) :=
    ⟨h4.imp (fun h => by simpa using h), fun i hi => hin i ((hmem i).mp hi)⟩
  refine ⟨dedup, dup, s3, h3, hgood, hmem, fun s4 => ?_⟩
  obtain ⟨s5, g1, g2, -⟩ := select_many_selects so ho'' (fun h => by rw [hzi] at h; cases h) hdbg hw hb hgood s4
  exact ⟨s5, g1, fun i hi => g2 i ((hmem i).mpr hi)⟩

namespace Sample

example (st : Style) (st' : SearchStyle) := sort_then_search (v := view) (cfg := cfg) st st' swo (agrees st) (searchAgrees st')
  (x := 17) (fun p => by simp [lt, Nat.compare_eq_lt]) (fun p => by simp [lt, Nat.compare_eq_gt]) notZst wf alloc_succeeds fresh (state st)
example (st : Style) (st' : SearchStyle) := sort_unstable_then_search (v := view) (cfg := cfg) st st' swo (agrees st) (searchAgrees st')
  (x := 17) (fun p => by simp [lt, Nat.compare_eq_lt]) (fun p => by simp [lt, Nat.compare_eq_gt]) notZst wf (state st)
-- 60 indices below 23, unsorted and with repetitions, into an array of 30 elements
example (st : Style) (st' : DedupStyle) (st'' : Style) := indices_then_select_many (κ := Nat) (κ' := Nat) (vi := view) (w := ⟨0, 1, 30⟩)
  (cfg := release) st st' st'' (agrees st) (dedupAgrees (fun x y => x == y) st') swo (agrees st'') rfl rfl wf (.inl (by decide))
  (by decide) (state st) (show ∀ i ∈ view.contents mem, i < 30 by decide)

end Sample

end NdSlice
