import Verif.Props.Stable
import Verif.Props.ParStable
import Verif.Props.Unstable
import Verif.Props.Select
import Verif.Props.Cached

/-
C61: what the sorts and selections compute, as a function of the array: the merge sort on lists of Lean's core library
(`List.mergeSort`, which is not about arrays in memory and has nothing to do with the model).
-/

namespace NdSlice

open Style

variable {α κ σ : Type} {st : Style} {cfg : Cfg} {v : View} {lt : α → α → Bool}

/-- The list sorted by `lt`: what `List.mergeSort` makes of it. -/
def sortedBy (lt : α → α → Bool) (xs : List α) : List α := xs.mergeSort fun a b => !lt b a

theorem sortedBy_spec (so : SWO lt) (xs : List α) : StableSortOf lt xs (sortedBy lt xs) := by
  have tr : ∀ a b c : α, (!lt b a) = true → (!lt c b) = true → (!lt c a) = true := by
    intro a b c h1 h2
    simp only [Bool.not_eq_true'] at *
    exact so.ntrans _ _ _ h2 h1
  have tot : ∀ a b : α, (!lt b a || !lt a b) = true := by
    intro a b
    cases h : lt b a with
    | false => rfl
    | true => rw [so.asymm h]; rfl
  have hp : (sortedBy lt xs).Perm xs := List.mergeSort_perm _ _
  refine ⟨(List.pairwise_mergeSort tr tot xs).imp fun h => by simpa using h, hp, fun x => ?_⟩
  have h1 : ((xs.filter (eqv lt x)).Pairwise fun a b => (!lt b a) = true) := by
    refine List.pairwise_of_forall_mem_list fun a ha b hb => ?_
    have h2 := eqv_iff.mp (List.mem_filter.mp ha).2
    have h3 := eqv_iff.mp (List.mem_filter.mp hb).2
    rw [so.ntrans _ _ _ h3.2 h2.1]
    rfl
  have h2 := (List.sublist_mergeSort tr tot h1 List.filter_sublist).filter (eqv lt x)
  simp only [List.filter_filter, Bool.and_self] at h2
  exact (h2.eq_of_length (hp.filter _).length_eq.symm).symm

/-- The order tells different elements of the list apart. -/
def Tells (lt : α → α → Bool) (xs : List α) : Prop := ∀ x ∈ xs, ∀ y ∈ xs, eqv lt x y = true → x = y

/-- A list has one sorted permutation if the order tells its elements apart. -/
theorem sorted_eq_sortedBy (so : SWO lt) {xs ys : List α} (ht : Tells lt xs) (hs : Sorted lt ys) (hp : ys.Perm xs) : ys = sortedBy lt xs := by
  refine StableSortOf.unique so (xs := xs) ⟨hs, hp, fun x => ?_⟩ (sortedBy_spec so xs)
  have h : ∀ zs : List α, (∀ y ∈ zs, ∀ z ∈ zs, y = z) → zs = List.replicate zs.length (zs.headD x) := by
    intro zs h
    rw [List.eq_replicate_iff]
    refine ⟨rfl, fun b hb => ?_⟩
    cases zs with
    | nil => cases hb
    | cons z zs => exact h _ hb _ List.mem_cons_self
  have k : ∀ y ∈ xs.filter (eqv lt x), ∀ z ∈ xs.filter (eqv lt x), y = z := by
    intro y hy z hz
    obtain ⟨hy, h1⟩ := List.mem_filter.mp hy
    obtain ⟨hz, h2⟩ := List.mem_filter.mp hz
    rw [eqv_iff] at h1 h2
    exact ht y hy z hz (eqv_iff.mpr ⟨so.ntrans _ _ _ h1.2 h2.1, so.ntrans _ _ _ h2.2 h1.1⟩)
  have hp' := hp.filter (eqv lt x)
  generalize xs.filter (eqv lt x) = a at k hp'
  generalize ys.filter (eqv lt x) = b at hp'
  cases a with
  | nil => exact List.perm_nil.mp hp'
  | cons z a =>
    rw [h _ k] at hp' ⊢
    exact List.perm_replicate.mp hp'

/-- Sorted permutations have elements which compare equal at each position. -/
theorem sorted_pointwise (so : SWO lt) {xs ys : List α} (hs : Sorted lt ys) (hp : ys.Perm xs) :
    List.Forall₂ (fun x y => eqv lt x y = true) ys (sortedBy lt xs) := by
  have hS := sortedBy_spec so xs
  rw [List.forall₂_iff_get]
  refine ⟨(hp.trans hS.perm.symm).length_eq, fun i h1 h2 => ?_⟩
  have h3 : SelectedAt lt i ys := by
    refine ⟨ys.take i, ys[i], ys.drop (i + 1), ?_, by rw [List.length_take]; omega, ?_, ?_⟩
    · rw [List.getElem_cons_drop, List.take_append_drop]
    · intro a ha
      obtain ⟨j, hj, rfl⟩ := List.mem_iff_getElem.mp ha
      rw [List.length_take] at hj
      rw [List.getElem_take]
      exact List.pairwise_iff_getElem.mp hs j i _ _ (by omega)
    · intro b hb
      obtain ⟨j, hj, rfl⟩ := List.mem_iff_getElem.mp hb
      rw [List.getElem_drop]
      exact List.pairwise_iff_getElem.mp hs i (i + 1 + j) _ _ (by omega)
  obtain ⟨p, q, h4, h5, h6⟩ := h3.order_statistic so (hp.trans hS.perm.symm) hS.sorted
  rw [List.getElem?_eq_getElem h1] at h4
  rw [List.getElem?_eq_getElem h2] at h5
  cases h4; cases h5
  exact h6

/-! ### The stable sorts -/

/-- C61: `sort*` leaves the array as the list sort of its contents. -/
theorem sort_computes {o : Oracle σ (st.Q α κ) (st.A κ)} (so : SWO lt) (ho : Agrees st o lt)
    (hz : cfg.zst = true → Subsingleton α) (hv : v.WF) {al : Alloc} (hal : al.Succeeds) {heap : Addr}
    (hf : Fresh v (scratch heap (v.len / 2))) (s : St α (st.Q α κ) (st.A κ) σ) :
    ∃ s', run o (sortStable st cfg v al heap) s = (.ok (), s') ∧
      v.contents s'.mem = (v.contents s.mem).mergeSort fun a b => !lt b a := by
  obtain ⟨s', h1, h2, -⟩ := sort_sorts (cfg := cfg) so ho hz hv hal hf s
  exact ⟨s', h1, h2.unique so (sortedBy_spec so _)⟩

/-- C61: so does `par_sort*`, on every schedule. -/
theorem par_sort_computes {o : Oracle σ (st.Q α κ) (st.A κ)} (so : SWO lt) (ho : Agrees st o lt)
    (hz : cfg.zst = true → Subsingleton α) (hv : v.WF) {heap : Addr} (hf : Fresh v (scratch heap v.len))
    (s : St α (st.Q α κ) (st.A κ) σ) :
    Always o (parSortStable st cfg v heap) s
      (fun _ m => v.contents m = (v.contents s.mem).mergeSort fun a b => !lt b a) (fun _ _ => False) :=
  (par_sort_sorts (cfg := cfg) so ho hz hv hf s).mono (fun _ _ h => h.1.unique so (sortedBy_spec so _)) (fun _ _ h => h)

theorem SWO.comap {klt : κ → κ → Bool} (so : SWO klt) (f : α → κ) : SWO fun x y => klt (f x) (f y) :=
  ⟨fun _ => so.irrefl _, fun _ _ _ => so.trans _ _ _, fun _ _ _ => so.ntrans _ _ _⟩

/-- C61: `sort_by_cached_key(f)` leaves the array as the list sort of its contents by keys. -/
theorem sort_by_cached_key_computes {sz : Sizes} {srt : PairSort α κ} (hs : SortsPairs srt) {o : Oracle σ (KeyQ α κ) (κ × Bool)} {f : α → κ}
    {klt : κ → κ → Bool} (ho : KeyAgrees o f klt) (so : SWO klt) (hv : v.WF) (hlen : v.len ≤ 2 ^ cfg.bits)
    (s : St α (KeyQ α κ) (κ × Bool) σ) :
    ∃ s', run o (sortByCachedKey cfg sz srt v) s = (.ok (), s') ∧
      v.contents s'.mem = (v.contents s.mem).mergeSort fun a b => !klt (f b) (f a) := by
  obtain ⟨s', h1, h2, -⟩ := sort_by_cached_key_sorts (cfg := cfg) (sz := sz) hs ho so hv hlen s
  exact ⟨s', h1, h2.unique (so.comap f) (sortedBy_spec (so.comap f) _)⟩

/-- C61: so does `par_sort_by_cached_key(f)`, on every schedule. -/
theorem par_sort_by_cached_key_computes {sz : Sizes} {srt : PairSort α κ} (hs : SortsPairs srt) {o : Oracle σ (KeyQ α κ) (κ × Bool)} {f : α → κ}
    {klt : κ → κ → Bool} (ho : KeyAgrees o f klt) (so : SWO klt) (hv : v.WF) (hlen : v.len ≤ 2 ^ cfg.bits)
    (s : St α (KeyQ α κ) (κ × Bool) σ) :
    Always o (parSortByCachedKey cfg sz srt v) s
      (fun _ m => v.contents m = (v.contents s.mem).mergeSort fun a b => !klt (f b) (f a)) (fun _ _ => False) :=
  (par_sort_by_cached_key_sorts (cfg := cfg) (sz := sz) hs ho so hv hlen s).mono
    (fun _ _ h => h.1.unique (so.comap f) (sortedBy_spec (so.comap f) _)) (fun _ _ h => h)

/-! ### The unstable sorts and selection -/

/-- C61: if the order tells the elements of the array apart, `sort_unstable*` computes the same as `sort*`.  In any case it leaves at each position
an element which compares equal to that of the list sort. -/
theorem sort_unstable_computes {o : Oracle σ (st.Q α κ) (st.A κ)} (so : SWO lt) (ho : Agrees st o lt)
    (hz : cfg.zst = true → Subsingleton α) (hv : v.WF) (s : St α (st.Q α κ) (st.A κ) σ) :
    ∃ s', run o (sortUnstable st cfg v) s = (.ok (), s') ∧
      List.Forall₂ (fun x y => eqv lt x y = true) (v.contents s'.mem) ((v.contents s.mem).mergeSort fun a b => !lt b a) ∧
      (Tells lt (v.contents s.mem) → v.contents s'.mem = (v.contents s.mem).mergeSort fun a b => !lt b a) := by
  obtain ⟨s', h1, h2, h3, -⟩ := sort_unstable_sorts (cfg := cfg) so ho hz hv s
  exact ⟨s', h1, sorted_pointwise so h2 h3, fun ht => sorted_eq_sortedBy so ht h2 h3⟩

/-- C61: so does `par_sort_unstable*`, on every schedule. -/
theorem par_sort_unstable_computes {o : Oracle σ (st.Q α κ) (st.A κ)} (so : SWO lt) (ho : Agrees st o lt)
    (hz : cfg.zst = true → Subsingleton α) (hv : v.WF) (s : St α (st.Q α κ) (st.A κ) σ) :
    Always o (parSortUnstable st cfg v) s
      (fun _ m => List.Forall₂ (fun x y => eqv lt x y = true) (v.contents m) ((v.contents s.mem).mergeSort fun a b => !lt b a) ∧
        (Tells lt (v.contents s.mem) → v.contents m = (v.contents s.mem).mergeSort fun a b => !lt b a))
      (fun _ _ => False) :=
  (par_sort_unstable_sorts (cfg := cfg) so ho hz hv s).mono
    (fun _ _ h => ⟨sorted_pointwise so h.1 h.2.1, fun ht => sorted_eq_sortedBy so ht h.1 h.2.1⟩) (fun _ _ h => h)

/-- `p` compares equal to the `k`-th element of the list sort, and is that element if the order tells the elements of the list apart. -/
def Ranked (lt : α → α → Bool) (xs : List α) (k : Nat) (p : α) : Prop :=
  ∃ q, (xs.mergeSort fun a b => !lt b a)[k]? = some q ∧ eqv lt p q = true ∧ (Tells lt xs → p = q)

theorem SelectedAt.ranked (so : SWO lt) {k : Nat} {m : Mem α} {xs : List α} (h : SelectedAt lt k (v.contents m)) (hp : (v.contents m).Perm xs) :
    Ranked lt xs k (m (v.addr k)) := by
  have hS := sortedBy_spec so xs
  obtain ⟨p, q, h5, h6, h7⟩ := h.order_statistic so (hp.trans hS.perm.symm) hS.sorted
  have hk : k < v.len := v.contents_length m ▸ (List.getElem?_eq_some_iff.mp h5).1
  obtain rfl : m (v.addr k) = p := by
    simp only [View.contents, View.region, List.getElem?_map, List.getElem?_range hk, Option.map_some] at h5
    exact Option.some.inj h5
  exact ⟨q, h6, h7, fun ht => ht _ (hp.subset (List.mem_of_getElem? h5)) q (hS.perm.subset (List.mem_of_getElem? h6)) h7⟩

/-- C61: `select_nth_unstable*(k)` returns a reference to the `k`-th smallest element (release builds; in debug builds see C47). -/
theorem select_nth_computes {o : Oracle σ (st.Q α κ) (st.A κ)} (so : SWO lt) (ho : Agrees st o lt)
    (hz : cfg.zst = true → Subsingleton α) (hdbg : cfg.dbg = false) (hv : v.WF) {k : Nat} (hk : k < v.len)
    (s : St α (st.Q α κ) (st.A κ) σ) :
    ∃ L c R s', run o (selectNthUnstable st cfg v k) s = (.ok (L, c, R), s') ∧ Ranked lt (v.contents s.mem) k (s'.mem c) := by
  obtain ⟨s', h1, h2, h3, -⟩ := select_nth_selects (cfg := cfg) so ho hz hdbg hv hk s
  exact ⟨_, _, _, s', h1, h2.ranked so h3⟩

/-- C61: `select_many_nth_unstable*` hands out the indices with references to the elements of these ranks. -/
theorem select_many_computes {o : Oracle σ (st.Q α κ) (st.A κ)} (so : SWO lt) (ho : Agrees st o lt)
    (hz : cfg.zst = true → Subsingleton α) (hdbg : cfg.dbg = false) (hv : v.WF) (hb : 2 * v.len ≤ 2 ^ cfg.bits)
    {is : List Nat} (his : GoodIndices v.len is) (s : St α (st.Q α κ) (st.A κ) σ) :
    ∃ r s', run o (selectManyNthUnstable st cfg v is) s = (.ok r, s') ∧ r.map (·.1) = is ∧
      ∀ x ∈ r, Ranked lt (v.contents s.mem) x.1 (s'.mem x.2) := by
  obtain ⟨s', h1, h2, h3, -⟩ := select_many_selects (cfg := cfg) so ho hz hdbg hv hb his s
  refine ⟨_, s', h1, ?_, fun x hx => ?_⟩
  · rw [List.map_map]
    exact List.map_id' is
  · obtain ⟨i, hi, rfl⟩ := List.mem_map.mp hx
    exact (h2 i hi).ranked so h3

/-- C61: so does `par_select_many_nth_unstable*`, on every schedule: each slot `j` below the number of indices is written once, with a reference to an
element of the rank of the `j`-th index. -/
theorem par_select_many_computes {o : Oracle σ (st.Q α κ) (st.A κ)} (so : SWO lt) (ho : Agrees st o lt)
    (hz : cfg.zst = true → Subsingleton α) (hdbg : cfg.dbg = false) (hv : v.WF) (hb : 2 * v.len ≤ 2 ^ cfg.bits)
    {is : List Nat} (his : GoodIndices v.len is) (extra : Nat) (s : St α (st.Q α κ) (st.A κ) σ) :
    Always o (parSelectManyNthUnstable st cfg v is extra) s
      (fun r m => (r.map (·.1)).Perm (List.range is.length) ∧
        ∀ x ∈ r, ∃ i, is[x.1]? = some i ∧ Ranked lt (v.contents s.mem) i (m x.2))
      (fun _ _ => False) := by
  refine (par_select_many_selects (cfg := cfg) so ho hz hdbg hv hb his extra s).mono (fun r m h => ⟨?_, fun x hx => ?_⟩) (fun _ _ h => h)
  · have := h.1.map (·.1)
    rw [List.map_map] at this
    rw [List.range_eq_range', ← List.zipIdx_map_snd]
    exact this
  · obtain ⟨⟨i, j⟩, hi, rfl⟩ := List.mem_map.mp (h.1.subset hx)
    have hi := List.mem_zipIdx_iff_getElem?.mp hi
    exact ⟨i, hi, (h.2.1 i (List.mem_of_getElem? hi)).ranked so h.2.2.1⟩

/-! ### The hypotheses can be met -/

namespace Sample

/-- Distinct elements. -/
def distinct : Mem Nat := fun a => (a.toNat * 37 + 11) % 1009

theorem distinct_tells : Tells Sample.lt (view.contents distinct) := by
  intro x _ y _ h
  rw [eqv_iff] at h
  simp only [Sample.lt, decide_eq_false_iff_not] at h
  omega

end Sample

example (st : Style) := sort_computes (st := st) (cfg := Sample.cfg) Sample.swo (Sample.agrees st) Sample.notZst Sample.wf
  Sample.alloc_succeeds (Sample.fresh (n := 30)) (Sample.state st)
example (st : Style) := par_sort_computes (st := st) (cfg := Sample.cfg) Sample.swo (Sample.agrees st) Sample.notZst Sample.wf
  (Sample.fresh (n := 60)) (Sample.state st)
example := sort_by_cached_key_computes (cfg := Sample.cfg) (sz := Sample.sizes) Sample.pairSort_sorts Sample.keyAgrees Sample.swo Sample.wf
  (by decide) Sample.keyState
example := par_sort_by_cached_key_computes (cfg := Sample.cfg) (sz := Sample.sizes) Sample.pairSort_sorts Sample.keyAgrees Sample.swo Sample.wf
  (by decide) Sample.keyState
example (st : Style) : ∃ s', run (Sample.oracle st) (sortUnstable st Sample.cfg Sample.view) ⟨Sample.distinct, (), []⟩ = (.ok (), s') ∧
    Sample.view.contents s'.mem = (Sample.view.contents Sample.distinct).mergeSort fun a b => !Sample.lt b a := by
  obtain ⟨s', h1, -, h2⟩ := sort_unstable_computes (cfg := Sample.cfg) Sample.swo (Sample.agrees st) Sample.notZst Sample.wf
    ⟨Sample.distinct, (), []⟩
  exact ⟨s', h1, h2 Sample.distinct_tells⟩
example (st : Style) := par_sort_unstable_computes (st := st) (cfg := Sample.cfg) Sample.swo (Sample.agrees st) Sample.notZst Sample.wf (Sample.state st)
example (st : Style) := select_nth_computes (st := st) (k := 17) Sample.swo (Sample.agrees st) (cfg := Sample.release) Sample.notZst rfl
  Sample.wf (by decide) (Sample.state st)
example (st : Style) := select_many_computes (st := st) Sample.swo (Sample.agrees st) (cfg := Sample.release) Sample.notZst rfl
  Sample.wf (by decide) Sample.goodIndices (Sample.state st)
example (st : Style) := par_select_many_computes (st := st) Sample.swo (Sample.agrees st) (cfg := Sample.release) Sample.notZst rfl
  Sample.wf (by decide) Sample.goodIndices 5 (Sample.state st)

end NdSlice
