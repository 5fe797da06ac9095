import Verif.Props.Stable
import Verif.Props.ParStable
import Verif.Props.Unstable
import Verif.Props.Select
import Verif.Props.Dedup
import Verif.Props.Cached

/-
Views running the other way (C93): a negative stride, as `invert_axis` or `slice(s![..;-1])` of ndarray give it, and the methods of this crate.
-/

namespace NdSlice

variable {α κ κ' σ σ' ι ω : Type}

/-- The view of the same elements from the last to the first: what `invert_axis(Axis(0))` of ndarray makes of a view (not part of /repo). -/
def View.inverted (v : View) : View := ⟨v.addr (v.len - 1), -v.stride, v.len⟩

theorem View.inverted_addr {v : View} {i : Nat} (h : i < v.len) : v.inverted.addr i = v.addr (v.len - 1 - i) := by
  unfold View.inverted View.addr
  simp only
  rw [show ((v.len - 1 - i : Nat) : Int) = ((v.len - 1 : Nat) : Int) - i by omega]
  ring

theorem View.inverted_region (v : View) : v.inverted.region = v.region.reverse := by
  refine List.ext_getElem (by simp [View.region, View.inverted]) fun i h1 h2 => ?_
  have h : i < v.len := by simpa [View.region, View.inverted] using h1
  simp only [View.region, List.getElem_reverse, List.getElem_map, List.getElem_range, List.length_map, List.length_range]
  exact View.inverted_addr h

theorem View.inverted_contents (v : View) (m : Mem α) : v.inverted.contents m = (v.contents m).reverse := by
  rw [View.contents, View.inverted_region, List.map_reverse, View.contents]

theorem View.inverted_wf {v : View} (h : v.WF) : v.inverted.WF := by
  unfold View.WF View.inverted at *
  simpa using h

theorem Fresh.inverted {v w : View} (h : Fresh v w) : Fresh v.inverted w := by
  intro a ha
  rw [View.inverted_region, List.mem_reverse]
  exact h a ha

/-! ### Lists -/

/-- The order turned round. -/
def flipped (lt : α → α → Bool) : α → α → Bool := fun x y => lt y x

theorem SWO.flipped {lt : α → α → Bool} (so : SWO lt) : SWO (flipped lt) :=
  ⟨so.irrefl, fun x y z h h' => so.trans z y x h' h, fun x y z h h' => so.ntrans z y x h' h⟩

theorem Sorted.reversed {lt : α → α → Bool} {ys : List α} (h : Sorted lt ys) : Sorted (flipped lt) ys.reverse :=
  List.pairwise_reverse.mpr h

theorem StableSortOf.reversed {lt : α → α → Bool} {xs ys : List α} (h : StableSortOf lt xs.reverse ys) : StableSortOf (flipped lt) xs ys.reverse := by
  refine ⟨h.sorted.reversed, (List.reverse_perm _).trans (h.perm.trans (List.reverse_perm _)), fun x => ?_⟩
  have e : eqv (flipped lt) x = eqv lt x := by
    funext y
    simp [eqv, flipped, Bool.and_comm]
  rw [e, List.filter_reverse, h.stable x, List.filter_reverse, List.reverse_reverse]

theorem SelectedAt.reversed {lt : α → α → Bool} {k : Nat} {ys : List α} (h : SelectedAt lt k ys) : SelectedAt (flipped lt) (ys.length - 1 - k) ys.reverse := by
  obtain ⟨A, p, B, rfl, hA, h1, h2⟩ := h
  refine ⟨B.reverse, p, A.reverse, by simp, by simp; omega, fun b hb => h2 b (List.mem_reverse.mp hb), fun a ha => h1 a (List.mem_reverse.mp ha)⟩

/-! ### The methods -/

/-- C93: `sort*` of the inverted view sorts the view by the order turned round, and stably: elements that are equal keep their order although
the method has met them from the last to the first. -/
theorem sort_inverted (st : Style) {cfg : Cfg} {v : View} {lt : α → α → Bool} (so : SWO lt) {o : Oracle σ (st.Q α κ) (st.A κ)} (ho : Agrees st o lt)
    (hz : cfg.zst = true → Subsingleton α) (hv : v.WF) {al : Alloc} (hal : al.Succeeds) {heap : Addr}
    (hf : Fresh v (scratch heap (v.len / 2))) (s : St α (st.Q α κ) (st.A κ) σ) :
    ∃ s', run o (sortStable st cfg v.inverted al heap) s = (.ok (), s') ∧ StableSortOf (fun x y => lt y x) (v.contents s.mem) (v.contents s'.mem) ∧
      ∀ a, a ∉ v.region → a ∉ (scratch heap (v.len / 2)).region → s'.mem a = s.mem a := by
  obtain ⟨s', h1, h2, h3⟩ := sort_sorts (cfg := cfg) so ho hz (View.inverted_wf hv) hal hf.inverted s
  rw [View.inverted_contents, View.inverted_contents] at h2
  refine ⟨s', h1, List.reverse_reverse (v.contents s'.mem) ▸ h2.reversed, fun a ha => h3 a ?_⟩
  rwa [View.inverted_region, List.mem_reverse]

/-- C93: so it leaves the same array as `sort*` of the view itself by the order turned round (with any flavours of the two). -/
theorem sort_inverted_eq (st : Style) (st' : Style) {cfg : Cfg} {v : View} {lt : α → α → Bool} (so : SWO lt)
    {o : Oracle σ (st.Q α κ) (st.A κ)} (ho : Agrees st o lt) {o' : Oracle σ' (st'.Q α κ') (st'.A κ')} (ho' : Agrees st' o' (fun x y => lt y x))
    (hz : cfg.zst = true → Subsingleton α) (hv : v.WF) {al al' : Alloc} (hal : al.Succeeds) (hal' : al'.Succeeds) {heap heap' : Addr}
    (hf : Fresh v (scratch heap (v.len / 2))) (hf' : Fresh v (scratch heap' (v.len / 2)))
    (s : St α (st.Q α κ) (st.A κ) σ) (s' : St α (st'.Q α κ') (st'.A κ') σ') (hm : v.contents s'.mem = v.contents s.mem) :
    ∃ t t', run o (sortStable st cfg v.inverted al heap) s = (.ok (), t) ∧ run o' (sortStable st' cfg v al' heap') s' = (.ok (), t') ∧
      v.contents t.mem = v.contents t'.mem := by
  obtain ⟨t, h1, h2, -⟩ := sort_inverted st so ho hz hv hal hf s
  obtain ⟨t', h3, h4, -⟩ := sort_sorts (cfg := cfg) so.flipped ho' hz hv hal' hf' s'
  rw [hm] at h4
  exact ⟨t, t', h1, h3, h2.unique so.flipped h4⟩

/-- C93: `par_sort*` of the inverted view, on every schedule. -/
theorem par_sort_inverted (st : Style) {cfg : Cfg} {v : View} {lt : α → α → Bool} (so : SWO lt) {o : Oracle σ (st.Q α κ) (st.A κ)} (ho : Agrees st o lt)
    (hz : cfg.zst = true → Subsingleton α) (hv : v.WF) {heap : Addr} (hf : Fresh v (scratch heap v.len)) (s : St α (st.Q α κ) (st.A κ) σ) :
    Always o (parSortStable st cfg v.inverted heap) s (fun _ m => StableSortOf (fun x y => lt y x) (v.contents s.mem) (v.contents m) ∧
      ∀ a, a ∉ v.region → a ∉ (scratch heap v.len).region → m a = s.mem a) (fun _ _ => False) := by
  refine (par_sort_sorts (cfg := cfg) so ho hz (View.inverted_wf hv) hf.inverted s).mono (fun _ m h => ?_) (fun _ _ h => h)
  obtain ⟨h2, h3⟩ := h
  rw [View.inverted_contents, View.inverted_contents] at h2
  refine ⟨List.reverse_reverse (v.contents m) ▸ h2.reversed, fun a ha => h3 a ?_⟩
  rwa [View.inverted_region, List.mem_reverse]

/-- C93: `sort_by_cached_key` of the inverted view. -/
theorem sort_by_cached_key_inverted {cfg : Cfg} {sz : Sizes} {srt : PairSort α κ} {v : View} (hs : SortsPairs srt)
    {o : Oracle σ (KeyQ α κ) (κ × Bool)} {f : α → κ} {klt : κ → κ → Bool} (ho : KeyAgrees o f klt) (so : SWO klt) (hv : v.WF)
    (hlen : v.len ≤ 2 ^ cfg.bits) (s : St α (KeyQ α κ) (κ × Bool) σ) :
    ∃ s', run o (sortByCachedKey cfg sz srt v.inverted) s = (.ok (), s') ∧
      StableSortOf (fun x y => klt (f y) (f x)) (v.contents s.mem) (v.contents s'.mem) ∧ ∀ a, a ∉ v.region → s'.mem a = s.mem a := by
  obtain ⟨s', h1, h2, h3⟩ := sort_by_cached_key_sorts (cfg := cfg) (sz := sz) hs ho so (View.inverted_wf hv) hlen s
  rw [View.inverted_contents, View.inverted_contents] at h2
  refine ⟨s', h1, List.reverse_reverse (v.contents s'.mem) ▸ h2.reversed, fun a ha => h3 a ?_⟩
  rwa [View.inverted_region, List.mem_reverse]

/-- C93: `par_sort_by_cached_key` of the inverted view, on every schedule. -/
theorem par_sort_by_cached_key_inverted {cfg : Cfg} {sz : Sizes} {srt : PairSort α κ} {v : View} (hs : SortsPairs srt)
    {o : Oracle σ (KeyQ α κ) (κ × Bool)} {f : α → κ} {klt : κ → κ → Bool} (ho : KeyAgrees o f klt) (so : SWO klt) (hv : v.WF)
    (hlen : v.len ≤ 2 ^ cfg.bits) (s : St α (KeyQ α κ) (κ × Bool) σ) :
    Always o (parSortByCachedKey cfg sz srt v.inverted) s
      (fun _ m => StableSortOf (fun x y => klt (f y) (f x)) (v.contents s.mem) (v.contents m) ∧ ∀ a, a ∉ v.region → m a = s.mem a)
      (fun _ _ => False) := by
  refine (par_sort_by_cached_key_sorts (cfg := cfg) (sz := sz) hs ho so (View.inverted_wf hv) hlen s).mono (fun _ m h => ?_) (fun _ _ h => h)
  obtain ⟨h2, h3⟩ := h
  rw [View.inverted_contents, View.inverted_contents] at h2
  refine ⟨List.reverse_reverse (v.contents m) ▸ h2.reversed, fun a ha => h3 a ?_⟩
  rwa [View.inverted_region, List.mem_reverse]

/-- C93: `sort_unstable*` of the inverted view sorts the view by the order turned round. -/
theorem sort_unstable_inverted (st : Style) {cfg : Cfg} {v : View} {lt : α → α → Bool} (so : SWO lt) {o : Oracle σ (st.Q α κ) (st.A κ)}
    (ho : Agrees st o lt) (hz : cfg.zst = true → Subsingleton α) (hv : v.WF) (s : St α (st.Q α κ) (st.A κ) σ) :
    ∃ s', run o (sortUnstable st cfg v.inverted) s = (.ok (), s') ∧ Sorted (fun x y => lt y x) (v.contents s'.mem) ∧
      (v.contents s'.mem).Perm (v.contents s.mem) ∧ ∀ a, a ∉ v.region → s'.mem a = s.mem a := by
  obtain ⟨s', h1, h2, h3, h4⟩ := sort_unstable_sorts (cfg := cfg) so ho hz (View.inverted_wf hv) s
  rw [View.inverted_contents] at h2 h3
  rw [View.inverted_contents] at h3
  refine ⟨s', h1, List.reverse_reverse (v.contents s'.mem) ▸ h2.reversed, (List.reverse_perm _).symm.trans (h3.trans (List.reverse_perm _)), fun a ha => h4 a ?_⟩
  rwa [View.inverted_region, List.mem_reverse]

/-- C93: `par_sort_unstable*` of the inverted view, on every schedule. -/
theorem par_sort_unstable_inverted (st : Style) {cfg : Cfg} {v : View} {lt : α → α → Bool} (so : SWO lt) {o : Oracle σ (st.Q α κ) (st.A κ)}
    (ho : Agrees st o lt) (hz : cfg.zst = true → Subsingleton α) (hv : v.WF) (s : St α (st.Q α κ) (st.A κ) σ) :
    Always o (parSortUnstable st cfg v.inverted) s (fun _ m => Sorted (fun x y => lt y x) (v.contents m) ∧
      (v.contents m).Perm (v.contents s.mem) ∧ ∀ a, a ∉ v.region → m a = s.mem a) (fun _ _ => False) := by
  refine (par_sort_unstable_sorts (cfg := cfg) so ho hz (View.inverted_wf hv) s).mono (fun _ m h => ?_) (fun _ _ h => h)
  obtain ⟨h2, h3, h4⟩ := h
  rw [View.inverted_contents] at h2 h3
  rw [View.inverted_contents] at h3
  refine ⟨List.reverse_reverse (v.contents m) ▸ h2.reversed, (List.reverse_perm _).symm.trans (h3.trans (List.reverse_perm _)), fun a ha => h4 a ?_⟩
  rwa [View.inverted_region, List.mem_reverse]

/-- C93: `select_nth_unstable*` of the inverted view at `k` selects the element of the view at `len - 1 - k`, by the order turned round. -/
theorem select_nth_inverted (st : Style) {cfg : Cfg} {v : View} {lt : α → α → Bool} (so : SWO lt) {o : Oracle σ (st.Q α κ) (st.A κ)}
    (ho : Agrees st o lt) (hz : cfg.zst = true → Subsingleton α) (hdbg : cfg.dbg = false) (hv : v.WF) {k : Nat} (hk : k < v.len)
    (s : St α (st.Q α κ) (st.A κ) σ) :
    ∃ L R s', run o (selectNthUnstable st cfg v.inverted k) s = (.ok (L, v.addr (v.len - 1 - k), R), s') ∧
      SelectedAt (fun x y => lt y x) (v.len - 1 - k) (v.contents s'.mem) ∧
      (v.contents s'.mem).Perm (v.contents s.mem) ∧ ∀ a, a ∉ v.region → s'.mem a = s.mem a := by
  obtain ⟨s', h1, h2, h3, -, h4⟩ := select_nth_selects (cfg := cfg) so ho hz hdbg (View.inverted_wf hv) (k := k) hk s
  rw [View.inverted_addr hk] at h1
  rw [View.inverted_contents] at h2 h3
  rw [View.inverted_contents] at h3
  have h5 := h2.reversed
  rw [List.length_reverse, View.contents_length, List.reverse_reverse] at h5
  refine ⟨_, _, s', h1, h5, (List.reverse_perm _).symm.trans (h3.trans (List.reverse_perm _)), fun a ha => h4 a ?_⟩
  rwa [View.inverted_region, List.mem_reverse]

/-- C93: `reverse`, `sort*`, `reverse` sorts stably by the order turned round. -/
theorem reverse_sort_reverse (st : Style) {cfg : Cfg} {v : View} {lt : α → α → Bool} (so : SWO lt) {o : Oracle σ (st.Q α κ) (st.A κ)}
    (ho : Agrees st o lt) (hz : cfg.zst = true → Subsingleton α) (hv : v.WF) {al : Alloc} (hal : al.Succeeds) {heap : Addr}
    (hf : Fresh v (scratch heap (v.len / 2))) (s : St α (st.Q α κ) (st.A κ) σ) :
    ∃ s1 s2 s3, run o (reverse cfg v) s = (.ok (), s1) ∧ run o (sortStable st cfg v al heap) s1 = (.ok (), s2) ∧
      run o (reverse cfg v) s2 = (.ok (), s3) ∧ StableSortOf (fun x y => lt y x) (v.contents s.mem) (v.contents s3.mem) := by
  obtain ⟨s1, h1, h2, -⟩ := reverse_correct cfg o hv s
  obtain ⟨s2, h3, h4, -⟩ := sort_sorts (cfg := cfg) so ho hz hv hal hf s1
  obtain ⟨s3, h5, h6, -⟩ := reverse_correct cfg o hv s2
  rw [h2] at h4
  exact ⟨s1, s2, s3, h1, h3, h5, by rw [h6]; exact h4.reversed⟩

/-- C93: what `reverse` does to the view is seen as `reverse` in the inverted view. -/
theorem reverse_inverted (cfg : Cfg) {v : View} (o : Oracle σ ι ω) (hv : v.WF) (s : St α ι ω σ) :
    ∃ s', run o (reverse cfg v.inverted) s = (.ok (), s') ∧ v.contents s'.mem = (v.contents s.mem).reverse ∧ ∀ a, a ∉ v.region → s'.mem a = s.mem a := by
  obtain ⟨s', h1, h2, h3⟩ := reverse_correct cfg o (View.inverted_wf hv) s
  rw [View.inverted_contents, View.inverted_contents] at h2
  refine ⟨s', h1, List.reverse_injective h2, fun a ha => h3 a ?_⟩
  rwa [View.inverted_region, List.mem_reverse]

/-! ### The hypotheses can be met -/

namespace Sample

/-- User code of `sort` for the order turned round. -/
def gtOracle : Oracle Unit (Style.ord.Q Nat Nat) (Style.ord.A Nat) := ⟨fun _ q => (some (lt q.2 q.1), ()), fun _ => (true, ())⟩

theorem gtAgrees : Agrees .ord gtOracle (fun x y => lt y x) := fun _ _ _ => rfl

example (st : Style) := sort_inverted_eq (v := view) (cfg := cfg) st .ord swo (agrees st) gtAgrees notZst wf alloc_succeeds alloc_succeeds fresh fresh
  (state st) (state .ord) rfl
example (st : Style) := sort_inverted (v := view) (cfg := cfg) st swo (agrees st) notZst wf alloc_succeeds fresh (state st)
example (st : Style) := par_sort_inverted (v := long) (cfg := cfg) st swo (agrees st) notZst long_wf long_fresh (state st)
example := sort_by_cached_key_inverted (cfg := cfg) (sz := sizes) pairSort_sorts keyAgrees swo wf (by decide) keyState
example := par_sort_by_cached_key_inverted (cfg := cfg) (sz := sizes) pairSort_sorts keyAgrees swo wf (by decide) keyState
example (st : Style) := sort_unstable_inverted (v := view) (cfg := cfg) st swo (agrees st) notZst wf (state st)
example (st : Style) := par_sort_unstable_inverted (v := long) (cfg := cfg) st swo (agrees st) notZst long_wf (state st)
example (st : Style) := select_nth_inverted (v := view) (cfg := release) (k := 7) st swo (agrees st) notZst rfl wf (by decide) (state st)
example (st : Style) := reverse_sort_reverse (v := view) (cfg := cfg) st swo (agrees st) notZst wf alloc_succeeds fresh (state st)
example (st : Style) := reverse_inverted (v := view) cfg (oracle st) wf (state st)

end Sample

end NdSlice
