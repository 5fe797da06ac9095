import Verif.Props.Compose
import Verif.Props.ParStable
import Verif.Props.Cached
import Verif.Props.AlreadySorted
import Verif.Props.Told

/-
More operations used together: C89 (select, then sort what is before or after), C90 (sort by one key, then stably by another one),
C92 (sort, then ask whether it is sorted).
Each operation has its own user code; the memory one operation leaves is the memory the next one starts with.
-/

namespace NdSlice

open Style

variable {α κ κ' κ'' σ σ' σ'' : Type}

/-! ### Selecting, then sorting the parts -/

theorem View.contents_three {v : View} {k : Nat} (hk : k < v.len) (m : Mem α) :
    v.contents m = (v.sub 0 k).contents m ++ m (v.addr k) :: (v.sub (k + 1) (v.len - (k + 1))).contents m := by
  unfold View.contents
  rw [View.region_split v (a := k) (n := 1) (by omega)]
  simp [View.region, View.sub_addr]

theorem View.region_three {v : View} {k : Nat} (hk : k < v.len) :
    v.region = (v.sub 0 k).region ++ v.addr k :: (v.sub (k + 1) (v.len - (k + 1))).region := by
  rw [View.region_split v (a := k) (n := 1) (by omega)]
  simp [View.region, View.sub_addr]

/-- C89: sorting what `select_nth_unstable*(k)` puts before position `k` gives the first `k + 1` elements of the sorted array, and nothing after them is
less.  Sorting what it puts after position `k` as well sorts the array; the first `k + 1` elements are as before. -/
theorem select_then_sort (st : Style) (st' : Style) (st'' : Style) {cfg : Cfg} {v : View} {lt : α → α → Bool} (so : SWO lt)
    {o : Oracle σ (st.Q α κ) (st.A κ)} (ho : Agrees st o lt) {o' : Oracle σ' (st'.Q α κ') (st'.A κ')} (ho' : Agrees st' o' lt)
    {o'' : Oracle σ'' (st''.Q α κ'') (st''.A κ'')} (ho'' : Agrees st'' o'' lt) (hz : cfg.zst = true → Subsingleton α) (hdbg : cfg.dbg = false)
    (hv : v.WF) {k : Nat} (hk : k < v.len) (s : St α (st.Q α κ) (st.A κ) σ) :
    ∃ left nth right s1, run o (selectNthUnstable st cfg v k) s = (.ok (left, nth, right), s1) ∧
      ∀ s2 : St α (st'.Q α κ') (st'.A κ') σ', s2.mem = s1.mem →
        ∃ s3, run o' (sortUnstable st' cfg left) s2 = (.ok (), s3) ∧ (v.contents s3.mem).Perm (v.contents s.mem) ∧
          Sorted lt ((v.contents s3.mem).take (k + 1)) ∧
          (∀ x ∈ (v.contents s3.mem).take (k + 1), ∀ y ∈ (v.contents s3.mem).drop (k + 1), lt y x = false) ∧
          (∀ a, a ∉ v.region → s3.mem a = s.mem a) ∧
          ∀ s4 : St α (st''.Q α κ'') (st''.A κ'') σ'', s4.mem = s3.mem →
            ∃ s5, run o'' (sortUnstable st'' cfg right) s4 = (.ok (), s5) ∧ (v.contents s5.mem).Perm (v.contents s.mem) ∧
              Sorted lt (v.contents s5.mem) ∧ (v.contents s5.mem).take (k + 1) = (v.contents s3.mem).take (k + 1) ∧
              ∀ a, a ∉ v.region → s5.mem a = s.mem a := by
  obtain ⟨s1, h1, ⟨A, p, B, hAB, hA, hpA, hpB⟩, h3, -, h5⟩ := select_nth_selects so ho hz hdbg hv hk s
  refine ⟨_, _, _, s1, h1, fun s2 e2 => ?_⟩
  have nd := View.region_nodup hv
  have hreg := View.region_three hk
  rw [hreg, List.nodup_append, List.nodup_cons] at nd
  obtain ⟨-, ⟨nd1, -⟩, nd2⟩ := nd
  have inL : ∀ a, a ∉ v.region → a ∉ (v.sub 0 k).region := fun a ha h => ha (by rw [hreg]; simp [h])
  have inR : ∀ a, a ∉ v.region → a ∉ (v.sub (k + 1) (v.len - (k + 1))).region := fun a ha h => ha (by rw [hreg]; simp [h])
  have hlen : ∀ m : Mem α, ((v.sub 0 k).contents m).length = k := fun m => View.contents_length _ _
  -- the parts after the selection
  have c1 := View.contents_three hk s1.mem
  rw [hAB] at c1
  obtain ⟨rfl, c2⟩ := List.append_inj c1 (by rw [hlen, hA])
  obtain ⟨rfl, rfl⟩ := List.cons.inj c2
  obtain ⟨s3, g1, g2, g3, g4⟩ := sort_unstable_sorts (v := v.sub 0 k) so ho' hz (View.sub_WF hv (by omega)) s2
  rw [e2] at g3 g4
  -- the parts after the first sort
  have k1 : s3.mem (v.addr k) = s1.mem (v.addr k) := g4 _ fun h => nd2 _ h _ List.mem_cons_self rfl
  have k2 : (v.sub (k + 1) (v.len - (k + 1))).contents s3.mem = (v.sub (k + 1) (v.len - (k + 1))).contents s1.mem :=
    List.map_congr_left fun a ha => g4 a fun h => nd2 _ h _ (List.mem_cons_of_mem _ ha) rfl
  have c3 := View.contents_three hk s3.mem
  rw [k1, k2] at c3
  have tk : (v.contents s3.mem).take (k + 1) = (v.sub 0 k).contents s3.mem ++ [s1.mem (v.addr k)] := by
    rw [c3, List.append_cons]
    exact List.take_left' (by rw [List.length_append, hlen]; rfl)
  have dk : (v.contents s3.mem).drop (k + 1) = (v.sub (k + 1) (v.len - (k + 1))).contents s1.mem := by
    rw [c3, List.append_cons]
    exact List.drop_left' (by rw [List.length_append, hlen]; rfl)
  have perm3 : (v.contents s3.mem).Perm (v.contents s.mem) := by
    refine List.Perm.trans ?_ h3
    rw [c3, hAB]
    exact g3.append_right _
  have srt3 : Sorted lt ((v.contents s3.mem).take (k + 1)) := by
    rw [tk]
    unfold Sorted
    rw [List.pairwise_append]
    refine ⟨g2, List.pairwise_singleton _ _, fun a ha b hb => ?_⟩
    rw [List.mem_singleton.mp hb]
    exact hpA a (g3.mem_iff.mp ha)
  have low3 : ∀ x ∈ (v.contents s3.mem).take (k + 1), ∀ y ∈ (v.contents s3.mem).drop (k + 1), lt y x = false := by
    rw [tk, dk]
    intro x hx y hy
    rcases List.mem_append.mp hx with hx | hx
    · exact so.ntrans _ _ _ (hpB y hy) (hpA x (g3.mem_iff.mp hx))
    · rw [List.mem_singleton.mp hx]
      exact hpB y hy
  have out3 : ∀ a, a ∉ v.region → s3.mem a = s.mem a := fun a ha => (g4 a (inL a ha)).trans (h5 a ha)
  refine ⟨s3, g1, perm3, srt3, low3, out3, fun s4 e4 => ?_⟩
  obtain ⟨s5, f1, f2, f3, f4⟩ := sort_unstable_sorts (v := v.sub (k + 1) (v.len - (k + 1))) so ho'' hz (View.sub_WF hv (by omega)) s4
  rw [e4] at f3 f4
  rw [k2] at f3
  have k3 : s5.mem (v.addr k) = s1.mem (v.addr k) := (f4 _ nd1).trans k1
  have k4 : (v.sub 0 k).contents s5.mem = (v.sub 0 k).contents s3.mem :=
    List.map_congr_left fun a ha => f4 a fun h => nd2 _ ha _ (List.mem_cons_of_mem _ h) rfl
  have c5 := View.contents_three hk s5.mem
  rw [k3, k4] at c5
  have tk5 : (v.contents s5.mem).take (k + 1) = (v.contents s3.mem).take (k + 1) := by
    rw [tk, c5, List.append_cons]
    exact List.take_left' (by rw [List.length_append, hlen]; rfl)
  refine ⟨s5, f1, ?_, ?_, tk5, fun a ha => (f4 a (inR a ha)).trans (out3 a ha)⟩
  · refine List.Perm.trans ?_ perm3
    rw [c5, c3]
    exact (f3.cons _).append_left _
  · rw [c5, List.append_cons, ← tk]
    unfold Sorted
    rw [List.pairwise_append]
    refine ⟨srt3, f2, fun a ha b hb => low3 a ha b ?_⟩
    rw [dk]
    exact f3.mem_iff.mp hb

/-! ### Sorting by a minor key, then by a major one -/

/-- First by `lt1`; elements equal there by `lt2`. -/
def lexOf (lt1 lt2 : α → α → Bool) (x y : α) : Bool := lt1 x y || (!lt1 y x && lt2 x y)

theorem eqv_lexOf (lt1 lt2 : α → α → Bool) (x y : α) : eqv (lexOf lt1 lt2) x y = (eqv lt2 x y && eqv lt1 x y) := by
  unfold eqv lexOf
  cases lt1 x y <;> cases lt1 y x <;> cases lt2 x y <;> cases lt2 y x <;> rfl

theorem Sorted.lexOf {lt1 lt2 : α → α → Bool} {ys zs : List α} (so : SWO lt1) (h1 : Sorted lt2 ys) (h2 : StableSortOf lt1 ys zs) :
    Sorted (lexOf lt1 lt2) zs := by
  unfold Sorted
  rw [List.pairwise_iff_forall_sublist]
  intro a b hab
  have k1 : lt1 b a = false := List.pairwise_iff_forall_sublist.mp h2.sorted hab
  unfold NdSlice.lexOf
  rw [k1]
  cases k2 : lt1 a b with
  | true => rfl
  | false =>
    have e : [a, b].filter (eqv lt1 a) = [a, b] := by
      simp [eqv, k1, k2, so.irrefl]
    have hs := hab.filter (eqv lt1 a)
    rw [e, h2.stable a] at hs
    exact List.pairwise_iff_forall_sublist.mp h1 (hs.trans List.filter_sublist)

theorem StableSortOf.lexOf {lt1 lt2 : α → α → Bool} {xs ys zs : List α} (so : SWO lt1) (h1 : StableSortOf lt2 xs ys) (h2 : StableSortOf lt1 ys zs) :
    StableSortOf (lexOf lt1 lt2) xs zs where
  sorted := h1.sorted.lexOf so h2
  perm := h2.perm.trans h1.perm
  stable x := by
    have e : eqv (NdSlice.lexOf lt1 lt2) x = fun y => eqv lt2 x y && eqv lt1 x y := funext fun y => eqv_lexOf lt1 lt2 x y
    rw [e, ← List.filter_filter, ← List.filter_filter, h2.stable x, List.filter_filter, List.filter_filter]
    have e' : (fun y => eqv lt2 x y && eqv lt1 x y) = fun y => eqv lt1 x y && eqv lt2 x y := funext fun y => Bool.and_comm _ _
    rw [e', ← List.filter_filter, ← List.filter_filter, h1.stable x]

/-- C90: `sort*` by a minor order, then `sort*` by a major one: the array is the stable sort by the major order and among equal elements by the minor one. -/
theorem sort_minor_then_major (st : Style) (st' : Style) {cfg : Cfg} {v : View} {lt1 lt2 : α → α → Bool} (so1 : SWO lt1) (so2 : SWO lt2)
    {o : Oracle σ (st.Q α κ) (st.A κ)} (ho : Agrees st o lt2) {o' : Oracle σ' (st'.Q α κ') (st'.A κ')} (ho' : Agrees st' o' lt1)
    (hz : cfg.zst = true → Subsingleton α) (hv : v.WF) {al al' : Alloc} (hal : al.Succeeds) (hal' : al'.Succeeds) {heap heap' : Addr}
    (hf : Fresh v (scratch heap (v.len / 2))) (hf' : Fresh v (scratch heap' (v.len / 2))) (s : St α (st.Q α κ) (st.A κ) σ) :
    ∃ s1, run o (sortStable st cfg v al heap) s = (.ok (), s1) ∧
      ∀ s2 : St α (st'.Q α κ') (st'.A κ') σ', s2.mem = s1.mem →
        ∃ s3, run o' (sortStable st' cfg v al' heap') s2 = (.ok (), s3) ∧ StableSortOf (lexOf lt1 lt2) (v.contents s.mem) (v.contents s3.mem) := by
  obtain ⟨s1, h1, h2, -⟩ := sort_sorts so2 ho hz hv hal hf s
  refine ⟨s1, h1, fun s2 e2 => ?_⟩
  obtain ⟨s3, h3, h4, -⟩ := sort_sorts so1 ho' hz hv hal' hf' s2
  rw [e2] at h4
  exact ⟨s3, h3, h2.lexOf so1 h4⟩

/-- C90 for `sort_unstable*` by the minor order: the array is sorted by both, but elements equal in both need not be in their original order. -/
theorem sort_unstable_minor_then_major (st : Style) (st' : Style) {cfg : Cfg} {v : View} {lt1 lt2 : α → α → Bool} (so1 : SWO lt1) (so2 : SWO lt2)
    {o : Oracle σ (st.Q α κ) (st.A κ)} (ho : Agrees st o lt2) {o' : Oracle σ' (st'.Q α κ') (st'.A κ')} (ho' : Agrees st' o' lt1)
    (hz : cfg.zst = true → Subsingleton α) (hv : v.WF) {al' : Alloc} (hal' : al'.Succeeds) {heap' : Addr}
    (hf' : Fresh v (scratch heap' (v.len / 2))) (s : St α (st.Q α κ) (st.A κ) σ) :
    ∃ s1, run o (sortUnstable st cfg v) s = (.ok (), s1) ∧
      ∀ s2 : St α (st'.Q α κ') (st'.A κ') σ', s2.mem = s1.mem →
        ∃ s3, run o' (sortStable st' cfg v al' heap') s2 = (.ok (), s3) ∧ Sorted (lexOf lt1 lt2) (v.contents s3.mem) ∧
          (v.contents s3.mem).Perm (v.contents s.mem) := by
  obtain ⟨s1, h1, h2, hp, -⟩ := sort_unstable_sorts so2 ho hz hv s
  refine ⟨s1, h1, fun s2 e2 => ?_⟩
  obtain ⟨s3, h3, h4, -⟩ := sort_sorts so1 ho' hz hv hal' hf' s2
  rw [e2] at h4
  exact ⟨s3, h3, h2.lexOf so1 h4, h4.perm.trans hp⟩

/-- C90 for `par_sort*`, on every schedule of both. -/
theorem par_sort_minor_then_major (st : Style) (st' : Style) {cfg : Cfg} {v : View} {lt1 lt2 : α → α → Bool} (so1 : SWO lt1) (so2 : SWO lt2)
    {o : Oracle σ (st.Q α κ) (st.A κ)} (ho : Agrees st o lt2) {o' : Oracle σ' (st'.Q α κ') (st'.A κ')} (ho' : Agrees st' o' lt1)
    (hz : cfg.zst = true → Subsingleton α) (hv : v.WF) {heap heap' : Addr}
    (hf : Fresh v (scratch heap v.len)) (hf' : Fresh v (scratch heap' v.len)) (s : St α (st.Q α κ) (st.A κ) σ) :
    Always o (parSortStable st cfg v heap) s
      (fun _ m => ∀ s2 : St α (st'.Q α κ') (st'.A κ') σ', s2.mem = m →
        Always o' (parSortStable st' cfg v heap') s2
          (fun _ m' => StableSortOf (lexOf lt1 lt2) (v.contents s.mem) (v.contents m')) (fun _ _ => False))
      (fun _ _ => False) := by
  refine (par_sort_sorts so2 ho hz hv hf s).mono (fun _ m h s2 e2 => ?_) (fun _ _ h => h)
  refine (par_sort_sorts so1 ho' hz hv hf' s2).mono (fun _ m' h' => ?_) (fun _ _ h => h)
  rw [e2] at h'
  exact h.1.lexOf so1 h'.1

/-- C90 for `sort_by_cached_key`: the array is the stable sort by the pairs of both keys. -/
theorem sort_by_cached_key_minor_then_major {cfg : Cfg} {sz sz' : Sizes} {srt : PairSort α κ} {srt' : PairSort α κ'} {v : View}
    (hs : SortsPairs srt) (hs' : SortsPairs srt')
    {o : Oracle σ (KeyQ α κ) (κ × Bool)} {f : α → κ} {klt : κ → κ → Bool} (ho : KeyAgrees o f klt) (so : SWO klt)
    {o' : Oracle σ' (KeyQ α κ') (κ' × Bool)} {f' : α → κ'} {klt' : κ' → κ' → Bool} (ho' : KeyAgrees o' f' klt') (so' : SWO klt')
    (hv : v.WF) (hlen : v.len ≤ 2 ^ cfg.bits) (s : St α (KeyQ α κ) (κ × Bool) σ) :
    ∃ s1, run o (sortByCachedKey cfg sz srt v) s = (.ok (), s1) ∧
      ∀ s2 : St α (KeyQ α κ') (κ' × Bool) σ', s2.mem = s1.mem →
        ∃ s3, run o' (sortByCachedKey cfg sz' srt' v) s2 = (.ok (), s3) ∧
          StableSortOf (lexOf (fun x y => klt' (f' x) (f' y)) (fun x y => klt (f x) (f y))) (v.contents s.mem) (v.contents s3.mem) := by
  obtain ⟨s1, h1, h2, -⟩ := sort_by_cached_key_sorts (cfg := cfg) (sz := sz) hs ho so hv hlen s
  refine ⟨s1, h1, fun s2 e2 => ?_⟩
  obtain ⟨s3, h3, h4, -⟩ := sort_by_cached_key_sorts (cfg := cfg) (sz := sz') hs' ho' so' hv hlen s2
  rw [e2] at h4
  exact ⟨s3, h3, h2.lexOf ⟨fun x => so'.irrefl _, fun x y z => so'.trans _ _ _, fun x y z => so'.ntrans _ _ _⟩ h4⟩

/-- C90 for `par_sort_by_cached_key`, on every schedule of both. -/
theorem par_sort_by_cached_key_minor_then_major {cfg : Cfg} {sz sz' : Sizes} {srt : PairSort α κ} {srt' : PairSort α κ'} {v : View}
    (hs : SortsPairs srt) (hs' : SortsPairs srt')
    {o : Oracle σ (KeyQ α κ) (κ × Bool)} {f : α → κ} {klt : κ → κ → Bool} (ho : KeyAgrees o f klt) (so : SWO klt)
    {o' : Oracle σ' (KeyQ α κ') (κ' × Bool)} {f' : α → κ'} {klt' : κ' → κ' → Bool} (ho' : KeyAgrees o' f' klt') (so' : SWO klt')
    (hv : v.WF) (hlen : v.len ≤ 2 ^ cfg.bits) (s : St α (KeyQ α κ) (κ × Bool) σ) :
    Always o (parSortByCachedKey cfg sz srt v) s
      (fun _ m => ∀ s2 : St α (KeyQ α κ') (κ' × Bool) σ', s2.mem = m →
        Always o' (parSortByCachedKey cfg sz' srt' v) s2
          (fun _ m' => StableSortOf (lexOf (fun x y => klt' (f' x) (f' y)) (fun x y => klt (f x) (f y))) (v.contents s.mem) (v.contents m'))
          (fun _ _ => False))
      (fun _ _ => False) := by
  refine (par_sort_by_cached_key_sorts (cfg := cfg) (sz := sz) hs ho so hv hlen s).mono (fun _ m h s2 e2 => ?_) (fun _ _ h => h)
  refine (par_sort_by_cached_key_sorts (cfg := cfg) (sz := sz') hs' ho' so' hv hlen s2).mono (fun _ m' h' => ?_) (fun _ _ h => h)
  rw [e2] at h'
  exact h.1.lexOf ⟨fun x => so'.irrefl _, fun x y z => so'.trans _ _ _, fun x y z => so'.ntrans _ _ _⟩ h'.1

/-! ### Sorting and `is_sorted` -/

theorem is_sorted_decides (st : RelStyle) {v : View} {lt : α → α → Bool} (so : SWO lt) {o : Oracle σ (st.Q α κ) (st.A κ)}
    (ho : st.Agrees o (fun x y => !lt y x)) (s : St α (st.Q α κ) (st.A κ) σ) :
    ∃ b s', run o (isSorted st v) s = (.ok b, s') ∧ s'.mem = s.mem ∧ (b = true ↔ Sorted lt (v.contents s.mem)) := by
  obtain ⟨b, s', h1, h2, -, h3⟩ := is_sorted_correct (v := v) st ho s
  refine ⟨b, s', h1, h2, (h3 fun x y z h h' => ?_).trans (by simp [Sorted])⟩
  simp only [Bool.not_eq_true'] at h h' ⊢
  exact so.ntrans _ _ _ h' h

/-- C92: `is_sorted*` says true exactly if `sort*` does not change the array, and it does so after `sort*`. -/
theorem is_sorted_iff_sort_fixes (st : RelStyle) (st' : Style) {cfg : Cfg} {v : View} {lt : α → α → Bool} (so : SWO lt)
    {o : Oracle σ (st.Q α κ) (st.A κ)} (ho : st.Agrees o (fun x y => !lt y x)) {o' : Oracle σ' (st'.Q α κ') (st'.A κ')} (ho' : Agrees st' o' lt)
    (hz : cfg.zst = true → Subsingleton α) (hv : v.WF) {al : Alloc} (hal : al.Succeeds) {heap : Addr}
    (hf : Fresh v (scratch heap (v.len / 2))) (s : St α (st.Q α κ) (st.A κ) σ) :
    ∃ b s1, run o (isSorted st v) s = (.ok b, s1) ∧
      ∀ s2 : St α (st'.Q α κ') (st'.A κ') σ', s2.mem = s1.mem →
        ∃ s3, run o' (sortStable st' cfg v al heap) s2 = (.ok (), s3) ∧ (b = true ↔ v.contents s3.mem = v.contents s.mem) ∧
          ∀ s4 : St α (st.Q α κ) (st.A κ) σ, s4.mem = s3.mem → ∃ s5, run o (isSorted st v) s4 = (.ok true, s5) := by
  obtain ⟨b, s1, h1, h2, h3⟩ := is_sorted_decides (v := v) st so ho s
  refine ⟨b, s1, h1, fun s2 e2 => ?_⟩
  obtain ⟨s3, h4, h5, -⟩ := sort_sorts so ho' hz hv hal hf s2
  rw [e2, h2] at h5
  refine ⟨s3, h4, h3.trans ⟨fun h => h5.unique so ⟨h, .refl _, fun _ => rfl⟩, fun h => h ▸ h5.sorted⟩, fun s4 e4 => ?_⟩
  obtain ⟨b', s5, g1, -, g3⟩ := is_sorted_decides (v := v) st so ho s4
  rw [g3.mpr (by rw [e4]; exact h5.sorted)] at g1
  exact ⟨s5, g1⟩

/-- C92 for `par_sort*`, on every schedule. -/
theorem is_sorted_iff_par_sort_fixes (st : RelStyle) (st' : Style) {cfg : Cfg} {v : View} {lt : α → α → Bool} (so : SWO lt)
    {o : Oracle σ (st.Q α κ) (st.A κ)} (ho : st.Agrees o (fun x y => !lt y x)) {o' : Oracle σ' (st'.Q α κ') (st'.A κ')} (ho' : Agrees st' o' lt)
    (hz : cfg.zst = true → Subsingleton α) (hv : v.WF) {heap : Addr}
    (hf : Fresh v (scratch heap v.len)) (s : St α (st.Q α κ) (st.A κ) σ) :
    ∃ b s1, run o (isSorted st v) s = (.ok b, s1) ∧
      ∀ s2 : St α (st'.Q α κ') (st'.A κ') σ', s2.mem = s1.mem →
        Always o' (parSortStable st' cfg v heap) s2 (fun _ m => (b = true ↔ v.contents m = v.contents s.mem) ∧
          ∀ s4 : St α (st.Q α κ) (st.A κ) σ, s4.mem = m → ∃ s5, run o (isSorted st v) s4 = (.ok true, s5)) (fun _ _ => False) := by
  obtain ⟨b, s1, h1, h2, h3⟩ := is_sorted_decides (v := v) st so ho s
  refine ⟨b, s1, h1, fun s2 e2 => ?_⟩
  refine (par_sort_sorts so ho' hz hv hf s2).mono (fun _ m h => ?_) (fun _ _ h => h)
  obtain ⟨h5, -⟩ := h
  rw [e2, h2] at h5
  refine ⟨h3.trans ⟨fun h => h5.unique so ⟨h, .refl _, fun _ => rfl⟩, fun h => h ▸ h5.sorted⟩, fun s4 e4 => ?_⟩
  obtain ⟨b', s5, g1, -, g3⟩ := is_sorted_decides (v := v) st so ho s4
  rw [g3.mpr (by rw [e4]; exact h5.sorted)] at g1
  exact ⟨s5, g1⟩

/-- C92 for `sort_unstable*`: it does not change a sorted array either. -/
theorem is_sorted_iff_sort_unstable_fixes (st : RelStyle) (st' : Style) {cfg : Cfg} {v : View} {lt : α → α → Bool} (so : SWO lt)
    {o : Oracle σ (st.Q α κ) (st.A κ)} (ho : st.Agrees o (fun x y => !lt y x)) {o' : Oracle σ' (st'.Q α κ') (st'.A κ')} (ho' : Agrees st' o' lt)
    (hz : cfg.zst = true → Subsingleton α) (hv : v.WF) (s : St α (st.Q α κ) (st.A κ) σ) :
    ∃ b s1, run o (isSorted st v) s = (.ok b, s1) ∧
      ∀ s2 : St α (st'.Q α κ') (st'.A κ') σ', s2.mem = s1.mem →
        ∃ s3, run o' (sortUnstable st' cfg v) s2 = (.ok (), s3) ∧ (b = true ↔ v.contents s3.mem = v.contents s.mem) ∧
          ∀ s4 : St α (st.Q α κ) (st.A κ) σ, s4.mem = s3.mem → ∃ s5, run o (isSorted st v) s4 = (.ok true, s5) := by
  obtain ⟨b, s1, h1, h2, h3⟩ := is_sorted_decides (v := v) st so ho s
  refine ⟨b, s1, h1, fun s2 e2 => ?_⟩
  obtain ⟨s3, h4, h5, -, -⟩ := sort_unstable_sorts so ho' hz hv s2
  refine ⟨s3, h4, ⟨fun h => ?_, fun h => h3.mpr (h ▸ h5)⟩, fun s4 e4 => ?_⟩
  · by_cases hzst : cfg.zst = true
    · have := hz hzst
      exact List.ext_getElem (by rw [View.contents_length, View.contents_length]) fun _ _ _ => Subsingleton.elim _ _
    · obtain ⟨s3', h6, h7, -⟩ := sort_unstable_already_sorted (v := v) (cfg := cfg) ho' (by simpa using hzst) s2 (by rw [e2, h2]; exact h3.mp h)
      rw [h4] at h6
      cases h6
      rw [h7, e2, h2]
  obtain ⟨b', s5, g1, -, g3⟩ := is_sorted_decides (v := v) st so ho s4
  rw [g3.mpr (by rw [e4]; exact h5)] at g1
  exact ⟨s5, g1⟩

/-- C92 for `par_sort_unstable*`, on every schedule. -/
theorem is_sorted_iff_par_sort_unstable_fixes (st : RelStyle) (st' : Style) {cfg : Cfg} {v : View} {lt : α → α → Bool} (so : SWO lt)
    {o : Oracle σ (st.Q α κ) (st.A κ)} (ho : st.Agrees o (fun x y => !lt y x)) {o' : Oracle σ' (st'.Q α κ') (st'.A κ')} (ho' : Agrees st' o' lt)
    (hz : cfg.zst = true → Subsingleton α) (hv : v.WF) (s : St α (st.Q α κ) (st.A κ) σ) :
    ∃ b s1, run o (isSorted st v) s = (.ok b, s1) ∧
      ∀ s2 : St α (st'.Q α κ') (st'.A κ') σ', s2.mem = s1.mem →
        ∀ s3, Steps o' (parSortUnstable st' cfg v) s2 (.ret ()) s3 → (b = true ↔ v.contents s3.mem = v.contents s.mem) ∧
          ∀ s4 : St α (st.Q α κ) (st.A κ) σ, s4.mem = s3.mem → ∃ s5, run o (isSorted st v) s4 = (.ok true, s5) := by
  obtain ⟨b, s1, h1, h2, h3⟩ := is_sorted_decides (v := v) st so ho s
  refine ⟨b, s1, h1, fun s2 e2 s3 h4 => ?_⟩
  obtain ⟨h5, -, -⟩ := Always.ret (par_sort_unstable_sorts (cfg := cfg) so ho' hz hv s2) h4
  refine ⟨⟨fun h => ?_, fun h => h3.mpr (h ▸ h5)⟩, fun s4 e4 => ?_⟩
  · by_cases hzst : cfg.zst = true
    · have := hz hzst
      exact List.ext_getElem (by rw [View.contents_length, View.contents_length]) fun _ _ _ => Subsingleton.elim _ _
    · rw [(par_sort_unstable_already_sorted (v := v) (cfg := cfg) ho' (by simpa using hzst) s2 (by rw [e2, h2]; exact h3.mp h) h4).1, e2, h2]
  obtain ⟨b', s5, g1, -, g3⟩ := is_sorted_decides (v := v) st so ho s4
  rw [g3.mpr (by rw [e4]; exact h5)] at g1
  exact ⟨s5, g1⟩

/-- C92 for `sort_by_cached_key`. -/
theorem is_sorted_iff_sort_by_cached_key_fixes (st : RelStyle) {cfg : Cfg} {sz : Sizes} {srt : PairSort α κ'} {v : View} (hs : SortsPairs srt)
    {f : α → κ'} {klt : κ' → κ' → Bool} (so : SWO klt)
    {o : Oracle σ (st.Q α κ) (st.A κ)} (ho : st.Agrees o (fun x y => !klt (f y) (f x))) {o' : Oracle σ' (KeyQ α κ') (κ' × Bool)}
    (ho' : KeyAgrees o' f klt) (hv : v.WF) (hlen : v.len ≤ 2 ^ cfg.bits) (s : St α (st.Q α κ) (st.A κ) σ) :
    ∃ b s1, run o (isSorted st v) s = (.ok b, s1) ∧
      ∀ s2 : St α (KeyQ α κ') (κ' × Bool) σ', s2.mem = s1.mem →
        ∃ s3, run o' (sortByCachedKey cfg sz srt v) s2 = (.ok (), s3) ∧ (b = true ↔ v.contents s3.mem = v.contents s.mem) ∧
          ∀ s4 : St α (st.Q α κ) (st.A κ) σ, s4.mem = s3.mem → ∃ s5, run o (isSorted st v) s4 = (.ok true, s5) := by
  have sf : SWO (fun x y => klt (f x) (f y)) := ⟨fun x => so.irrefl _, fun x y z => so.trans _ _ _, fun x y z => so.ntrans _ _ _⟩
  obtain ⟨b, s1, h1, h2, h3⟩ := is_sorted_decides (v := v) st sf ho s
  refine ⟨b, s1, h1, fun s2 e2 => ?_⟩
  obtain ⟨s3, h4, h5, -⟩ := sort_by_cached_key_sorts (cfg := cfg) (sz := sz) hs ho' so hv hlen s2
  rw [e2, h2] at h5
  refine ⟨s3, h4, h3.trans ⟨fun h => h5.unique sf ⟨h, .refl _, fun _ => rfl⟩, fun h => h ▸ h5.sorted⟩, fun s4 e4 => ?_⟩
  obtain ⟨b', s5, g1, -, g3⟩ := is_sorted_decides (v := v) st sf ho s4
  rw [g3.mpr (by rw [e4]; exact h5.sorted)] at g1
  exact ⟨s5, g1⟩

/-- C92 for `par_sort_by_cached_key`, on every schedule. -/
theorem is_sorted_iff_par_sort_by_cached_key_fixes (st : RelStyle) {cfg : Cfg} {sz : Sizes} {srt : PairSort α κ'} {v : View} (hs : SortsPairs srt)
    {f : α → κ'} {klt : κ' → κ' → Bool} (so : SWO klt)
    {o : Oracle σ (st.Q α κ) (st.A κ)} (ho : st.Agrees o (fun x y => !klt (f y) (f x))) {o' : Oracle σ' (KeyQ α κ') (κ' × Bool)}
    (ho' : KeyAgrees o' f klt) (hv : v.WF) (hlen : v.len ≤ 2 ^ cfg.bits) (s : St α (st.Q α κ) (st.A κ) σ) :
    ∃ b s1, run o (isSorted st v) s = (.ok b, s1) ∧
      ∀ s2 : St α (KeyQ α κ') (κ' × Bool) σ', s2.mem = s1.mem →
        Always o' (parSortByCachedKey cfg sz srt v) s2 (fun _ m => (b = true ↔ v.contents m = v.contents s.mem) ∧
          ∀ s4 : St α (st.Q α κ) (st.A κ) σ, s4.mem = m → ∃ s5, run o (isSorted st v) s4 = (.ok true, s5)) (fun _ _ => False) := by
  have sf : SWO (fun x y => klt (f x) (f y)) := ⟨fun x => so.irrefl _, fun x y z => so.trans _ _ _, fun x y z => so.ntrans _ _ _⟩
  obtain ⟨b, s1, h1, h2, h3⟩ := is_sorted_decides (v := v) st sf ho s
  refine ⟨b, s1, h1, fun s2 e2 => ?_⟩
  refine (par_sort_by_cached_key_sorts (cfg := cfg) (sz := sz) hs ho' so hv hlen s2).mono (fun _ m h => ?_) (fun _ _ h => h)
  obtain ⟨h5, -⟩ := h
  rw [e2, h2] at h5
  refine ⟨h3.trans ⟨fun h => h5.unique sf ⟨h, .refl _, fun _ => rfl⟩, fun h => h ▸ h5.sorted⟩, fun s4 e4 => ?_⟩
  obtain ⟨b', s5, g1, -, g3⟩ := is_sorted_decides (v := v) st sf ho s4
  rw [g3.mpr (by rw [e4]; exact h5.sorted)] at g1
  exact ⟨s5, g1⟩

/-! ### The hypotheses can be met -/

namespace Sample

/-- The key is the number of tens. -/
def tensOracle : Oracle Unit (KeyQ Nat Nat) (Nat × Bool) :=
  ⟨fun _ q => (some (match q with | .key x => (x / 10, true) | .lt k l => (0, lt k l)), ()), fun _ => (true, ())⟩

theorem tensAgrees : KeyAgrees tensOracle (· / 10) lt := ⟨fun _ _ => ⟨_, rfl⟩, fun _ _ _ => ⟨_, rfl⟩⟩

theorem leAgrees (st : RelStyle) : st.Agrees (relOracle st) (fun x y => !lt y x) := by
  have : (fun x y => !lt y x) = le := by funext x y; rw [Bool.eq_iff_iff]; simp [lt, le]
  rw [this]
  exact relAgrees st

/-- User code of `is_sorted_by`: compares last digits. -/
def digitLeOracle : Oracle Unit (RelStyle.rel.Q Nat Nat) (RelStyle.rel.A Nat) := ⟨fun _ q => (some (!lt (q.2 % 10) (q.1 % 10)), ()), fun _ => (true, ())⟩

theorem digitLeAgrees : RelStyle.rel.Agrees digitLeOracle (fun x y => !lt (y % 10) (x % 10)) := fun _ _ _ => rfl

theorem tensSwo : SWO (fun x y : Nat => lt (x / 10) (y / 10)) :=
  ⟨fun _ => swo.irrefl _, fun _ _ _ => swo.trans _ _ _, fun _ _ _ => swo.ntrans _ _ _⟩

theorem digitSwo : SWO (fun x y : Nat => lt (x % 10) (y % 10)) :=
  ⟨fun _ => swo.irrefl _, fun _ _ _ => swo.trans _ _ _, fun _ _ _ => swo.ntrans _ _ _⟩

theorem tensAgrees' : Agrees .key tensOracle (fun x y : Nat => lt (x / 10) (y / 10)) :=
  ⟨(· / 10), lt, fun _ _ => ⟨_, rfl⟩, fun _ _ _ => ⟨_, rfl⟩, fun _ _ => rfl⟩

theorem digitAgrees : Agrees .key keyOracle (fun x y : Nat => lt (x % 10) (y % 10)) :=
  ⟨(· % 10), lt, fun _ _ => ⟨_, rfl⟩, fun _ _ _ => ⟨_, rfl⟩, fun _ _ => rfl⟩

example (st st' st'' : Style) := select_then_sort (v := view) (cfg := release) (k := 23) st st' st'' swo (agrees st) (agrees st') (agrees st'') notZst rfl wf
  (by decide) (state st)
-- by the last digit, then by the number of tens
example := sort_minor_then_major (v := view) (cfg := cfg) .key .key tensSwo digitSwo digitAgrees tensAgrees' notZst wf
  alloc_succeeds alloc_succeeds fresh fresh (state .key)
example := sort_unstable_minor_then_major (v := view) (cfg := cfg) .key .key tensSwo digitSwo digitAgrees tensAgrees' notZst wf
  alloc_succeeds fresh (state .key)
example := par_sort_minor_then_major (v := long) (cfg := cfg) .key .key tensSwo digitSwo digitAgrees tensAgrees' notZst long_wf
  long_fresh long_fresh (state .key)
example (st : RelStyle) (st' : Style) := is_sorted_iff_sort_fixes (v := view) (cfg := cfg) st st' swo (leAgrees st) (agrees st') notZst wf
  alloc_succeeds fresh ⟨mem, (), []⟩
example (st : RelStyle) (st' : Style) := is_sorted_iff_par_sort_fixes (v := long) (cfg := cfg) st st' swo (leAgrees st) (agrees st') notZst long_wf
  long_fresh ⟨mem, (), []⟩
example (st : RelStyle) (st' : Style) := is_sorted_iff_sort_unstable_fixes (v := view) (cfg := cfg) st st' swo (leAgrees st) (agrees st') notZst wf
  ⟨mem, (), []⟩
example (st : RelStyle) (st' : Style) := is_sorted_iff_par_sort_unstable_fixes (v := view) (cfg := cfg) st st' swo (leAgrees st) (agrees st') notZst wf
  ⟨mem, (), []⟩
example := is_sorted_iff_sort_by_cached_key_fixes (v := view) (cfg := cfg) (sz := sizes) .rel pairSort_sorts swo digitLeAgrees keyAgrees wf (by decide)
  ⟨mem, (), []⟩
example := is_sorted_iff_par_sort_by_cached_key_fixes (v := view) (cfg := cfg) (sz := sizes) .rel pairSort_sorts swo digitLeAgrees keyAgrees wf (by decide)
  ⟨mem, (), []⟩
example := par_sort_by_cached_key_minor_then_major (cfg := cfg) (sz := sizes) (sz' := sizes) (v := view) pairSort_sorts pairSort_sorts keyAgrees swo tensAgrees swo
  wf (by decide) keyState
example := sort_by_cached_key_minor_then_major (cfg := cfg) (sz := sizes) (sz' := sizes) (v := view) pairSort_sorts pairSort_sorts keyAgrees swo tensAgrees swo
  wf (by decide) keyState
-- an order in which 12 is before 21, but 21 before 12 by the last digits
example : lexOf (fun x y : Nat => lt (x / 10) (y / 10)) (fun x y => lt (x % 10) (y % 10)) 12 21 = true ∧ lt (21 % 10) (12 % 10) = true := by decide

end Sample

end NdSlice
