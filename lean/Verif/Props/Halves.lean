import Verif.Props.Together
import Verif.Props.SelectRows

/-
Selecting, then sorting both parts at the same time (C100), see also `select_then_sort` in Verif/Props/Together.lean.
-/

namespace NdSlice

open Style

variable {α κ σ : Type}

/-- `sort_unstable*` or `par_sort_unstable*`. -/
def unstableSort (par : Bool) (st : Style) (cfg : Cfg) (v : View) : Prog α (st.Q α κ) (st.A κ) Unit :=
  if par then parSortUnstable st cfg v else sortUnstable st cfg v

/-- `select_nth_unstable*(k)`, then `rayon::join` of a sort of what is on the left and of a sort of what is on the right.  User code; not part of /repo. -/
def selectThenSort (pl pr : Bool) (st : Style) (cfg : Cfg) (v : View) (k : Nat) : Prog α (st.Q α κ) (st.A κ) Addr := do
  let (left, nth, right) ← selectNthUnstable st cfg v k
  let _ ← Prog.rayonJoin (unstableSort pl st cfg left) (unstableSort pr st cfg right)
  pure nth

theorem unstableSort_tri (par : Bool) (st : Style) (R : st.Q α κ → Option (st.A κ) → Prop) {cfg : Cfg} (hz : cfg.zst = true → Subsingleton α) {v : View}
    {xs : List α} (hx : xs.length = v.len) :
    Tri R v.region (unstableSort par st cfg v) xs (fun _ ys => ys.Perm xs ∧ ∀ lt, (st.toCmp R).Good lt → Sorted lt ys) (EP (st.toCmp R) xs) := by
  unfold unstableSort
  cases par with
  | true => exact parQuickSort_spec (C := st.toCmp R) (cfg := cfg) (v := v) hz hx
  | false => exact quickSort_spec (C := st.toCmp R) (cfg := cfg) (v := v) hz hx

theorem selectThenSort_tri (pl pr : Bool) (st : Style) (R : st.Q α κ → Option (st.A κ) → Prop) {cfg : Cfg} (hz : cfg.zst = true → Subsingleton α) {v : View}
    {k : Nat} (hk : k < v.len) {xs : List α} (hx : xs.length = v.len) :
    Tri R v.region (selectThenSort pl pr st cfg v k) xs
      (fun r ys => r = v.addr k ∧ ys.Perm xs ∧ ∀ lt, SWO lt → (st.toCmp R).Good lt → Sorted lt ys)
      (fun e ys => ((e = .user ∧ (st.toCmp R).pan) ∨ (e = .debugAssert ∧ cfg.dbg = true)) ∧ ys.Perm xs) := by
  unfold selectThenSort
  refine (partitionAtIndex_spec (st.toCmp R) (cfg := cfg) (v := v) hz hx hk).bind ?_
  rintro r ys hl ⟨rfl, hp, hs⟩
  -- the contents as the two parts and the element between them
  obtain ⟨A, p, B, rfl, hA⟩ : ∃ A p B, ys = A ++ p :: B ∧ A.length = k := by
    have hk' : k < ys.length := by omega
    exact ⟨ys.take k, ys[k], ys.drop (k + 1), by rw [← List.drop_eq_getElem_cons hk', List.take_append_drop], by rw [List.length_take]; omega⟩
  have hB : B.length = v.len - (k + 1) := by simp at hl; omega
  have hreg : v.region = (v.sub 0 k).region ++ [v.addr k] ++ (v.sub (k + 1) (v.len - (k + 1))).region := by
    rw [View.region_three hk, List.append_cons]
  rw [hreg]
  have e : ∀ A B : List α, A ++ p :: B = A ++ [p] ++ B := fun A B => by simp
  have hj := Tri.rayonJoin (R := R) (p := unstableSort pl st cfg (v.sub 0 k)) (q := unstableSort pr st cfg (v.sub (k + 1) (v.len - (k + 1)))) (A := A) (B := B)
    (Q := fun _ ys => ∃ A' B', ys = A' ++ B' ∧ A'.length = k ∧ A'.Perm A ∧ B'.Perm B ∧ ∀ lt, (st.toCmp R).Good lt → Sorted lt A' ∧ Sorted lt B')
    (E := fun e ys => (e = .user ∧ (st.toCmp R).pan) ∧ ∃ A' B', ys = A' ++ B' ∧ A'.length = k ∧ A'.Perm A ∧ B'.Perm B)
    (by simp [hA]) (unstableSort_tri pl st R hz (by simp [hA])) (unstableSort_tri pr st R hz (by simp [hB]))
    (fun _ _ A' B' h1 _ h3 h4 => ⟨A', B', rfl, h1.trans hA, h3.1, h4.1, fun lt hg => ⟨h3.2 lt hg, h4.2 lt hg⟩⟩)
    (fun _ _ A' B' h1 _ h3 h4 => ⟨⟨h3.1, h3.2.1⟩, A', B', rfl, h1.trans hA, h3.2.2, h4.1⟩)
    (fun _ _ A' B' h1 _ h3 h4 => ⟨⟨h4.1, h4.2.1⟩, A', B', rfl, h1.trans hA, h3.1, h4.2.2⟩)
    (fun _ _ A' B' h1 _ h3 h4 => ⟨⟨h3.1, h3.2.1⟩, A', B', rfl, h1.trans hA, h3.2.2, h4.2.2⟩)
  rw [e]
  refine ((hj.outer (mid := [v.addr k]) (M := [p]) (by simp [hA]) rfl).mono (fun _ _ _ h => h) ?_).bind ?_
  · rintro _ _ _ ⟨A1, B1, h1, rfl, h2, A', B', h3, h4, h5, h6⟩
    obtain ⟨rfl, rfl⟩ := List.append_inj h3 (by omega)
    refine ⟨.inl h2, ?_⟩
    rw [← e]
    exact (h5.append (h6.cons p)).trans hp
  · rintro _ _ _ ⟨A1, B1, h1, rfl, A', B', h3, h4, h5, h6, h7⟩
    obtain ⟨rfl, rfl⟩ := List.append_inj h3 (by omega)
    refine Tri.pure ⟨rfl, ?_, fun lt so hg => ?_⟩
    · rw [← e]
      exact (h5.append (h6.cons p)).trans hp
    · obtain ⟨A2, p2, B2, g1, g2, g3, g4⟩ := hs lt hg
      obtain ⟨rfl, g5⟩ := List.append_inj g1 (by omega)
      obtain ⟨rfl, rfl⟩ := List.cons.inj g5
      rw [← e]
      unfold Sorted
      rw [List.pairwise_append, List.pairwise_cons]
      refine ⟨(h7 lt hg).1, ⟨fun b hb => g4 b (h6.mem_iff.mp hb), (h7 lt hg).2⟩, fun a ha b hb => ?_⟩
      have ha := g3 a (h5.mem_iff.mp ha)
      rcases List.mem_cons.mp hb with rfl | hb
      · exact ha
      · exact so.ntrans _ _ _ (g4 b (h6.mem_iff.mp hb)) ha

/-- C100 (release builds): `select_nth_unstable*(k)`, then sorting both parts it returns at the same time, sorts the whole array on every schedule, without a race,
undefined behaviour or a deadlock; the reference to the element selected stays good, and nothing outside of the array changes. -/
theorem select_then_sort_at_once (pl pr : Bool) (st : Style) {cfg : Cfg} {v : View} {lt : α → α → Bool} (so : SWO lt) {o : Oracle σ (st.Q α κ) (st.A κ)}
    (ho : Agrees st o lt) (hz : cfg.zst = true → Subsingleton α) (hdbg : cfg.dbg = false) (hv : v.WF) {k : Nat} (hk : k < v.len)
    (s : St α (st.Q α κ) (st.A κ) σ) :
    Always o (selectThenSort pl pr st cfg v k) s
      (fun r m => Sorted lt (v.contents m) ∧ (v.contents m).Perm (v.contents s.mem) ∧ (v.contents m)[k]? = some (m r) ∧ ∀ a, a ∉ v.region → m a = s.mem a)
      (fun _ _ => False) := by
  refine (Tri.always (rel_sat o) hv (selectThenSort_tri pl pr st (rel o) (cfg := cfg) hz hk (View.contents_length v s.mem))).mono ?_ ?_
  · rintro _ m ⟨⟨rfl, h1, h2⟩, h3⟩
    refine ⟨h2 lt so (good_of_agrees ho so), h1, ?_, h3⟩
    rw [View.contents, List.getElem?_map, View.region_get v hk]
    rfl
  · rintro e m ⟨⟨h | h, -⟩, -⟩
    · exact pan_iff (noPanic_of_agrees ho) h.2
    · rw [hdbg] at h; exact Bool.false_ne_true h.2

/-- C100 in all builds with any user code: the array stays a permutation of itself, also when user code panics in one of the sorts while the other one runs. -/
theorem select_then_sort_at_once_safe (pl pr : Bool) (st : Style) {cfg : Cfg} {v : View} (o : Oracle σ (st.Q α κ) (st.A κ)) (hz : cfg.zst = true → Subsingleton α)
    (hv : v.WF) {k : Nat} (hk : k < v.len) (s : St α (st.Q α κ) (st.A κ) σ) :
    Always o (selectThenSort pl pr st cfg v k) s
      (fun _ m => (v.contents m).Perm (v.contents s.mem) ∧ ∀ a, a ∉ v.region → m a = s.mem a)
      (fun e m => ((e = .user ∧ ¬ NoPanic o) ∨ (e = .debugAssert ∧ cfg.dbg = true)) ∧ (v.contents m).Perm (v.contents s.mem) ∧
        ∀ a, a ∉ v.region → m a = s.mem a) :=
  (Tri.always (rel_sat o) hv (selectThenSort_tri pl pr st (rel o) (cfg := cfg) hz hk (View.contents_length v s.mem))).mono
    (fun _ _ h => ⟨h.1.2.1, h.2⟩) (fun _ _ h => ⟨h.1.1.imp (fun h => ⟨h.1, fun hn => pan_iff hn h.2⟩) id, h.1.2, h.2⟩)

/-! ### Many indices -/

/-- Sort what is between the positions `is`, all at the same time; `w` is the array from position `off` on.  User code; not part of /repo. -/
def sortGaps (par : Bool) (st : Style) (cfg : Cfg) : View → Nat → List Nat → Prog α (st.Q α κ) (st.A κ) Unit
  | w, _, [] => unstableSort par st cfg w
  | w, off, i :: is => do
    let _ ← Prog.rayonJoin (unstableSort par st cfg (w.sub 0 (i - off))) (sortGaps par st cfg (w.sub (i - off + 1) (w.len - (i - off + 1))) (i + 1) is)
    pure ()

/-- `select_many_nth_unstable*`, then the sorts of all the gaps at the same time.  User code; not part of /repo. -/
def selectManyThenSort (par : Bool) (st : Style) (cfg : Cfg) (v : View) (is : List Nat) : Prog α (st.Q α κ) (st.A κ) (List (Nat × Addr)) := do
  let rs ← selectManyNthUnstable st cfg v is
  let _ ← sortGaps par st cfg v 0 is
  pure rs

theorem SelectedAt.after {lt : α → α → Bool} {j : Nat} {A B : List α} {p : α} (h : SelectedAt lt j (A ++ p :: B)) (hj : A.length < j) :
    SelectedAt lt (j - (A.length + 1)) B := by
  obtain ⟨A2, p2, B2, h1, h2, h3, h4⟩ := h
  refine ⟨A2.drop (A.length + 1), p2, B2, ?_, by rw [List.length_drop, h2], fun a ha => h3 a (List.mem_of_mem_drop ha), h4⟩
  have h5 := congrArg (List.drop (A.length + 1)) h1
  rw [List.append_cons, List.drop_left' (by simp), List.drop_append_of_le_length (by omega)] at h5
  exact h5

theorem sortGaps_tri (par : Bool) (st : Style) (R : st.Q α κ → Option (st.A κ) → Prop) {cfg : Cfg} (hz : cfg.zst = true → Subsingleton α) (is : List Nat)
    {w : View} {off : Nat} (hi : ValidIdx off w.len is) {xs : List α} (hx : xs.length = w.len) :
    Tri R w.region (sortGaps par st cfg w off is) xs
      (fun _ ys => ys.Perm xs ∧ ∀ lt, SWO lt → (st.toCmp R).Good lt → (∀ i ∈ is, SelectedAt lt (i - off) xs) → Sorted lt ys) (EP (st.toCmp R) xs) := by
  induction is generalizing w off xs with
  | nil => exact (unstableSort_tri par st R hz hx).mono (fun _ _ _ h => ⟨h.1, fun lt _ hg _ => h.2 lt hg⟩) (fun _ _ _ h => h)
  | cons i is ih =>
    obtain ⟨⟨h1, h2⟩, -, h3⟩ := (validIdx_split (A := [])).mp hi
    have hk : i - off < w.len := by omega
    have ho : ∀ j ∈ is, i < j := (List.pairwise_cons.mp hi.1).1
    generalize hke : i - off = k at *
    obtain ⟨A, p, B, rfl, hA⟩ : ∃ A p B, xs = A ++ p :: B ∧ A.length = k := by
      have hk' : k < xs.length := by omega
      exact ⟨xs.take k, xs[k], xs.drop (k + 1), by rw [← List.drop_eq_getElem_cons hk', List.take_append_drop], by rw [List.length_take]; omega⟩
    have hB : B.length = w.len - (k + 1) := by simp at hx; omega
    have hreg : w.region = (w.sub 0 k).region ++ [w.addr k] ++ (w.sub (k + 1) (w.len - (k + 1))).region := by
      rw [View.region_three hk, List.append_cons]
    rw [hreg, sortGaps, hke]
    have e : ∀ A B : List α, A ++ p :: B = A ++ [p] ++ B := fun A B => by simp
    have hj := Tri.rayonJoin (R := R) (p := unstableSort par st cfg (w.sub 0 k)) (q := sortGaps par st cfg (w.sub (k + 1) (w.len - (k + 1))) (i + 1) is) (A := A) (B := B)
      (Q := fun _ ys => ∃ A' B', ys = A' ++ B' ∧ A'.length = k ∧ A'.Perm A ∧ B'.Perm B ∧ ∀ lt, SWO lt → (st.toCmp R).Good lt →
        (∀ j ∈ is, SelectedAt lt (j - (i + 1)) B) → Sorted lt A' ∧ Sorted lt B')
      (E := fun e ys => (e = .user ∧ (st.toCmp R).pan) ∧ ∃ A' B', ys = A' ++ B' ∧ A'.length = k ∧ A'.Perm A ∧ B'.Perm B)
      (by simp [hA]) (unstableSort_tri par st R hz (by simp [hA])) (ih h3 (by simp [hB]))
      (fun _ _ A' B' h1 _ h3 h4 => ⟨A', B', rfl, h1.trans hA, h3.1, h4.1, fun lt so hg hs => ⟨h3.2 lt hg, h4.2 lt so hg hs⟩⟩)
      (fun _ _ A' B' h1 _ h3 h4 => ⟨⟨h3.1, h3.2.1⟩, A', B', rfl, h1.trans hA, h3.2.2, h4.1⟩)
      (fun _ _ A' B' h1 _ h3 h4 => ⟨⟨h4.1, h4.2.1⟩, A', B', rfl, h1.trans hA, h3.1, h4.2.2⟩)
      (fun _ _ A' B' h1 _ h3 h4 => ⟨⟨h3.1, h3.2.1⟩, A', B', rfl, h1.trans hA, h3.2.2, h4.2.2⟩)
    rw [e]
    refine ((hj.outer (mid := [w.addr k]) (M := [p]) (by simp [hA]) rfl).mono (fun _ _ _ h => h) ?_).bind ?_
    · rintro _ _ _ ⟨A1, B1, h1, rfl, h2, A', B', h3, h4, h5, h6⟩
      obtain ⟨rfl, rfl⟩ := List.append_inj h3 (by omega)
      refine ⟨h2.1, h2.2, ?_⟩
      rw [← e, ← e]
      exact h5.append (h6.cons p)
    · rintro _ _ _ ⟨A1, B1, h1', rfl, A', B', h3, h4, h5, h6, h7⟩
      obtain ⟨rfl, rfl⟩ := List.append_inj h3 (by omega)
      refine Tri.pure ⟨?_, fun lt so hg hs => ?_⟩
      · rw [← e, ← e]
        exact h5.append (h6.cons p)
      · rw [← e] at hs ⊢
        obtain ⟨A2, p2, B2, g1, g2, g3, g4⟩ := hs i List.mem_cons_self
        obtain ⟨rfl, g5⟩ := List.append_inj g1 (by omega)
        obtain ⟨rfl, rfl⟩ := List.cons.inj g5
        obtain ⟨s1, s2⟩ := h7 lt so hg fun j hj => by
          have := (hs j (List.mem_cons_of_mem _ hj)).after (by have := ho j hj; omega)
          rwa [show j - off - (A.length + 1) = j - (i + 1) by omega] at this
        unfold Sorted
        rw [List.pairwise_append, List.pairwise_cons]
        refine ⟨s1, ⟨fun b hb => g4 b (h6.mem_iff.mp hb), s2⟩, fun a ha b hb => ?_⟩
        have ha := g3 a (h5.mem_iff.mp ha)
        rcases List.mem_cons.mp hb with rfl | hb
        · exact ha
        · exact so.ntrans _ _ _ (g4 b (h6.mem_iff.mp hb)) ha

theorem selectManyThenSort_tri (par : Bool) (st : Style) (R : st.Q α κ → Option (st.A κ) → Prop) {cfg : Cfg} (hz : cfg.zst = true → Subsingleton α) {v : View}
    (hb : 2 * v.len ≤ 2 ^ cfg.bits) {is : List Nat} (hi : GoodIndices v.len is) {xs : List α} (hx : xs.length = v.len) :
    Tri R v.region (selectManyThenSort par st cfg v is) xs
      (fun r ys => r = is.map (fun i => (i, v.addr i)) ∧ ys.Perm xs ∧ ∀ lt, SWO lt → (st.toCmp R).Good lt → Sorted lt ys)
      (fun e ys => ((e = .user ∧ (st.toCmp R).pan) ∨ (e = .debugAssert ∧ cfg.dbg = true)) ∧ ys.Perm xs) := by
  unfold selectManyThenSort
  refine ((selectMany_spec (st.toCmp R) (cfg := cfg) (v := v) hz (is := is) hx hb).mono (fun _ _ hl h => And.intro hl h) ?_).bind ?_
  · rintro e ys - ⟨h1, h | h | h⟩
    · exact ⟨.inl h, h1⟩
    · exact ⟨.inr h, h1⟩
    · exact (h.1 (validIdx_iff.mpr hi)).elim
  · rintro _ ys _ ⟨hl, h1, rfl, h2, h3⟩
    refine ((sortGaps_tri par st R (cfg := cfg) hz is h1 (hl.trans hx)).mono (fun _ _ _ h => h) (fun _ _ _ h => ⟨.inl ⟨h.1, h.2.1⟩, h.2.2.trans h2⟩)).bind ?_
    exact fun _ zs _ h => Tri.pure ⟨rfl, h.1.trans h2, fun lt so hg => h.2 lt so hg (h3 lt hg)⟩

/-- C100 (release builds) for many indices: `select_many_nth_unstable*`, then sorting all the gaps between the elements selected at the same time, sorts the whole
array on every schedule; the references returned stay good. -/
theorem select_many_then_sort_at_once (par : Bool) (st : Style) {cfg : Cfg} {v : View} {lt : α → α → Bool} (so : SWO lt) {o : Oracle σ (st.Q α κ) (st.A κ)}
    (ho : Agrees st o lt) (hz : cfg.zst = true → Subsingleton α) (hdbg : cfg.dbg = false) (hv : v.WF) (hb : 2 * v.len ≤ 2 ^ cfg.bits) {is : List Nat}
    (hi : GoodIndices v.len is) (s : St α (st.Q α κ) (st.A κ) σ) :
    Always o (selectManyThenSort par st cfg v is) s
      (fun r m => Sorted lt (v.contents m) ∧ (v.contents m).Perm (v.contents s.mem) ∧ r.map Prod.fst = is ∧ (∀ x ∈ r, (v.contents m)[x.1]? = some (m x.2)) ∧
        ∀ a, a ∉ v.region → m a = s.mem a)
      (fun _ _ => False) := by
  refine (Tri.always (rel_sat o) hv (selectManyThenSort_tri par st (rel o) (cfg := cfg) hz hb hi (View.contents_length v s.mem))).mono ?_ ?_
  · rintro _ m ⟨⟨rfl, h1, h2⟩, h3⟩
    refine ⟨h2 lt so (good_of_agrees ho so), h1, by simp [Function.comp_def], fun x hx => ?_, h3⟩
    obtain ⟨i, hi', rfl⟩ := List.mem_map.mp hx
    rw [View.contents, List.getElem?_map, View.region_get v (hi.2 i hi')]
    rfl
  · rintro e m ⟨⟨h | h, -⟩, -⟩
    · exact pan_iff (noPanic_of_agrees ho) h.2
    · rw [hdbg] at h; exact Bool.false_ne_true h.2

/-- C100 for many indices in all builds with any user code: the array stays a permutation of itself, also when user code panics in one of the sorts. -/
theorem select_many_then_sort_at_once_safe (par : Bool) (st : Style) {cfg : Cfg} {v : View} (o : Oracle σ (st.Q α κ) (st.A κ)) (hz : cfg.zst = true → Subsingleton α)
    (hv : v.WF) (hb : 2 * v.len ≤ 2 ^ cfg.bits) {is : List Nat} (hi : GoodIndices v.len is) (s : St α (st.Q α κ) (st.A κ) σ) :
    Always o (selectManyThenSort par st cfg v is) s
      (fun _ m => (v.contents m).Perm (v.contents s.mem) ∧ ∀ a, a ∉ v.region → m a = s.mem a)
      (fun e m => ((e = .user ∧ ¬ NoPanic o) ∨ (e = .debugAssert ∧ cfg.dbg = true)) ∧ (v.contents m).Perm (v.contents s.mem) ∧
        ∀ a, a ∉ v.region → m a = s.mem a) :=
  (Tri.always (rel_sat o) hv (selectManyThenSort_tri par st (rel o) (cfg := cfg) hz hb hi (View.contents_length v s.mem))).mono
    (fun _ _ h => ⟨h.1.2.1, h.2⟩) (fun _ _ h => ⟨h.1.1.imp (fun h => ⟨h.1, fun hn => pan_iff hn h.2⟩) id, h.1.2, h.2⟩)

/-! ### The hypotheses can be met -/

namespace Sample

example (pl pr : Bool) (st : Style) := select_then_sort_at_once (v := view) pl pr st swo (agrees st) (cfg := release) notZst rfl wf (k := 17) (by decide) (state st)
example (pl pr : Bool) (st : Style) := select_then_sort_at_once_safe (v := view) pl pr st (cfg := cfg) (nonsense st) notZst wf (k := 17) (by decide) (nstate st)

theorem gaps : GoodIndices view.len [3, 4, 17, 29] := by unfold GoodIndices; decide

example (par : Bool) (st : Style) := select_many_then_sort_at_once (v := view) par st swo (agrees st) (cfg := release) notZst rfl wf (by decide) gaps (state st)
example (par : Bool) (st : Style) := select_many_then_sort_at_once_safe (v := view) par st (cfg := cfg) (nonsense st) notZst wf (by decide) gaps (nstate st)

end Sample

end NdSlice
