import Verif.Proof.CostAdaptive
import Verif.Proof.CostParAdaptive
import Verif.Props.Cost
import Verif.Props.Stable
import Verif.Props.Time

/-
Property C74: `sort*` and `par_sort*` are fast on arrays which consist of few sorted sequences.
-/

namespace NdSlice

open Style

variable {α κ σ : Type} {st : Style} {cfg : Cfg} {v : View}

theorem TriB.steps_region {ι ω β : Type} {c B : Nat} {R : ι → Option ω → Prop} {o : Oracle σ ι ω} (ho : o.Sat R) {fp : List Addr} (hn : fp.Nodup)
    {p p' : Prog α ι ω β} {s s' : St α ι ω σ} {Q : β → List α → Nat → Prop} {xs : List α} (h : TriB c R fp p xs B Q) (hx : fp.map s.mem = xs)
    (hs : Steps o p s p' s') : s'.log.length ≤ s.log.length + c * B := by
  obtain ⟨lg, w, -, hl⟩ := steps_wp ho hs (h s.mem s.log hn hx)
  have h1 := (run_log_prefix o p' { s' with log := lg }).length_le
  have h3 := hl.length_eq
  rcases run_sound ho (s := { s' with log := lg }) w with ⟨b, t, e, r, h2, -⟩ | ⟨_, t, e, h2⟩
  · rw [e] at h1
    dsimp only at h1
    omega
  · rw [e] at h1
    dsimp only at h1
    omega

theorem sort_sequences_comparisons {o : Oracle σ (st.Q α κ) (st.A κ)} {lt : α → α → Bool} (so : SWO lt) (ho : Agrees st o lt)
    (hv : v.WF) {al : Alloc} (hal : al.Succeeds) {heap : Addr} (hf : Fresh v (scratch heap (v.len / 2))) {s s' : St α (st.Q α κ) (st.A κ) σ}
    {p' : Prog α (st.Q α κ) (st.A κ) Unit} {n : Nat} (hn : 0 < n) (hq : Sequences lt n (v.contents s.mem))
    (h : Steps o (sortStable st cfg v al heap) s p' s') :
    s'.log.length ≤ s.log.length + st.calls * (v.len * (6 * Nat.log2 n + 29)) := by
  have hm : (v.region ++ (scratch heap (v.len / 2)).region).map s.mem = v.contents s.mem ++ (scratch heap (v.len / 2)).contents s.mem := by
    rw [List.map_append]
    rfl
  refine TriB.steps_region (rel_sat o) (hf.nodup hv scratch_wf) (Q := fun _ _ _ => True) ?_ hm h
  unfold sortStable stableSort
  split
  · exact TriB.pure trivial
  · rename_i hz
    exact mergeSort_adaptive (cfg := cfg) (C := st.toCmp (rel o)) (good_of_agrees ho so) Style.asks (hal.grows v.len) (by simpa using hz)
      (v.contents_length s.mem) (by rw [View.contents_length, View.region_length]) (Nat.le_refl _) hn hq

/-- C74: if the array of `len` elements consists of the sequences `ps`, one after the other, each of which is sorted or strictly descending,
then `sort*` with a consistent comparator makes at most `len (6 log2 n + 29)` comparisons, where `n` is the number of sequences. -/
theorem sort_adaptive {o : Oracle σ (st.Q α κ) (st.A κ)} {lt : α → α → Bool} (so : SWO lt) (ho : Agrees st o lt)
    (hv : v.WF) {al : Alloc} (hal : al.Succeeds) {heap : Addr} (hf : Fresh v (scratch heap (v.len / 2))) {s s' : St α (st.Q α κ) (st.A κ) σ}
    {p' : Prog α (st.Q α κ) (st.A κ) Unit} (ps : List (List α)) (hps : v.contents s.mem = ps.flatten)
    (hs : ∀ p ∈ ps, Sorted lt p ∨ p.Pairwise (fun a b => lt b a = true)) (h : Steps o (sortStable st cfg v al heap) s p' s') :
    s'.log.length ≤ s.log.length + st.calls * (v.len * (6 * Nat.log2 ps.length + 29)) := by
  rcases Nat.eq_zero_or_pos ps.length with h0 | h0
  · refine (sort_sequences_comparisons so ho hv hal hf (n := 1) (by decide) ⟨ps, by omega, hps, hs⟩ h).trans ?_
    rw [h0]
    exact Nat.le_refl _
  · exact sort_sequences_comparisons so ho hv hal hf h0 ⟨ps, Nat.le_refl _, hps, hs⟩ h

/-- C74: so is the number of steps. -/
theorem sort_adaptive_time {o : Oracle σ (st.Q α κ) (st.A κ)} {lt : α → α → Bool} (so : SWO lt) (ho : Agrees st o lt)
    (hv : v.WF) {al : Alloc} (hal : al.Succeeds) {heap : Addr} (hf : Fresh v (scratch heap (v.len / 2))) {s s' : St α (st.Q α κ) (st.A κ) σ}
    {p' : Prog α (st.Q α κ) (st.A κ) Unit} {n : Nat} (ps : List (List α)) (hps : v.contents s.mem = ps.flatten)
    (hs : ∀ p ∈ ps, Sorted lt p ∨ p.Pairwise (fun a b => lt b a = true)) (h : StepsN o n (sortStable st cfg v al heap) s p' s') :
    n ≤ 2 * v.len + 2 + 13 * (st.calls * (v.len * (6 * Nat.log2 ps.length + 29))) := by
  have h1 := sort_steps o al heap h
  have h2 := sort_adaptive so ho hv hal hf ps hps hs h.steps
  omega

/-- C74: if the array is a sorted one of which `k` elements were changed, then `sort*` with a consistent comparator makes at most
`len (6 log2 (2 k + 1) + 29)` comparisons. -/
theorem sort_nearly_sorted [DecidableEq α] {o : Oracle σ (st.Q α κ) (st.A κ)} {lt : α → α → Bool} (so : SWO lt) (ho : Agrees st o lt)
    (hv : v.WF) {al : Alloc} (hal : al.Succeeds) {heap : Addr} (hf : Fresh v (scratch heap (v.len / 2))) {s s' : St α (st.Q α κ) (st.A κ) σ}
    {p' : Prog α (st.Q α κ) (st.A κ) Unit} (ys : List α) (hl : ys.length = v.len) (hs : Sorted lt ys)
    (h : Steps o (sortStable st cfg v al heap) s p' s') :
    s'.log.length ≤ s.log.length +
      st.calls * (v.len * (6 * Nat.log2 (2 * ((v.contents s.mem).zip ys).countP (fun p => decide (p.1 ≠ p.2)) + 1) + 29)) :=
  sort_sequences_comparisons so ho hv hal hf (by omega) (Sequences.changed so (by rw [View.contents_length, hl]) hs (Nat.le_refl _)) h

theorem par_sort_sequences_comparisons {o : Oracle σ (st.Q α κ) (st.A κ)} {lt : α → α → Bool} (so : SWO lt) (ho : Agrees st o lt)
    (hz : cfg.zst = false) (hv : v.WF) {heap : Addr} (hf : Fresh v (scratch heap v.len)) {s s' : St α (st.Q α κ) (st.A κ) σ}
    {p' : Prog α (st.Q α κ) (st.A κ) Unit} {n : Nat} (hq : Sequences lt n (v.contents s.mem)) (h : Steps o (parSortStable st cfg v heap) s p' s') :
    s'.log.length ≤ s.log.length + st.calls * (v.len * (2 * Nat.log2 n + 56)) := by
  have hm : (v.region ++ (scratch heap v.len).region).map s.mem = v.contents s.mem ++ (scratch heap v.len).contents s.mem := by
    rw [List.map_append]
    rfl
  refine TriB.steps_region (rel_sat o) (hf.nodup hv scratch_wf) (Q := fun _ _ _ => True) ?_ hm h
  exact parMergeSort_adaptive (cfg := cfg) (buf := scratch heap v.len) (C := st.toCmp (rel o)) (good_of_agrees ho so) Style.asks
    (v.contents_length s.mem) hz rfl ((scratch heap v.len).contents_length s.mem) hq

/-- C74: `par_sort*` on the sequences `ps`: at most `len (2 log2 n + 56)` comparisons, all tasks together, at every moment of every schedule. -/
theorem par_sort_adaptive {o : Oracle σ (st.Q α κ) (st.A κ)} {lt : α → α → Bool} (so : SWO lt) (ho : Agrees st o lt)
    (hz : cfg.zst = false) (hv : v.WF) {heap : Addr} (hf : Fresh v (scratch heap v.len)) {s s' : St α (st.Q α κ) (st.A κ) σ}
    {p' : Prog α (st.Q α κ) (st.A κ) Unit} (ps : List (List α)) (hps : v.contents s.mem = ps.flatten)
    (hs : ∀ p ∈ ps, Sorted lt p ∨ p.Pairwise (fun a b => lt b a = true)) (h : Steps o (parSortStable st cfg v heap) s p' s') :
    s'.log.length ≤ s.log.length + st.calls * (v.len * (2 * Nat.log2 ps.length + 56)) :=
  par_sort_sequences_comparisons so ho hz hv hf ⟨ps, Nat.le_refl _, hps, hs⟩ h

/-- C74: `par_sort*` on a sorted array of which `k` elements were changed: at most `len (2 log2 (2 k + 1) + 56)` comparisons. -/
theorem par_sort_nearly_sorted [DecidableEq α] {o : Oracle σ (st.Q α κ) (st.A κ)} {lt : α → α → Bool} (so : SWO lt) (ho : Agrees st o lt)
    (hz : cfg.zst = false) (hv : v.WF) {heap : Addr} (hf : Fresh v (scratch heap v.len)) {s s' : St α (st.Q α κ) (st.A κ) σ}
    {p' : Prog α (st.Q α κ) (st.A κ) Unit} (ys : List α) (hl : ys.length = v.len) (hs : Sorted lt ys)
    (h : Steps o (parSortStable st cfg v heap) s p' s') :
    s'.log.length ≤ s.log.length +
      st.calls * (v.len * (2 * Nat.log2 (2 * ((v.contents s.mem).zip ys).countP (fun p => decide (p.1 ≠ p.2)) + 1) + 56)) :=
  par_sort_sequences_comparisons so ho hz hv hf (Sequences.changed so (by rw [View.contents_length, hl]) hs (Nat.le_refl _)) h

/-! ### The hypotheses can be met -/

/-- Memory in which the view shows a rising sequence, a falling one and a rising one again. -/
def Sample.zigzag : Mem Nat := fun a =>
  let i := ((200 - a) / 2).toNat
  if i < 20 then i else if i < 35 then 100 - i else 3 * i

/-- The sequences. -/
def Sample.zigs : List (List Nat) := [List.range 20, (List.range 15).map (80 - ·), (List.range 25).map fun i => 3 * (35 + i)]

theorem Sample.zigzag_zigs : Sample.view.contents Sample.zigzag = Sample.zigs.flatten := by decide

theorem Sample.zigs_ok : ∀ p ∈ Sample.zigs, Sorted Sample.lt p ∨ p.Pairwise (fun a b => Sample.lt b a = true) := by
  unfold Sorted
  decide

example (st : Style) := fun p' s' => sort_adaptive (st := st) (cfg := Sample.cfg) (v := Sample.view) (o := Sample.oracle st) Sample.swo (Sample.agrees st)
  Sample.wf Sample.alloc_succeeds (Sample.fresh (n := 30)) (s := ⟨Sample.zigzag, (), []⟩) (p' := p') (s' := s') Sample.zigs Sample.zigzag_zigs Sample.zigs_ok
example (st : Style) := fun n p' s' => sort_adaptive_time (st := st) (cfg := Sample.cfg) (v := Sample.view) (o := Sample.oracle st) Sample.swo
  (Sample.agrees st) Sample.wf Sample.alloc_succeeds (Sample.fresh (n := 30)) (s := ⟨Sample.zigzag, (), []⟩) (n := n) (p' := p') (s' := s') Sample.zigs Sample.zigzag_zigs Sample.zigs_ok
example (st : Style) := fun p' s' => par_sort_adaptive (st := st) (cfg := Sample.cfg) (v := Sample.view) (o := Sample.oracle st) Sample.swo
  (Sample.agrees st) rfl Sample.wf (Sample.fresh (n := 60)) (s := ⟨Sample.zigzag, (), []⟩) (p' := p') (s' := s') Sample.zigs Sample.zigzag_zigs Sample.zigs_ok

/-- Memory in which the view shows the numbers in order, except for two of them. -/
def Sample.almost : Mem Nat := fun a =>
  let i := ((200 - a) / 2).toNat
  if i = 13 then 55 else if i = 40 then 2 else i

example : ((Sample.view.contents Sample.almost).zip (List.range 60)).countP (fun p => decide (p.1 ≠ p.2)) = 2 := by decide

theorem Sample.range_sorted : Sorted Sample.lt (List.range 60) := by
  unfold Sorted
  decide

example (st : Style) := fun p' s' => sort_nearly_sorted (st := st) (cfg := Sample.cfg) (v := Sample.view) (o := Sample.oracle st) Sample.swo
  (Sample.agrees st) Sample.wf Sample.alloc_succeeds (Sample.fresh (n := 30)) (s := ⟨Sample.almost, (), []⟩) (p' := p') (s' := s') (List.range 60) rfl Sample.range_sorted
example (st : Style) := fun p' s' => par_sort_nearly_sorted (st := st) (cfg := Sample.cfg) (v := Sample.view) (o := Sample.oracle st) Sample.swo
  (Sample.agrees st) rfl Sample.wf (Sample.fresh (n := 60)) (s := ⟨Sample.almost, (), []⟩) (p' := p') (s' := s') (List.range 60) rfl Sample.range_sorted

/-- An array of more than one chunk. -/
theorem Sample.long_sorted : (⟨0, 1, 100000⟩ : View).contents (fun a => a.toNat) = [List.range 100000].flatten := by
  rw [List.flatten_cons, List.flatten_nil, List.append_nil]
  refine List.ext_getElem (by rw [View.contents_length, List.length_range]) fun i h1 h2 => ?_
  simp [View.contents, View.region, View.addr]

theorem Sample.range_sorted_any (n : Nat) : Sorted Sample.lt (List.range n) :=
  List.Pairwise.imp (fun h => by simp [Sample.lt]; omega) List.pairwise_lt_range

example (st : Style) := fun p' s' => par_sort_adaptive (st := st) (cfg := Sample.cfg) (v := ⟨0, 1, 100000⟩) (o := Sample.oracle st) Sample.swo
  (Sample.agrees st) rfl (.inl (by decide)) (heap := 100000) (fun a h1 h2 => by
    simp [View.region, View.addr, scratch] at h1 h2; obtain ⟨i, h3, rfl⟩ := h1; obtain ⟨j, h5, h6⟩ := h2; have h6 : (j : Int) = 100000 + (i : Int) := h6; omega)
  (s := ⟨fun a => a.toNat, (), []⟩) (p' := p') (s' := s') [List.range 100000] Sample.long_sorted
  (fun p hp => by rw [List.mem_singleton.mp hp]; exact .inl (Sample.range_sorted_any _))

end NdSlice
