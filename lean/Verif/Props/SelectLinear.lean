import Verif.Proof.SelectLinear
import Verif.Props.SelectCost
import Verif.Props.Cost

/-
C53: selection makes O(n) comparisons if no element is equal to many others.  (Without this restriction it does not: C52.)
-/

namespace NdSlice

open Style

/-- A budget holds all along every schedule. -/
theorem TriB.steps {α ι ω β σ : Type} {c B : Nat} {R : ι → Option ω → Prop} {o : Oracle σ ι ω} (ho : o.Sat R) {v : View} (hv : v.WF)
    {p p' : Prog α ι ω β} {s s' : St α ι ω σ} {Q : β → List α → Nat → Prop} (h : TriB c R v.region p (v.contents s.mem) B Q)
    (hs : Steps o p s p' s') : s'.log.length ≤ s.log.length + c * B := by
  obtain ⟨lg, w, -, hl⟩ := steps_wp ho hs (h s.mem s.log (View.region_nodup hv) rfl)
  have h1 := (run_log_prefix o p' { s' with log := lg }).length_le
  rcases run_sound ho (s := { s' with log := lg }) w with ⟨b, t, e, r, h2, -⟩ | ⟨_, t, e, h2⟩
  · rw [e] at h1
    dsimp only at h1
    have := hl.length_eq
    omega
  · rw [e] at h1
    dsimp only at h1
    have := hl.length_eq
    omega

/-- A budget holds for the run of the tasks one after the other. -/
theorem TriB.run {α ι ω β σ : Type} {c B : Nat} {R : ι → Option ω → Prop} {o : Oracle σ ι ω} (ho : o.Sat R) {v : View} (hv : v.WF)
    {p : Prog α ι ω β} {s : St α ι ω σ} {Q : β → List α → Nat → Prop} (h : TriB c R v.region p (v.contents s.mem) B Q) :
    (run o p s).2.log.length ≤ s.log.length + c * B := by
  rcases run_sound ho (h s.mem s.log (View.region_nodup hv) rfl) with ⟨b, t, e, r, h2, -⟩ | ⟨_, t, e, h2⟩
  · rw [e]
    dsimp only
    omega
  · rw [e]
    exact h2

/-- No element of `xs` is equivalent to more than `m` elements of `xs` (itself included). -/
def FewEqual {α : Type} (lt : α → α → Bool) (m : Nat) (xs : List α) : Prop :=
  ∀ y ∈ xs, xs.countP (fun x => !lt y x && !lt x y) ≤ m

/-- C53: for every `m` there is a factor `K` such that `select_nth_unstable*` makes at most `K n` comparisons on `n` elements of which no more than
`m` are equal to each other, for every index (also those out of bounds), every layout, every build and every consistent comparator. -/
theorem select_nth_linear (m : Nat) : ∃ K, ∀ {α κ σ : Type} {st : Style} {cfg : Cfg} {v : View} {o : Oracle σ (st.Q α κ) (st.A κ)}
    {lt : α → α → Bool} (_ : Agrees st o lt) (_ : SWO lt) (_ : v.WF) (index : Nat) (s : St α (st.Q α κ) (st.A κ) σ),
    FewEqual lt m (v.contents s.mem) →
      (run o (selectNthUnstable st cfg v index) s).2.log.length ≤ s.log.length + st.calls * (v.len * K) :=
  ⟨selRate m, fun {_ _ _ st _ v o _} ho so hv index s h => TriB.run (rel_sat o) hv
    (partitionAtIndex_budget (C := st.toCmp (rel o)) (k := index) (good_of_agrees ho so) Style.asks (v.contents_length s.mem) h)⟩

/-- C53: the same for `select_many_nth_unstable*`: at most `K n (log2 j + 1)` comparisons for `j > 0` indices (valid or not). -/
theorem select_many_linear (m : Nat) : ∃ K, ∀ {α κ σ : Type} {st : Style} {cfg : Cfg} {v : View} {o : Oracle σ (st.Q α κ) (st.A κ)}
    {lt : α → α → Bool} (_ : Agrees st o lt) (_ : SWO lt) (_ : v.WF) (is : List Nat) (s : St α (st.Q α κ) (st.A κ) σ),
    FewEqual lt m (v.contents s.mem) →
      (run o (selectManyNthUnstable st cfg v is) s).2.log.length ≤ s.log.length + st.calls * (v.len * K * (Nat.log2 is.length + 1)) :=
  ⟨selRate m, fun {_ _ _ st _ v o _} ho so hv is s h => TriB.run (rel_sat o) hv
    (partitionAtIndices_budget (C := st.toCmp (rel o)) (off := 0) (is := is) (good_of_agrees ho so) Style.asks (v.contents_length s.mem)
      (Nat.lt_succ_self _) Nat.lt_log2_self h)⟩

/-- C53: the same for `par_select_many_nth_unstable*`, at every moment of every schedule. -/
theorem par_select_many_linear (m : Nat) : ∃ K, ∀ {α κ σ : Type} {st : Style} {cfg : Cfg} {v : View} {o : Oracle σ (st.Q α κ) (st.A κ)}
    {lt : α → α → Bool} (_ : Agrees st o lt) (_ : SWO lt) (_ : v.WF) (is : List Nat) (extra : Nat) (s : St α (st.Q α κ) (st.A κ) σ),
    FewEqual lt m (v.contents s.mem) → ∀ {p' s'}, Steps o (parSelectManyNthUnstable st cfg v is extra) s p' s' →
      s'.log.length ≤ s.log.length + st.calls * (v.len * K * (Nat.log2 is.length + 1)) :=
  ⟨selRate m, fun {_ _ _ st _ v o _} ho so hv is _ s h _ _ hs => TriB.steps (rel_sat o) hv
    (parPartitionAtIndices_budget (C := st.toCmp (rel o)) (off := 0) (is := is) (good_of_agrees ho so) Style.asks (v.contents_length s.mem)
      (Nat.lt_succ_self _) Nat.lt_log2_self h) hs⟩

/-! ### The hypotheses can be met -/

/-- In the sample array no more than three elements are equal. -/
theorem Sample.fewEqual : FewEqual Sample.lt 3 (Sample.view.contents Sample.mem) := by
  unfold FewEqual
  decide

example (st : Style) : ∃ K, ∀ index, (run (Sample.oracle st) (selectNthUnstable st Sample.cfg Sample.view index) (Sample.state st)).2.log.length ≤
    st.calls * (60 * K) := by
  obtain ⟨K, h⟩ := select_nth_linear 3
  refine ⟨K, fun index => ?_⟩
  simpa [Sample.state, Sample.view] using h (Sample.agrees st) Sample.swo Sample.wf index (Sample.state st) Sample.fewEqual

example (st : Style) : ∃ K, (run (Sample.oracle st) (selectManyNthUnstable st Sample.cfg Sample.view [3, 17, 40]) (Sample.state st)).2.log.length ≤
    st.calls * (60 * K * 2) := by
  obtain ⟨K, h⟩ := select_many_linear 3
  refine ⟨K, ?_⟩
  simpa [Sample.state, Sample.view, show Nat.log2 3 = 1 by decide] using
    h (Sample.agrees st) Sample.swo Sample.wf [3, 17, 40] (Sample.state st) Sample.fewEqual

example (st : Style) : ∃ K, ∀ p' s', Steps (Sample.oracle st) (parSelectManyNthUnstable st Sample.cfg Sample.view [3, 17, 40] 0) (Sample.state st) p' s' →
    s'.log.length ≤ st.calls * (60 * K * 2) := by
  obtain ⟨K, h⟩ := par_select_many_linear 3
  refine ⟨K, fun p' s' hs => ?_⟩
  simpa [Sample.state, Sample.view, show Nat.log2 3 = 1 by decide] using
    h (Sample.agrees st) Sample.swo Sample.wf [3, 17, 40] 0 (Sample.state st) Sample.fewEqual hs

end NdSlice
