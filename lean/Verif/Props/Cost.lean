import Verif.Props.AlreadySorted
import Verif.Props.Unstable
import Verif.Proof.CostQuick

/-
C50, C51: how many comparisons the sorts make in the worst case.
-/

namespace NdSlice

open Style

variable {α κ σ : Type} {st : Style} {cfg : Cfg} {v : View}

theorem Style.asks : Asks st.calls (st.less : α → α → Prog α (st.Q α κ) (st.A κ) Bool) := by
  intro x y
  cases st with
  | ord =>
    refine ⟨0, rfl, fun r => ?_⟩
    cases r <;> trivial
  | cmp =>
    refine ⟨0, rfl, fun r => ?_⟩
    cases r <;> trivial
  | key =>
    refine ⟨2, rfl, fun r => ?_⟩
    cases r with
    | none => trivial
    | some k =>
      refine ⟨1, rfl, fun r => ?_⟩
      cases r with
      | none => trivial
      | some l =>
        refine ⟨0, rfl, fun r => ?_⟩
        cases r <;> trivial

/-- C50: `sort*` makes at most `8 n log2 n` comparisons on `n` elements, whatever the user code answers (inconsistent answers and
panics included), and whatever the allocator does. -/
theorem sort_comparisons (o : Oracle σ (st.Q α κ) (st.A κ)) (al : Alloc) (heap : Addr) (s : St α (st.Q α κ) (st.A κ) σ) :
    (run o (sortStable st cfg v al heap) s).2.log.length ≤ s.log.length + st.calls * (8 * (v.len * Nat.log2 v.len)) := by
  obtain ⟨B', h, _⟩ := Spend.run (o := o) (s := s) (stableSort_cost (cfg := cfg) (al := al) (v := v) (buf := ⟨heap, 1, v.len / 2⟩) (Style.asks (st := st) (α := α) (κ := κ)))
  unfold sortStable
  omega

/-- C51: `sort_unstable*` makes at most `n (263 log2 n + 279)` comparisons on `n` elements if the comparator is consistent. -/
theorem sort_unstable_comparisons {o : Oracle σ (st.Q α κ) (st.A κ)} {lt : α → α → Bool} (ho : Agrees st o lt) (so : SWO lt)
    (hv : v.WF) (s : St α (st.Q α κ) (st.A κ) σ) :
    (run o (sortUnstable st cfg v) s).2.log.length ≤ s.log.length + st.calls * (v.len * (263 * Nat.log2 v.len + 279)) := by
  have h := quickSort_budget (cfg := cfg) (C := st.toCmp (rel o)) (good_of_agrees ho so) Style.asks (v.contents_length s.mem)
    s.mem s.log (View.region_nodup hv) rfl
  unfold sortUnstable
  rcases run_sound (rel_sat o) h with ⟨b, s', h1, r, h2, _⟩ | ⟨e, s', h1, h2⟩
  · have h1 : run o (quickSort cfg st.less v) s = _ := h1
    rw [h1]
    dsimp only
    omega
  · have h1 : run o (quickSort cfg st.less v) s = _ := h1
    rw [h1]
    exact h2

/-! ### The hypotheses can be met -/

example (st : Style) := sort_comparisons (st := st) (cfg := Sample.cfg) (v := Sample.view) (Sample.nonsense st) ⟨true, fun n => n < 2⟩ 300
  (Sample.nstate st)
example (st : Style) := sort_unstable_comparisons (st := st) (cfg := Sample.cfg) (v := Sample.view) (Sample.agrees st) Sample.swo Sample.wf
  (Sample.state st)

end NdSlice
