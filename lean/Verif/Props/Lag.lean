import Verif.Props.Span
import Verif.Props.Select
import Verif.Props.Unstable
import Verif.Core.RunSteps
import Verif.Proof.Lag

/-
C79: the time `par_sort_unstable*` and `par_select_many_nth_unstable*` take at least.
-/

namespace NdSlice

open Style

variable {α κ σ ι ω β : Type} {st : Style} {cfg : Cfg} {v : View}

theorem Style.takes : Takes st.calls (st.less (α := α) (κ := κ)) := by
  intro x y n
  cases st with
  | ord => rintro (_ | _) <;> first | trivial | exact Nat.le_refl _
  | cmp => rintro (_ | _) <;> first | trivial | exact Nat.le_refl _
  | key =>
    rintro (_ | _)
    · trivial
    rintro (_ | _)
    · trivial
    rintro (_ | _)
    · trivial
    · show n - 1 - 1 - 1 ≤ n - 3
      omega

/-- C79: on any number of threads, `par_sort_unstable*` returns on `n` elements only after the time of `n - 1` comparisons one after the other, whatever
the comparator answers: the first partitioning is done by one thread.  `Ticks` is any number of steps under any schedule, with a clock that counts the
calls of user code on the longest chain of calls each of which has to wait for the one before. -/
theorem par_sort_unstable_critical_path {o : Oracle σ (st.Q α κ) (st.A κ)} (hz : cfg.zst = false) {s s' : St α (st.Q α κ) (st.A κ) σ} {c' : Clock}
    (h : Ticks o (parSortUnstable st cfg v) (.at 0) s (.ret ()) c' s') : st.calls * (v.len - 1) ≤ c'.now :=
  (parQuickSort_owe Style.takes hz).ticks h

/-- C79: the same for `par_select_many_nth_unstable*` with at least one index. -/
theorem par_select_many_critical_path {o : Oracle σ (st.Q α κ) (st.A κ)} (hz : cfg.zst = false) {is : List Nat} (hi : is ≠ []) (extra : Nat)
    {s s' : St α (st.Q α κ) (st.A κ) σ} {c' : Clock} {r : List (Nat × Addr)}
    (h : Ticks o (parSelectManyNthUnstable st cfg v is extra) (.at 0) s (.ret r) c' s') : st.calls * (v.len - 1) ≤ c'.now :=
  (parSelectMany_owe Style.takes hz hi).ticks h

theorem Owe.run {c m : Nat} {p : Prog α ι ω β} {o : Oracle σ ι ω} {b : β} {s s' : St α ι ω σ} (h : Owe c p m fun _ r => r = 0)
    (hr : run o p s = (.ok b, s')) : s.log.length + c * m ≤ s'.log.length := by
  have := run_reaches (o := o) (p := p) (s := s)
  rw [hr] at this
  obtain ⟨c', ht⟩ := Steps.ticks this (.at 0)
  have h1 := h.ticks ht
  have h2 := ht.now_log
  have h3 : (Clock.at 0).now = 0 := rfl
  omega

/-- C79: `sort_unstable*` on `n` elements returns only after `n - 1` comparisons, whatever the comparator answers. -/
theorem sort_unstable_at_least {o : Oracle σ (st.Q α κ) (st.A κ)} (hz : cfg.zst = false) {s s' : St α (st.Q α κ) (st.A κ) σ}
    (h : run o (sortUnstable st cfg v) s = (.ok (), s')) : s.log.length + st.calls * (v.len - 1) ≤ s'.log.length :=
  (quickSort_owe Style.takes hz).run h

/-- C79: the same for `select_nth_unstable*`. -/
theorem select_nth_at_least {o : Oracle σ (st.Q α κ) (st.A κ)} (hz : cfg.zst = false) {k : Nat} {s s' : St α (st.Q α κ) (st.A κ) σ}
    {r : View × Addr × View} (h : run o (selectNthUnstable st cfg v k) s = (.ok r, s')) : s.log.length + st.calls * (v.len - 1) ≤ s'.log.length :=
  (partitionAtIndex_owe Style.takes hz).run h

/-- C79: the same for `select_many_nth_unstable*` with at least one index. -/
theorem select_many_at_least {o : Oracle σ (st.Q α κ) (st.A κ)} (hz : cfg.zst = false) {is : List Nat} (hi : is ≠ [])
    {s s' : St α (st.Q α κ) (st.A κ) σ} {r : List (Nat × Addr)} (h : run o (selectManyNthUnstable st cfg v is) s = (.ok r, s')) :
    s.log.length + st.calls * (v.len - 1) ≤ s'.log.length :=
  (selectMany_owe Style.takes hz hi).run h

/-! ### The hypotheses can be met -/

/-- A program which always ends without a panic can be run to its end. -/
theorem Always.returns {o : Oracle σ ι ω} {p : Prog α ι ω β} {s : St α ι ω σ} {Q : β → Mem α → Prop} (h : Always o p s Q fun _ _ => False) :
    ∃ b c' s', Ticks o p (.at 0) s (.ret b) c' s' := by
  suffices h' : ∀ p', Acc (After o) p' → ∀ s', Steps o p s p' s' → ∃ b s', Steps o p s (.ret b) s' by
    obtain ⟨b, s', h1⟩ := h' p h.2 s (.refl _ _)
    obtain ⟨c', h2⟩ := h1.ticks (.at 0)
    exact ⟨b, c', s', h2⟩
  intro p' ha
  induction ha with
  | intro p' _ ih =>
    intro s' hs
    rcases (h.1 p' s' hs).2.2 with ⟨p'', s'', h1⟩ | ⟨b, rfl, _⟩ | ⟨_, _, h1⟩
    · exact ih p'' ⟨s', s'', h1⟩ s'' (hs.tail h1)
    · exact ⟨b, s', hs⟩
    · exact h1.elim

example (st : Style) : ∃ c' s', Ticks (Sample.oracle st) (parSortUnstable st Sample.cfg Sample.view) (.at 0) (Sample.state st) (.ret ()) c' s' ∧
    st.calls * 59 ≤ c'.now := by
  obtain ⟨b, c', s', h⟩ := (par_sort_unstable_sorts (cfg := Sample.cfg) Sample.swo (Sample.agrees st) Sample.notZst Sample.wf (Sample.state st)).returns
  exact ⟨c', s', h, par_sort_unstable_critical_path rfl h⟩

example (st : Style) : ∃ r c' s', Ticks (Sample.oracle st) (parSelectManyNthUnstable st Sample.release Sample.view [3, 17, 18, 59] 1) (.at 0) (Sample.state st)
    (.ret r) c' s' ∧ st.calls * 59 ≤ c'.now := by
  obtain ⟨r, c', s', h⟩ := (par_select_many_selects (cfg := Sample.release) Sample.swo (Sample.agrees st) Sample.notZst rfl Sample.wf (by decide)
    Sample.goodIndices 1 (Sample.state st)).returns
  exact ⟨r, c', s', h, par_select_many_critical_path rfl (by decide) 1 h⟩

example (st : Style) : ∃ s', run (Sample.oracle st) (sortUnstable st Sample.cfg Sample.view) (Sample.state st) = (.ok (), s') ∧
    (Sample.state st).log.length + st.calls * 59 ≤ s'.log.length := by
  obtain ⟨s', h, _⟩ := sort_unstable_sorts (cfg := Sample.cfg) Sample.swo (Sample.agrees st) Sample.notZst Sample.wf (Sample.state st)
  exact ⟨s', h, sort_unstable_at_least rfl h⟩

example (st : Style) : ∃ r s', run (Sample.oracle st) (selectNthUnstable st Sample.release Sample.view 17) (Sample.state st) = (.ok r, s') ∧
    (Sample.state st).log.length + st.calls * 59 ≤ s'.log.length := by
  obtain ⟨s', h, _⟩ := select_nth_selects (cfg := Sample.release) Sample.swo (Sample.agrees st) Sample.notZst rfl Sample.wf (k := 17) (by decide)
    (Sample.state st)
  exact ⟨_, s', h, select_nth_at_least rfl h⟩

example (st : Style) : ∃ r s', run (Sample.oracle st) (selectManyNthUnstable st Sample.release Sample.view [3, 17, 18, 59]) (Sample.state st) = (.ok r, s') ∧
    (Sample.state st).log.length + st.calls * 59 ≤ s'.log.length := by
  obtain ⟨s', h, _⟩ := select_many_selects (cfg := Sample.release) Sample.swo (Sample.agrees st) Sample.notZst rfl Sample.wf (by decide)
    Sample.goodIndices (Sample.state st)
  exact ⟨_, s', h, select_many_at_least rfl (by decide) h⟩

end NdSlice
