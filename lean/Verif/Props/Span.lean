import Verif.Props.ParCost
import Verif.Proof.Span

/-
C71: the critical path of `par_sort*`.
-/

namespace NdSlice

open Style

variable {α κ σ : Type} {st : Style} {cfg : Cfg} {v : View}

theorem Style.less_noJoin (st : Style) (x y : α) : NoJoin (st.less (κ := κ) x y) := by
  cases st with
  | ord => rintro (_ | _) <;> trivial
  | cmp => rintro (_ | _) <;> trivial
  | key =>
    rintro (_ | _)
    · trivial
    rintro (_ | _)
    · trivial
    rintro (_ | _) <;> trivial

/-- C71: with as many threads as there are tasks, `par_sort*` on `n` elements is done after the time of
`n / 2000 + 102001 + log2 n (5000 + 3 (log2 n + 1) ^ 2)` comparisons, whatever the user code answers (inconsistent answers and panics included).
`Ticks` is any number of steps under any schedule, with a clock that counts the calls of user code on the longest chain of calls each of which has to
wait for the one before; `ho` says that no chunk is put off till the others are done. -/
theorem par_sort_critical_path {o : Oracle σ (st.Q α κ) (st.A κ)} (ho : ∀ e, (o.flip e).1 = false) (heap : Addr)
    {s s' : St α (st.Q α κ) (st.A κ) σ} {p' : Prog α (st.Q α κ) (st.A κ) Unit} {c' : Clock}
    (h : Ticks o (parSortStable st cfg v heap) (.at 0) s p' c' s') :
    c'.now ≤ st.calls * (v.len / 2000 + 102001 + Nat.log2 v.len * (5000 + 3 * (Nat.log2 v.len + 1) ^ 2)) := by
  have := Span.ticks ho (parMergeSort_span (cfg := cfg) (v := v) (buf := ⟨heap, 1, v.len⟩) (Style.asks (st := st) (α := α) (κ := κ))
    (Style.less_noJoin st)) h
  rwa [Nat.mul_assoc 3, ← Nat.pow_two] at this

/-- C71: every run of every schedule has such a time. -/
theorem par_sort_timed (o : Oracle σ (st.Q α κ) (st.A κ)) (heap : Addr) {s s' : St α (st.Q α κ) (st.A κ) σ}
    {p' : Prog α (st.Q α κ) (st.A κ) Unit} (h : Steps o (parSortStable st cfg v heap) s p' s') :
    ∃ c', Ticks o (parSortStable st cfg v heap) (.at 0) s p' c' s' := h.ticks _

/-- C71: up to 2000 elements are sorted in one task; then the clock counts all calls of user code. -/
theorem par_sort_short_sequential (o : Oracle σ (st.Q α κ) (st.A κ)) (hv : v.len ≤ 2000) (heap : Addr) {s s' : St α (st.Q α κ) (st.A κ) σ}
    {p' : Prog α (st.Q α κ) (st.A κ) Unit} {c' : Clock} (h : Ticks o (parSortStable st cfg v heap) (.at 0) s p' c' s') :
    c'.now + s.log.length = s'.log.length :=
  (Ticks.sequential (NoJoin.parMergeSort (Style.less_noJoin st) hv) h).2

/-! ### The hypotheses can be met -/

/-- Four billion elements. -/
def Sample.huge : View := ⟨0, 1, 2 ^ 32⟩

example (st : Style) := par_sort_critical_path (st := st) (cfg := Sample.cfg) (v := Sample.huge) 
  (o := { Sample.nonsense st with flip := fun e => (false, e) }) (fun _ => rfl) (-1)
  (s := Sample.nstate st) (.refl _ _ _)

example (st : Style) := par_sort_short_sequential (st := st) (cfg := Sample.cfg) (v := Sample.view) (Sample.nonsense st) (by decide) 300
  (s := Sample.nstate st) (.refl _ _ _)

/-- For these 2600000 comparisons are enough, one after the other: less than a thousandth of the number of elements. -/
example : Sample.huge.len / 2000 + 102001 + Nat.log2 Sample.huge.len * (5000 + 3 * (Nat.log2 Sample.huge.len + 1) ^ 2) ≤ 2600000 := by decide

end NdSlice
