import Verif.Props.Base
import Verif.Props.Stable
import Verif.Proof.AlreadySorted

/-
C35: sorting a sorted array is cheap and changes nothing.
-/

namespace NdSlice

open Style

variable {α κ σ : Type} {st : Style} {cfg : Cfg} {v : View}

/-- How many questions user code is asked for one comparison: one, or in the `_by_key` flavour the keys of two elements and one
comparison of keys. -/
def Style.calls : Style → Nat
  | .ord => 1
  | .cmp => 1
  | .key => 3

theorem Style.compares {o : Oracle σ (st.Q α κ) (st.A κ)} {lt : α → α → Bool} (ho : Agrees st o lt) (m : Mem α) :
    Answers (rel o) m st.less lt st.calls := by
  intro x y
  cases st with
  | ord =>
    refine ⟨0, rfl, ?_⟩
    rintro _ ⟨e, rfl⟩
    rw [ho e x y]
    exact ⟨rfl, rfl⟩
  | cmp =>
    obtain ⟨cmp, h1, h2⟩ := ho
    refine ⟨0, rfl, ?_⟩
    rintro _ ⟨e, rfl⟩
    rw [h1 e x y]
    exact ⟨(h2 x y).symm, rfl⟩
  | key =>
    obtain ⟨f, klt, h1, h2, h3⟩ := ho
    refine ⟨2, rfl, ?_⟩
    rintro _ ⟨e, rfl⟩
    obtain ⟨b, hb⟩ := h1 e x
    rw [hb]
    refine ⟨1, rfl, ?_⟩
    rintro _ ⟨e, rfl⟩
    obtain ⟨b, hb⟩ := h1 e y
    rw [hb]
    refine ⟨0, rfl, ?_⟩
    rintro _ ⟨e, rfl⟩
    obtain ⟨b, hb⟩ := h2 e (f x) (f y)
    show Path _ m (match (o.ask e (KeyQ.lt (f x) (f y))).1 with
      | none => .throw .user
      | some b => .ret b.2) _ 0
    rw [hb]
    exact ⟨(h3 x y).symm, rfl⟩

/-- C35: `sort*` on a sorted array returns, changes no memory at all, and makes exactly `len - 1` comparisons. -/
theorem sort_already_sorted {o : Oracle σ (st.Q α κ) (st.A κ)} {lt : α → α → Bool} (ho : Agrees st o lt) (hz : cfg.zst = false)
    {al : Alloc} (hal : al.Succeeds) (heap : Addr) (s : St α (st.Q α κ) (st.A κ) σ) (hs : Sorted lt (v.contents s.mem)) :
    ∃ s', run o (sortStable st cfg v al heap) s = (.ok (), s') ∧ s'.mem = s.mem ∧
      s'.log.length = s.log.length + (v.len - 1) * st.calls :=
  (stableSort_path (Style.compares ho s.mem) (inOrder_of_sorted hs) ⟨hal.1, hal.2 _⟩ hz _).run (rel_sat o)

/-- C35: `sort_unstable*` on a sorted array returns, changes no memory at all, and makes exactly `len - 1` comparisons and those
of the pivot choice: none up to 20 elements, 3 below 50 elements, 12 from 50 elements on. -/
theorem sort_unstable_already_sorted {o : Oracle σ (st.Q α κ) (st.A κ)} {lt : α → α → Bool} (ho : Agrees st o lt) (hz : cfg.zst = false)
    (s : St α (st.Q α κ) (st.A κ) σ) (hs : Sorted lt (v.contents s.mem)) :
    ∃ s', run o (sortUnstable st cfg v) s = (.ok (), s') ∧ s'.mem = s.mem ∧
      s'.log.length = s.log.length + ((v.len - 1) + if v.len ≤ 20 then 0 else if v.len < 50 then 3 else 12) * st.calls :=
  (quickSort_path (Style.compares ho s.mem) (inOrder_of_sorted hs) hz).run (rel_sat o)

/-- C35 for `par_sort_unstable*`, on every schedule (there is nothing to do in parallel). -/
theorem par_sort_unstable_already_sorted {o : Oracle σ (st.Q α κ) (st.A κ)} {lt : α → α → Bool} (ho : Agrees st o lt) (hz : cfg.zst = false)
    (s : St α (st.Q α κ) (st.A κ) σ) (hs : Sorted lt (v.contents s.mem)) {p' s'} (h : Steps o (parSortUnstable st cfg v) s p' s') :
    s'.mem = s.mem ∧ (∀ r, Ended p' r → r = .ok () ∧
      s'.log.length = s.log.length + ((v.len - 1) + if v.len ≤ 20 then 0 else if v.len < 50 then 3 else 12) * st.calls) := by
  obtain ⟨h1, n, h2, h3⟩ := (parQuickSort_path (Style.compares ho s.mem) (inOrder_of_sorted hs) hz).steps (rel_sat o) h
  refine ⟨h1, fun r hr => ?_⟩
  cases hr with
  | ret b =>
    obtain ⟨rfl, rfl⟩ := h2
    exact ⟨rfl, h3⟩
  | throw => exact h2.elim

/-! ### The hypotheses can be met -/

namespace Sample

/-- Memory in which `view` (which goes backwards) shows an ascending array with repetitions. -/
def ascending : Mem Nat := fun a => (1000 - a).toNat / 4

theorem ascending_sorted : Sorted lt (view.contents ascending) := by
  unfold View.contents View.region
  rw [List.map_map]
  refine List.Pairwise.map _ ?_ List.pairwise_lt_range
  intro i j hij
  show decide ((1000 - (200 + -2 * (j : Int))).toNat / 4 < (1000 - (200 + -2 * (i : Int))).toNat / 4) = false
  rw [decide_eq_false_iff_not]
  omega

end Sample

example (st : Style) := sort_already_sorted (st := st) (cfg := Sample.cfg) (v := Sample.view) (Sample.agrees st) rfl
  Sample.alloc_succeeds 300 ⟨Sample.ascending, (), []⟩ Sample.ascending_sorted

example (st : Style) := sort_unstable_already_sorted (st := st) (cfg := Sample.cfg) (v := Sample.view) (Sample.agrees st) rfl
  ⟨Sample.ascending, (), []⟩ Sample.ascending_sorted

example (st : Style) {p' s'} := par_sort_unstable_already_sorted (st := st) (cfg := Sample.cfg) (v := Sample.view) (Sample.agrees st) rfl
  ⟨Sample.ascending, (), []⟩ Sample.ascending_sorted (p' := p') (s' := s')

end NdSlice
