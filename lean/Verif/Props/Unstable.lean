import Verif.Props.Base
import Verif.Props.Sample
import Verif.Proof.Quick

/-
Properties of `sort_unstable*` and `par_sort_unstable*`: C06, C07, C08, C29 and the parts of C09, C31, C33 about them.
-/

namespace NdSlice

open Style

variable {α κ σ : Type} {st : Style} {cfg : Cfg} {v : View}

/-- C06: with a consistent comparator `sort_unstable*` returns, the array is sorted and a permutation of the input.
C09: nothing outside the view changed. -/
theorem sort_unstable_sorts {o : Oracle σ (st.Q α κ) (st.A κ)} {lt : α → α → Bool} (so : SWO lt) (ho : Agrees st o lt)
    (hz : cfg.zst = true → Subsingleton α) (hv : v.WF) (s : St α (st.Q α κ) (st.A κ) σ) :
    ∃ s', run o (sortUnstable st cfg v) s = (.ok (), s') ∧ Sorted lt (v.contents s'.mem) ∧
      (v.contents s'.mem).Perm (v.contents s.mem) ∧ ∀ a, a ∉ v.region → s'.mem a = s.mem a := by
  obtain ⟨b, s', h1, ⟨h2, h3⟩, h4⟩ := (Tri.ends (rel_sat o) hv
    (quickSort_spec (C := st.toCmp (rel o)) (cfg := cfg) (v := v) hz (v.contents_length s.mem))).ok
      (fun e m h => pan_iff (noPanic_of_agrees ho) h.1.2.1)
  exact ⟨s', h1, h3 lt (good_of_agrees ho so), h2, h4⟩

/-- C07, C08: with an arbitrary comparator `sort_unstable*` ends without undefined behaviour, either normally or
because the comparator panicked; in both cases the array is a permutation of the input.
C09: nothing outside the view changed. -/
theorem sort_unstable_safe (o : Oracle σ (st.Q α κ) (st.A κ))
    (hz : cfg.zst = true → Subsingleton α) (hv : v.WF) (s : St α (st.Q α κ) (st.A κ) σ) :
    Ends o (sortUnstable st cfg v) s
      (fun _ m => (v.contents m).Perm (v.contents s.mem) ∧ ∀ a, a ∉ v.region → m a = s.mem a)
      (fun e m => e = .user ∧ (v.contents m).Perm (v.contents s.mem) ∧ ∀ a, a ∉ v.region → m a = s.mem a) :=
  (Tri.ends (rel_sat o) hv
    (quickSort_spec (C := st.toCmp (rel o)) (cfg := cfg) (v := v) hz (v.contents_length s.mem))).mono
      (fun _ _ h => ⟨h.1.1, h.2⟩) (fun _ _ h => ⟨h.1.1, h.1.2.2, h.2⟩)

/-- C07: a comparator that does not panic makes `sort_unstable*` return normally, however inconsistent it is. -/
theorem sort_unstable_returns {o : Oracle σ (st.Q α κ) (st.A κ)} (ho : NoPanic o)
    (hz : cfg.zst = true → Subsingleton α) (hv : v.WF) (s : St α (st.Q α κ) (st.A κ) σ) :
    ∃ s', run o (sortUnstable st cfg v) s = (.ok (), s') ∧ (v.contents s'.mem).Perm (v.contents s.mem) := by
  obtain ⟨b, s', h1, h2, _⟩ := (Tri.ends (rel_sat o) hv
    (quickSort_spec (C := st.toCmp (rel o)) (cfg := cfg) (v := v) hz (v.contents_length s.mem))).ok
      (fun e m h => pan_iff ho h.1.2.1)
  exact ⟨s', h1, h2.1⟩

/-- C29: under every schedule, with a consistent comparator, `par_sort_unstable*` does not panic and gives a sorted
permutation. C31, C33: no race, no infinite schedule. C09: nothing outside the view changed. -/
theorem par_sort_unstable_sorts {o : Oracle σ (st.Q α κ) (st.A κ)} {lt : α → α → Bool} (so : SWO lt) (ho : Agrees st o lt)
    (hz : cfg.zst = true → Subsingleton α) (hv : v.WF) (s : St α (st.Q α κ) (st.A κ) σ) :
    Always o (parSortUnstable st cfg v) s
      (fun _ m => Sorted lt (v.contents m) ∧ (v.contents m).Perm (v.contents s.mem) ∧ ∀ a, a ∉ v.region → m a = s.mem a)
      (fun _ _ => False) :=
  (Tri.always (rel_sat o) hv
    (parQuickSort_spec (C := st.toCmp (rel o)) (cfg := cfg) (v := v) hz (v.contents_length s.mem))).mono
      (fun _ _ h => ⟨h.1.2 lt (good_of_agrees ho so), h.1.1, h.2⟩) (fun _ _ h => pan_iff (noPanic_of_agrees ho) h.1.2.1)

/-- C29: under every schedule, with any comparator, `par_sort_unstable*` ends without undefined behaviour and without
a race, and the array is a permutation of the input, also after a panic (which comes from the comparator). -/
theorem par_sort_unstable_safe (o : Oracle σ (st.Q α κ) (st.A κ))
    (hz : cfg.zst = true → Subsingleton α) (hv : v.WF) (s : St α (st.Q α κ) (st.A κ) σ) :
    Always o (parSortUnstable st cfg v) s
      (fun _ m => (v.contents m).Perm (v.contents s.mem) ∧ ∀ a, a ∉ v.region → m a = s.mem a)
      (fun e m => e = .user ∧ ¬ NoPanic o ∧ (v.contents m).Perm (v.contents s.mem) ∧ ∀ a, a ∉ v.region → m a = s.mem a) :=
  (Tri.always (rel_sat o) hv
    (parQuickSort_spec (C := st.toCmp (rel o)) (cfg := cfg) (v := v) hz (v.contents_length s.mem))).mono
      (fun _ _ h => ⟨h.1.1, h.2⟩) (fun _ _ h => ⟨h.1.1, fun hn => pan_iff hn h.1.2.1, h.1.2.2, h.2⟩)

/-! ### The hypotheses can be met -/

example (st : Style) : ∃ s', run (Sample.oracle st) (sortUnstable st Sample.cfg Sample.view) (Sample.state st) = (.ok (), s') ∧
    Sorted Sample.lt (Sample.view.contents s'.mem) ∧ (Sample.view.contents s'.mem).Perm Sample.contents ∧
    ∀ a, a ∉ Sample.view.region → s'.mem a = Sample.mem a :=
  sort_unstable_sorts Sample.swo (Sample.agrees st) Sample.notZst Sample.wf _

/-- Nonsense answers that depend on the number of calls so far, with a panic at the tenth call. -/
example (st : Style) : Ends (Sample.nonsense st) (sortUnstable st Sample.cfg Sample.view) (Sample.nstate st)
    (fun _ m => (Sample.view.contents m).Perm Sample.contents ∧ ∀ a, a ∉ Sample.view.region → m a = Sample.mem a)
    (fun e m => e = .user ∧ (Sample.view.contents m).Perm Sample.contents ∧ ∀ a, a ∉ Sample.view.region → m a = Sample.mem a) :=
  sort_unstable_safe _ Sample.notZst Sample.wf _

example (st : Style) : ∃ s', run (Sample.stubborn st) (sortUnstable st Sample.cfg Sample.view) (Sample.state st) = (.ok (), s') ∧
    (Sample.view.contents s'.mem).Perm Sample.contents :=
  sort_unstable_returns (Sample.stubborn_noPanic st) Sample.notZst Sample.wf _

example (st : Style) := par_sort_unstable_sorts (st := st) (cfg := Sample.cfg) Sample.swo (Sample.agrees st) Sample.notZst Sample.wf (Sample.state st)
example (st : Style) := par_sort_unstable_safe (st := st) (cfg := Sample.cfg) (Sample.nonsense st) Sample.notZst Sample.wf (Sample.nstate st)

end NdSlice
