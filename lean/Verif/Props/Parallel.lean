import Verif.Props.Unstable
import Verif.Props.Select

/-
Properties of every schedule of the parallel operations: C31, C32, C33.
-/

namespace NdSlice

open Style

variable {α κ ι ω σ β : Type} {st : Style} {cfg : Cfg} {v : View}

/-! ### C31: no data race -/

/-- C31 for `par_sort_unstable*`. -/
theorem par_sort_unstable_race_free (o : Oracle σ (st.Q α κ) (st.A κ))
    (hz : cfg.zst = true → Subsingleton α) (hv : v.WF) (s : St α (st.Q α κ) (st.A κ) σ) {p' s'}
    (h : Steps o (parSortUnstable st cfg v) s p' s') : ¬ Race p' :=
  ((par_sort_unstable_safe o hz hv s).1 p' s' h).1

/-- C31 for `par_select_many_nth_unstable*`. -/
theorem par_select_many_race_free (o : Oracle σ (st.Q α κ) (st.A κ))
    (hz : cfg.zst = true → Subsingleton α) (hv : v.WF) (hb : 2 * v.len ≤ 2 ^ cfg.bits)
    (is : List Nat) (extra : Nat) (s : St α (st.Q α κ) (st.A κ) σ) {p' s'}
    (h : Steps o (parSelectManyNthUnstable st cfg v is extra) s p' s') : ¬ Race p' :=
  ((par_select_many_safe o hz hv hb is extra s).1 p' s' h).1

/-! ### C33: every schedule ends -/

/-- No infinite schedule. -/
def NoInfinite (o : Oracle σ ι ω) (p : Prog α ι ω β) : Prop :=
  ¬ ∃ (ps : Nat → Prog α ι ω β) (ss : Nat → St α ι ω σ), ps 0 = p ∧ ∀ n, Step o (ps n) (ss n) (ps (n + 1)) (ss (n + 1))

/-- No deadlock: every reachable state has ended (normally or by a panic) or some task can make a step. -/
def NoDeadlock (o : Oracle σ ι ω) (p : Prog α ι ω β) (s : St α ι ω σ) : Prop :=
  ∀ p' s', Steps o p s p' s' → (∃ r, Ended p' r) ∨ ∃ p'' s'', Step o p' s' p'' s''

theorem noInfinite (o : Oracle σ ι ω) (p : Prog α ι ω β) : NoInfinite o p := by
  rintro ⟨ps, ss, _, h⟩
  exact no_infinite_schedule o ps ss h

theorem Always.noDeadlock {o : Oracle σ ι ω} {p : Prog α ι ω β} {s : St α ι ω σ} {Q : β → Mem α → Prop} {E : Panic → Mem α → Prop}
    (h : Always o p s Q E) : NoDeadlock o p s := by
  intro p' s' hs
  rcases (h.1 p' s' hs).2.2 with h | ⟨b, rfl, _⟩ | ⟨e, rfl, _⟩
  · exact .inr h
  · exact .inl ⟨_, .ret b⟩
  · exact .inl ⟨_, .throw e⟩

/-- C33 for `par_sort_unstable*`. -/
theorem par_sort_unstable_ends (o : Oracle σ (st.Q α κ) (st.A κ))
    (hz : cfg.zst = true → Subsingleton α) (hv : v.WF) (s : St α (st.Q α κ) (st.A κ) σ) :
    NoInfinite o (parSortUnstable st cfg v) ∧ NoDeadlock o (parSortUnstable st cfg v) s :=
  ⟨noInfinite _ _, (par_sort_unstable_safe o hz hv s).noDeadlock⟩

/-- C33 for `par_select_many_nth_unstable*`. -/
theorem par_select_many_ends (o : Oracle σ (st.Q α κ) (st.A κ))
    (hz : cfg.zst = true → Subsingleton α) (hv : v.WF) (hb : 2 * v.len ≤ 2 ^ cfg.bits)
    (is : List Nat) (extra : Nat) (s : St α (st.Q α κ) (st.A κ) σ) :
    NoInfinite o (parSelectManyNthUnstable st cfg v is extra) ∧ NoDeadlock o (parSelectManyNthUnstable st cfg v is extra) s :=
  ⟨noInfinite _ _, (par_select_many_safe o hz hv hb is extra s).noDeadlock⟩

/-! ### C32: schedule independence -/

/-- Every schedule that has ended gave the result and memory of the sequential run. -/
def Deterministic (o : Oracle σ ι ω) (p : Prog α ι ω β) (s : St α ι ω σ) : Prop :=
  ∀ p' s' r, Steps o p s p' s' → Ended p' r → (run o p s).1 = r.toOut ∧ (run o p s).2.mem = s'.mem

theorem Tri.deterministic {f : ι → Option ω} {c : Bool} {p : Prog α ι ω β} (hv : v.WF) {s : St α ι ω Unit}
    {Q : β → List α → Prop} {E : Panic → List α → Prop}
    (h : Tri (fun q r => r = f q) v.region p (v.contents s.mem) Q E) : Deterministic (.pure f c) p s := by
  intro p' s' r hs he
  have := sched_deterministic (R := fun q r => r = f q) (c := c) (fun q => rfl) hs (h s.mem s.log (View.region_nodup hv) rfl) he
  unfold runOut at this
  injection this with h1 h2
  exact ⟨h1, h2⟩

/-- C32 for `par_sort_unstable*`: with pure user code (also inconsistent or panicking on some arguments) every schedule
gives the result of running the tasks one after the other. -/
theorem par_sort_unstable_deterministic (f : st.Q α κ → Option (st.A κ)) (c : Bool)
    (hz : cfg.zst = true → Subsingleton α) (hv : v.WF) (s : St α (st.Q α κ) (st.A κ) Unit) :
    Deterministic (.pure f c) (parSortUnstable st cfg v) s :=
  Tri.deterministic hv (parQuickSort_spec (C := st.toCmp (fun q r => r = f q)) (cfg := cfg) (v := v) hz (v.contents_length s.mem))

/-- C32 for `par_select_many_nth_unstable*`. -/
theorem par_select_many_deterministic (f : st.Q α κ → Option (st.A κ)) (c : Bool)
    (hz : cfg.zst = true → Subsingleton α) (hv : v.WF) (hb : 2 * v.len ≤ 2 ^ cfg.bits)
    (is : List Nat) (extra : Nat) (s : St α (st.Q α κ) (st.A κ) Unit) :
    Deterministic (.pure f c) (parSelectManyNthUnstable st cfg v is extra) s :=
  Tri.deterministic hv (parSelectMany_spec (st.toCmp (fun q r => r = f q)) (cfg := cfg) (v := v) hz (is := is)
    (v.contents_length s.mem) hb (Nat.le_add_right is.length extra))

/-! ### The hypotheses can be met -/

example (st : Style) {p' s'} (h : Steps (Sample.nonsense st) (parSortUnstable st Sample.cfg Sample.view) (Sample.nstate st) p' s') :
    ¬ Race p' := par_sort_unstable_race_free _ Sample.notZst Sample.wf _ h
example (st : Style) {p' s'}
    (h : Steps (Sample.nonsense st) (parSelectManyNthUnstable st Sample.cfg Sample.view [3, 17] 1) (Sample.nstate st) p' s') :
    ¬ Race p' := par_select_many_race_free _ Sample.notZst Sample.wf (by decide) _ _ _ h
example (st : Style) := par_sort_unstable_ends (st := st) (cfg := Sample.cfg) (Sample.nonsense st) Sample.notZst Sample.wf (Sample.nstate st)
example (st : Style) := par_select_many_ends (st := st) (cfg := Sample.cfg) (Sample.nonsense st) Sample.notZst Sample.wf (by decide)
  [3, 17] 1 (Sample.nstate st)
example (st : Style) := par_sort_unstable_deterministic (st := st) (cfg := Sample.cfg) (fun q => some (Sample.answer Sample.lt st q)) true
  Sample.notZst Sample.wf (Sample.state st)
example (st : Style) := par_select_many_deterministic (st := st) (cfg := Sample.cfg) (fun q => some (Sample.answer Sample.lt st q)) true
  Sample.notZst Sample.wf (by decide) [3, 17] 1 (Sample.state st)

end NdSlice
