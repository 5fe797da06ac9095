import Verif.Proof.ParExact
import Verif.Props.ParStable
import Verif.Props.Relational

/-
C32 for `par_sort*`, and what it gives for C44 and C46.
-/

namespace NdSlice

open Style Prog

variable {α κ σ σ' : Type} {st : Style} {cfg : Cfg} {v : View}

/-- User code is a pure function of its arguments (it may panic on some of them), whatever the state of the environment, which may change
arbitrarily and also makes the scheduler's choices. -/
def Computes {ι ω : Type} (o : Oracle σ ι ω) (f : ι → Option ω) : Prop := ∀ e q, (o.ask e q).1 = f q

/-- C32 for `par_sort*`: with pure user code (also inconsistent or panicking on some arguments) every schedule, with any set of tasks
starting late, ends like any run of the tasks one after the other: with the same result, and with the same memory unless user code panicked.
(If a task panics, tasks that have not started are never run, so that the order of the array then depends on the schedule; it
is a permutation by `par_sort_safe`.) -/
theorem par_sort_deterministic {f : st.Q α κ → Option (st.A κ)} {o : Oracle σ (st.Q α κ) (st.A κ)} {o' : Oracle σ' (st.Q α κ) (st.A κ)}
    (ho : Computes o f) (ho' : Computes o' f) (hz : cfg.zst = true → Subsingleton α) (hv : v.WF) {heap : Addr} (hf : Fresh v (scratch heap v.len))
    {s : St α (st.Q α κ) (st.A κ) σ} {s' : St α (st.Q α κ) (st.A κ) σ'} (hm : s.mem = s'.mem) {q t r}
    (h : Steps o (parSortStable st cfg v heap) s q t) (he : Ended q r) :
    (run o' (parSortStable st cfg v heap) s').1 = r.toOut ∧
      (r = .ok () → (run o' (parSortStable st cfg v heap) s').2.mem = t.mem) := by
  have nd := hf.nodup hv scratch_wf
  obtain ⟨out, fin, _, hw⟩ := parMergeSort_exact (C := st.toCmp (fun q r => r = f q)) (cfg := cfg) (f := f) rfl (less_noChoose st)
    (Apart.of_nodup nd rfl) hz nd s.mem
  have hr : (run o' (parSortStable st cfg v heap) s').1 = out ∧ (∀ b, out = .ok b → (run o' (parSortStable st cfg v heap) s').2.mem = fin) := by
    rcases run_sound (o := o') (fun e q => ho' e q) (s := s') (hm ▸ hw s'.log) with ⟨b, u, h1, h2, h3, -⟩ | ⟨e, u, h1, h2⟩
    · unfold parSortStable
      erw [h1, h2]
      exact ⟨rfl, fun _ _ => h3⟩
    · unfold parSortStable
      erw [h1, h2]
      exact ⟨rfl, fun _ hb => by cases hb⟩
  obtain ⟨-, -, -, h3⟩ := sched_sound (fun e q => ho e q) h (hw s.log)
  rcases h3 with ⟨p'', s'', h3⟩ | ⟨b, lg, rfl, -, h4, h5, -⟩ | ⟨e, lg, rfl, -, h4⟩
  · cases he <;> cases h3
  · cases he
    exact ⟨hr.1.trans h4, fun _ => (hr.2 _ h4).trans h5.symm⟩
  · cases he
    exact ⟨hr.1.trans h4, fun h => by cases h⟩

/-- C32 for `par_sort*`: any two schedules. -/
theorem par_sort_two_schedules {f : st.Q α κ → Option (st.A κ)} {o : Oracle σ (st.Q α κ) (st.A κ)} {o' : Oracle σ' (st.Q α κ) (st.A κ)}
    (ho : Computes o f) (ho' : Computes o' f) (hz : cfg.zst = true → Subsingleton α) (hv : v.WF) {heap : Addr} (hf : Fresh v (scratch heap v.len))
    {s : St α (st.Q α κ) (st.A κ) σ} {s' : St α (st.Q α κ) (st.A κ) σ'} (hm : s.mem = s'.mem) {q t r q' t' r'}
    (h : Steps o (parSortStable st cfg v heap) s q t) (he : Ended q r)
    (h' : Steps o' (parSortStable st cfg v heap) s' q' t') (he' : Ended q' r') : r = r' ∧ (r = .ok () → t.mem = t'.mem) := by
  obtain ⟨h1, h2⟩ := par_sort_deterministic ho ho' hz hv hf hm h he
  obtain ⟨h3, h4⟩ := par_sort_deterministic ho' ho' hz hv hf rfl h' he'
  obtain rfl := Res.toOut_inj (h1.symm.trans h3)
  exact ⟨rfl, fun h => (h2 h).symm.trans (h4 h)⟩

/-- C44 for `par_sort*`: any schedules of both flavours, with pure user code. -/
theorem par_sort_variants_schedules {κ' : Type} {st' : Style} {f : st.Q α κ → Option (st.A κ)} {f' : st'.Q α κ' → Option (st'.A κ')} {c : Bool}
    (h : SameOrder st st' (.pure f c) (.pure f' c) (fun x => x)) (hz : cfg.zst = true → Subsingleton α) (hv : v.WF)
    {heap : Addr} (hf : Fresh v (scratch heap v.len)) {o : Oracle σ (st.Q α κ) (st.A κ)} {o' : Oracle σ' (st'.Q α κ') (st'.A κ')}
    (ho : Computes o f) (ho' : Computes o' f') {s : St α (st.Q α κ) (st.A κ) σ} {s' : St α (st'.Q α κ') (st'.A κ') σ'} (hm : s.mem = s'.mem) {q q' r r' t t'}
    (ht : Steps o (parSortStable st cfg v heap) s q t) (hq : Ended q r)
    (ht' : Steps o' (parSortStable st' cfg v heap) s' q' t') (hq' : Ended q' r') : r = r' ∧ (r = .ok () → t.mem = t'.mem) := by
  obtain ⟨h1, h2, -⟩ := par_sort_variants (cfg := cfg) (v := v) h heap s.mem ()
  obtain ⟨h3, h4⟩ := par_sort_deterministic (s' := ⟨s.mem, (), []⟩) ho (o' := .pure f c) (fun _ _ => rfl) hz hv hf rfl ht hq
  obtain ⟨h5, h6⟩ := par_sort_deterministic (s' := ⟨s.mem, (), []⟩) ho' (o' := .pure f' c) (fun _ _ => rfl) hz hv hf hm.symm ht' hq'
  obtain rfl : r = r' := Res.toOut_inj (by rw [← h3, h1, h5])
  exact ⟨rfl, fun h => by rw [← h4 h, h2, h6 h]⟩

/-- C46 for `par_sort*`: any schedules on both arrays, with pure user code. -/
theorem par_sort_layout_schedules {v' : View} {f : st.Q α κ → Option (st.A κ)} {o : Oracle σ (st.Q α κ) (st.A κ)} {o' : Oracle σ' (st.Q α κ) (st.A κ)}
    (ho : Computes o f) (ho' : Computes o' f) (hz : cfg.zst = true → Subsingleton α) (hv : v.WF) (hv' : v'.WF) {heap heap' : Addr}
    (hf : Fresh v (scratch heap v.len)) (hf' : Fresh v' (scratch heap' v'.len))
    {s : St α (st.Q α κ) (st.A κ) σ} {s' : St α (st.Q α κ) (st.A κ) σ'} (hm : v.contents s.mem = v'.contents s'.mem)
    (hb : (scratch heap v.len).contents s.mem = (scratch heap' v'.len).contents s'.mem) {q t r q' t' r'}
    (h : Steps o (parSortStable st cfg v heap) s q t) (he : Ended q r)
    (h' : Steps o' (parSortStable st cfg v' heap') s' q' t') (he' : Ended q' r') :
    r = r' ∧ (r = .ok () → v.contents t.mem = v'.contents t'.mem) := by
  have hl : v.len = v'.len := by have := congrArg List.length hm; rwa [View.contents_length, View.contents_length] at this
  obtain ⟨h1, h2, -⟩ := (par_sort_natural (cfg := cfg) (.refl st (.pure f true)) heap heap' hv hv' hl hf hf'
    (s := ⟨s.mem, (), []⟩) (s' := ⟨s'.mem, (), []⟩) rfl (by rw [List.map_id', hm]) (by rw [List.map_id']; exact hb.symm)).sameOn
  obtain ⟨h3, h4⟩ := par_sort_deterministic (s' := ⟨s.mem, (), []⟩) ho (o' := .pure f true) (fun _ _ => rfl) hz hv hf rfl h he
  obtain ⟨h5, h6⟩ := par_sort_deterministic (s' := ⟨s'.mem, (), []⟩) ho' (o' := .pure f true) (fun _ _ => rfl) hz hv' hf' rfl h' he'
  rw [h3, h5] at h1
  obtain rfl : r = r' := by
    cases r <;> cases r' <;> cases h1 <;> rfl
  exact ⟨rfl, fun h => by rw [← h4 h, ← h6 h]; exact h2⟩

/-! ### The hypotheses can be met -/

namespace Sample

/-- Pure but inconsistent user code which panics on some arguments. -/
def oddF : Style.ord.Q Nat Nat → Option (Style.ord.A Nat) := fun q : Nat × Nat => if q.1 = 77 then none else some (decide (q.1 % 3 < q.2 % 2))

/-- The same in an environment that lets every other task start late. -/
def odd : Oracle Bool (Style.ord.Q Nat Nat) (Style.ord.A Nat) := ⟨fun e q => (oddF q, e), fun e => (e, !e)⟩

end Sample

example {q t r q' t' r'} (h : Steps Sample.odd (parSortStable .ord Sample.cfg Sample.long 300) ⟨Sample.mem, true, []⟩ q t) (he : Ended q r)
    (h' : Steps (.pure Sample.oddF true) (parSortStable .ord Sample.cfg Sample.long 300) ⟨Sample.mem, (), []⟩ q' t') (he' : Ended q' r') :
    r = r' ∧ (r = .ok () → t.mem = t'.mem) :=
  par_sort_two_schedules (cfg := Sample.cfg) (f := Sample.oddF) (o := Sample.odd) (o' := .pure Sample.oddF true) (s := ⟨Sample.mem, true, []⟩)
    (s' := ⟨Sample.mem, (), []⟩) (fun _ _ => rfl) (fun _ _ => rfl) Sample.notZst Sample.long_wf Sample.long_fresh rfl h he h' he'

example {q t r} (h : Steps Sample.odd (parSortStable .ord Sample.cfg Sample.long 300) ⟨Sample.mem, true, []⟩ q t) (he : Ended q r) :=
  par_sort_deterministic (cfg := Sample.cfg) (f := Sample.oddF) (o := Sample.odd) (o' := Sample.odd) (s := ⟨Sample.mem, true, []⟩)
    (s' := ⟨Sample.mem, false, []⟩) (fun _ _ => rfl) (fun _ _ => rfl) Sample.notZst Sample.long_wf Sample.long_fresh rfl h he

example {q t r q' t' r'} (h : Steps Sample.odd (parSortStable .ord Sample.cfg Sample.long 300) ⟨Sample.mem, true, []⟩ q t) (he : Ended q r)
    (h' : Steps (.pure Sample.oddF true) (parSortStable .ord Sample.cfg Sample.long 300) ⟨Sample.mem, (), []⟩ q' t') (he' : Ended q' r') :
    r = r' ∧ (r = .ok () → Sample.long.contents t.mem = Sample.long.contents t'.mem) :=
  par_sort_layout_schedules (cfg := Sample.cfg) (f := Sample.oddF) (o := Sample.odd) (o' := .pure Sample.oddF true) (s := ⟨Sample.mem, true, []⟩)
    (s' := ⟨Sample.mem, (), []⟩) (fun _ _ => rfl) (fun _ _ => rfl) Sample.notZst Sample.long_wf Sample.long_wf Sample.long_fresh
    Sample.long_fresh rfl rfl h he h' he'

example {q t r q' t' r'} (h : Steps Sample.odd (parSortStable .ord Sample.cfg Sample.long 300) ⟨Sample.mem, true, []⟩ q t) (he : Ended q r)
    (h' : Steps (viaOrd (.pure Sample.oddF true)) (parSortStable (κ := Nat) .cmp Sample.cfg Sample.long 300) ⟨Sample.mem, (), []⟩ q' t') (he' : Ended q' r') :
    r' = r ∧ (r' = .ok () → t'.mem = t.mem) :=
  par_sort_variants_schedules (cfg := Sample.cfg) (st := .cmp) (st' := .ord) (f' := Sample.oddF) (f := fun q => ((viaOrd (.pure Sample.oddF true)).ask () q).1)
    (c := true) (o := viaOrd (.pure Sample.oddF true)) (o' := Sample.odd) (sameOrder_viaOrd (κ := Nat) (κ' := Nat) (.pure Sample.oddF true)) Sample.notZst
    Sample.long_wf Sample.long_fresh (fun _ _ => rfl) (fun _ _ => rfl) (s := ⟨Sample.mem, (), []⟩) (s' := ⟨Sample.mem, true, []⟩) rfl h' he' h he

end NdSlice
