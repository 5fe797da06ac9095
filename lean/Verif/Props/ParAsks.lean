import Verif.Proof.NoChoose
import Verif.Props.ParDeterministic
import Verif.Props.Parallel
import Verif.Props.Entropy
import Verif.Props.Lag

/-
C85: the questions which a parallel method asks do not depend on the schedule.
-/

namespace NdSlice

open Style Prog
open scoped Nat

variable {α κ σ σ' : Type} {st : Style} {cfg : Cfg} {v : View}

/-- A log that is a permutation of a longer version of `l` is longer than `l` by a permutation of the rest. -/
theorem log_perm {γ : Type} {l lg d t : List γ} (hp : l <+: t) (h : lg = l ++ d) (hl : lg.Perm t) : ∃ d', t = l ++ d' ∧ d'.Perm d := by
  obtain ⟨d', rfl⟩ := hp
  subst h
  exact ⟨d', rfl, ((List.perm_append_left_iff l).mp hl).symm⟩

/-- In a program without choices every schedule asks the questions of the sequential run, also if it panics. -/
theorem Tri.asks {ι ω β : Type} {f : ι → Option ω} {p : Prog α ι ω β} (hn : NoChoose p) (hv : v.WF) {o : Oracle σ ι ω} {o' : Oracle σ' ι ω}
    (ho : Computes o f) (ho' : Computes o' f) {s : St α ι ω σ} {s' : St α ι ω σ'} (hm : s.mem = s'.mem)
    {Q : β → List α → Prop} {E : Panic → List α → Prop} (h : Tri (fun q r => r = f q) v.region p (v.contents s.mem) Q E)
    {q q' r r' t t'} (hs : Steps o p s q t) (he : Ended q r) (hs' : Steps o' p s' q' t') (he' : Ended q' r') :
    r = r' ∧ t.mem = t'.mem ∧ ∃ d d', t.log = s.log ++ d ∧ t'.log = s'.log ++ d' ∧ d.Perm d' := by
  have one : ∀ {σ : Type} {o : Oracle σ ι ω} (_ : Computes o f) {s0 : St α ι ω σ} (_ : s0.mem = s.mem) {q r t} (_ : Steps o p s0 q t) (_ : Ended q r),
      runOut (.pure f true) p ⟨s.mem, (), []⟩ = (r.toOut, t.mem) ∧ ∃ d, t.log = s0.log ++ d ∧ d.Perm (run (.pure f true) p ⟨s.mem, (), []⟩).2.log := by
    intro σ o ho s0 hm q r t hs he
    have w := wp_exact_log (c := true) hn (h s.mem s0.log (View.region_nodup hv) rfl)
    rw [← hm] at w
    obtain ⟨-, -, -, h3⟩ := sched_sound (fun e q => ho e q) hs w
    rw [hm] at h3
    rcases h3 with ⟨p'', s'', h3⟩ | ⟨b, lg, rfl, h3, -, h4, d, h5, h6⟩ | ⟨e, lg, rfl, h3, -, h4, d, h5, h6⟩
    · cases he <;> cases h3
    · cases he
      obtain ⟨d', g1, g2⟩ := log_perm hs.log_prefix h5 h3
      exact ⟨h4, d', g1, g2.trans h6⟩
    · cases he
      obtain ⟨d', g1, g2⟩ := log_perm hs.log_prefix h5 h3
      exact ⟨h4, d', g1, g2.trans h6⟩
  obtain ⟨h1, d, h2, h3⟩ := one ho rfl hs he
  obtain ⟨h4, d', h5, h6⟩ := one ho' hm.symm hs' he'
  obtain ⟨e1, e2⟩ := Prod.mk.inj (h1.symm.trans h4)
  exact ⟨Res.toOut_inj e1, e2, d, d', h2, h5, h3.trans h6.symm⟩

/-- C85 for `par_sort_unstable*`: with pure user code (also inconsistent or panicking on some arguments) any two schedules (one of them may run the
tasks one after the other) give the same result and ask the same questions, each of them as many times. -/
theorem par_sort_unstable_asks {f : st.Q α κ → Option (st.A κ)} {o : Oracle σ (st.Q α κ) (st.A κ)} {o' : Oracle σ' (st.Q α κ) (st.A κ)}
    (ho : Computes o f) (ho' : Computes o' f) (hz : cfg.zst = true → Subsingleton α) (hv : v.WF)
    {s : St α (st.Q α κ) (st.A κ) σ} {s' : St α (st.Q α κ) (st.A κ) σ'} (hm : s.mem = s'.mem) {q q' r r' t t'}
    (h : Steps o (parSortUnstable st cfg v) s q t) (he : Ended q r) (h' : Steps o' (parSortUnstable st cfg v) s' q' t') (he' : Ended q' r') :
    r = r' ∧ t.mem = t'.mem ∧ ∃ d d', t.log = s.log ++ d ∧ t'.log = s'.log ++ d' ∧ d.Perm d' :=
  Tri.asks (.parQuickSort (less_noChoose st)) hv ho ho' hm
    (parQuickSort_spec (C := st.toCmp (fun q r => r = f q)) (cfg := cfg) (v := v) hz (v.contents_length s.mem)) h he h' he'

/-- C85 for `par_select_many_nth_unstable*`. -/
theorem par_select_many_asks {f : st.Q α κ → Option (st.A κ)} {o : Oracle σ (st.Q α κ) (st.A κ)} {o' : Oracle σ' (st.Q α κ) (st.A κ)}
    (ho : Computes o f) (ho' : Computes o' f) (hz : cfg.zst = true → Subsingleton α) (hv : v.WF) (hb : 2 * v.len ≤ 2 ^ cfg.bits)
    (is : List Nat) (extra : Nat) {s : St α (st.Q α κ) (st.A κ) σ} {s' : St α (st.Q α κ) (st.A κ) σ'} (hm : s.mem = s'.mem) {q q' r r' t t'}
    (h : Steps o (parSelectManyNthUnstable st cfg v is extra) s q t) (he : Ended q r)
    (h' : Steps o' (parSelectManyNthUnstable st cfg v is extra) s' q' t') (he' : Ended q' r') :
    r = r' ∧ t.mem = t'.mem ∧ ∃ d d', t.log = s.log ++ d ∧ t'.log = s'.log ++ d' ∧ d.Perm d' :=
  Tri.asks (.parSelectMany (less_noChoose st)) hv ho ho' hm
    (parSelectMany_spec (st.toCmp (fun q r => r = f q)) (cfg := cfg) (v := v) hz (is := is) (v.contents_length s.mem) hb
      (Nat.le_add_right is.length extra)) h he h' he'

/-- C85 for `par_sort*`: with pure user code (also inconsistent) any two schedules which return, whichever tasks start late, ask the same questions, each of
them as many times.  (If a task panics then tasks that have not started are never run, so that which questions are asked depends on the schedule.) -/
theorem par_sort_asks {f : st.Q α κ → Option (st.A κ)} {o : Oracle σ (st.Q α κ) (st.A κ)} {o' : Oracle σ' (st.Q α κ) (st.A κ)}
    (ho : Computes o f) (ho' : Computes o' f) (hz : cfg.zst = true → Subsingleton α) (hv : v.WF) {heap : Addr} (hf : Fresh v (scratch heap v.len))
    {s : St α (st.Q α κ) (st.A κ) σ} {s' : St α (st.Q α κ) (st.A κ) σ'} (hm : s.mem = s'.mem) {t t'}
    (h : Steps o (parSortStable st cfg v heap) s (.ret ()) t) (h' : Steps o' (parSortStable st cfg v heap) s' (.ret ()) t') :
    t.mem = t'.mem ∧ ∃ d d', t.log = s.log ++ d ∧ t'.log = s'.log ++ d' ∧ d.Perm d' := by
  have nd := hf.nodup hv scratch_wf
  obtain ⟨out, fin, asks, hw⟩ := parMergeSort_exact (C := st.toCmp (fun q r => r = f q)) (cfg := cfg) (f := f) rfl (less_noChoose st)
    (Apart.of_nodup nd rfl) hz nd s.mem
  have one : ∀ {σ : Type} {o : Oracle σ (st.Q α κ) (st.A κ)} (_ : Computes o f) {s0 : St α (st.Q α κ) (st.A κ) σ} (_ : s0.mem = s.mem) {t}
      (_ : Steps o (parSortStable st cfg v heap) s0 (.ret ()) t), t.mem = fin ∧ ∃ d, t.log = s0.log ++ d ∧ d.Perm asks := by
    intro σ o ho s0 hm t hs
    obtain ⟨-, -, -, h3⟩ := sched_sound (fun e q => ho e q) hs (hm ▸ hw s0.log)
    rcases h3 with ⟨p'', s'', h3⟩ | ⟨b, lg, hb, h3, -, h4, d, h5, h6⟩ | ⟨e, lg, hb, -⟩
    · cases h3
    · obtain ⟨d', g1, g2⟩ := log_perm hs.log_prefix h5 h3
      exact ⟨h4, d', g1, g2.trans h6⟩
    · cases hb
  obtain ⟨h1, d, h2, h3⟩ := one ho rfl h
  obtain ⟨h4, d', h5, h6⟩ := one ho' hm.symm h'
  exact ⟨h1.trans h4.symm, d, d', h2, h5, h3.trans h6.symm⟩

/-! ### The lower bound for all schedules -/

theorem comparisons_perm {d d' : List (st.Q α κ × Option (st.A κ))} (h : d.Perm d') : comparisons st d = comparisons st d' := h.countP_eq _

theorem secretive_function [DecidableEq α] {st : Style} {xs : List α} (nd : xs.Nodup) {p : Prog α (st.Q α α) (st.A α) Unit} {m : Mem α}
    (ends : ∃ s', run (secretive st xs fun e : Unit => (true, e)) p ⟨m, (xs.permutations, ()), []⟩ = (.ok (), s'))
    (sorts : ∀ {s' lt d}, Steps (secretive st xs fun e : Unit => (true, e)) p ⟨m, (xs.permutations, ()), []⟩ (.ret ()) s' → SWO lt → s'.log = [] ++ d →
      Consistent st lt d → Sorted lt (v.contents s'.mem) ∧ (v.contents s'.mem).Perm xs) :
    ∃ (lt : α → α → Bool) (f : st.Q α α → st.A α), SWO lt ∧ Agrees st (funOracle f) lt ∧
      ∃ m' d, Steps (funOracle f) p ⟨m, (), []⟩ (.ret ()) ⟨m', (), [] ++ d⟩ ∧ xs.length ! ≤ 2 ^ comparisons st d := by
  obtain ⟨s', h⟩ := ends
  have hs := run_steps_ret h
  obtain ⟨-, d, h2, h3, h4⟩ := secretive_steps nd rfl hs (fun so hd hc => sorts hs so hd hc)
  refine ⟨ltIn (v.contents s'.mem), byRank (v.contents s'.mem) st, ltIn_swo _, byRank_agrees _ st, s'.mem, d, run_steps_ret ?_, h3⟩
  have := run_replay (f := byRank (v.contents s'.mem) st) (o := secretive st xs fun e : Unit => (true, e)) (fun _ => rfl) (p := p)
    (s := ⟨m, (xs.permutations, ()), []⟩) (L := d) h4 (by rw [h, h2])
  rw [h] at this
  have e : s'.forget = ⟨s'.mem, (), [] ++ d⟩ := by rw [← h2]; rfl
  rw [e] at this
  exact this

/-- C83 and C85: for each array of `n` different elements there are an order of the elements and a pure comparator for it, such that `par_sort*` makes, under
every schedule, so many comparisons (of all threads together) that there are at least `n!` ways of answering them. -/
theorem par_sort_entropy_schedules [DecidableEq α] (st : Style) (hz : cfg.zst = true → Subsingleton α) (hv : v.WF) {heap : Addr}
    (hf : Fresh v (scratch heap v.len)) (m : Mem α) (nd : (v.contents m).Nodup) :
    ∃ (lt : α → α → Bool) (f : st.Q α α → st.A α), SWO lt ∧ Agrees st (funOracle f) lt ∧
      ∀ {σ : Type} (o : Oracle σ (st.Q α α) (st.A α)) (s s' : St α (st.Q α α) (st.A α) σ), Computes o (fun q => some (f q)) → s.mem = m →
        Steps o (parSortStable st cfg v heap) s (.ret ()) s' → ∃ d, s'.log = s.log ++ d ∧ v.len ! ≤ 2 ^ comparisons st d := by
  obtain ⟨lt, f, so, ag, m', d, h, hd⟩ := secretive_function (v := v) (p := parSortStable st cfg v heap) nd
    (by
      obtain ⟨b, s', h1, -⟩ := (TriS.ends (rel_sat (secretive st (v.contents m) fun e : Unit => (true, e))) hv scratch_wf hf
        (s := ⟨m, ((v.contents m).permutations, ()), []⟩)
        (parMergeSort_spec (C := st.toCmp (rel _)) (cfg := cfg) (v := v) (buf := scratch heap v.len) (v.contents_length m) hz rfl)).ok
        (fun e m h => pan_iff secretive_noPanic h.1.2.1)
      exact ⟨s', h1⟩)
    (fun h so hd hc => let t := par_sort_sorts_told so hz hv hf h hd hc; ⟨t.sorted, t.perm⟩)
  refine ⟨lt, f, so, ag, fun o s s' ho hm hs => ?_⟩
  obtain ⟨-, d1, d2, h1, h2, h3⟩ := par_sort_asks (f := fun q => some (f q)) ho (o' := funOracle f) (fun _ _ => rfl) hz hv hf (by exact hm) hs h
  obtain rfl := List.append_cancel_left h2
  rw [v.contents_length] at hd
  exact ⟨d1, h1, by rw [comparisons_perm h3]; exact hd⟩

/-- C83 and C85: the same for `par_sort_unstable*`. -/
theorem par_sort_unstable_entropy_schedules [DecidableEq α] (st : Style) (hz : cfg.zst = true → Subsingleton α) (hv : v.WF)
    (m : Mem α) (nd : (v.contents m).Nodup) :
    ∃ (lt : α → α → Bool) (f : st.Q α α → st.A α), SWO lt ∧ Agrees st (funOracle f) lt ∧
      ∀ {σ : Type} (o : Oracle σ (st.Q α α) (st.A α)) (s s' : St α (st.Q α α) (st.A α) σ), Computes o (fun q => some (f q)) → s.mem = m →
        Steps o (parSortUnstable st cfg v) s (.ret ()) s' → ∃ d, s'.log = s.log ++ d ∧ v.len ! ≤ 2 ^ comparisons st d := by
  obtain ⟨lt, f, so, ag, m', d, h, hd⟩ := secretive_function (v := v) (p := parSortUnstable st cfg v) nd
    (by
      obtain ⟨b, s', h1, -⟩ := (Tri.ends (rel_sat (secretive st (v.contents m) fun e : Unit => (true, e))) hv
        (s := ⟨m, ((v.contents m).permutations, ()), []⟩) (parQuickSort_spec (C := st.toCmp (rel _)) (cfg := cfg) (v := v) hz (v.contents_length m))).ok
        (fun e m h => pan_iff secretive_noPanic h.1.2.1)
      exact ⟨s', h1⟩)
    (fun h so hd hc => par_sort_unstable_sorts_told so hz hv h hd hc)
  refine ⟨lt, f, so, ag, fun o s s' ho hm hs => ?_⟩
  obtain ⟨-, -, d1, d2, h1, h2, h3⟩ := par_sort_unstable_asks (f := fun q => some (f q)) ho (o' := funOracle f) (fun _ _ => rfl) hz hv (by exact hm)
    hs (.ret ()) h (.ret ())
  obtain rfl := List.append_cancel_left h2
  rw [v.contents_length] at hd
  exact ⟨d1, h1, by rw [comparisons_perm h3]; exact hd⟩

/-! ### The hypotheses can be met -/

namespace Sample

/-- Pure but inconsistent user code which does not panic. -/
def oddCalmF : Style.ord.Q Nat Nat → Option (Style.ord.A Nat) := fun q : Nat × Nat => some (decide (q.1 % 3 < q.2 % 2))

/-- The same in an environment that decides by `flip` which tasks start late. -/
def oddCalm (flip : Bool → Bool × Bool) : Oracle Bool (Style.ord.Q Nat Nat) (Style.ord.A Nat) := ⟨fun e q => (oddCalmF q, e), flip⟩

end Sample

/-- Two runs of `par_sort` on 5003 elements: the one with every other task starting late, the other with none. -/
example : ∃ t t' : St Nat (Style.ord.Q Nat Nat) (Style.ord.A Nat) Bool,
    Steps (Sample.oddCalm fun e => (e, !e)) (parSortStable .ord Sample.cfg Sample.long 300) ⟨Sample.mem, true, []⟩ (.ret ()) t ∧
    Steps (Sample.oddCalm fun e => (false, e)) (parSortStable .ord Sample.cfg Sample.long 300) ⟨Sample.mem, true, []⟩ (.ret ()) t' ∧
    t.log.Perm t'.log := by
  have ret : ∀ flip : Bool → Bool × Bool, ∃ t : St Nat (Style.ord.Q Nat Nat) (Style.ord.A Nat) Bool,
      Steps (Sample.oddCalm flip) (parSortStable .ord Sample.cfg Sample.long 300) ⟨Sample.mem, true, []⟩ (.ret ()) t := by
    intro flip
    obtain ⟨b, c', s', h⟩ := ((par_sort_safe (cfg := Sample.cfg) (Sample.oddCalm flip) Sample.notZst Sample.long_wf Sample.long_fresh
      ⟨Sample.mem, true, []⟩).mono (fun _ _ h => h) (fun _ _ h => h.2.1 (fun _ _ h => nomatch h))).returns
    exact ⟨s', h.steps⟩
  obtain ⟨t, h⟩ := ret fun e => (e, !e)
  obtain ⟨t', h'⟩ := ret fun e => (false, e)
  obtain ⟨-, d, d', h1, h2, h3⟩ := par_sort_asks (f := Sample.oddCalmF) (fun _ _ => rfl) (fun _ _ => rfl) Sample.notZst
    Sample.long_wf Sample.long_fresh rfl h h'
  exact ⟨t, t', h, h', by rw [h1, h2]; exact h3⟩

example {q t r q' t' r'} (h : Steps Sample.odd (parSortUnstable .ord Sample.cfg Sample.long) ⟨Sample.mem, true, []⟩ q t) (he : Ended q r)
    (h' : Steps (.pure Sample.oddF true) (parSortUnstable .ord Sample.cfg Sample.long) ⟨Sample.mem, (), []⟩ q' t') (he' : Ended q' r') :
    r = r' ∧ t.mem = t'.mem ∧ ∃ d d', t.log = [] ++ d ∧ t'.log = [] ++ d' ∧ d.Perm d' :=
  par_sort_unstable_asks (cfg := Sample.cfg) (f := Sample.oddF) (o := Sample.odd) (o' := .pure Sample.oddF true) (s := ⟨Sample.mem, true, []⟩)
    (s' := ⟨Sample.mem, (), []⟩) (fun _ _ => rfl) (fun _ _ => rfl) Sample.notZst Sample.long_wf rfl h he h' he'

example {q t r q' t' r'} (h : Steps Sample.odd (parSelectManyNthUnstable .ord Sample.cfg Sample.long [3, 2700] 1) ⟨Sample.mem, true, []⟩ q t) (he : Ended q r)
    (h' : Steps (.pure Sample.oddF true) (parSelectManyNthUnstable .ord Sample.cfg Sample.long [3, 2700] 1) ⟨Sample.mem, (), []⟩ q' t') (he' : Ended q' r') :
    r = r' ∧ t.mem = t'.mem ∧ ∃ d d', t.log = [] ++ d ∧ t'.log = [] ++ d' ∧ d.Perm d' :=
  par_select_many_asks (cfg := Sample.cfg) (f := Sample.oddF) (o := Sample.odd) (o' := .pure Sample.oddF true) (s := ⟨Sample.mem, true, []⟩)
    (s' := ⟨Sample.mem, (), []⟩) (fun _ _ => rfl) (fun _ _ => rfl) Sample.notZst Sample.long_wf (by decide) _ _ rfl h he h' he'

example (st : Style) := par_sort_entropy_schedules (α := Int) (cfg := Sample.cfg) st (fun h => nomatch h) Sample.long_wf Sample.long_fresh (fun a => a)
  (Sample.addresses_nodup Sample.long_wf)

example (st : Style) := par_sort_unstable_entropy_schedules (α := Int) (cfg := Sample.cfg) st (fun h => nomatch h) Sample.long_wf (fun a => a)
  (Sample.addresses_nodup Sample.long_wf)

end NdSlice
