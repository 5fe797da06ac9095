import Verif.Props.Refs
import Verif.Props.ParStable
import Verif.Proof.RefsPar
import Verif.Proof.InsidePar

/-
C63 for the parallel methods, under every schedule: user code which changes the elements it is shown.
-/

namespace NdSlice

variable {α κ σ β : Type} {cfg : Cfg} {v : View} {t : Nat → Addr}

/-- As `Moved`, for a schedule: the calls of user code have led to the states `L` in some order, not necessarily that of the calls. -/
structure MovedP (v : View) (aux : Addr → Prop) (s s' : St α (α × α) (α × α × Option Bool) σ) (π : List Addr) (L : Mem α) : Prop where
  perm : π.Perm v.region
  contents : v.contents s'.mem = π.map L
  history : ∃ ids d l, s'.log = s.log ++ d ∧ l.Perm d ∧ Replay s.mem ids l L ∧ ∀ q ∈ ids, q.1 ∈ v.region ∧ q.2 ∈ v.region
  frame : ∀ a, a ∉ v.region → ¬ aux a → s'.mem a = s.mem a

/-- Every schedule of `p` from `s`, as `Always`, with the whole state at the end. -/
def AlwaysEnds {ι ω : Type} (o : Oracle σ ι ω) (p : Prog α ι ω β) (s : St α ι ω σ) (Q : β → St α ι ω σ → Prop) (E : Panic → St α ι ω σ → Prop) : Prop :=
  (∀ p' s', Steps o p s p' s' → ¬ Race p' ∧ ¬ Bad p' ∧
    ((∃ p'' s'', Step o p' s' p'' s'') ∨ (∃ b, p' = .ret b ∧ Q b s') ∨ (∃ e, p' = .throw e ∧ E e s'))) ∧
  Acc (After o) p

theorem AlwaysEnds.mono {ι ω : Type} {o : Oracle σ ι ω} {p : Prog α ι ω β} {s : St α ι ω σ} {Q Q' : β → St α ι ω σ → Prop} {E E' : Panic → St α ι ω σ → Prop}
    (h : AlwaysEnds o p s Q E) (hQ : ∀ b s', Q b s' → Q' b s') (hE : ∀ e s', E e s' → E' e s') : AlwaysEnds o p s Q' E' :=
  ⟨fun p' s' hs => have ⟨h1, h2, h3⟩ := h.1 p' s' hs
    ⟨h1, h2, h3.imp id (Or.imp (fun ⟨b, e, h⟩ => ⟨b, e, hQ b s' h⟩) (fun ⟨b, e, h⟩ => ⟨b, e, hE b s' h⟩))⟩, h.2⟩

/-- The stacks of the tasks: different cells, outside of the array. -/
structure Stacks (t : Nat → Addr) (v : View) : Prop where
  inj : ∀ n m, t n = t m → n = m
  out : ∀ n, t n ∉ v.region

namespace Refs

/-- What is fixed. -/
def ctxP (o : Oracle σ (α × α) (α × α × Option Bool)) (t : Nat → Addr) (v : View) (aux : Addr → Prop) (s : St α (α × α) (α × α × Option Bool) σ) : RCtx α σ :=
  ⟨o, t 0, fun a => a ∈ v.region ∨ aux a, s.mem, s.log⟩

variable {o : Oracle σ (α × α) (α × α × Option Bool)} {s : St α (α × α) (α × α × Option Bool) σ} {aux : Addr → Prop}
  {p : Prog α (α × α) (α × α × Option Bool) β} {q : Prog Addr (Addr × Addr) Bool β} {R : β → β → Prop}

theorem objSt_liveP (ht : t 0 ∉ v.region) : (ctxP o t v aux s).Live (elems v) s.mem (objSt s).mem (objSt s).env.2 :=
  ⟨fun _ _ => rfl, fun _ h => (by cases h), fun _ _ _ _ h => h, fun _ _ h => (by cases h), fun a ha => ⟨.inl ha, fun e => ht ((show a = t 0 from e) ▸ ha)⟩, fun _ _ _ => rfl⟩

theorem objSt_linkP : (ctxP o t v aux s).Link s (objSt s) := ⟨rfl, [], (List.append_nil _).symm, .nil _⟩

theorem moved_ofP (h0 : aux (t 0)) {s' : St α (α × α) (α × α × Option Bool) σ} {sA' : St Addr (Addr × Addr) Bool (σ × Mem α)} {q' : Prog Addr (Addr × Addr) Bool β}
    (hl : (ctxP o t v aux s).Link s' sA') (h : (ctxP o t v aux s).Live (elems v) s'.mem sA'.mem sA'.env.2)
    (hp : (v.contents sA'.mem).Perm (v.contents (objSt s).mem))
    (hr : ReadsOnly (objOracle o) (Style.About (κ := Unit) (v.contents (objSt s).mem) .ord) v q (objSt s))
    (hs : Steps (objOracle o) q (objSt s) q' sA') :
    Moved v aux s s' (v.contents sA'.mem) sA'.env.2 := by
  have e : v.contents (objSt s).mem = v.region := id_contents
  rw [e] at hp hr
  obtain ⟨⟨d, hd, hok⟩, _⟩ := hr _ _ hs
  obtain ⟨_, d', hd', hrep⟩ := hl
  refine ⟨hp, ?_, ⟨_, d', hd', hrep, ?_⟩, fun a ha hna => h.frame a (fun h => h.elim ha hna) (fun h => hna ((show a = t 0 from h) ▸ h0))⟩
  · unfold View.contents
    rw [List.map_map]
    exact List.map_congr_left fun a ha => h.val a ha
  · intro q hq
    obtain ⟨e, he, rfl⟩ := List.mem_map.1 hq
    rw [hd] at he
    exact hok e he

theorem lift_okP (h0 : aux (t 0)) (ht : t 0 ∉ v.region) (hk : (ctxP o t v aux s).Keep (elems v) p q R)
    (hr : ReadsOnly (objOracle o) (Style.About (κ := Unit) (v.contents (objSt s).mem) .ord) v q (objSt s))
    {c : β} {sA' : St Addr (Addr × Addr) Bool (σ × Mem α)} (h : run (objOracle o) q (objSt s) = (.ok c, sA'))
    (hp : (v.contents sA'.mem).Perm (v.contents (objSt s).mem)) :
    ∃ b s', run o p s = (.ok b, s') ∧ R b c ∧ Moved v aux s s' (v.contents sA'.mem) sA'.env.2 := by
  have hk := hk s (objSt s) objSt_linkP (objSt_liveP ht)
  have hs := run_reaches (o := objOracle o) (p := q) (s := objSt s)
  rw [show (ctxP o t v aux s).o = o from rfl, h] at hk
  rw [h] at hs
  obtain ⟨b, s', h1, h2, h3, h4⟩ := hk
  exact ⟨b, s', h1, h3, moved_ofP h0 h2 h4 hp hr hs⟩

theorem lift_panicP (h0 : aux (t 0)) (ht : t 0 ∉ v.region) (hk : (ctxP o t v aux s).Keep (elems v) p q R)
    (hr : ReadsOnly (objOracle o) (Style.About (κ := Unit) (v.contents (objSt s).mem) .ord) v q (objSt s))
    {e : Panic} {sA' : St Addr (Addr × Addr) Bool (σ × Mem α)} (h : run (objOracle o) q (objSt s) = (.panic e, sA'))
    (hp : (v.contents sA'.mem).Perm (v.contents (objSt s).mem)) :
    ∃ s', run o p s = (.panic e, s') ∧ Moved v aux s s' (v.contents sA'.mem) sA'.env.2 := by
  have hk := hk s (objSt s) objSt_linkP (objSt_liveP ht)
  have hs := run_reaches (o := objOracle o) (p := q) (s := objSt s)
  rw [show (ctxP o t v aux s).o = o from rfl, h] at hk
  rw [h] at hs
  obtain ⟨s', h1, h2, h3⟩ := hk
  exact ⟨s', h1, moved_ofP h0 h2 h3 hp hr hs⟩

/-- What a run leads to with any user code allowed by `R` holds for every schedule. -/
theorem schedules {R : (α × α) → Option (α × α × Option Bool) → Prop} (ho : o.Sat R) {F : Addr → Prop} {P : β → Prop} (hp : Inside p F P) {aux : Addr → Prop}
    {Q : β → Mem α → List Addr → Mem α → Prop} {E : Panic → Prop}
    (h : ∀ (o' : Oracle (List (Option (α × α × Option Bool)) × List Bool) (α × α) (α × α × Option Bool)) (s₀ : St α (α × α) (α × α × Option Bool)
      (List (Option (α × α × Option Bool)) × List Bool)), o'.Sat R → s₀.mem = s.mem →
      (∃ b s' π L, run o' p s₀ = (.ok b, s') ∧ Q b s'.mem π L ∧ Moved v aux s₀ s' π L) ∨ (∃ e s' π L, run o' p s₀ = (.panic e, s') ∧ E e ∧ Moved v aux s₀ s' π L)) :
    AlwaysEnds o p s (fun b s' => ∃ π L, Q b s'.mem π L ∧ MovedP v aux s s' π L) (fun e s' => ∃ π L, E e ∧ MovedP v aux s s' π L) := by
  refine ⟨fun p' s' hs => ?_, sched_terminates o p⟩
  obtain ⟨h1, h2, h3⟩ := schedules_serial ho hs hp (fun o' e ho' => by
    rcases h o' ⟨s.mem, e, s.log⟩ ho' rfl with ⟨b, s', _, _, e, _⟩ | ⟨b, s', _, _, e, _⟩ <;> rw [e] <;> exact ⟨fun h => (by cases h), fun h => (by cases h)⟩)
  refine ⟨h1, h2, h3.imp (fun h => h) fun h3 => ?_⟩
  obtain ⟨r, hr, o', e, e', l, d, ho', hrun, hd, hl⟩ := h3
  have mv : ∀ {s₁ : St α (α × α) (α × α × Option Bool) (List (Option (α × α × Option Bool)) × List Bool)} {π L}, s₁ = ⟨s'.mem, e', s.log ++ l⟩ →
      Moved v aux ⟨s.mem, e, s.log⟩ s₁ π L → MovedP v aux s s' π L := by
    rintro _ π L rfl hm
    obtain ⟨ids, l', hl', hrep, hids⟩ := hm.history
    obtain rfl := List.append_cancel_left hl'
    exact ⟨hm.perm, hm.contents, ⟨ids, d, l, hd, hl, hrep, hids⟩, hm.frame⟩
  rcases h o' ⟨s.mem, e, s.log⟩ ho' rfl with ⟨b, s₁, π, L, he, hQ, hm⟩ | ⟨b, s₁, π, L, he, hE, hm⟩
  · rw [he] at hrun
    have e2 := (Prod.mk.inj hrun).2
    have h1 := (Prod.mk.inj hrun).1
    cases hr with
    | ret b' => cases h1; exact .inl ⟨b, rfl, π, L, by rw [e2] at hQ; exact hQ, mv e2 hm⟩
    | throw e => cases h1
  · rw [he] at hrun
    have e2 := (Prod.mk.inj hrun).2
    have h1 := (Prod.mk.inj hrun).1
    cases hr with
    | ret b' => cases h1
    | throw e => cases h1; exact .inr ⟨b, rfl, π, L, hE, mv e2 hm⟩

/-- Answers of user code which may panic only if `o` may. -/
def Calm (o : Oracle σ (α × α) (α × α × Option Bool)) (_ : α × α) (r : Option (α × α × Option Bool)) : Prop := NeverPanics o → ∃ x y b, r = some (x, y, some b)

theorem calm_sat : o.Sat (Calm o) := fun e q h => h e q

theorem calm_never {σ' : Type} {o' : Oracle σ' (α × α) (α × α × Option Bool)} (h : o'.Sat (Calm o)) (hn : NeverPanics o) : NeverPanics o' := fun e q => h e q hn

/-- Answers by an unchanged part of the state. -/
def Keyed (f : α → κ) (lt : κ → κ → Bool) (q : α × α) (r : Option (α × α × Option Bool)) : Prop :=
  ∃ x' y', r = some (x', y', some (lt (f q.1) (f q.2))) ∧ f x' = f q.1 ∧ f y' = f q.2

theorem keyed_sat {f : α → κ} {lt : κ → κ → Bool} (ho : ByKey o f lt) : o.Sat (Keyed f lt) := fun e q => ho e q.1 q.2

theorem keyed_by {σ' : Type} {o' : Oracle σ' (α × α) (α × α × Option Bool)} {f : α → κ} {lt : κ → κ → Bool} (h : o'.Sat (Keyed f lt)) : ByKey o' f lt :=
  fun e x y => h e (x, y)

theorem stacksOf (ht : Stacks t v) (h : ∀ n, aux (t n)) : StacksOf (ctxP o t v aux s) (elems v) t := fun n => ⟨.inr (h n), ht.out n⟩

theorem sep_of (ht : Stacks t v) (hv : v.WF) : Inn.Sep t v none :=
  ⟨(elems_in hv).inj, ht.inj, fun n i hi e => ht.out n (e ▸ (elems_in hv).mem i hi), fun _ h => (by cases h), fun _ _ h => by cases h⟩

end Refs

open Refs Style

variable {o : Oracle σ (α × α) (α × α × Option Bool)} {s : St α (α × α) (α × α × Option Bool) σ}

/-! ### `par_sort_unstable`, `par_sort_unstable_by`, `par_sort_unstable_by_key` -/

/-- C63, `par_sort_unstable*`: under every schedule, whatever user code answers, changes and wherever it panics, there is no data race (also of the changes
made by user code), the sort ends, normally or with a panic of user code (not if user code never panics), and all objects are in the array, with all changes. -/
theorem par_sort_unstable_refs (o : Oracle σ (α × α) (α × α × Option Bool)) (hz : cfg.zst = false) (hv : v.WF) (ht : Stacks t v)
    (s : St α (α × α) (α × α × Option Bool) σ) :
    AlwaysEnds o (Refs.parSortUnstable cfg t v) s (fun _ s' => ∃ π L, MovedP v (fun a => ∃ n, a = t n) s s' π L)
      (fun e s' => e = .user ∧ ¬ NeverPanics o ∧ ∃ π L, MovedP v (fun a => ∃ n, a = t n) s s' π L) := by
  have hz' : cfg.zst = true → Subsingleton Addr := fun h => by rw [hz] at h; cases h
  refine (schedules (s := s) (v := v) (aux := fun a => ∃ n, a = t n) (Q := fun _ _ _ _ => True) (E := fun e => e = .user ∧ ¬ NeverPanics o) (calm_sat (o := o))
    (Inn.parQuickSort (α := α) (cfg := cfg) (sep_of ht hv)) ?_).mono (fun _ _ ⟨π, L, _, h⟩ => ⟨π, L, h⟩) (fun _ _ ⟨π, L, h, h'⟩ => ⟨h.1, h.2, π, L, h'⟩)
  intro o' s₀ ho' _
  have hk := parQuickSort_refs (K := ctxP o' t v (fun a => ∃ n, a = t n) s₀) (cfg := cfg) rfl (stacksOf ht fun n => ⟨n, rfl⟩) rfl (elems_in hv)
  rw [ask_less] at hk
  have hr := (par_sort_unstable_reads (κ := Unit) (st := .ord) (cfg := cfg) (v := v) (o := objOracle o') (s := objSt s₀)).1
  rcases Tri.ends (s := objSt s₀) (rel_sat (objOracle o')) hv (parQuickSort_spec (C := Style.toCmp (κ := Unit) .ord (rel (objOracle o'))) (cfg := cfg) (v := v) hz'
    (v.contents_length _)) with ⟨_, sA, h, hp, _⟩ | ⟨e, sA, h, ⟨rfl, hpan, hp⟩, _⟩
  · obtain ⟨_, s', h1, _, h2⟩ := lift_okP ⟨0, rfl⟩ (ht.out 0) hk hr h hp.1
    exact .inl ⟨_, s', _, _, h1, trivial, h2⟩
  · obtain ⟨s', h1, h2⟩ := lift_panicP ⟨0, rfl⟩ (ht.out 0) hk hr h hp
    exact .inr ⟨_, s', _, _, h1, ⟨rfl, fun hn => pan_iff (noPanic_obj (calm_never ho' hn)) hpan⟩, h2⟩

/-- C63, `par_sort_unstable*`: under every schedule, with user code which compares by a part of the state it leaves alone, the array ends up sorted. -/
theorem par_sort_unstable_refs_sorts {f : α → κ} {lt : κ → κ → Bool} (so : SWO lt) (ho : ByKey o f lt) (hz : cfg.zst = false) (hv : v.WF) (ht : Stacks t v) :
    AlwaysEnds o (Refs.parSortUnstable cfg t v) s (fun _ s' => ∃ π L, MovedP v (fun a => ∃ n, a = t n) s s' π L ∧
      Sorted lt ((v.contents s'.mem).map f) ∧ (v.contents s'.mem).map f = π.map fun i => f (s.mem i)) (fun _ _ => False) := by
  have hz' : cfg.zst = true → Subsingleton Addr := fun h => by rw [hz] at h; cases h
  refine (schedules (s := s) (v := v) (aux := fun a => ∃ n, a = t n) (E := fun _ => False)
    (Q := fun _ m π _ => Sorted lt ((v.contents m).map f) ∧ (v.contents m).map f = π.map fun i => f (s.mem i)) (keyed_sat ho)
    (Inn.parQuickSort (α := α) (cfg := cfg) (sep_of ht hv)) ?_).mono (fun _ _ ⟨π, L, h, h'⟩ => ⟨π, L, h', h⟩) (fun _ _ ⟨_, _, h, _⟩ => h)
  intro o' s₀ ho' hm
  have hk := parQuickSort_refs (K := ctxP o' t v (fun a => ∃ n, a = t n) s₀) (cfg := cfg) rfl (stacksOf ht fun n => ⟨n, rfl⟩) rfl (elems_in hv)
  rw [ask_less] at hk
  have hr := (par_sort_unstable_reads (κ := Unit) (st := .ord) (cfg := cfg) (v := v) (o := objOracle o') (s := objSt s₀)).1
  have ho' := keyed_by ho'
  have hag := key_agrees ho' (m := s₀.mem)
  rcases Tri.ends (s := keySt f s₀) (rel_sat (keyOracle ho' s₀.mem)) hv (parQuickSort_spec (C := Style.toCmp (κ := Unit) .ord (rel (keyOracle ho' s₀.mem))) (cfg := cfg)
    (v := v) hz' (v.contents_length _)) with ⟨_, sK, h, ⟨hp, hst⟩, _⟩ | ⟨e, sA, h, ⟨rfl, hpan, hp⟩, _⟩
  · obtain ⟨_, s', h1, _, h2⟩ := lift_okP ⟨0, rfl⟩ (ht.out 0) hk hr (key_run ho' h) hp
    have e : (v.contents s'.mem).map f = (v.contents sK.mem).map fun i => f (s₀.mem i) := by
      rw [h2.contents, List.map_map]
      exact List.map_congr_left fun i _ => sK.env.2 i
    refine .inl ⟨_, s', _, _, h1, ⟨?_, by rw [← hm]; exact e⟩, h2⟩
    rw [e]
    exact List.pairwise_map.2 (hst _ (good_of_agrees hag (key_swo so s₀.mem)))
  · exact (pan_iff (noPanic_of_agrees hag) hpan).elim

/-! ### `par_select_many_nth_unstable` and its variants -/

/-- C63, `par_select_many_nth_unstable*`, as `par_sort_unstable_refs`. -/
theorem par_select_many_refs (o : Oracle σ (α × α) (α × α × Option Bool)) (hz : cfg.zst = false) (hv : v.WF) (hb : 2 * v.len ≤ 2 ^ cfg.bits) (ht : Stacks t v)
    (is : List Nat) (extra : Nat) (s : St α (α × α) (α × α × Option Bool) σ) :
    AlwaysEnds o (Refs.parSelectManyNthUnstable cfg t v is extra) s
      (fun r s' => GoodIndices v.len is ∧ r.Perm (is.zipIdx.map fun x => (x.2, v.addr x.1)) ∧ ∃ π L, MovedP v (fun a => ∃ n, a = t n) s s' π L)
      (fun e s' => ((e = .user ∧ ¬ NeverPanics o) ∨ (e = .debugAssert ∧ cfg.dbg = true) ∨ (¬ GoodIndices v.len is ∧ (e = .index ∨ (e = .overflow ∧ cfg.dbg = true)))) ∧
        ∃ π L, MovedP v (fun a => ∃ n, a = t n) s s' π L) := by
  have hz' : cfg.zst = true → Subsingleton Addr := fun h => by rw [hz] at h; cases h
  refine (schedules (s := s) (v := v) (aux := fun a => ∃ n, a = t n) (Q := fun r _ _ _ => GoodIndices v.len is ∧ r.Perm (is.zipIdx.map fun x => (x.2, v.addr x.1)))
    (E := fun e => (e = .user ∧ ¬ NeverPanics o) ∨ (e = .debugAssert ∧ cfg.dbg = true) ∨ (¬ GoodIndices v.len is ∧ (e = .index ∨ (e = .overflow ∧ cfg.dbg = true))))
    (calm_sat (o := o)) (Inn.parPartitionAtIndices (α := α) (cfg := cfg) (sep_of ht hv) (Inn.Holds.fp)) ?_).mono
    (fun _ _ ⟨π, L, h, h'⟩ => ⟨h.1, h.2, π, L, h'⟩) (fun _ _ ⟨π, L, h, h'⟩ => ⟨h, π, L, h'⟩)
  intro o' s₀ ho' _
  have hk := parPartitionAtIndices_refs (K := ctxP o' t v (fun a => ∃ n, a = t n) s₀) (cfg := cfg) (n := is.length + 1) (offset := 0) (indices := is) (vs := 0)
    (vl := is.length + extra) rfl (stacksOf ht fun n => ⟨n, rfl⟩) rfl (elems_in hv)
  rw [ask_less] at hk
  have hr := (par_select_many_reads (κ := Unit) (st := .ord) (cfg := cfg) (v := v) (o := objOracle o') (s := objSt s₀) (is := is) (extra := extra)).1
  rcases Tri.ends (s := objSt s₀) (rel_sat (objOracle o')) hv (parSelectMany_spec (Style.toCmp (κ := Unit) .ord (rel (objOracle o'))) (cfg := cfg) (v := v) hz' (is := is)
    (v.contents_length _) hb (Nat.le_add_right is.length extra)) with ⟨_, sA, h, ⟨hg, hperm, hp, _⟩, _⟩ | ⟨e, sA, h, ⟨hp, he⟩, _⟩
  · obtain ⟨_, s', h1, rfl, h2⟩ := lift_okP ⟨0, rfl⟩ (ht.out 0) hk hr h hp
    exact .inl ⟨_, s', _, _, h1, ⟨validIdx_iff.mp hg, hperm⟩, h2⟩
  · obtain ⟨s', h1, h2⟩ := lift_panicP ⟨0, rfl⟩ (ht.out 0) hk hr h hp
    exact .inr ⟨_, s', _, _, h1, he.imp (fun h => ⟨h.1, fun hn => pan_iff (noPanic_obj (calm_never ho' hn)) h.2⟩) (Or.imp id
        (fun h => ⟨fun hg => h.1 (validIdx_iff.mpr hg), h.2⟩)), h2⟩

/-- C63, `par_select_many_nth_unstable*` (release build): under every schedule, with user code which compares by a part of the state it leaves alone, the right
objects are selected. -/
theorem par_select_many_refs_selects {f : α → κ} {lt : κ → κ → Bool} (so : SWO lt) (ho : ByKey o f lt) (hz : cfg.zst = false) (hdbg : cfg.dbg = false) (hv : v.WF)
    (hb : 2 * v.len ≤ 2 ^ cfg.bits) (ht : Stacks t v) {is : List Nat} (his : GoodIndices v.len is) (extra : Nat) :
    AlwaysEnds o (Refs.parSelectManyNthUnstable cfg t v is extra) s
      (fun r s' => r.Perm (is.zipIdx.map fun x => (x.2, v.addr x.1)) ∧ ∃ π L, MovedP v (fun a => ∃ n, a = t n) s s' π L ∧
        (∀ i ∈ is, SelectedAt lt i ((v.contents s'.mem).map f)) ∧ (v.contents s'.mem).map f = π.map fun i => f (s.mem i)) (fun _ _ => False) := by
  have hz' : cfg.zst = true → Subsingleton Addr := fun h => by rw [hz] at h; cases h
  refine (schedules (s := s) (v := v) (aux := fun a => ∃ n, a = t n) (Q := fun r m π _ => r.Perm (is.zipIdx.map fun x => (x.2, v.addr x.1)) ∧
      (∀ i ∈ is, SelectedAt lt i ((v.contents m).map f)) ∧ (v.contents m).map f = π.map fun i => f (s.mem i)) (E := fun _ => False) (keyed_sat ho)
    (Inn.parPartitionAtIndices (α := α) (cfg := cfg) (sep_of ht hv) (Inn.Holds.fp)) ?_).mono
    (fun _ _ ⟨π, L, h, h'⟩ => ⟨h.1, π, L, h', h.2⟩) (fun _ _ ⟨π, L, h, h'⟩ => h)
  intro o' s₀ ho' hm
  have hk := parPartitionAtIndices_refs (K := ctxP o' t v (fun a => ∃ n, a = t n) s₀) (cfg := cfg) (n := is.length + 1) (offset := 0) (indices := is) (vs := 0)
    (vl := is.length + extra) rfl (stacksOf ht fun n => ⟨n, rfl⟩) rfl (elems_in hv)
  rw [ask_less] at hk
  have hr := (par_select_many_reads (κ := Unit) (st := .ord) (cfg := cfg) (v := v) (o := objOracle o') (s := objSt s₀) (is := is) (extra := extra)).1
  have ho' := keyed_by ho'
  have hag := key_agrees ho' (m := s₀.mem)
  rcases Tri.ends (s := keySt f s₀) (rel_sat (keyOracle ho' s₀.mem)) hv (parSelectMany_spec (Style.toCmp (κ := Unit) .ord (rel (keyOracle ho' s₀.mem))) (cfg := cfg)
    (v := v) hz' (is := is) (v.contents_length _) hb (Nat.le_add_right is.length extra)) with ⟨_, sK, h, ⟨hg, hperm, hp, hst⟩, _⟩ | ⟨e, sA, h, ⟨hp, he⟩, _⟩
  · obtain ⟨_, s', h1, rfl, h2⟩ := lift_okP ⟨0, rfl⟩ (ht.out 0) hk hr (key_run ho' h) hp
    have e : (v.contents s'.mem).map f = (v.contents sK.mem).map fun i => f (s₀.mem i) := by
      rw [h2.contents, List.map_map]
      exact List.map_congr_left fun i _ => sK.env.2 i
    refine .inl ⟨_, s', _, _, h1, ⟨hperm, fun i hi => ?_, by rw [← hm]; exact e⟩, h2⟩
    rw [e]
    exact selectedAt_map (hst _ (good_of_agrees hag (key_swo so s₀.mem)) i hi)
  · rcases he with h | h | h
    · exact (pan_iff (noPanic_of_agrees hag) h.2).elim
    · rw [hdbg] at h; exact (Bool.false_ne_true h.2).elim
    · exact (h.1 (validIdx_iff.mpr his)).elim

/-! ### The hypotheses can be met -/

namespace Sample

/-- A stack cell for every task: odd, below 0. -/
def stackCells : Nat → Addr := fun n => -1 - 2 * (n : Int)

theorem stacks_ok : Stacks stackCells view := by
  refine ⟨fun n m h => ?_, fun n h => ?_⟩
  · have h : -1 - 2 * (n : Int) = -1 - 2 * (m : Int) := h
    omega
  · obtain ⟨j, hj, h⟩ := List.mem_map.1 h
    have hj : j < 60 := List.mem_range.1 hj
    have h : (200 : Int) + -2 * (j : Int) = -1 - 2 * (n : Int) := h
    omega

end Sample

example := par_sort_unstable_refs (cfg := Sample.cfg) Sample.moody rfl Sample.wf Sample.stacks_ok ⟨Sample.counted, (), []⟩
example := par_sort_unstable_refs_sorts (cfg := Sample.cfg) (s := ⟨Sample.counted, (), []⟩) Sample.swo Sample.counting_byKey rfl Sample.wf Sample.stacks_ok
example := par_select_many_refs (cfg := Sample.cfg) Sample.moody rfl Sample.wf (by decide) Sample.stacks_ok [3, 17, 40] 1 ⟨Sample.counted, (), []⟩
example := par_select_many_refs_selects (cfg := Sample.release) (s := ⟨Sample.counted, (), []⟩) Sample.swo Sample.counting_byKey rfl rfl Sample.wf (by decide)
  Sample.stacks_ok (is := [3, 17, 40]) ⟨by decide, by decide⟩ 1

end NdSlice
