import Verif.Core.RunSteps
import Verif.Proof.RefsMerge
import Verif.Props.Init
import Verif.Props.Stable
import Verif.Props.Unstable
import Verif.Props.Select

/-
C63: user code which changes the elements it is shown (`Cell`, atomics, a `Mutex` inside of the elements).  Elements are objects with a state: the
methods move objects and hand references to places to user code, which may read and change the states there.
-/

namespace NdSlice

variable {α κ σ : Type} {cfg : Cfg} {v : View} {t : Addr}

/-- What has become of the objects in the array `v`, an object being named by the cell it was in at the start.  `π` tells which object is in which place at
the end and `L` the states of the objects at the end, to which all calls of user code have led: each call was about two objects of the array, was shown their
current states, and no change has been lost. -/
structure Moved (v : View) (aux : Addr → Prop) (s s' : St α (α × α) (α × α × Option Bool) σ) (π : List Addr) (L : Mem α) : Prop where
  perm : π.Perm v.region
  contents : v.contents s'.mem = π.map L
  history : ∃ ids d, s'.log = s.log ++ d ∧ Replay s.mem ids d L ∧ ∀ q ∈ ids, q.1 ∈ v.region ∧ q.2 ∈ v.region
  frame : ∀ a, a ∉ v.region → ¬ aux a → s'.mem a = s.mem a

/-- User code never panics. -/
def NeverPanics (o : Oracle σ (α × α) (α × α × Option Bool)) : Prop := ∀ e q, ∃ x y b, (o.ask e q).1 = some (x, y, some b)

/-- User code compares by a part of the state which it does not change, consistently with `lt`, and never panics. -/
def ByKey (o : Oracle σ (α × α) (α × α × Option Bool)) (f : α → κ) (lt : κ → κ → Bool) : Prop :=
  ∀ e x y, ∃ x' y', (o.ask e (x, y)).1 = some (x', y', some (lt (f x) (f y))) ∧ f x' = f x ∧ f y' = f y

namespace Refs

/-- The start of the model on objects. -/
def objSt (s : St α (α × α) (α × α × Option Bool) σ) : St Addr (Addr × Addr) Bool (σ × Mem α) := ⟨fun a => a, (s.env, s.mem), []⟩

/-- What is fixed. -/
def ctx (o : Oracle σ (α × α) (α × α × Option Bool)) (t : Addr) (v : View) (aux : List Addr) (s : St α (α × α) (α × α × Option Bool) σ) : RCtx α σ :=
  ⟨o, t, fun a => a ∈ v.region ∨ a ∈ aux, s.mem, s.log⟩

/-- The elements of the array. -/
def elems (v : View) : LiveSet := ⟨(· ∈ v.region), none⟩

theorem elems_in (hv : v.WF) : In (elems v) v := by
  refine ⟨fun i hi => List.mem_map.2 ⟨i, List.mem_range.2 hi, rfl⟩, fun i j hi hj e => ?_⟩
  have hn := View.region_nodup hv
  rw [List.nodup_iff_injective_getElem] at hn
  have hl : v.region.length = v.len := View.region_length v
  have g : ∀ k (hk : k < v.region.length), v.region[k] = v.addr k := by
    intro k hk
    have := View.region_get v (by omega : k < v.len)
    rw [List.getElem?_eq_getElem hk] at this
    exact Option.some.inj this
  have := @hn ⟨i, by omega⟩ ⟨j, by omega⟩ (by dsimp only; rw [g, g]; exact e)
  exact Fin.mk.inj this

theorem ask_less : ask = Style.less (α := Addr) (κ := Unit) .ord := by
  funext i j
  unfold ask Style.less
  congr 1
  funext r
  cases r <;> rfl

theorem id_contents : v.contents (fun a => a) = v.region := List.map_id _

variable {o : Oracle σ (α × α) (α × α × Option Bool)} {s : St α (α × α) (α × α × Option Bool) σ} {aux : List Addr} {β : Type}
  {p : Prog α (α × α) (α × α × Option Bool) β} {q : Prog Addr (Addr × Addr) Bool β} {R : β → β → Prop}

theorem objSt_live (ht : t ∉ v.region) : (ctx o t v aux s).Live (elems v) s.mem (objSt s).mem (objSt s).env.2 :=
  ⟨fun _ _ => rfl, fun _ h => (by cases h), fun _ _ _ _ h => h, fun _ _ h => (by cases h), fun a ha => ⟨.inl ha, fun e => ht ((show a = t from e) ▸ ha)⟩, fun _ _ _ => rfl⟩

theorem objSt_link : (ctx o t v aux s).Link s (objSt s) := ⟨rfl, [], (List.append_nil _).symm, .nil _⟩

theorem moved_of {s' : St α (α × α) (α × α × Option Bool) σ} {sA' : St Addr (Addr × Addr) Bool (σ × Mem α)} {q' : Prog Addr (Addr × Addr) Bool β}
    (hl : (ctx o t v aux s).Link s' sA') (h : (ctx o t v aux s).Live (elems v) s'.mem sA'.mem sA'.env.2)
    (hp : (v.contents sA'.mem).Perm (v.contents (objSt s).mem))
    (hr : ReadsOnly (objOracle o) (Style.About (κ := Unit) (v.contents (objSt s).mem) .ord) v q (objSt s))
    (hs : Steps (objOracle o) q (objSt s) q' sA') :
    Moved v (fun a => a = t ∨ a ∈ aux) s s' (v.contents sA'.mem) sA'.env.2 := by
  have e : v.contents (objSt s).mem = v.region := id_contents
  rw [e] at hp hr
  obtain ⟨⟨d, hd, hok⟩, _⟩ := hr _ _ hs
  obtain ⟨_, d', hd', hrep⟩ := hl
  refine ⟨hp, ?_, ⟨_, d', hd', hrep, ?_⟩, fun a ha hna => h.frame a (fun h => h.elim ha fun h => hna (.inr h)) (fun h => hna (.inl h))⟩
  · unfold View.contents
    rw [List.map_map]
    exact List.map_congr_left fun a ha => h.val a ha
  · intro q hq
    obtain ⟨e, he, rfl⟩ := List.mem_map.1 hq
    rw [hd] at he
    exact hok e he

/-- The run on places from the run on objects. -/
theorem lift_ok (ht : t ∉ v.region) (hk : (ctx o t v aux s).Keep (elems v) p q R)
    (hr : ReadsOnly (objOracle o) (Style.About (κ := Unit) (v.contents (objSt s).mem) .ord) v q (objSt s))
    {c : β} {sA' : St Addr (Addr × Addr) Bool (σ × Mem α)} (h : run (objOracle o) q (objSt s) = (.ok c, sA'))
    (hp : (v.contents sA'.mem).Perm (v.contents (objSt s).mem)) :
    ∃ b s', run o p s = (.ok b, s') ∧ R b c ∧ Moved v (fun a => a = t ∨ a ∈ aux) s s' (v.contents sA'.mem) sA'.env.2 := by
  have hk := hk s (objSt s) objSt_link (objSt_live ht)
  have hs := run_reaches (o := objOracle o) (p := q) (s := objSt s)
  rw [show (ctx o t v aux s).o = o from rfl, h] at hk
  rw [h] at hs
  obtain ⟨b, s', h1, h2, h3, h4⟩ := hk
  exact ⟨b, s', h1, h3, moved_of h2 h4 hp hr hs⟩

theorem lift_panic (ht : t ∉ v.region) (hk : (ctx o t v aux s).Keep (elems v) p q R)
    (hr : ReadsOnly (objOracle o) (Style.About (κ := Unit) (v.contents (objSt s).mem) .ord) v q (objSt s))
    {e : Panic} {sA' : St Addr (Addr × Addr) Bool (σ × Mem α)} (h : run (objOracle o) q (objSt s) = (.panic e, sA'))
    (hp : (v.contents sA'.mem).Perm (v.contents (objSt s).mem)) :
    ∃ s', run o p s = (.panic e, s') ∧ Moved v (fun a => a = t ∨ a ∈ aux) s s' (v.contents sA'.mem) sA'.env.2 := by
  have hk := hk s (objSt s) objSt_link (objSt_live ht)
  have hs := run_reaches (o := objOracle o) (p := q) (s := objSt s)
  rw [show (ctx o t v aux s).o = o from rfl, h] at hk
  rw [h] at hs
  obtain ⟨s', h1, h2, h3⟩ := hk
  exact ⟨s', h1, moved_of h2 h3 hp hr hs⟩

theorem noPanic_obj (h : NeverPanics o) : NoPanic (objOracle o) := by
  intro e q
  obtain ⟨x, y, b, h⟩ := h e.1 (e.2 q.1, e.2 q.2)
  unfold objOracle
  dsimp only
  rw [h]
  exact fun h => by cases h

/-! ### User code which compares by an unchanged part of the state -/

/-- The states in which the keys are those at the start. -/
def KeySt (σ : Type) (f : α → κ) (m : Mem α) : Type := { e : σ × Mem α // ∀ i, f (e.2 i) = f (m i) }

theorem key_step {f : α → κ} {lt : κ → κ → Bool} (ho : ByKey o f lt) {m : Mem α} {e : σ × Mem α} (he : ∀ i, f (e.2 i) = f (m i)) (q : Addr × Addr) :
    ((objOracle o).ask e q).1 = some (lt (f (m q.1)) (f (m q.2))) ∧ ∀ i, f (((objOracle o).ask e q).2.2 i) = f (m i) := by
  obtain ⟨x, y, h1, h2, h3⟩ := ho e.1 (e.2 q.1) (e.2 q.2)
  unfold objOracle
  dsimp only
  rw [h1]
  dsimp only
  refine ⟨by rw [he, he], fun i => ?_⟩
  unfold upd
  by_cases h : i = q.2
  · rw [if_pos h, h3, h]
    exact he _
  · rw [if_neg h]
    by_cases h' : i = q.1
    · rw [if_pos h', h2, h']
      exact he _
    · rw [if_neg h']
      exact he i

/-- User code together with the knowledge that keys do not change. -/
def keyOracle {f : α → κ} {lt : κ → κ → Bool} (ho : ByKey o f lt) (m : Mem α) : Oracle (KeySt σ f m) (Addr × Addr) Bool where
  ask := fun e q => (((objOracle o).ask e.1 q).1, ⟨((objOracle o).ask e.1 q).2, (key_step ho e.2 q).2⟩)
  flip := fun e => (((objOracle o).flip e.1).1, ⟨((objOracle o).flip e.1).2, e.2⟩)

theorem key_agrees {f : α → κ} {lt : κ → κ → Bool} (ho : ByKey o f lt) {m : Mem α} :
    Agrees (κ := Unit) .ord (keyOracle ho m) (fun i j => lt (f (m i)) (f (m j))) := fun e x y => (key_step ho e.2 (x, y)).1

/-- The start. -/
def keySt (f : α → κ) (s : St α (α × α) (α × α × Option Bool) σ) : St Addr (Addr × Addr) Bool (KeySt σ f s.mem) :=
  ⟨fun a => a, ⟨(s.env, s.mem), fun _ => rfl⟩, []⟩

theorem key_run {f : α → κ} {lt : κ → κ → Bool} (ho : ByKey o f lt) {c : β} {sK : St Addr (Addr × Addr) Bool (KeySt σ f s.mem)}
    (h : run (keyOracle ho s.mem) q (keySt f s) = (.ok c, sK)) : run (objOracle o) q (objSt s) = (.ok c, sK.mapEnv Subtype.val) := by
  have := run_mapEnv (o := objOracle o) (o' := keyOracle ho s.mem) (f := Subtype.val) (fun _ _ => rfl) (fun _ => rfl) q (keySt f s)
  rw [h] at this
  exact this

theorem key_swo {f : α → κ} {lt : κ → κ → Bool} (so : SWO lt) (m : Mem α) : SWO (fun i j : Addr => lt (f (m i)) (f (m j))) :=
  ⟨fun _ => so.irrefl _, fun _ _ _ => so.trans _ _ _, fun _ _ _ => so.ntrans _ _ _⟩

theorem selectedAt_map {γ : Type} {g : γ → κ} {lt : κ → κ → Bool} {k : Nat} {ys : List γ} (h : SelectedAt (fun i j => lt (g i) (g j)) k ys) :
    SelectedAt lt k (ys.map g) := by
  obtain ⟨A, p, B, h3, h4, h5, h6⟩ := h
  rw [h3, List.map_append, List.map_cons]
  refine ⟨_, _, _, rfl, by rw [List.length_map, h4], fun a ha => ?_, fun b hb => ?_⟩
  · obtain ⟨i, hi, rfl⟩ := List.mem_map.1 ha
    exact h5 i hi
  · obtain ⟨i, hi, rfl⟩ := List.mem_map.1 hb
    exact h6 i hi

theorem buf_of {heap : Addr} {n : Nat} (hf : Fresh v (scratch heap n)) (ht : t ∉ (scratch heap n).region) :
    Buf (ctx o t v (scratch heap n).region s) (elems v) (scratch heap n) := by
  have hm : ∀ i, i < (scratch heap n).len → (scratch heap n).addr i ∈ (scratch heap n).region := (elems_in scratch_wf).mem
  exact ⟨fun i hi => ⟨.inr (hm i hi), fun e => ht ((show (scratch heap n).addr i = t from e) ▸ hm i hi)⟩, fun i hi => hf _ (hm i hi), (elems_in scratch_wf).inj⟩

end Refs

open Refs

variable {o : Oracle σ (α × α) (α × α × Option Bool)} {s : St α (α × α) (α × α × Option Bool) σ}

/-! ### `sort`, `sort_by`, `sort_by_key` -/

/-- C63, `sort*`: whatever user code answers, changes and wherever it panics, the sort ends, normally or with a panic of user code (not if user code never
panics), and all objects are in the array, with all changes. -/
theorem sort_refs (o : Oracle σ (α × α) (α × α × Option Bool)) (hz : cfg.zst = false) (hv : v.WF) {al : Alloc} (hal : al.Succeeds) {heap : Addr}
    (hf : Fresh v (scratch heap (v.len / 2))) (ht : t ∉ v.region) (ht' : t ∉ (scratch heap (v.len / 2)).region)
    (s : St α (α × α) (α × α × Option Bool) σ) :
    (∃ s' π L, run o (Refs.sort cfg t v al heap) s = (.ok (), s') ∧ Moved v (fun a => a = t ∨ a ∈ (scratch heap (v.len / 2)).region) s s' π L) ∨
    (∃ s' π L, run o (Refs.sort cfg t v al heap) s = (.panic .user, s') ∧ ¬ NeverPanics o ∧
      Moved v (fun a => a = t ∨ a ∈ (scratch heap (v.len / 2)).region) s s' π L) := by
  have hz' : cfg.zst = true → Subsingleton Addr := fun h => by rw [hz] at h; cases h
  have hk := stableSort_refs (K := ctx o t v (scratch heap (v.len / 2)).region s) (cfg := cfg) (al := al) rfl (elems_in hv) (buf_of hf ht')
  rw [ask_less] at hk
  have hr := (sort_reads (κ := Unit) (st := .ord) (cfg := cfg) (v := v) (al := al) (heap := heap) (o := objOracle o) (s := objSt s)).1
  rcases sort_safe (κ := Unit) (st := .ord) (cfg := cfg) (objOracle o) hz' hv hal hf (objSt s) with ⟨_, sA, h, hp, _⟩ | ⟨e, sA, h, rfl, hp, _⟩
  · obtain ⟨_, s', h1, _, h2⟩ := lift_ok ht hk hr h hp
    exact .inl ⟨s', _, _, h1, h2⟩
  · obtain ⟨s', h1, h2⟩ := lift_panic ht hk hr h hp
    refine .inr ⟨s', _, _, h1, fun hn => ?_, h2⟩
    obtain ⟨_, h', _⟩ := sort_returns (κ := Unit) (st := .ord) (cfg := cfg) (noPanic_obj hn) hz' hv hal hf (objSt s)
    rw [h] at h'
    cases h'

/-- C63, `sort*`: if user code compares by a part of the state which it leaves alone (it may change the rest), the objects are sorted stably by it. -/
theorem sort_refs_sorts {f : α → κ} {lt : κ → κ → Bool} (so : SWO lt) (ho : ByKey o f lt) (hz : cfg.zst = false) (hv : v.WF) {al : Alloc} (hal : al.Succeeds)
    {heap : Addr} (hf : Fresh v (scratch heap (v.len / 2))) (ht : t ∉ v.region) (ht' : t ∉ (scratch heap (v.len / 2)).region) :
    ∃ s' π L, run o (Refs.sort cfg t v al heap) s = (.ok (), s') ∧ Moved v (fun a => a = t ∨ a ∈ (scratch heap (v.len / 2)).region) s s' π L ∧
      StableSortOf (fun i j => lt (f (s.mem i)) (f (s.mem j))) v.region π ∧ (v.contents s'.mem).map f = π.map fun i => f (s.mem i) := by
  have hz' : cfg.zst = true → Subsingleton Addr := fun h => by rw [hz] at h; cases h
  have hk := stableSort_refs (K := ctx o t v (scratch heap (v.len / 2)).region s) (cfg := cfg) (al := al) rfl (elems_in hv) (buf_of hf ht')
  rw [ask_less] at hk
  have hr := (sort_reads (κ := Unit) (st := .ord) (cfg := cfg) (v := v) (al := al) (heap := heap) (o := objOracle o) (s := objSt s)).1
  obtain ⟨sK, h, hst, _⟩ := sort_sorts (κ := Unit) (st := .ord) (cfg := cfg) (key_swo so s.mem) (key_agrees ho) hz' hv hal hf (keySt f s)
  obtain ⟨_, s', h1, _, h2⟩ := lift_ok ht hk hr (key_run ho h) hst.perm
  refine ⟨s', _, _, h1, h2, ?_, ?_⟩
  · have := hst
    rw [show v.contents (keySt f s).mem = v.region from id_contents] at this
    exact this
  · rw [h2.contents, List.map_map]
    exact List.map_congr_left fun i _ => sK.env.2 i

/-! ### `sort_unstable`, `sort_unstable_by`, `sort_unstable_by_key` -/

/-- C63, `sort_unstable*`. -/
theorem sort_unstable_refs (o : Oracle σ (α × α) (α × α × Option Bool)) (hz : cfg.zst = false) (hv : v.WF) (ht : t ∉ v.region)
    (s : St α (α × α) (α × α × Option Bool) σ) :
    (∃ s' π L, run o (Refs.sortUnstable cfg t v) s = (.ok (), s') ∧ Moved v (fun a => a = t) s s' π L) ∨
    (∃ s' π L, run o (Refs.sortUnstable cfg t v) s = (.panic .user, s') ∧ ¬ NeverPanics o ∧ Moved v (fun a => a = t) s s' π L) := by
  have hz' : cfg.zst = true → Subsingleton Addr := fun h => by rw [hz] at h; cases h
  have hk := quickSort_refs (K := ctx o t v [] s) (cfg := cfg) rfl (elems_in hv)
  rw [ask_less] at hk
  have hr := (sort_unstable_reads (κ := Unit) (st := .ord) (cfg := cfg) (v := v) (o := objOracle o) (s := objSt s)).1
  have hm : ∀ {s' π L}, Moved v (fun a => a = t ∨ a ∈ ([] : List Addr)) s s' π L → Moved v (fun a => a = t) s s' π L := fun h =>
    ⟨h.perm, h.contents, h.history, fun a ha hn => h.frame a ha fun h => h.elim hn fun h => by cases h⟩
  rcases sort_unstable_safe (κ := Unit) (st := .ord) (cfg := cfg) (objOracle o) hz' hv (objSt s) with ⟨_, sA, h, hp, _⟩ | ⟨e, sA, h, rfl, hp, _⟩
  · obtain ⟨_, s', h1, _, h2⟩ := lift_ok ht hk hr h hp
    exact .inl ⟨s', _, _, h1, hm h2⟩
  · obtain ⟨s', h1, h2⟩ := lift_panic ht hk hr h hp
    refine .inr ⟨s', _, _, h1, fun hn => ?_, hm h2⟩
    obtain ⟨_, h', _⟩ := sort_unstable_returns (κ := Unit) (st := .ord) (cfg := cfg) (noPanic_obj hn) hz' hv (objSt s)
    rw [h] at h'
    cases h'

/-- C63, `sort_unstable*`, as `sort_refs_sorts`. -/
theorem sort_unstable_refs_sorts {f : α → κ} {lt : κ → κ → Bool} (so : SWO lt) (ho : ByKey o f lt) (hz : cfg.zst = false) (hv : v.WF) (ht : t ∉ v.region) :
    ∃ s' π L, run o (Refs.sortUnstable cfg t v) s = (.ok (), s') ∧ Moved v (fun a => a = t) s s' π L ∧
      Sorted lt ((v.contents s'.mem).map f) ∧ (v.contents s'.mem).map f = π.map fun i => f (s.mem i) := by
  have hz' : cfg.zst = true → Subsingleton Addr := fun h => by rw [hz] at h; cases h
  have hk := quickSort_refs (K := ctx o t v [] s) (cfg := cfg) rfl (elems_in hv)
  rw [ask_less] at hk
  have hr := (sort_unstable_reads (κ := Unit) (st := .ord) (cfg := cfg) (v := v) (o := objOracle o) (s := objSt s)).1
  obtain ⟨sK, h, hst, hp, _⟩ := sort_unstable_sorts (κ := Unit) (st := .ord) (cfg := cfg) (key_swo so s.mem) (key_agrees ho) hz' hv (keySt f s)
  obtain ⟨_, s', h1, _, h2⟩ := lift_ok ht hk hr (key_run ho h) hp
  have e : (v.contents s'.mem).map f = (v.contents sK.mem).map fun i => f (s.mem i) := by
    rw [h2.contents, List.map_map]
    exact List.map_congr_left fun i _ => sK.env.2 i
  refine ⟨s', _, _, h1, ⟨h2.perm, h2.contents, h2.history, fun a ha hn => h2.frame a ha fun h => h.elim hn fun h => by cases h⟩, ?_, e⟩
  rw [e]
  exact List.pairwise_map.2 hst

/-! ### `select_nth_unstable`, `select_many_nth_unstable` and their variants -/

/-- C63, `select_nth_unstable*`; the result are the two parts and the place of the selected object. -/
theorem select_nth_refs (o : Oracle σ (α × α) (α × α × Option Bool)) (hz : cfg.zst = false) (hv : v.WF) (ht : t ∉ v.region) {k : Nat} (hk : k < v.len)
    (s : St α (α × α) (α × α × Option Bool) σ) :
    (∃ s' π L, run o (Refs.selectNthUnstable cfg t v k) s = (.ok (v.sub 0 k, v.addr k, v.sub (k + 1) (v.len - (k + 1))), s') ∧
      Moved v (fun a => a = t) s s' π L) ∨
    (∃ e s' π L, run o (Refs.selectNthUnstable cfg t v k) s = (.panic e, s') ∧ ((e = .user ∧ ¬ NeverPanics o) ∨ (e = .debugAssert ∧ cfg.dbg = true)) ∧
      Moved v (fun a => a = t) s s' π L) := by
  have hz' : cfg.zst = true → Subsingleton Addr := fun h => by rw [hz] at h; cases h
  have hkp := partitionAtIndex_refs (K := ctx o t v [] s) (cfg := cfg) (index := k) rfl (elems_in hv)
  rw [ask_less] at hkp
  have hr := (select_nth_reads (κ := Unit) (st := .ord) (cfg := cfg) (v := v) (k := k) (o := objOracle o) (s := objSt s)).1
  have hm : ∀ {s' π L}, Moved v (fun a => a = t ∨ a ∈ ([] : List Addr)) s s' π L → Moved v (fun a => a = t) s s' π L := fun h =>
    ⟨h.perm, h.contents, h.history, fun a ha hn => h.frame a ha fun h => h.elim hn fun h => by cases h⟩
  rcases select_nth_safe (κ := Unit) (st := .ord) (cfg := cfg) (objOracle o) hz' hv hk (objSt s) with ⟨_, sA, h, rfl, hp, _⟩ | ⟨e, sA, h, he, hp, _⟩
  · obtain ⟨_, s', h1, ⟨rfl, _⟩, h2⟩ := lift_ok ht hkp hr h hp
    exact .inl ⟨s', _, _, h1, hm h2⟩
  · obtain ⟨s', h1, h2⟩ := lift_panic ht hkp hr h hp
    exact .inr ⟨e, s', _, _, h1, he.imp (fun h => ⟨h.1, fun hn => h.2 (noPanic_obj hn)⟩) (fun h => h), hm h2⟩

/-- C63, `select_nth_unstable*` (release build): with user code which compares by a part of the state it leaves alone, the right object is selected. -/
theorem select_nth_refs_selects {f : α → κ} {lt : κ → κ → Bool} (so : SWO lt) (ho : ByKey o f lt) (hz : cfg.zst = false) (hdbg : cfg.dbg = false) (hv : v.WF)
    (ht : t ∉ v.region) {k : Nat} (hk : k < v.len) :
    ∃ s' π L, run o (Refs.selectNthUnstable cfg t v k) s = (.ok (v.sub 0 k, v.addr k, v.sub (k + 1) (v.len - (k + 1))), s') ∧
      Moved v (fun a => a = t) s s' π L ∧ SelectedAt lt k ((v.contents s'.mem).map f) ∧ (v.contents s'.mem).map f = π.map fun i => f (s.mem i) := by
  have hz' : cfg.zst = true → Subsingleton Addr := fun h => by rw [hz] at h; cases h
  have hkp := partitionAtIndex_refs (K := ctx o t v [] s) (cfg := cfg) (index := k) rfl (elems_in hv)
  rw [ask_less] at hkp
  have hr := (select_nth_reads (κ := Unit) (st := .ord) (cfg := cfg) (v := v) (k := k) (o := objOracle o) (s := objSt s)).1
  obtain ⟨sK, h, hst, hp, _⟩ := select_nth_selects (κ := Unit) (st := .ord) (cfg := cfg) (key_swo so s.mem) (key_agrees ho) hz' hdbg hv hk (keySt f s)
  obtain ⟨_, s', h1, ⟨rfl, _⟩, h2⟩ := lift_ok ht hkp hr (key_run ho h) hp
  have e : (v.contents s'.mem).map f = (v.contents sK.mem).map fun i => f (s.mem i) := by
    rw [h2.contents, List.map_map]
    exact List.map_congr_left fun i _ => sK.env.2 i
  refine ⟨s', _, _, h1, ⟨h2.perm, h2.contents, h2.history, fun a ha hn => h2.frame a ha fun h => h.elim hn fun h => by cases h⟩, ?_, e⟩
  rw [e]
  exact selectedAt_map hst

/-- C63, `select_many_nth_unstable*`: the places of the selected objects are reported if the indices are strictly ascending and in bounds. -/
theorem select_many_refs (o : Oracle σ (α × α) (α × α × Option Bool)) (hz : cfg.zst = false) (hv : v.WF) (hb : 2 * v.len ≤ 2 ^ cfg.bits) (ht : t ∉ v.region)
    (is : List Nat) (s : St α (α × α) (α × α × Option Bool) σ) :
    (∃ s' π L, run o (Refs.selectManyNthUnstable cfg t v is) s = (.ok (is.map fun i => (i, v.addr i)), s') ∧ GoodIndices v.len is ∧
      Moved v (fun a => a = t) s s' π L) ∨
    (∃ e s' π L, run o (Refs.selectManyNthUnstable cfg t v is) s = (.panic e, s') ∧ ((e = .user ∧ ¬ NeverPanics o) ∨ (e = .debugAssert ∧ cfg.dbg = true) ∨
      (¬ GoodIndices v.len is ∧ (e = .index ∨ (e = .overflow ∧ cfg.dbg = true)))) ∧ Moved v (fun a => a = t) s s' π L) := by
  have hz' : cfg.zst = true → Subsingleton Addr := fun h => by rw [hz] at h; cases h
  have hkp := selectMany_refs (K := ctx o t v [] s) (cfg := cfg) (indices := is) rfl (elems_in hv)
  rw [ask_less] at hkp
  have hr := (select_many_reads (κ := Unit) (st := .ord) (cfg := cfg) (v := v) (is := is) (o := objOracle o) (s := objSt s)).1
  have hm : ∀ {s' π L}, Moved v (fun a => a = t ∨ a ∈ ([] : List Addr)) s s' π L → Moved v (fun a => a = t) s s' π L := fun h =>
    ⟨h.perm, h.contents, h.history, fun a ha hn => h.frame a ha fun h => h.elim hn fun h => by cases h⟩
  rcases select_many_safe (κ := Unit) (st := .ord) (cfg := cfg) (objOracle o) hz' hv hb is (objSt s) with ⟨_, sA, h, hg, rfl, hp, _⟩ | ⟨e, sA, h, he, hp, _⟩
  · obtain ⟨_, s', h1, rfl, h2⟩ := lift_ok ht hkp hr h hp
    exact .inl ⟨s', _, _, h1, hg, hm h2⟩
  · obtain ⟨s', h1, h2⟩ := lift_panic ht hkp hr h hp
    exact .inr ⟨e, s', _, _, h1, he.imp (fun h => ⟨h.1, fun hn => h.2 (noPanic_obj hn)⟩) (fun h => h), hm h2⟩

/-- C63, `select_many_nth_unstable*` (release build), as `select_nth_refs_selects`. -/
theorem select_many_refs_selects {f : α → κ} {lt : κ → κ → Bool} (so : SWO lt) (ho : ByKey o f lt) (hz : cfg.zst = false) (hdbg : cfg.dbg = false) (hv : v.WF)
    (hb : 2 * v.len ≤ 2 ^ cfg.bits) (ht : t ∉ v.region) {is : List Nat} (his : GoodIndices v.len is) :
    ∃ s' π L, run o (Refs.selectManyNthUnstable cfg t v is) s = (.ok (is.map fun i => (i, v.addr i)), s') ∧ Moved v (fun a => a = t) s s' π L ∧
      (∀ i ∈ is, SelectedAt lt i ((v.contents s'.mem).map f)) ∧ (v.contents s'.mem).map f = π.map fun i => f (s.mem i) := by
  have hz' : cfg.zst = true → Subsingleton Addr := fun h => by rw [hz] at h; cases h
  have hkp := selectMany_refs (K := ctx o t v [] s) (cfg := cfg) (indices := is) rfl (elems_in hv)
  rw [ask_less] at hkp
  have hr := (select_many_reads (κ := Unit) (st := .ord) (cfg := cfg) (v := v) (is := is) (o := objOracle o) (s := objSt s)).1
  obtain ⟨sK, h, hst, hp, _⟩ := select_many_selects (κ := Unit) (st := .ord) (cfg := cfg) (key_swo so s.mem) (key_agrees ho) hz' hdbg hv hb his (keySt f s)
  obtain ⟨_, s', h1, rfl, h2⟩ := lift_ok ht hkp hr (key_run ho h) hp
  have e : (v.contents s'.mem).map f = (v.contents sK.mem).map fun i => f (s.mem i) := by
    rw [h2.contents, List.map_map]
    exact List.map_congr_left fun i _ => sK.env.2 i
  refine ⟨s', _, _, h1, ⟨h2.perm, h2.contents, h2.history, fun a ha hn => h2.frame a ha fun h => h.elim hn fun h => by cases h⟩, fun i hi => ?_, e⟩
  rw [e]
  exact selectedAt_map (hst i hi)

/-! ### The hypotheses can be met -/

namespace Sample

/-- Elements with a key and a counter of comparisons. -/
def counted : Mem (Nat × Nat) := fun a => (mem a, 0)

/-- Compares keys, counts in both elements. -/
def counting : Oracle Unit ((Nat × Nat) × (Nat × Nat)) ((Nat × Nat) × (Nat × Nat) × Option Bool) :=
  ⟨fun _ q => (some ((q.1.1, q.1.2 + 1), (q.2.1, q.2.2 + 1), some (lt q.1.1 q.2.1)), ()), fun _ => (true, ())⟩

theorem counting_byKey : ByKey counting Prod.fst lt := fun _ _ _ => ⟨_, _, rfl, rfl, rfl⟩

/-- Compares by the counters which it changes meanwhile, and panics at a large count. -/
def moody : Oracle Unit ((Nat × Nat) × (Nat × Nat)) ((Nat × Nat) × (Nat × Nat) × Option Bool) :=
  ⟨fun _ q => (some ((q.1.1, q.2.2 + 1), (q.1.2 + 2, q.2.2), if q.1.2 < 9 then some (lt q.1.2 q.2.2) else none), ()), fun _ => (true, ())⟩

theorem not_in_view : (7 : Addr) ∉ view.region := by
  intro h
  obtain ⟨j, hj, h⟩ := List.mem_map.1 h
  have hj : j < 60 := List.mem_range.1 hj
  have h : (200 : Int) + -2 * (j : Int) = 7 := h
  omega

theorem not_in_scratch {n : Nat} : (7 : Addr) ∉ (scratch 300 n).region := by
  intro h
  obtain ⟨j, _, h⟩ := List.mem_map.1 h
  have h : (300 : Int) + 1 * (j : Int) = 7 := h
  omega

end Sample

example := sort_refs (cfg := Sample.cfg) Sample.moody rfl Sample.wf Sample.alloc_succeeds Sample.fresh Sample.not_in_view Sample.not_in_scratch ⟨Sample.counted, (), []⟩
example := sort_refs_sorts (cfg := Sample.cfg) (s := ⟨Sample.counted, (), []⟩) Sample.swo Sample.counting_byKey rfl Sample.wf Sample.alloc_succeeds Sample.fresh
  Sample.not_in_view Sample.not_in_scratch
example := sort_unstable_refs (cfg := Sample.cfg) Sample.moody rfl Sample.wf Sample.not_in_view ⟨Sample.counted, (), []⟩
example := sort_unstable_refs_sorts (cfg := Sample.cfg) (s := ⟨Sample.counted, (), []⟩) Sample.swo Sample.counting_byKey rfl Sample.wf Sample.not_in_view
example := select_nth_refs (cfg := Sample.cfg) Sample.moody rfl Sample.wf Sample.not_in_view (k := 17) (by decide) ⟨Sample.counted, (), []⟩
example := select_nth_refs_selects (cfg := Sample.release) (s := ⟨Sample.counted, (), []⟩) Sample.swo Sample.counting_byKey rfl rfl Sample.wf Sample.not_in_view
  (k := 17) (by decide)
example := select_many_refs (cfg := Sample.cfg) Sample.moody rfl Sample.wf (by decide) Sample.not_in_view [3, 17, 40] ⟨Sample.counted, (), []⟩

example := select_many_refs_selects (cfg := Sample.release) (s := ⟨Sample.counted, (), []⟩) Sample.swo Sample.counting_byKey rfl rfl Sample.wf (by decide)
  Sample.not_in_view (is := [3, 17, 40]) ⟨by decide, by decide⟩

end NdSlice
