import Verif.Props.RefsPar
import Verif.Proof.InsideParMerge

/-
C75 for the parallel stable sort, under every schedule: user code which changes the elements it is shown.
-/

namespace NdSlice

variable {α κ σ β : Type} {cfg : Cfg} {v : View} {t : Nat → Addr}

namespace Refs

variable {o : Oracle σ (α × α) (α × α × Option Bool)} {s : St α (α × α) (α × α × Option Bool) σ} {heap : Addr} {n : Nat}

/-- The cells the parallel stable sort uses besides the array: the stacks of the tasks and the buffer. -/
abbrev Extra (t : Nat → Addr) (heap : Addr) (n : Nat) (a : Addr) : Prop := (∃ n, a = t n) ∨ a ∈ (scratch heap n).region

theorem buf_ofP (hf : Fresh v (scratch heap n)) (ht : ∀ n', t n' ∉ (scratch heap n).region) :
    Buf (ctxP o t v (Extra t heap n) s) (elems v) (scratch heap n) := by
  have hm : ∀ i, i < (scratch heap n).len → (scratch heap n).addr i ∈ (scratch heap n).region := (elems_in scratch_wf).mem
  exact ⟨fun i hi => ⟨.inr (.inr (hm i hi)), fun e => ht 0 ((show (scratch heap n).addr i = t 0 from e) ▸ hm i hi)⟩, fun i hi => hf _ (hm i hi), (elems_in scratch_wf).inj⟩

theorem bsep_of (hv : v.WF) (hf : Fresh v (scratch heap n)) : Inn.BSep v (scratch heap n) :=
  ⟨(elems_in hv).inj, (elems_in scratch_wf).inj, fun i j hi hj e => hf _ ((elems_in scratch_wf).mem j hj) (e ▸ (elems_in hv).mem i hi)⟩

theorem tsep_of (hv : v.WF) (ht : Stacks t v) (ht' : ∀ n', t n' ∉ (scratch heap n).region) : Inn.TSep t v (scratch heap n) :=
  ⟨ht.inj, fun n i hi e => ht.out n (e ▸ (elems_in hv).mem i hi), fun m i hi e => ht' m (e ▸ (elems_in scratch_wf).mem i hi)⟩

theorem parSort_keep (hv : v.WF) (hf : Fresh v (scratch heap v.len)) (ht : Stacks t v) (ht' : ∀ n, t n ∉ (scratch heap v.len).region) :
    (ctxP o t v (Extra t heap v.len) s).Keep (elems v) (Refs.parSort cfg t v heap) (NdSlice.parMergeSort cfg ask v (scratch heap v.len)) Eq := by
  refine parMergeSort_refs (K := ctxP o t v (Extra t heap v.len) s) rfl (fun a => ?_) (elems_in hv) (buf_ofP hf ht') rfl (stacksOf ht fun n => .inl ⟨n, rfl⟩) rfl
    (fun m i hi e => ht' m (e ▸ (elems_in scratch_wf).mem i hi)) (fun i hi => .inl ((elems_in hv).mem i hi))
  constructor
  · intro h
    obtain ⟨i, hi, e⟩ := List.mem_map.1 (show a ∈ v.region from h)
    exact ⟨i, Nat.zero_le _, List.mem_range.1 hi, e.symm⟩
  · rintro ⟨i, _, hi, rfl⟩
    exact (elems_in hv).mem i hi

end Refs

open Refs Style

variable {o : Oracle σ (α × α) (α × α × Option Bool)} {s : St α (α × α) (α × α × Option Bool) σ}

/-! ### `par_sort`, `par_sort_by`, `par_sort_by_key` -/

/-- C75, `par_sort*`: under every schedule, whatever user code answers, changes and wherever it panics, there is no data race (also of the changes made by user
code), the sort ends, normally or with a panic of user code (not if user code never panics), and all objects are in the array, with all changes. -/
theorem par_sort_refs (o : Oracle σ (α × α) (α × α × Option Bool)) (hz : cfg.zst = false) (hv : v.WF) {heap : Addr} (hf : Fresh v (scratch heap v.len))
    (ht : Stacks t v) (ht' : ∀ n, t n ∉ (scratch heap v.len).region) (s : St α (α × α) (α × α × Option Bool) σ) :
    AlwaysEnds o (Refs.parSort cfg t v heap) s (fun _ s' => ∃ π L, MovedP v (fun a => (∃ n, a = t n) ∨ a ∈ (scratch heap v.len).region) s s' π L)
      (fun e s' => e = .user ∧ ¬ NeverPanics o ∧ ∃ π L, MovedP v (fun a => (∃ n, a = t n) ∨ a ∈ (scratch heap v.len).region) s s' π L) := by
  have hz' : cfg.zst = true → Subsingleton Addr := fun h => by rw [hz] at h; cases h
  refine (schedules (s := s) (v := v) (aux := Extra t heap v.len) (Q := fun _ _ _ _ => True) (E := fun e => e = .user ∧ ¬ NeverPanics o) (calm_sat (o := o))
    (Inn.parMergeSort (α := α) (cfg := cfg) (bsep_of hv hf) (tsep_of hv ht ht') rfl) ?_).mono (fun _ _ ⟨π, L, _, h⟩ => ⟨π, L, h⟩) (fun _ _ ⟨π, L, h, h'⟩ => ⟨h.1, h.2, π, L, h'⟩)
  intro o' s₀ ho' _
  have hk := parSort_keep (o := o') (s := s₀) (cfg := cfg) hv hf ht ht'
  rw [ask_less] at hk
  have hr := (par_sort_reads (κ := Unit) (st := .ord) (cfg := cfg) (v := v) (heap := heap) (o := objOracle o') (s := objSt s₀)).1
  rcases TriS.ends (s := objSt s₀) (rel_sat (objOracle o')) hv scratch_wf hf (parMergeSort_spec (C := Style.toCmp (κ := Unit) .ord (rel (objOracle o'))) (cfg := cfg) (v := v)
    (v.contents_length _) hz' rfl) with ⟨_, sA, h, hp, _⟩ | ⟨e, sA, h, ⟨rfl, hpan, hp⟩, _⟩
  · obtain ⟨_, s', h1, _, h2⟩ := lift_okP (.inl ⟨0, rfl⟩) (ht.out 0) hk hr h hp.1
    exact .inl ⟨_, s', _, _, h1, trivial, h2⟩
  · obtain ⟨s', h1, h2⟩ := lift_panicP (.inl ⟨0, rfl⟩) (ht.out 0) hk hr h hp
    exact .inr ⟨_, s', _, _, h1, ⟨rfl, fun hn => pan_iff (noPanic_obj (calm_never ho' hn)) hpan⟩, h2⟩

/-- C75, `par_sort*`: under every schedule, if user code compares by a part of the state which it leaves alone (it may change the rest), the objects are sorted
stably by it. -/
theorem par_sort_refs_sorts {f : α → κ} {lt : κ → κ → Bool} (so : SWO lt) (ho : ByKey o f lt) (hz : cfg.zst = false) (hv : v.WF) {heap : Addr}
    (hf : Fresh v (scratch heap v.len)) (ht : Stacks t v) (ht' : ∀ n, t n ∉ (scratch heap v.len).region) :
    AlwaysEnds o (Refs.parSort cfg t v heap) s (fun _ s' => ∃ π L, MovedP v (fun a => (∃ n, a = t n) ∨ a ∈ (scratch heap v.len).region) s s' π L ∧
      StableSortOf (fun i j => lt (f (s.mem i)) (f (s.mem j))) v.region π ∧ (v.contents s'.mem).map f = π.map fun i => f (s.mem i)) (fun _ _ => False) := by
  have hz' : cfg.zst = true → Subsingleton Addr := fun h => by rw [hz] at h; cases h
  refine (schedules (s := s) (v := v) (aux := Extra t heap v.len) (E := fun _ => False)
    (Q := fun _ m π _ => StableSortOf (fun i j => lt (f (s.mem i)) (f (s.mem j))) v.region π ∧ (v.contents m).map f = π.map fun i => f (s.mem i)) (keyed_sat ho)
    (Inn.parMergeSort (α := α) (cfg := cfg) (bsep_of hv hf) (tsep_of hv ht ht') rfl) ?_).mono (fun _ _ ⟨π, L, h, h'⟩ => ⟨π, L, h', h⟩) (fun _ _ ⟨_, _, h, _⟩ => h)
  intro o' s₀ ho' hm
  have hk := parSort_keep (o := o') (s := s₀) (cfg := cfg) hv hf ht ht'
  rw [ask_less] at hk
  have hr := (par_sort_reads (κ := Unit) (st := .ord) (cfg := cfg) (v := v) (heap := heap) (o := objOracle o') (s := objSt s₀)).1
  have ho' := keyed_by ho'
  have hag := key_agrees ho' (m := s₀.mem)
  rcases TriS.ends (s := keySt f s₀) (rel_sat (keyOracle ho' s₀.mem)) hv scratch_wf hf (parMergeSort_spec (C := Style.toCmp (κ := Unit) .ord (rel (keyOracle ho' s₀.mem)))
    (cfg := cfg) (v := v) (v.contents_length _) hz' rfl) with ⟨_, sK, h, ⟨hp, hst⟩, _⟩ | ⟨e, sA, h, ⟨rfl, hpan, hp⟩, _⟩
  · obtain ⟨_, s', h1, _, h2⟩ := lift_okP (.inl ⟨0, rfl⟩) (ht.out 0) hk hr (key_run ho' h) hp
    have e : (v.contents s'.mem).map f = (v.contents sK.mem).map fun i => f (s₀.mem i) := by
      rw [h2.contents, List.map_map]
      exact List.map_congr_left fun i _ => sK.env.2 i
    refine .inl ⟨_, s', _, _, h1, ⟨?_, by rw [← hm]; exact e⟩, h2⟩
    have := hst _ (good_of_agrees hag (key_swo so s₀.mem))
    have hs : StableSortOf (fun i j => lt (f (s₀.mem i)) (f (s₀.mem j))) (v.contents (keySt f s₀).mem) (v.contents sK.mem) := ⟨this.1, hp, this.2⟩
    rw [show v.contents (keySt f s₀).mem = v.region from id_contents] at hs
    rw [← hm]
    exact hs
  · exact (pan_iff (noPanic_of_agrees hag) hpan).elim

/-! ### The hypotheses can be met -/

namespace Sample

/-- Stack cells away from `long` and its buffer. -/
def longStacks : Nat → Addr := fun n => 10000 + (n : Int)

theorem longStacks_ok : Stacks longStacks long := by
  refine ⟨fun n m h => ?_, fun n h => ?_⟩
  · have h : 10000 + (n : Int) = 10000 + (m : Int) := h
    omega
  · obtain ⟨j, _, h⟩ := List.mem_map.1 h
    have h : (-1 : Int) + -3 * (j : Int) = 10000 + (n : Int) := h
    omega

theorem longStacks_out (n : Nat) : longStacks n ∉ (scratch 300 long.len).region := by
  intro h
  obtain ⟨j, hj, h⟩ := List.mem_map.1 h
  have hj : j < 5003 := List.mem_range.1 hj
  have h : (300 : Int) + 1 * (j : Int) = 10000 + (n : Int) := h
  omega

end Sample

example := par_sort_refs (cfg := Sample.cfg) Sample.moody rfl Sample.long_wf Sample.long_fresh Sample.longStacks_ok Sample.longStacks_out ⟨Sample.counted, (), []⟩
example := par_sort_refs_sorts (cfg := Sample.cfg) (s := ⟨Sample.counted, (), []⟩) Sample.swo Sample.counting_byKey rfl Sample.long_wf Sample.long_fresh
  Sample.longStacks_ok Sample.longStacks_out

end NdSlice
