import Verif.Proof.AllocFail
import Verif.Props.AlreadySorted

/-
C40, C78: what happens if the stack of runs cannot be made larger.
-/

namespace NdSlice

open Style

variable {α κ σ : Type} {st : Style} {cfg : Cfg} {v : View}

/-- An array of `a` except for a `b` at the end of each of the first `h` runs. -/
def trapAt (h : Nat) (a b : α) (i : Nat) : α := if (List.range h).any (fun k => i + 1 == runBegin h (k + 1)) then b else a

theorem trapAt_down {h k : Nat} {a b : α} (hk : k < h) : trapAt h a b (runBegin h (k + 1) - 1) = b := by
  have : 10 ≤ need (h - k) := need_pos (by omega)
  have e : runBegin h (k + 1) = runBegin h k + need (h - k) := rfl
  unfold trapAt
  rw [if_pos]
  rw [List.any_eq_true]
  exact ⟨k, List.mem_range.mpr hk, by simp; omega⟩

theorem runBegin_lt {h j k : Nat} (hjk : j < k) (hk : k ≤ h) : runBegin h j + 10 ≤ runBegin h k := by
  have h1 : 10 ≤ need (h - j) := need_pos (by omega)
  have e : runBegin h (j + 1) = runBegin h j + need (h - j) := rfl
  have := runBegin_mono (h := h) (show j + 1 ≤ k by omega)
  omega

/-- Not the end of a run. -/
theorem trapAt_other {h i : Nat} {a b : α} (hi : ∀ k, k < h → i + 1 ≠ runBegin h (k + 1)) : trapAt h a b i = a := by
  unfold trapAt
  rw [if_neg]
  rw [List.any_eq_true]
  rintro ⟨k, hk, he⟩
  exact hi k (List.mem_range.mp hk) (by simpa using he)

theorem trap_of {lt : α → α → Bool} (so : SWO lt) {a b : α} (hab : lt a b = true) {m : Mem α} {h : Nat} (hl : cover h < v.len)
    (hm : ∀ i, i < v.len → m (v.addr i) = trapAt h a b i) : Trap lt m v h := by
  have hb : ∀ k, k ≤ h → runBegin h k ≤ cover h := by
    intro k hk
    have := runBegin_cover hk
    omega
  have hh : runBegin h h = cover h := by
    have := runBegin_cover (Nat.le_refl h)
    rwa [Nat.sub_self] at this
  have two : ∀ i, trapAt h a b i = a ∨ trapAt h a b i = b := by
    intro i
    unfold trapAt
    split
    · exact .inr rfl
    · exact .inl rfl
  refine ⟨hl, ?_, ?_, ?_⟩
  · intro k hk i h1 h2
    have := hb (k + 1) hk
    rw [hm _ (by omega), hm _ (by omega), trapAt_other (i := i - 1)]
    · rcases two i with e | e <;> rw [e]
      · exact so.irrefl _
      · exact so.asymm hab
    · intro k' hk' he
      rcases Nat.lt_trichotomy k' k with h' | h' | h'
      · have := runBegin_mono (h := h) (show k' + 1 ≤ k by omega)
        omega
      · subst h'
        omega
      · have := runBegin_lt (h := h) (show k + 1 < k' + 1 by omega) (by omega)
        omega
  · intro k hk
    have h1 := hb (k + 1) hk
    rw [hm _ (by omega), hm _ (by omega), trapAt_down hk, trapAt_other]
    · exact hab
    · intro k' hk' he
      rcases Nat.lt_trichotomy k' k with h' | h' | h'
      · have := runBegin_mono (h := h) (show k' + 1 ≤ k + 1 by omega)
        omega
      · subst h'
        omega
      · have := runBegin_lt (h := h) (show k + 1 < k' + 1 by omega) (by omega)
        omega
  · intro i h1 h2
    have ha : ∀ j, cover h ≤ j → trapAt h a b j = a := by
      intro j hj
      refine trapAt_other fun k hk he => ?_
      have := hb (k + 1) hk
      omega
    rw [hm _ (by omega), hm _ (by omega), ha _ (by omega), ha _ (by omega)]
    exact so.irrefl _

/-- C40, C78: if there is memory for the element buffer and for `h = 16 * 2 ^ j` runs but not for twice as many, then for every length greater
than `11 * fib h + 12 * fib (h + 1) - 12 - h` (29993 for `h = 16`) there is an array (of two values) on which `sort*` has undefined
behaviour, with every consistent comparator for which one value is less than the other.  (The allocation is freed with the wrong size.)
By `sort_alloc_partial` no shorter array does this. -/
theorem sort_alloc_failure_ub {lt : α → α → Bool} (so : SWO lt) (hz : cfg.zst = false) {al : Alloc} {j : Nat}
    (hel : al.elem = true) (hrun : ∀ i, i ≤ j → al.run (16 * 2 ^ i) = true) (hstop : al.run (16 * 2 ^ (j + 1)) = false)
    (hl : 11 * Nat.fib (16 * 2 ^ j) + 12 * Nat.fib (16 * 2 ^ j + 1) < v.len + 12 + 16 * 2 ^ j) {a b : α} (hab : lt a b = true) :
    ∃ xs : List α, xs.length = v.len ∧ (∀ x ∈ xs, x = a ∨ x = b) ∧ ∀ (o : Oracle σ (st.Q α κ) (st.A κ)), Agrees st o lt →
      ∀ (heap : Addr) (s : St α (st.Q α κ) (st.A κ) σ), v.contents s.mem = xs →
        ∃ s', run o (sortStable st cfg v al heap) s = (.ub, s') ∧ s'.mem = s.mem := by
  refine ⟨(List.range v.len).map (trapAt (16 * 2 ^ j) a b), by simp, ?_, ?_⟩
  · intro x hx
    obtain ⟨i, -, rfl⟩ := List.mem_map.mp hx
    unfold trapAt
    split
    · exact .inr rfl
    · exact .inl rfl
  · intro o ho heap s hs
    have hm : ∀ i, i < v.len → s.mem (v.addr i) = trapAt (16 * 2 ^ j) a b i := by
      intro i hi
      have := congrArg (fun l => l[i]?) hs
      simpa [View.contents, View.region, hi] using this
    have hc := (cover_eq (16 * 2 ^ j)).1
    exact (stableSort_doomed (Style.compares ho s.mem) hz ⟨hel, hrun, hstop⟩ (trap_of so hab (by omega) hm) _).run (rel_sat o)

/-- C78: if one of the two allocations made at the start fails, `sort*` on more than 20 elements panics at once: no user code is called
and no memory changes. -/
theorem sort_alloc_panics (o : Oracle σ (st.Q α κ) (st.A κ)) (hz : cfg.zst = false) {al : Alloc} (h20 : 20 < v.len)
    (hal : al.elem = false ∨ al.run 16 = false) (heap : Addr) (s : St α (st.Q α κ) (st.A κ) σ) :
    run o (sortStable st cfg v al heap) s = (.panic .alloc, s) := by
  have h1 : ¬ v.len ≤ 20 := by omega
  have e : (sortStable st cfg v al heap : Prog α (st.Q α κ) (st.A κ) Unit) = .throw .alloc := by
    unfold sortStable stableSort mergeSort mergeSortWatch
    rw [hz, if_neg (by simp), if_neg h1]
    cases he : al.elem with
    | false => cases hd : cfg.dbg <;> simp [debugAssert, hd] <;> rfl
    | true =>
      have hr : al.run 16 = false := by rcases hal with h | h <;> simp_all
      cases hd : cfg.dbg <;> simp [debugAssert, hd, hr] <;> rfl
  rw [e]
  rfl

/-- C78: with any user code and any allocator that does not fail to grow the stack of runs (see `sort_alloc_partial`), `sort*` ends without
undefined behaviour.  It panics only if user code did, or if one of the two first allocations failed. -/
theorem sort_alloc_safe_partial (o : Oracle σ (st.Q α κ) (st.A κ)) (hz : cfg.zst = true → Subsingleton α) (hv : v.WF) {al : Alloc}
    (hal : ∀ i, 11 * Nat.fib (16 * 2 ^ i) + 12 * Nat.fib (16 * 2 ^ i + 1) < v.len + 12 + 16 * 2 ^ i → al.run (16 * 2 ^ (i + 1)) = true)
    {heap : Addr} (hf : Fresh v (scratch heap (v.len / 2))) (s : St α (st.Q α κ) (st.A κ) σ) :
    Ends o (sortStable st cfg v al heap) s
      (fun _ m => (v.contents m).Perm (v.contents s.mem) ∧
        ∀ a, a ∉ v.region → a ∉ (scratch heap (v.len / 2)).region → m a = s.mem a)
      (fun e m => ((e = .user ∧ ¬ NoPanic o) ∨ (e = .alloc ∧ 20 < v.len ∧ (al.elem = false ∨ al.run 16 = false))) ∧
        (v.contents m).Perm (v.contents s.mem) ∧ ∀ a, a ∉ v.region → a ∉ (scratch heap (v.len / 2)).region → m a = s.mem a) := by
  have hg : al.Grows v.len := by
    intro i hi
    have := (cover_eq (16 * 2 ^ i)).1
    exact hal i (by omega)
  refine (TriS.ends (rel_sat o) hv scratch_wf hf
    (stableSort_spec (C := st.toCmp (rel o)) (cfg := cfg) (v := v) hg hz (v.contents_length s.mem) (Nat.le_refl _))).mono
      (fun _ _ h => ⟨h.1.1, h.2⟩) ?_
  rintro e m ⟨h | ⟨h1, h2, h3, h4⟩, h5⟩
  · exact ⟨.inl ⟨h.1, fun hn => pan_iff hn h.2.1⟩, h.2.2, h5⟩
  · rw [View.contents_length] at h2
    exact ⟨.inr ⟨h1, h2, h3⟩, h4 ▸ .refl _, h5⟩

/-! ### The hypotheses can be met -/

example (st : Style) := sort_alloc_panics (cfg := Sample.cfg) (v := Sample.view) (Sample.nonsense st) rfl
  (al := ⟨true, fun c => decide (c ≠ 16)⟩) (by decide) (.inr rfl) 1000 (Sample.nstate st)

example (st : Style) := sort_alloc_safe_partial (cfg := Sample.cfg) (Sample.nonsense st) Sample.notZst Sample.wf
  (al := ⟨true, fun c => decide (c ≠ 16)⟩) (fun i _ => decide_eq_true (by have := Nat.two_pow_pos i; rw [Nat.pow_succ]; omega))
  (Sample.fresh (n := 30)) (Sample.nstate st)

namespace Sample

/-- Enough memory for 16 runs, but not for 32. -/
def little : Alloc := ⟨true, fun c => decide (c ≤ 16)⟩

end Sample

/-- The shortest array with this behaviour. -/
example (st : Style) := sort_alloc_failure_ub (st := st) (κ := Nat) (σ := Unit) (cfg := Sample.cfg) (v := ⟨7, 3, 29994⟩) (al := Sample.little) (j := 0) Sample.swo rfl
  rfl (fun i hi => by rw [show i = 0 by omega]; rfl) rfl (by decide) (a := 1) (b := 2) rfl

/-- There is memory with such an array. -/
example : ∃ (s : St Nat (Style.Q Nat Nat .ord) (Style.A Nat .ord) Unit) (s' : St Nat (Style.Q Nat Nat .ord) (Style.A Nat .ord) Unit),
    run (Sample.oracle .ord) (sortStable .ord Sample.cfg ⟨7, 3, 29994⟩ Sample.little (-100000)) s = (.ub, s') := by
  obtain ⟨xs, h1, -, h2⟩ := sort_alloc_failure_ub (st := .ord) (κ := Nat) (σ := Unit) (cfg := Sample.cfg) (v := ⟨7, 3, 29994⟩) (al := Sample.little) (j := 0) Sample.swo rfl
    rfl (fun i hi => by rw [show i = 0 by omega]; rfl) rfl (by decide) (a := 1) (b := 2) rfl
  obtain ⟨s', h, -⟩ := h2 _ (Sample.agrees .ord) (-100000) ⟨fun a => xs[((a - 7) / 3).toNat]?.getD 0, (), []⟩ (by
    refine List.ext_getElem? fun i => ?_
    rcases Nat.lt_or_ge i 29994 with hi | hi
    · have e : ((7 + 3 * (i : Int) - 7) / 3).toNat = i := by omega
      have e' : (View.mk 7 3 29994).addr i = 7 + 3 * (i : Int) := rfl
      rw [View.contents, View.region, List.map_map, List.getElem?_map, List.getElem?_range (by exact hi)]
      simp only [Option.map_some, Function.comp, e', e]
      rw [List.getElem?_eq_getElem (by rw [h1]; exact hi)]
      rfl
    · rw [List.getElem?_eq_none (by rw [View.contents_length]; exact hi), List.getElem?_eq_none (by rw [h1]; exact hi)])
  exact ⟨_, s', h⟩

end NdSlice
