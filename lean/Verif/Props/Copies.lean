import Verif.Props.Refs
import Verif.Props.RefsParStable

/-
C80: `ptr::copy_nonoverlapping` is never called with a source and a destination which overlap.  In the model on places every call of it is preceded by
`Refs.apart src dst`, which is undefined behaviour if both are the same cell; no run and no schedule gets there.
-/

namespace NdSlice

variable {α σ β : Type} {cfg : Cfg} {v : View}

/-- A copy of a cell onto itself is undefined behaviour in the model, whatever would follow. -/
theorem overlap_ub {ι ω : Type} (o : Oracle σ ι ω) (a : Addr) (k : Unit → Prog α ι ω β) (s : St α ι ω σ) : run o (Refs.apart a a >>= k) s = (.ub, s) := by
  unfold Refs.apart
  rw [if_pos rfl]
  rfl

/-- The same for a task among others. -/
theorem overlap_bad {ι ω : Type} (a : Addr) (k : Unit → Prog α ι ω β) : Bad (Refs.apart a a >>= k) := by
  unfold Refs.apart
  rw [if_pos rfl]
  exact .ub

/-- No undefined behaviour, in particular no copy of a cell onto itself, in the run of `p`. -/
def NoOverlap {ι ω : Type} (o : Oracle σ ι ω) (p : Prog α ι ω β) (s : St α ι ω σ) : Prop := ∀ s', run o p s ≠ (.ub, s')

/-- The same for every schedule of `p`, at every point of it, for every task. -/
def NeverOverlap {ι ω : Type} (o : Oracle σ ι ω) (p : Prog α ι ω β) (s : St α ι ω σ) : Prop := ∀ p' s', Steps o p s p' s' → ¬ Bad p'

/-- C80, `sort*`: whatever user code does. -/
theorem sort_copies {t : Addr} (o : Oracle σ (α × α) (α × α × Option Bool)) (hz : cfg.zst = false) (hv : v.WF) {al : Alloc} (hal : al.Succeeds) {heap : Addr}
    (hf : Fresh v (scratch heap (v.len / 2))) (ht : t ∉ v.region) (ht' : t ∉ (scratch heap (v.len / 2)).region)
    (s : St α (α × α) (α × α × Option Bool) σ) : NoOverlap o (Refs.sort cfg t v al heap) s := by
  intro s' h
  rcases sort_refs (cfg := cfg) o hz hv hal hf ht ht' s with ⟨_, _, _, h', _⟩ | ⟨_, _, _, h', _⟩ <;> (rw [h] at h'; cases h')

/-- C80, `sort_unstable*`. -/
theorem sort_unstable_copies {t : Addr} (o : Oracle σ (α × α) (α × α × Option Bool)) (hz : cfg.zst = false) (hv : v.WF) (ht : t ∉ v.region)
    (s : St α (α × α) (α × α × Option Bool) σ) : NoOverlap o (Refs.sortUnstable cfg t v) s := by
  intro s' h
  rcases sort_unstable_refs (cfg := cfg) o hz hv ht s with ⟨_, _, _, h', _⟩ | ⟨_, _, _, h', _⟩ <;> (rw [h] at h'; cases h')

/-- C80, `select_nth_unstable*`, for any index. -/
theorem select_nth_copies {t : Addr} (o : Oracle σ (α × α) (α × α × Option Bool)) (hz : cfg.zst = false) (hv : v.WF) (ht : t ∉ v.region) (k : Nat)
    (s : St α (α × α) (α × α × Option Bool) σ) : NoOverlap o (Refs.selectNthUnstable cfg t v k) s := by
  intro s' h
  by_cases hk : k < v.len
  · rcases select_nth_refs (cfg := cfg) o hz hv ht hk s with ⟨_, _, _, h', _⟩ | ⟨_, _, _, _, h', _⟩ <;> (rw [h] at h'; cases h')
  · unfold Refs.selectNthUnstable Refs.partitionAtIndex at h
    rw [if_pos (by omega)] at h
    cases h

/-- C80, `select_many_nth_unstable*`, for any indices. -/
theorem select_many_copies {t : Addr} (o : Oracle σ (α × α) (α × α × Option Bool)) (hz : cfg.zst = false) (hv : v.WF) (hb : 2 * v.len ≤ 2 ^ cfg.bits)
    (ht : t ∉ v.region) (is : List Nat) (s : St α (α × α) (α × α × Option Bool) σ) : NoOverlap o (Refs.selectManyNthUnstable cfg t v is) s := by
  intro s' h
  rcases select_many_refs (cfg := cfg) o hz hv hb ht is s with ⟨_, _, _, h', _⟩ | ⟨_, _, _, _, h', _⟩ <;> (rw [h] at h'; cases h')

/-- C80, `par_sort*`: under every schedule. -/
theorem par_sort_copies {t : Nat → Addr} (o : Oracle σ (α × α) (α × α × Option Bool)) (hz : cfg.zst = false) (hv : v.WF) {heap : Addr}
    (hf : Fresh v (scratch heap v.len)) (ht : Stacks t v) (ht' : ∀ n, t n ∉ (scratch heap v.len).region) (s : St α (α × α) (α × α × Option Bool) σ) :
    NeverOverlap o (Refs.parSort cfg t v heap) s := fun p' s' hs => ((par_sort_refs o hz hv hf ht ht' s).1 p' s' hs).2.1

/-- C80, `par_sort_unstable*`. -/
theorem par_sort_unstable_copies {t : Nat → Addr} (o : Oracle σ (α × α) (α × α × Option Bool)) (hz : cfg.zst = false) (hv : v.WF) (ht : Stacks t v)
    (s : St α (α × α) (α × α × Option Bool) σ) : NeverOverlap o (Refs.parSortUnstable cfg t v) s :=
  fun p' s' hs => ((par_sort_unstable_refs o hz hv ht s).1 p' s' hs).2.1

/-- C80, `par_select_many_nth_unstable*`. -/
theorem par_select_many_copies {t : Nat → Addr} (o : Oracle σ (α × α) (α × α × Option Bool)) (hz : cfg.zst = false) (hv : v.WF)
    (hb : 2 * v.len ≤ 2 ^ cfg.bits) (ht : Stacks t v) (is : List Nat) (extra : Nat) (s : St α (α × α) (α × α × Option Bool) σ) :
    NeverOverlap o (Refs.parSelectManyNthUnstable cfg t v is extra) s :=
  fun p' s' hs => ((par_select_many_refs o hz hv hb ht is extra s).1 p' s' hs).2.1

/-! ### The hypotheses can be met -/

example := sort_copies (cfg := Sample.cfg) Sample.moody rfl Sample.wf Sample.alloc_succeeds Sample.fresh Sample.not_in_view Sample.not_in_scratch ⟨Sample.counted, (), []⟩
example := sort_unstable_copies (cfg := Sample.cfg) Sample.moody rfl Sample.wf Sample.not_in_view ⟨Sample.counted, (), []⟩
example := select_nth_copies (cfg := Sample.cfg) Sample.moody rfl Sample.wf Sample.not_in_view 17 ⟨Sample.counted, (), []⟩
example := select_nth_copies (cfg := Sample.cfg) Sample.moody rfl Sample.wf Sample.not_in_view 77 ⟨Sample.counted, (), []⟩
example := select_many_copies (cfg := Sample.cfg) Sample.moody rfl Sample.wf (by decide) Sample.not_in_view [3, 17, 40] ⟨Sample.counted, (), []⟩
example := par_sort_copies (cfg := Sample.cfg) Sample.moody rfl Sample.long_wf Sample.long_fresh Sample.longStacks_ok Sample.longStacks_out ⟨Sample.counted, (), []⟩
example := par_sort_unstable_copies (cfg := Sample.cfg) Sample.moody rfl Sample.wf Sample.stacks_ok ⟨Sample.counted, (), []⟩
example := par_select_many_copies (cfg := Sample.cfg) Sample.moody rfl Sample.wf (by decide) Sample.stacks_ok [3, 17, 40] 1 ⟨Sample.counted, (), []⟩

-- An array with two elements in one cell, or a stack cell within the array: there copies overlap.
example : (run (α := Nat) ⟨fun _ q => (some (q.1, q.2, some true), ()), fun _ => (true, ())⟩ (Refs.sortUnstable Sample.cfg 7 ⟨200, 0, 4⟩)
    ⟨fun _ => 1, (), []⟩).1 = .ub := rfl
example : (run (α := Nat) ⟨fun _ q => (some (q.1, q.2, some true), ()), fun _ => (true, ())⟩ (Refs.sortUnstable Sample.cfg 200 ⟨200, 1, 3⟩)
    ⟨fun _ => 1, (), []⟩).1 = .ub := rfl

end NdSlice
