import Verif.Props.ParAsks
import Verif.Model.Cached

/-
C86: after a panic of user code, what `par_sort*` has asked and in which order it leaves the elements depend on the schedule.
-/

namespace NdSlice

open Style Prog

namespace Sample

/-- Two chunks, the second of which has three elements. -/
def twoChunks : View := ⟨0, 1, 2003⟩

/-- `7, …, 7` in the first chunk and `5, 1, 3` in the second. -/
def twoMem : Mem Nat := fun a => if a = 2000 then 5 else if a = 2001 then 1 else if a = 2002 then 3 else 7

/-- The order of the numbers; 7 cannot be compared. -/
def noSevenF : Style.ord.Q Nat Nat → Option (Style.ord.A Nat) := fun q : Nat × Nat => if q.1 = 7 then none else some (decide (q.1 < q.2))

/-- The same with an environment that keeps a list of the tasks to start late. -/
def noSeven : Oracle (List Bool) (Style.ord.Q Nat Nat) (Style.ord.A Nat) := ⟨fun e q => (noSevenF q, e), fun e => (e.headD false, e.tail)⟩

/-- A key function that panics on 0. -/
def noKey : Oracle (List Bool) (KeyQ Nat Nat) (Nat × Bool) :=
  ⟨fun e q => (match q with | .key x => if x = 0 then none else some (x, false) | .lt x y => some (0, decide (x < y)), e),
    fun e => (e.headD false, e.tail)⟩

end Sample

/-- A run that panics is a schedule. -/
theorem run_steps_panic {α ι ω σ β : Type} {o : Oracle σ ι ω} {p : Prog α ι ω β} {s : St α ι ω σ} {e : Panic} (h : (run o p s).1 = .panic e) :
    Steps o p s (.throw e) (run o p s).2 := by
  have w := run_reaches (o := o) (p := p) (s := s)
  generalize run o p s = r at h w
  obtain ⟨r, s'⟩ := r
  cases h
  exact w

theorem contents_at {α : Type} {v : View} {m m' : Mem α} (h : v.contents m = v.contents m') {i : Nat} (hi : i < v.len) : m (v.addr i) = m' (v.addr i) :=
  List.map_inj_left.mp h _ (List.mem_map.mpr ⟨i, List.mem_range.mpr hi, rfl⟩)

/-- C86 for `par_sort`: on one and the same array of 2003 elements, with one and the same pure comparator, which fails to compare some of the elements,
there are two schedules that both pass on the panic of the comparator, but leave the elements in different orders and have asked different
numbers of questions.  In the one, both chunks have been started when the panic occurs; in the other, the second chunk is never sorted.  Hence
the restriction to runs which return cannot be dropped from C32 and C85. -/
theorem par_sort_panic_schedules : Sample.twoChunks.WF ∧ Fresh Sample.twoChunks (scratch 3000 2003) ∧ Computes Sample.noSeven Sample.noSevenF ∧
    ∃ t t' : St Nat (Style.ord.Q Nat Nat) (Style.ord.A Nat) (List Bool),
      Steps Sample.noSeven (parSortStable .ord Sample.cfg Sample.twoChunks 3000) ⟨Sample.twoMem, [false, false], []⟩ (.throw .user) t ∧
      Steps Sample.noSeven (parSortStable .ord Sample.cfg Sample.twoChunks 3000) ⟨Sample.twoMem, [false, true], []⟩ (.throw .user) t' ∧
      Sample.twoChunks.contents t.mem ≠ Sample.twoChunks.contents t'.mem ∧ t.log.length = 5 ∧ t'.log.length = 1 := by
  have h1 := run_steps_panic (o := Sample.noSeven) (p := parSortStable .ord Sample.cfg Sample.twoChunks 3000)
    (s := ⟨Sample.twoMem, [false, false], []⟩) (e := .user) (by decide)
  have h2 := run_steps_panic (o := Sample.noSeven) (p := parSortStable .ord Sample.cfg Sample.twoChunks 3000)
    (s := ⟨Sample.twoMem, [false, true], []⟩) (e := .user) (by decide)
  refine ⟨.inl (by decide), ?_, fun _ _ => rfl, _, _, h1, h2, fun h => ?_, by decide, by decide⟩
  · intro a ha hv
    simp only [View.region, scratch, Sample.twoChunks, List.mem_map, List.mem_range, View.addr] at ha hv
    obtain ⟨i, hi, rfl⟩ := ha
    obtain ⟨j, hj, h⟩ := hv
    have h : (0 : Int) + 1 * (j : Int) = 3000 + 1 * (i : Int) := h
    omega
  · exact absurd (contents_at h (i := 2000) (by decide)) (by decide)

/-- C86 for `par_sort_by_cached_key`: if the key function panics on the first of three elements, then either all of them or the first only have been
given to it, depending on the schedule; whatever sorts the vector of keys. -/
theorem par_sort_by_cached_key_panic_schedules (cfg : Cfg) (sz : Sizes) (srt : PairSort Nat Nat) (e : List Bool) :
    ∃ t t' : St Nat (KeyQ Nat Nat) (Nat × Bool) (List Bool),
      Steps Sample.noKey (parSortByCachedKey cfg sz srt ⟨0, 1, 3⟩) ⟨fun a => a.toNat, false :: false :: false :: e, []⟩ (.throw .user) t ∧
      Steps Sample.noKey (parSortByCachedKey cfg sz srt ⟨0, 1, 3⟩) ⟨fun a => a.toNat, false :: true :: true :: e, []⟩ (.throw .user) t' ∧
      t.log.length = 3 ∧ t'.log.length = 1 :=
  ⟨_, _, run_steps_panic rfl, run_steps_panic rfl, rfl, rfl⟩

end NdSlice
