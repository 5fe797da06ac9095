import Verif.Props.Cached
import Verif.Core.RunSteps

/-
C91: which questions of `par_sort_by_cached_key` depend on the schedule.
-/

namespace NdSlice

variable {α κ σ σ' : Type} {cfg : Cfg} {sz : Sizes} {srt : PairSort α κ} {v : View}

/-- A call of the key function. -/
def KeyQ.isKey : KeyQ α κ → Bool
  | .key _ => true
  | .lt _ _ => false

/-- The calls of the key function among all questions. -/
def keyCalls (log : List (KeyQ α κ × Option (κ × Bool))) : List (KeyQ α κ) := (log.map (·.1)).filter KeyQ.isKey

/-- C91: whatever user code does, the key function is called on the same elements in all schedules of `par_sort_by_cached_key` that return (in
different orders): each element once if there are two at least, and none otherwise. -/
theorem par_sort_by_cached_key_key_calls (hs : SortsPairs srt) (o : Oracle σ (KeyQ α κ) (κ × Bool)) (hv : v.WF) (hlen : v.len ≤ 2 ^ cfg.bits)
    (s : St α (KeyQ α κ) (κ × Bool) σ) {t} (h : Steps o (parSortByCachedKey cfg sz srt v) s (.ret ()) t) :
    (keyCalls t.log).Perm (keyCalls s.log ++ if v.len < 2 then [] else (v.contents s.mem).map .key) := by
  obtain ⟨-, -, h⟩ := (par_sort_by_cached_key_calls (cfg := cfg) (sz := sz) hs o hv hlen s).1 _ _ h
  rcases h with ⟨p, s', h⟩ | ⟨b, -, h⟩ | ⟨e, h, -⟩
  · cases h
  · obtain ⟨-, -, h1, h2⟩ := h
    split
    · rename_i hl
      rw [List.append_nil]
      exact ((h1 hl).map _).filter _
    · rename_i hl
      obtain ⟨dk, dl, h3, h4, h5⟩ := h2 (by omega)
      have := (h3.map (·.1)).filter KeyQ.isKey
      refine List.Perm.trans this ?_
      rw [List.map_append, List.map_append, List.filter_append, List.filter_append]
      have e1 : (dl.map (·.1)).filter KeyQ.isKey = [] := by
        rw [List.filter_eq_nil_iff]
        intro q hq
        obtain ⟨p, hp, rfl⟩ := List.mem_map.mp hq
        obtain ⟨k, l, e⟩ := h5 p hp
        rw [e]
        exact Bool.false_ne_true
      have e2 : ((v.contents s.mem).map KeyQ.key : List (KeyQ α κ)).filter KeyQ.isKey = (v.contents s.mem).map .key := by
        rw [List.filter_eq_self]
        intro q hq
        obtain ⟨x, -, rfl⟩ := List.mem_map.mp hq
        rfl
      rw [e1, List.append_nil, ← e2]
      exact (h4.filter _).append_left _
  · cases h

namespace Sample

/-- Keys are the elements; the environment makes its choices from a list. -/
def listed : Oracle (List Bool) (KeyQ Nat Nat) (Nat × Bool) :=
  ⟨fun e q => (some (match q with | .key x => (x, false) | .lt x y => (0, decide (x < y))), e), fun e => (e.headD false, e.tail)⟩

theorem listedAgrees : KeyAgrees listed id (fun x y => decide (x < y)) := ⟨fun _ _ => ⟨_, rfl⟩, fun _ _ _ => ⟨_, rfl⟩⟩

end Sample

/-- A run that returns is a schedule. -/
theorem run_steps_return {α ι ω σ β : Type} {o : Oracle σ ι ω} {p : Prog α ι ω β} {s : St α ι ω σ} {b : β} (h : (run o p s).1 = .ok b) :
    Steps o p s (.ret b) (run o p s).2 := by
  have w := run_reaches (o := o) (p := p) (s := s)
  generalize run o p s = r at h w
  obtain ⟨r, s'⟩ := r
  cases h
  exact w

/-- C91: the number of comparisons of keys does depend on the schedule, since the keys reach the vector in different orders: with an insertion sort of
the vector (`Sample.pairSort`) the three elements 0, 1, 2 with themselves as keys take 6 questions in one schedule and 8 in another one, 3 of them
for keys.  Both return, and user code is the same pure function (`Sample.listedAgrees`). -/
theorem par_sort_by_cached_key_comparisons_schedules :
    ∃ (e e' : List Bool) (t t' : St Nat (KeyQ Nat Nat) (Nat × Bool) (List Bool)),
      Steps Sample.listed (parSortByCachedKey Sample.cfg Sample.sizes Sample.pairSort ⟨0, 1, 3⟩) ⟨fun a => a.toNat, e, []⟩ (.ret ()) t ∧
      Steps Sample.listed (parSortByCachedKey Sample.cfg Sample.sizes Sample.pairSort ⟨0, 1, 3⟩) ⟨fun a => a.toNat, e', []⟩ (.ret ()) t' ∧
      t.log.length = 6 ∧ t'.log.length = 8 :=
  ⟨[false, false, false, false, false, false], [false, false, false, true, false, true], _, _,
    run_steps_return (by decide), run_steps_return (by decide), by decide, by decide⟩

/-! ### The hypotheses can be met -/

-- all schedules that return; the second example has one of them
example {t} (h : Steps Sample.listed (parSortByCachedKey Sample.cfg Sample.sizes Sample.pairSort ⟨0, 1, 3⟩) ⟨fun a => a.toNat, [], []⟩ (.ret ()) t) :
    (keyCalls t.log).Perm [.key 0, .key 1, .key 2] :=
  par_sort_by_cached_key_key_calls Sample.pairSort_sorts Sample.listed (.inl (by decide)) (by decide) _ h
example := run_steps_return (o := Sample.listed) (p := parSortByCachedKey Sample.cfg Sample.sizes Sample.pairSort ⟨0, 1, 3⟩)
  (s := ⟨fun a => a.toNat, [], []⟩) (b := ()) (by decide)

end NdSlice
