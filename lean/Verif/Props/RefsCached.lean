import Verif.Props.Cached
import Verif.Proof.RefsCached

/-
C76: the cached key sorts if the key function changes the elements it is given.
-/

namespace NdSlice

variable {α κ σ : Type} {cfg : Cfg} {sz : Sizes} {srt : PairSort α κ} {v : View}

open Refs (KeyA)

/-- Comparisons of keys never panic and are made by `klt`. -/
def KeysBy (o : Oracle σ (KeyQ α κ) (KeyA α κ)) (klt : κ → κ → Bool) : Prop :=
  ∀ e k l, ∃ x c, (o.ask e (.lt k l)).1 = some (x, some (c, klt k l))

/-- The key function gives a key whenever it is called. -/
def GivesKeys (o : Oracle σ (KeyQ α κ) (KeyA α κ)) : Prop := ∀ e x, ∃ x' k, (o.ask e (.key x)).1 = some (x', some k)

theorem KeysBy.ltIs {o : Oracle σ (KeyQ α κ) (KeyA α κ)} {klt : κ → κ → Bool} (h : KeysBy o klt) : LtIs (Refs.Plain (Style.rel o)) klt := by
  rintro k l c ⟨r, ⟨e, rfl⟩, hr⟩
  obtain ⟨x, b, hb⟩ := h e k l
  rw [hb] at hr
  cases hr; rfl

theorem KeysBy.noPanic {o : Oracle σ (KeyQ α κ) (KeyA α κ)} {klt : κ → κ → Bool} (h : KeysBy o klt) (so : SWO klt) {e : Panic} :
    ¬ PairPanic (Refs.Plain (Style.rel o)) e := by
  rintro (⟨_, k, l, r, ⟨e, rfl⟩, hr⟩ | ⟨_, hn⟩)
  · obtain ⟨x, b, hb⟩ := h e k l
    rw [hb] at hr
    cases hr
  · exact hn ⟨klt, so, h.ltIs⟩

theorem GivesKeys.noPanic {o : Oracle σ (KeyQ α κ) (KeyA α κ)} (h : GivesKeys o) {x : α} {r : Option (KeyA α κ)}
    (hr : Style.rel o (.key x) r) : Refs.plain r ≠ none := by
  obtain ⟨e, rfl⟩ := hr
  obtain ⟨x', k, hk⟩ := h e x
  rw [hk]
  exact Option.some_ne_none _

/-- A call of the key function on an element in state `x` gave `r`: the element is in state `r.1` now, and its key is `r.2.1`. -/
def gave (x : α) (r : α × κ × Bool) : KeyQ α κ × Option (KeyA α κ) := (.key x, some (r.1, some r.2))

/-- C76: whatever user code does, `sort_by_cached_key` ends.
If it ends normally and there are at least two elements, the key function was called on each element once, in array order; these calls
gave the states and keys `rs`.  Afterwards keys were compared and nothing else.  The array has each object once, in the state in which the
call of the key function left it; if keys are compared by a strict weak order, it is sorted stably by the keys that were given.
If a call of the key function panics, the elements before are in the states left by their calls, the element given to the call which panicked is in the
state this call left it in, the elements after it are untouched, and nothing has been moved.  If a comparison of keys panics, all elements are in
place in the states left by their calls. -/
theorem sort_by_cached_key_changes (hs : SortsPairs srt) (o : Oracle σ (KeyQ α κ) (KeyA α κ)) (hv : v.WF) (hlen : v.len ≤ 2 ^ cfg.bits)
    (s : St α (KeyQ α κ) (KeyA α κ) σ) :
    EndsS o (Refs.sortByCachedKey cfg sz srt v) s
      (fun _ s' => (∀ a, a ∉ v.region → s'.mem a = s.mem a) ∧
        (v.len < 2 → s'.mem = s.mem ∧ s'.log = s.log) ∧
        (2 ≤ v.len → ∃ (rs rs' : List (α × κ × Bool)) (dl : List (KeyQ α κ × Option (KeyA α κ))), rs.length = v.len ∧
          s'.log = s.log ++ List.zipWith gave (v.contents s.mem) rs ++ dl ∧ (∀ q ∈ dl, ∃ k l, q.1 = .lt k l) ∧
          rs'.Perm rs ∧ v.contents s'.mem = rs'.map (·.1) ∧
          ∀ klt, SWO klt → KeysBy o klt → StableSortOf (fun p q => klt p.2.1 q.2.1) rs rs'))
      (fun e s' => (∀ a, a ∉ v.region → s'.mem a = s.mem a) ∧
        ((e = .user ∧ ∃ (A : List α) (x : α) (B : List α) (rs : List (α × κ × Bool)) (r : Option (KeyA α κ)), v.contents s.mem = A ++ x :: B ∧ rs.length = A.length ∧
          (r = none ∨ ∃ x', r = some (x', none)) ∧ s'.log = s.log ++ List.zipWith gave A rs ++ [(.key x, r)] ∧
          v.contents s'.mem = rs.map (·.1) ++ (match r with | none => x | some r => r.1) :: B) ∨
        (∃ (rs : List (α × κ × Bool)) (dl : List (KeyQ α κ × Option (KeyA α κ))), rs.length = v.len ∧
          s'.log = s.log ++ List.zipWith gave (v.contents s.mem) rs ++ dl ∧ (∀ q ∈ dl, ∃ k l, q.1 = .lt k l) ∧
          v.contents s'.mem = rs.map (·.1)))) := by
  have hm : ∀ (m : Mem α), v.contents m = v.contents s.mem → (∀ a, a ∉ v.region → m a = s.mem a) → m = s.mem := by
    intro m h1 h2
    funext a
    by_cases ha : a ∈ v.region
    · exact List.map_inj_left.mp h1 a ha
    · exact h2 a ha
  refine (TriL.endsS (Style.rel_sat o) hv (Refs.sortByCachedKey_spec (cfg := cfg) (sz := sz) hs (v.contents_length s.mem) hlen)).mono ?_ ?_
  · rintro _ s' ⟨⟨d, h1, h2, h3⟩, h5⟩
    refine ⟨h5, fun h => ⟨hm _ (h2 h).1 h5, by rw [h1, (h2 h).2, List.append_nil]⟩, fun h => ?_⟩
    obtain ⟨rs, dl, g1, ⟨rs', g2, g3, g4⟩, g5, rfl⟩ := h3 h
    refine ⟨rs, rs', dl, by rw [← g1.length_eq]; exact v.contents_length s.mem, by rw [h1, List.append_assoc]; rfl, g5, g3, g2, ?_⟩
    exact fun klt so hk => g4 klt so hk.ltIs
  · rintro e s' ⟨⟨d, h1, _, h3⟩, h4⟩
    refine ⟨h4, ?_⟩
    rcases h3 with ⟨he, A, x, B, rs, r, g1, g2, _, g3, g4, rfl⟩ | ⟨_, rs, dl, g1, g2, g3, rfl⟩
    · refine .inl ⟨he, A, x, B, rs, r, g1, g2.length_eq.symm, ?_, by rw [h1, List.append_assoc]; rfl, ?_⟩
      · match r, g3 with
        | none, _ => exact .inl rfl
        | some (x', none), _ => exact .inr ⟨x', rfl⟩
      · rw [g4]; cases r <;> rfl
    · exact .inr ⟨rs, dl, by rw [← g1.length_eq]; exact v.contents_length s.mem, by rw [h1, List.append_assoc]; rfl, g3, g2⟩

/-- C76: if the key function gives keys and these are compared by a strict weak order, `sort_by_cached_key` ends normally, whatever the key function
does to the elements. -/
theorem sort_by_cached_key_changes_ends (hs : SortsPairs srt) {o : Oracle σ (KeyQ α κ) (KeyA α κ)} {klt : κ → κ → Bool} (hk : GivesKeys o)
    (ho : KeysBy o klt) (so : SWO klt) (hv : v.WF) (hlen : v.len ≤ 2 ^ cfg.bits) (s : St α (KeyQ α κ) (KeyA α κ) σ) :
    ∃ s', run o (Refs.sortByCachedKey cfg sz srt v) s = (.ok (), s') := by
  obtain ⟨_, s', h, _⟩ := (TriL.endsS (Style.rel_sat o) hv
    (Refs.sortByCachedKey_spec (cfg := cfg) (sz := sz) hs (v.contents_length s.mem) hlen)).ok (by
      rintro e s' ⟨⟨d, _, _, h⟩, _⟩
      rcases h with ⟨_, _, x, _, _, r, _, _, h1, h2, _⟩ | ⟨h, _⟩
      · exact hk.noPanic h1 h2
      · exact ho.noPanic so h)
  exact ⟨s', h⟩

/-- C76: whatever user code does, every schedule of `par_sort_by_cached_key` is free of data races and undefined behaviour and ends.
If it ends normally and there are at least two elements, the key function was called on each element once (in any order); these calls
gave the states and keys `rs`.  Besides that keys were compared.  The array has each object once, in the state in which the
call of the key function left it; if keys are compared by a strict weak order, it is sorted stably by the keys that were given.
After a panic nothing has been moved.  Each element is either untouched, or the key function was called on it once, and it is in the state
this call left it in (`Refs.Called`); or the panic came from a comparison of keys, and the key function was called on all elements. -/
theorem par_sort_by_cached_key_changes (hs : SortsPairs srt) (o : Oracle σ (KeyQ α κ) (KeyA α κ)) (hv : v.WF) (hlen : v.len ≤ 2 ^ cfg.bits)
    (s : St α (KeyQ α κ) (KeyA α κ) σ) :
    AlwaysS o (Refs.parSortByCachedKey cfg sz srt v) s
      (fun _ s' => (∀ a, a ∉ v.region → s'.mem a = s.mem a) ∧
        (v.len < 2 → s'.mem = s.mem ∧ s'.log.Perm s.log) ∧
        (2 ≤ v.len → ∃ (rs rs' : List (α × κ × Bool)) (dl : List (KeyQ α κ × Option (KeyA α κ))), rs.length = v.len ∧
          s'.log.Perm (s.log ++ List.zipWith gave (v.contents s.mem) rs ++ dl) ∧ (∀ q ∈ dl, ∃ k l, q.1 = .lt k l) ∧
          rs'.Perm rs ∧ v.contents s'.mem = rs'.map (·.1) ∧
          ∀ klt, SWO klt → KeysBy o klt → StableSortOf (fun p q => klt p.2.1 q.2.1) rs rs'))
      (fun e s' => (∀ a, a ∉ v.region → s'.mem a = s.mem a) ∧
        ((e = .user ∧ ∃ d, s'.log.Perm (s.log ++ d) ∧ Refs.Called (v.contents s.mem) (v.contents s'.mem) d) ∨
        (∃ (rs : List (α × κ × Bool)) (dl : List (KeyQ α κ × Option (KeyA α κ))), rs.length = v.len ∧
          s'.log.Perm (s.log ++ List.zipWith gave (v.contents s.mem) rs ++ dl) ∧ (∀ q ∈ dl, ∃ k l, q.1 = .lt k l) ∧
          v.contents s'.mem = rs.map (·.1)))) := by
  have hm : ∀ (m : Mem α), v.contents m = v.contents s.mem → (∀ a, a ∉ v.region → m a = s.mem a) → m = s.mem := by
    intro m h1 h2
    funext a
    by_cases ha : a ∈ v.region
    · exact List.map_inj_left.mp h1 a ha
    · exact h2 a ha
  have hp : ∀ {l dk dl d : List (KeyQ α κ × Option (KeyA α κ))}, l.Perm (s.log ++ (dk ++ dl)) → dk.Perm d → l.Perm (s.log ++ d ++ dl) := by
    intro l dk dl d h1 h2
    rw [List.append_assoc]
    exact h1.trans ((h2.append_right dl).append_left _)
  refine AlwaysS.mono (TriL.alwaysS (Style.rel_sat o) hv
    (Refs.parSortByCachedKey_spec (cfg := cfg) (sz := sz) hs (v.contents_length s.mem) hlen)) ?_ ?_
  · rintro _ s' ⟨⟨d, h1, h2, h3⟩, h5⟩
    refine ⟨h5, fun h => ⟨hm _ (h2 h).1 h5, by rw [(h2 h).2, List.append_nil] at h1; exact h1⟩, fun h => ?_⟩
    obtain ⟨rs, dk, dl, g1, ⟨rs', g2, g3, g4⟩, g5, g6, rfl⟩ := h3 h
    refine ⟨rs, rs', dl, by rw [← g1.length_eq]; exact v.contents_length s.mem, hp h1 g6, g5, g3, g2, ?_⟩
    exact fun klt so hk => g4 klt so hk.ltIs
  · rintro e s' ⟨⟨d, h1, _, h3⟩, h4⟩
    refine ⟨h4, ?_⟩
    rcases h3 with ⟨he, _, d', g1, g2⟩ | ⟨_, rs, dk, dl, g1, g2, g3, g4, rfl⟩
    · exact .inl ⟨he, d', h1.trans (g1.append_left _), g2⟩
    · exact .inr ⟨rs, dl, by rw [← g1.length_eq]; exact v.contents_length s.mem, hp h1 g4, g3, g2⟩

/-- C76: if the key function gives keys and these are compared by a strict weak order, no schedule of `par_sort_by_cached_key` ends in a panic,
whatever the key function does to the elements. -/
theorem par_sort_by_cached_key_changes_ends (hs : SortsPairs srt) {o : Oracle σ (KeyQ α κ) (KeyA α κ)} {klt : κ → κ → Bool} (hk : GivesKeys o)
    (ho : KeysBy o klt) (so : SWO klt) (hv : v.WF) (hlen : v.len ≤ 2 ^ cfg.bits) (s : St α (KeyQ α κ) (KeyA α κ) σ) :
    AlwaysS o (Refs.parSortByCachedKey cfg sz srt v) s (fun _ _ => True) (fun _ _ => False) := by
  refine AlwaysS.mono (TriL.alwaysS (Style.rel_sat o) hv
    (Refs.parSortByCachedKey_spec (cfg := cfg) (sz := sz) hs (v.contents_length s.mem) hlen)) (fun _ _ _ => trivial) ?_
  rintro e s' ⟨⟨d, _, _, h⟩, _⟩
  rcases h with ⟨_, ⟨x, r, h1, h2⟩, _⟩ | ⟨h, _⟩
  · exact hk.noPanic h1 h2
  · exact ho.noPanic so h

/-! ### The hypotheses can be met -/

namespace Sample

/-- A key function that gives the last decimal digit and counts its calls in the element, and panics at the third call if `bad`. -/
def countingKeys (bad : Bool) : Oracle Nat (KeyQ Nat Nat) (KeyA Nat Nat) :=
  ⟨fun n q => (some (match q with
    | .key x => (x + 1000, if bad && n == 2 then none else some (x % 10, true))
    | .lt k l => (0, some (0, lt k l))), n + 1), fun n => (true, n)⟩

theorem countingKeys_by : KeysBy (countingKeys false) lt := fun _ _ _ => ⟨_, _, rfl⟩

theorem countingKeys_gives : GivesKeys (countingKeys false) := fun _ _ => ⟨_, _, rfl⟩

def countState : St Nat (KeyQ Nat Nat) (KeyA Nat Nat) Nat := ⟨mem, 0, []⟩

end Sample

example := sort_by_cached_key_changes (cfg := Sample.cfg) (sz := Sample.sizes) Sample.pairSort_sorts (Sample.countingKeys true) Sample.wf
  (by decide) Sample.countState
example := sort_by_cached_key_changes_ends (cfg := Sample.cfg) (sz := Sample.sizes) Sample.pairSort_sorts Sample.countingKeys_gives
  Sample.countingKeys_by Sample.swo Sample.wf (by decide) Sample.countState
example := par_sort_by_cached_key_changes (cfg := Sample.cfg) (sz := Sample.sizes) Sample.pairSort_sorts (Sample.countingKeys true) Sample.wf
  (by decide) Sample.countState
example := par_sort_by_cached_key_changes_ends (cfg := Sample.cfg) (sz := Sample.sizes) Sample.pairSort_sorts Sample.countingKeys_gives
  Sample.countingKeys_by Sample.swo Sample.wf (by decide) Sample.countState

-- The key function has changed all elements, and they are sorted by the keys it gave.
example : (View.mk 10 (-2) 6).contents Sample.mem = [13, 8, 3, 21, 16, 11] := by decide
example : (View.mk 10 (-2) 6).contents (run (Sample.countingKeys false) (Refs.sortByCachedKey Sample.cfg Sample.sizes Sample.pairSort ⟨10, -2, 6⟩)
    Sample.countState).2.mem = [1021, 1011, 1013, 1003, 1016, 1008] := by decide +kernel
-- The third call panics: three elements have changed, nothing has moved.
example : (View.mk 10 (-2) 6).contents (run (Sample.countingKeys true) (Refs.sortByCachedKey Sample.cfg Sample.sizes Sample.pairSort ⟨10, -2, 6⟩)
    Sample.countState).2.mem = [1013, 1008, 1003, 21, 16, 11] := by decide +kernel

end NdSlice
