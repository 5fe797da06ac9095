import Verif.Props.Cached
import Verif.Proof.CachedBudget

/-
C88: how often the inner loops of `sort_by_cached_key` and `par_sort_by_cached_key` run that look for an element which was moved before.

The programs `sortByCachedKeyWithin b` and `parSortByCachedKeyWithin b` are the methods with a counter: they get stuck (`diverge`) at the
iteration `b + 1`, counting those of all rounds.
-/

namespace NdSlice

variable {α κ σ : Type} {cfg : Cfg} {sz : Sizes} {srt : PairSort α κ} {v : View}

/-- C88: `sort_by_cached_key` sorts with `len - 1` iterations of the inner loop, all rounds together. -/
theorem sort_by_cached_key_placing_sorts (hs : SortsPairs srt) {o : Oracle σ (KeyQ α κ) (κ × Bool)} {f : α → κ} {klt : κ → κ → Bool}
    (ho : KeyAgrees o f klt) (so : SWO klt) (hv : v.WF) (hlen : v.len ≤ 2 ^ cfg.bits) (s : St α (KeyQ α κ) (κ × Bool) σ) :
    ∃ s', run o (sortByCachedKeyWithin (v.len - 1) cfg sz srt v) s = (.ok (), s') ∧
      StableSortOf (fun x y => klt (f x) (f y)) (v.contents s.mem) (v.contents s'.mem) ∧ ∀ a, a ∉ v.region → s'.mem a = s.mem a := by
  obtain ⟨_, s', h1, ⟨d, hd, h2⟩, h3⟩ := (TriL.endsS (Style.rel_sat o) hv
    (sortByCachedKeyWith_spec (cfg := cfg) (sz := sz) hs (fun _ h => placeWithin_eq h) (v.contents_length s.mem) hlen)).ok (by
      rintro e s' ⟨⟨d, _, _, _, h⟩, _⟩
      rcases h with ⟨_, _, x, _, _, _, ⟨e, he⟩, _⟩ | ⟨h, _⟩
      · exact ho.noPanic e _ he
      · exact not_pairPanic ho so h)
  exact ⟨s', h1, h2.2.2.1 f klt (fun x a h => ho.rel_key h) so ho.ltIs, h3⟩

/-- C88: whatever user code does, `sort_by_cached_key` does not make more than `len - 1` iterations of the inner loop. -/
theorem sort_by_cached_key_placing (hs : SortsPairs srt) (o : Oracle σ (KeyQ α κ) (κ × Bool)) (hv : v.WF) (hlen : v.len ≤ 2 ^ cfg.bits)
    (s : St α (KeyQ α κ) (κ × Bool) σ) :
    EndsS o (sortByCachedKeyWithin (v.len - 1) cfg sz srt v) s (fun _ s' => (v.contents s'.mem).Perm (v.contents s.mem))
      (fun _ s' => v.contents s'.mem = v.contents s.mem) := by
  refine (TriL.endsS (Style.rel_sat o) hv
    (sortByCachedKeyWith_spec (cfg := cfg) (sz := sz) hs (fun _ h => placeWithin_eq h) (v.contents_length s.mem) hlen)).mono ?_ ?_
  · rintro _ s' ⟨⟨d, _, _, h, _⟩, _⟩
    exact h
  · rintro e s' ⟨⟨d, _, _, h, _⟩, _⟩
    exact h

/-- C88: on every schedule `par_sort_by_cached_key` sorts with `len - 1` iterations of the inner loop, all rounds together. -/
theorem par_sort_by_cached_key_placing_sorts (hs : SortsPairs srt) {o : Oracle σ (KeyQ α κ) (κ × Bool)} {f : α → κ} {klt : κ → κ → Bool}
    (ho : KeyAgrees o f klt) (so : SWO klt) (hv : v.WF) (hlen : v.len ≤ 2 ^ cfg.bits) (s : St α (KeyQ α κ) (κ × Bool) σ) :
    Always o (parSortByCachedKeyWithin (v.len - 1) cfg sz srt v) s
      (fun _ m => StableSortOf (fun x y => klt (f x) (f y)) (v.contents s.mem) (v.contents m) ∧ ∀ a, a ∉ v.region → m a = s.mem a)
      (fun _ _ => False) := by
  refine (AlwaysS.mono (TriL.alwaysS (Style.rel_sat o) hv
    (parSortByCachedKeyWith_spec (cfg := cfg) (sz := sz) hs (fun _ h => placeWithin_eq h) (v.contents_length s.mem) hlen)) ?_ ?_).always
  · rintro _ s' ⟨⟨d, _, h⟩, h3⟩
    exact ⟨h.2.2.1 f klt (fun x a h => ho.rel_key h) so ho.ltIs, h3⟩
  · rintro e s' ⟨⟨d, _, _, _, h⟩, _⟩
    rcases h with ⟨_, ⟨x, _, e, he⟩, _⟩ | ⟨h, _⟩
    · exact ho.noPanic e _ he
    · exact not_pairPanic ho so h

/-- C88: whatever user code does, `par_sort_by_cached_key` does not make more than `len - 1` iterations of the inner loop on any schedule. -/
theorem par_sort_by_cached_key_placing (hs : SortsPairs srt) (o : Oracle σ (KeyQ α κ) (κ × Bool)) (hv : v.WF) (hlen : v.len ≤ 2 ^ cfg.bits)
    (s : St α (KeyQ α κ) (κ × Bool) σ) :
    Always o (parSortByCachedKeyWithin (v.len - 1) cfg sz srt v) s (fun _ m => (v.contents m).Perm (v.contents s.mem))
      (fun _ m => v.contents m = v.contents s.mem) := by
  refine (AlwaysS.mono (TriL.alwaysS (Style.rel_sat o) hv
    (parSortByCachedKeyWith_spec (cfg := cfg) (sz := sz) hs (fun _ h => placeWithin_eq h) (v.contents_length s.mem) hlen)) ?_ ?_).always
  · rintro _ s' ⟨⟨d, _, _, h, _⟩, _⟩
    exact h
  · rintro e s' ⟨⟨d, _, _, h, _⟩, _⟩
    exact h

/-- C88: that many are needed.  If the least element of an otherwise sorted array (of different keys) is the last one, fewer iterations than
`len - 1` do not suffice. -/
theorem sort_by_cached_key_placing_tight (hs : SortsPairs srt) {o : Oracle σ (KeyQ α κ) (κ × Bool)} {f : α → κ} {klt : κ → κ → Bool}
    (ho : KeyAgrees o f klt) (so : SWO klt) (hv : v.WF) (hlen : v.len ≤ 2 ^ cfg.bits) (s : St α (KeyQ α κ) (κ × Bool) σ) {ys : List α} {y : α}
    (hc : v.contents s.mem = ys ++ [y]) (hp : (y :: ys).Pairwise fun x z => klt (f x) (f z) = true) {b : Nat} (hb : b < v.len - 1) :
    ∃ s', run o (sortByCachedKeyWithin b cfg sz srt v) s = (.diverge, s') := by
  have hn : v.len = ys.length + 1 := by rw [← v.contents_length s.mem, hc]; simp
  obtain ⟨ps, s1, h1, ⟨d1, _, _, as, h2, h3, _⟩, _⟩ := (TriL.endsS (Style.rel_sat o) hv (keyPairs_spec (i := 0) (n := v.len)
    (v.contents_length s.mem) (by omega) (indexBits_spec (sz := sz) hlen))).ok (by
      rintro e s' ⟨⟨d, _, _, _, j, x, as, _, _, ⟨e, he⟩, _⟩, _⟩
      exact ho.noPanic e _ he)
  have hk : as.map (·.1) = (ys ++ [y]).map f := by
    have : ∀ (xs : List α) as, List.Forall₂ (fun x a => Style.rel o (.key x) (some a)) xs as → as.map (·.1) = xs.map f := by
      intro xs as h
      induction h with
      | nil => rfl
      | cons h _ ih => rw [List.map_cons, List.map_cons, ih, ho.rel_key h]
    rw [← hc]
    exact this _ _ h2
  rw [hk] at h3
  obtain ⟨l, s2, h4, ⟨d2, _, _, _, h5, h6⟩, _⟩ := (TriL.endsS (s := s1) (Style.rel_sat o) hv (TriL.untouched (hs (Style.rel o) ps))).ok (by
      rintro e s' ⟨⟨d, _, _, _, h⟩, _⟩
      exact not_pairPanic ho so h)
  have h6 := h6 klt so ho.ltIs
  have hz : ((ys ++ [y]).map f).zipIdx = (ys.map f).zipIdx ++ [(f y, ys.length)] := by
    rw [List.map_append, List.zipIdx_append]
    simp
  have hl : l = (f y, ys.length) :: (ys.map f).zipIdx := by
    refine List.Perm.eq_of_pairwise (le := PairLe klt) ?_ h6 ?_ ?_
    · intro p q hp' hq h7 h8
      have hp' := h5.mem_iff.mp hp'
      have hq : q ∈ ps := by
        rw [h3, hz]
        exact (List.perm_append_singleton _ _).mem_iff.mpr hq
      rw [h3, List.mem_zipIdx_iff_getElem?] at hp' hq
      have : p.2 = q.2 := by
        rcases h7 with h7 | ⟨h7, h7'⟩
        · rcases h8 with h8 | ⟨h8, h8'⟩
          · exact absurd (so.trans _ _ _ h7 h8) (by simp [so.irrefl])
          · rw [h7] at h8; cases h8
        · rcases h8 with h8 | ⟨h8, h8'⟩
          · rw [h7] at h8; cases h8
          · omega
      rw [this, hq] at hp'
      exact Prod.ext (Option.some.inj hp').symm this
    · have e : ((y :: ys).map f).Pairwise fun k l => klt k l = true := List.pairwise_map.mpr hp
      have e' : (((f y, ys.length) :: (ys.map f).zipIdx).map (·.1)).Pairwise fun k l => klt k l = true := by
        rw [List.map_cons, List.zipIdx_map_fst]
        exact e
      exact (List.pairwise_map.mp e').imp .inl
    · rw [h3, hz] at h5
      exact h5.trans (List.perm_append_singleton _ _)
  unfold sortByCachedKeyWithin
  rw [if_neg (by omega), run_bind, h1]
  show ∃ s', run o (srt ps >>= _) s1 = _
  rw [run_bind, h4]
  refine placeWithin_shifted o (by omega) ?_ hb s2
  rw [hl, List.map_cons, List.zipIdx_map_snd, hn, List.length_map, Nat.add_sub_cancel, List.range_eq_range']

/-! ### The hypotheses can be met -/

namespace Sample

/-- Five elements, with the keys 1, 2, 3, 4 and 0. -/
def five : View := ⟨0, 1, 5⟩

def fiveState : St Nat (KeyQ Nat Nat) (Nat × Bool) Unit := ⟨fun a => (a.toNat + 1) % 5 + 10 * a.toNat, (), []⟩

end Sample

example := sort_by_cached_key_placing_sorts (cfg := Sample.cfg) (sz := Sample.sizes) Sample.pairSort_sorts Sample.keyAgrees Sample.swo Sample.wf
  (by decide) Sample.keyState
example := sort_by_cached_key_placing (cfg := Sample.cfg) (sz := Sample.sizes) Sample.pairSort_sorts (Sample.nonsense .key) Sample.wf
  (by decide) (Sample.nstate .key)
example := par_sort_by_cached_key_placing_sorts (cfg := Sample.cfg) (sz := Sample.sizes) Sample.pairSort_sorts Sample.keyAgrees Sample.swo Sample.wf
  (by decide) Sample.keyState
example := par_sort_by_cached_key_placing (cfg := Sample.cfg) (sz := Sample.sizes) Sample.pairSort_sorts (Sample.nonsense .key) Sample.wf
  (by decide) (Sample.nstate .key)
example : ∃ s', run Sample.keyOracle (sortByCachedKeyWithin 3 Sample.cfg Sample.sizes Sample.pairSort Sample.five) Sample.fiveState = (.diverge, s') :=
  sort_by_cached_key_placing_tight (ys := [1, 12, 23, 34]) (y := 40) Sample.pairSort_sorts Sample.keyAgrees Sample.swo
    (.inl (by decide)) (by decide) Sample.fiveState rfl (by decide) (by decide)
example : (run Sample.keyOracle (sortByCachedKeyWithin 4 Sample.cfg Sample.sizes Sample.pairSort Sample.five) Sample.fiveState).1 = .ok () := by decide

end NdSlice
