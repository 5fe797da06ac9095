import Verif.Props.Dedup
import Verif.Props.Parallel
import Verif.Proof.Cached

/-
Properties of `sort_by_cached_key` (C15, C16, C17) and `par_sort_by_cached_key` (C48), and the parts of C09, C31 and C33 about them.

The sort of the vector of keys and indices is not part of the crate: the theorems hold for every `srt` with the documented behaviour
(`SortsPairs`).
-/

namespace NdSlice

variable {α κ ι ω σ β : Type} {cfg : Cfg} {sz : Sizes} {srt : PairSort α κ} {v : View}

/-- User code is a key function `f` and a comparison `klt` of keys, and it never panics.  Its private state may change arbitrarily. -/
structure KeyAgrees (o : Oracle σ (KeyQ α κ) (κ × Bool)) (f : α → κ) (klt : κ → κ → Bool) : Prop where
  key : ∀ e x, ∃ b, (o.ask e (.key x)).1 = some (f x, b)
  lt : ∀ e k l, ∃ c, (o.ask e (.lt k l)).1 = some (c, klt k l)

theorem KeyAgrees.rel_key {o : Oracle σ (KeyQ α κ) (κ × Bool)} {f : α → κ} {klt : κ → κ → Bool} (h : KeyAgrees o f klt) {x : α} {a : κ × Bool}
    (ha : Style.rel o (.key x) (some a)) : a.1 = f x := by
  obtain ⟨e, he⟩ := ha
  obtain ⟨b, hb⟩ := h.key e x
  rw [hb] at he
  cases he; rfl

theorem KeyAgrees.ltIs {o : Oracle σ (KeyQ α κ) (κ × Bool)} {f : α → κ} {klt : κ → κ → Bool} (h : KeyAgrees o f klt) :
    LtIs (Style.rel o) klt := by
  rintro k l c ⟨e, he⟩
  obtain ⟨b, hb⟩ := h.lt e k l
  rw [hb] at he
  cases he; rfl

theorem KeyAgrees.noPanic {o : Oracle σ (KeyQ α κ) (κ × Bool)} {f : α → κ} {klt : κ → κ → Bool} (h : KeyAgrees o f klt) : NoPanic o := by
  intro e q
  cases q with
  | key x => obtain ⟨b, hb⟩ := h.key e x; rw [hb]; exact Option.some_ne_none _
  | lt k l => obtain ⟨b, hb⟩ := h.lt e k l; rw [hb]; exact Option.some_ne_none _

theorem not_pairPanic {o : Oracle σ (KeyQ α κ) (κ × Bool)} {f : α → κ} {klt : κ → κ → Bool} (h : KeyAgrees o f klt) (so : SWO klt) {e : Panic} :
    ¬ PairPanic (Style.rel o) e := by
  rintro (⟨_, k, l, e, he⟩ | ⟨_, hn⟩)
  · exact h.noPanic e _ he
  · exact hn ⟨klt, so, h.ltIs⟩

/-! ### `sort_by_cached_key` -/

/-- C15: `sort_by_cached_key(f)` ends normally and leaves the array as the stable sort of its elements by their keys: non-descending,
a permutation of the input, equal keys in their original order.
C09: nothing outside the view changed. -/
theorem sort_by_cached_key_sorts (hs : SortsPairs srt) {o : Oracle σ (KeyQ α κ) (κ × Bool)} {f : α → κ} {klt : κ → κ → Bool}
    (ho : KeyAgrees o f klt) (so : SWO klt) (hv : v.WF) (hlen : v.len ≤ 2 ^ cfg.bits) (s : St α (KeyQ α κ) (κ × Bool) σ) :
    ∃ s', run o (sortByCachedKey cfg sz srt v) s = (.ok (), s') ∧
      StableSortOf (fun x y => klt (f x) (f y)) (v.contents s.mem) (v.contents s'.mem) ∧ ∀ a, a ∉ v.region → s'.mem a = s.mem a := by
  obtain ⟨_, s', h1, ⟨d, hd, h2⟩, h3⟩ := (TriL.endsS (Style.rel_sat o) hv
    (sortByCachedKey_spec (cfg := cfg) (sz := sz) hs (v.contents_length s.mem) hlen)).ok (by
      rintro e s' ⟨⟨d, _, _, _, h⟩, _⟩
      rcases h with ⟨_, _, x, _, _, _, ⟨e, he⟩, _⟩ | ⟨h, _⟩
      · exact ho.noPanic e _ he
      · exact not_pairPanic ho so h)
  exact ⟨s', h1, h2.2.2.1 f klt (fun x a h => ho.rel_key h) so ho.ltIs, h3⟩

/-- C16: whatever user code does, `sort_by_cached_key` ends.  If it ends normally, the array is a permutation of the input, and unless it
has less than two elements `f` was called on each element once, in array order, before keys were compared.  If it panics, nothing
has changed at all: the array is as before.  If the panic is one of `f`, that call was the last one, and `f` was called once on each
of the elements before, in array order. -/
theorem sort_by_cached_key_calls (hs : SortsPairs srt) (o : Oracle σ (KeyQ α κ) (κ × Bool)) (hv : v.WF) (hlen : v.len ≤ 2 ^ cfg.bits)
    (s : St α (KeyQ α κ) (κ × Bool) σ) :
    EndsS o (sortByCachedKey cfg sz srt v) s
      (fun _ s' => (v.contents s'.mem).Perm (v.contents s.mem) ∧ (∀ a, a ∉ v.region → s'.mem a = s.mem a) ∧
        (v.len < 2 → s'.log = s.log) ∧
        (2 ≤ v.len → ∃ dk dl, s'.log = s.log ++ dk ++ dl ∧ dk.map (·.1) = (v.contents s.mem).map .key ∧ ∀ q ∈ dl, ∃ k l, q.1 = .lt k l))
      (fun e s' => s'.mem = s.mem ∧
        ((e = .user ∧ ∃ A x B dk, v.contents s.mem = A ++ x :: B ∧ s'.log = s.log ++ dk ++ [(.key x, none)] ∧ dk.map (·.1) = A.map .key) ∨
        (∃ dk dl, s'.log = s.log ++ dk ++ dl ∧ dk.map (·.1) = (v.contents s.mem).map .key ∧ ∀ q ∈ dl, ∃ k l, q.1 = .lt k l))) := by
  have hk : ∀ (xs : List α) (as : List (κ × Bool)), as.length = xs.length → (keyLog xs as).map (·.1) = xs.map .key := by
    intro xs
    induction xs with
    | nil => intro as _; cases as <;> rfl
    | cons x xs ih =>
      intro as h
      cases as with
      | nil => cases h
      | cons a as => exact congrArg (_ :: ·) (ih as (by simpa using h))
  refine (TriL.endsS (Style.rel_sat o) hv (sortByCachedKey_spec (cfg := cfg) (sz := sz) hs (v.contents_length s.mem) hlen)).mono ?_ ?_
  · rintro _ s' ⟨⟨d, h1, h2, h3, _, h4⟩, h5⟩
    refine ⟨h3, h5, fun h => by rw [h1, (h2 h).2, List.append_nil], fun h => ?_⟩
    obtain ⟨as, dl, g1, g2, rfl⟩ := h4 h
    exact ⟨keyLog _ as, dl, by rw [h1, List.append_assoc], hk _ _ g1.length_eq.symm, g2⟩
  · rintro e s' ⟨⟨d, h1, _, h2, h3⟩, h4⟩
    refine ⟨?_, ?_⟩
    · funext a
      by_cases ha : a ∈ v.region
      · exact List.map_inj_left.mp h2 a ha
      · exact h4 a ha
    · rcases h3 with ⟨he, A, x, B, as, g1, _, g2, rfl⟩ | ⟨_, as, dl, g1, g2, rfl⟩
      · exact .inl ⟨he, A, x, B, keyLog A as, g1, by rw [h1, List.append_assoc], hk _ _ g2⟩
      · exact .inr ⟨keyLog _ as, dl, by rw [h1, List.append_assoc], hk _ _ g1.length_eq.symm, g2⟩

/-- C17: converting a position to the index type chosen and back gives that position. -/
theorem cached_index_fits (cfg : Cfg) (sz : Sizes) {len i : Nat} (hlen : len ≤ 2 ^ cfg.bits) (hi : i < len) :
    i % 2 ^ indexBits cfg sz len = i :=
  Nat.mod_eq_of_lt (Nat.lt_of_lt_of_le hi (indexBits_spec hlen))

/-- C17: the index type chosen is never wider than `usize`, for the integer types there are (`usize` has at least 16 bits), and one that
does not fit is never chosen. -/
theorem cached_index_type (cfg : Cfg) (sz : Sizes) {len : Nat} :
    indexBits cfg sz len = cfg.bits ∨ (indexBits cfg sz len ∈ [8, 16, 32] ∧ len < 2 ^ indexBits cfg sz len ∧ len < 2 ^ cfg.bits) := by
  have k : ∀ b : Nat, len ≤ (2 ^ b - 1) % 2 ^ cfg.bits → len < 2 ^ b ∧ len < 2 ^ cfg.bits := fun b hb =>
    ⟨Nat.lt_of_le_of_lt (hb.trans (Nat.mod_le _ _)) (Nat.sub_lt (Nat.two_pow_pos b) Nat.one_pos),
      Nat.lt_of_le_of_lt hb (Nat.mod_lt _ (Nat.two_pow_pos _))⟩
  unfold indexBits
  split
  · rename_i h; exact .inr ⟨by simp, k 8 h.2⟩
  split
  · rename_i h; exact .inr ⟨by simp, k 16 h.2⟩
  split
  · rename_i h; exact .inr ⟨by simp, k 32 h.2⟩
  exact .inl rfl

/-! ### `par_sort_by_cached_key` -/

/-- Like `Always`, but about the whole final state: also about the questions asked. -/
def AlwaysS (o : Oracle σ ι ω) (p : Prog α ι ω β) (s : St α ι ω σ) (Q : β → St α ι ω σ → Prop) (E : Panic → St α ι ω σ → Prop) : Prop :=
  (∀ p' s', Steps o p s p' s' → ¬ Race p' ∧ ¬ Bad p' ∧
    ((∃ p'' s'', Step o p' s' p'' s'') ∨ (∃ b, p' = .ret b ∧ Q b s') ∨ (∃ e, p' = .throw e ∧ E e s'))) ∧
  Acc (After o) p

theorem AlwaysS.mono {o : Oracle σ ι ω} {p : Prog α ι ω β} {s : St α ι ω σ} {Q Q' : β → St α ι ω σ → Prop} {E E' : Panic → St α ι ω σ → Prop}
    (h : AlwaysS o p s Q E) (hQ : ∀ b s', Q b s' → Q' b s') (hE : ∀ e s', E e s' → E' e s') : AlwaysS o p s Q' E' := by
  refine ⟨fun p' s' hs => ?_, h.2⟩
  obtain ⟨h1, h2, h3⟩ := h.1 p' s' hs
  refine ⟨h1, h2, ?_⟩
  rcases h3 with h3 | ⟨b, rfl, h3⟩ | ⟨e, rfl, h3⟩
  · exact .inl h3
  · exact .inr (.inl ⟨b, rfl, hQ _ _ h3⟩)
  · exact .inr (.inr ⟨e, rfl, hE _ _ h3⟩)

theorem AlwaysS.always {o : Oracle σ ι ω} {p : Prog α ι ω β} {s : St α ι ω σ} {Q : β → Mem α → Prop} {E : Panic → Mem α → Prop}
    (h : AlwaysS o p s (fun b s' => Q b s'.mem) (fun e s' => E e s'.mem)) : Always o p s Q E := h

theorem TriL.alwaysS {R : ι → Option ω → Prop} {o : Oracle σ ι ω} (ho : o.Sat R) {p : Prog α ι ω β} {v : View} (hv : v.WF)
    {s : St α ι ω σ} {Q : β → List α → List (ι × Option ω) → Prop} {E : Panic → List α → List (ι × Option ω) → Prop}
    (h : TriL R v.region p (v.contents s.mem) Q E) :
    AlwaysS o p s (fun b s' => (∃ d, s'.log.Perm (s.log ++ d) ∧ Q b (v.contents s'.mem) d) ∧ ∀ a, a ∉ v.region → s'.mem a = s.mem a)
      (fun e s' => (∃ d, s'.log.Perm (s.log ++ d) ∧ E e (v.contents s'.mem) d) ∧ ∀ a, a ∉ v.region → s'.mem a = s.mem a) := by
  refine ⟨fun p' s' hs => ?_, sched_terminates o p⟩
  obtain ⟨h1, h2, h3, h4⟩ := sched_sound ho hs (h s.mem s.log (View.region_nodup hv) rfl)
  refine ⟨h1, h2, ?_⟩
  rcases h4 with h4 | ⟨b, lg, rfl, hl, d, rfl, h4⟩ | ⟨e, lg, rfl, hl, d, rfl, h4⟩
  · exact .inl h4
  · exact .inr (.inl ⟨b, rfl, ⟨d, hl.symm, h4⟩, h3⟩)
  · exact .inr (.inr ⟨e, rfl, ⟨d, hl.symm, h4⟩, h3⟩)

/-- C48: every schedule of `par_sort_by_cached_key(f)` is free of data races and undefined behaviour, ends, and ends normally with the
stable sort of the array by keys.
C09: nothing outside the view changed. -/
theorem par_sort_by_cached_key_sorts (hs : SortsPairs srt) {o : Oracle σ (KeyQ α κ) (κ × Bool)} {f : α → κ} {klt : κ → κ → Bool}
    (ho : KeyAgrees o f klt) (so : SWO klt) (hv : v.WF) (hlen : v.len ≤ 2 ^ cfg.bits) (s : St α (KeyQ α κ) (κ × Bool) σ) :
    Always o (parSortByCachedKey cfg sz srt v) s
      (fun _ m => StableSortOf (fun x y => klt (f x) (f y)) (v.contents s.mem) (v.contents m) ∧ ∀ a, a ∉ v.region → m a = s.mem a)
      (fun _ _ => False) := by
  refine (AlwaysS.mono (TriL.alwaysS (Style.rel_sat o) hv
    (parSortByCachedKey_spec (cfg := cfg) (sz := sz) hs (v.contents_length s.mem) hlen)) ?_ ?_).always
  · rintro _ s' ⟨⟨d, _, h⟩, h3⟩
    exact ⟨h.2.2.1 f klt (fun x a h => ho.rel_key h) so ho.ltIs, h3⟩
  · rintro e s' ⟨⟨d, _, _, _, h⟩, _⟩
    rcases h with ⟨_, ⟨x, _, e, he⟩, _⟩ | ⟨h, _⟩
    · exact ho.noPanic e _ he
    · exact not_pairPanic ho so h

/-- C48: whatever user code does, every schedule of `par_sort_by_cached_key` is free of data races and undefined behaviour and ends.  At a
normal end the array is a permutation of the input, and unless it has less than two elements `f` was called on each element once
(in any order).  After a panic nothing has changed at all, and `f` was called on each element at most once. -/
theorem par_sort_by_cached_key_calls (hs : SortsPairs srt) (o : Oracle σ (KeyQ α κ) (κ × Bool)) (hv : v.WF) (hlen : v.len ≤ 2 ^ cfg.bits)
    (s : St α (KeyQ α κ) (κ × Bool) σ) :
    AlwaysS o (parSortByCachedKey cfg sz srt v) s
      (fun _ s' => (v.contents s'.mem).Perm (v.contents s.mem) ∧ (∀ a, a ∉ v.region → s'.mem a = s.mem a) ∧
        (v.len < 2 → s'.log.Perm s.log) ∧
        (2 ≤ v.len → ∃ dk dl, s'.log.Perm (s.log ++ dk ++ dl) ∧ (dk.map (·.1)).Perm ((v.contents s.mem).map .key) ∧
          ∀ q ∈ dl, ∃ k l, q.1 = .lt k l))
      (fun _ s' => s'.mem = s.mem ∧
        ∃ dk dl, s'.log.Perm (s.log ++ dk ++ dl) ∧ (dk.map (·.1)).Subperm ((v.contents s.mem).map .key) ∧ ∀ q ∈ dl, ∃ k l, q.1 = .lt k l) := by
  have hk : ∀ (xs : List α) (as : List (κ × Bool)), as.length = xs.length → (keyLog xs as).map (·.1) = xs.map .key := by
    intro xs
    induction xs with
    | nil => intro as _; cases as <;> rfl
    | cons x xs ih =>
      intro as h
      cases as with
      | nil => cases h
      | cons a as => exact congrArg (_ :: ·) (ih as (by simpa using h))
  refine AlwaysS.mono (TriL.alwaysS (Style.rel_sat o) hv
    (parSortByCachedKey_spec (cfg := cfg) (sz := sz) hs (v.contents_length s.mem) hlen)) ?_ ?_
  · rintro _ s' ⟨⟨d, h1, h2, h3, _, h4⟩, h5⟩
    refine ⟨h3, h5, fun h => by rw [(h2 h).2, List.append_nil] at h1; exact h1, fun h => ?_⟩
    obtain ⟨as, dk, dl, g1, g2, g3, rfl⟩ := h4 h
    refine ⟨dk, dl, by rw [List.append_assoc]; exact h1, ?_, g3⟩
    rw [← hk _ _ g1.length_eq.symm]
    exact g2.map _
  · rintro e s' ⟨⟨d, h1, _, h2, h3⟩, h4⟩
    refine ⟨?_, ?_⟩
    · funext a
      by_cases ha : a ∈ v.region
      · exact List.map_inj_left.mp h2 a ha
      · exact h4 a ha
    · rcases h3 with ⟨he, _, g⟩ | ⟨_, as, dk, dl, g1, g2, g3, rfl⟩
      · exact ⟨d, [], by rw [List.append_nil]; exact h1, g, by simp⟩
      · refine ⟨dk, dl, by rw [List.append_assoc]; exact h1, ?_, g3⟩
        rw [← hk _ _ g1.length_eq.symm]
        exact (g2.map _).subperm

/-- C31 for `par_sort_by_cached_key`. -/
theorem par_sort_by_cached_key_race_free (hs : SortsPairs srt) (o : Oracle σ (KeyQ α κ) (κ × Bool)) (hv : v.WF) (hlen : v.len ≤ 2 ^ cfg.bits)
    (s : St α (KeyQ α κ) (κ × Bool) σ) {p' s'} (h : Steps o (parSortByCachedKey cfg sz srt v) s p' s') : ¬ Race p' :=
  ((par_sort_by_cached_key_calls (cfg := cfg) (sz := sz) hs o hv hlen s).1 p' s' h).1

/-- C33 for `par_sort_by_cached_key`. -/
theorem par_sort_by_cached_key_ends (hs : SortsPairs srt) (o : Oracle σ (KeyQ α κ) (κ × Bool)) (hv : v.WF) (hlen : v.len ≤ 2 ^ cfg.bits)
    (s : St α (KeyQ α κ) (κ × Bool) σ) :
    NoInfinite o (parSortByCachedKey cfg sz srt v) ∧ NoDeadlock o (parSortByCachedKey cfg sz srt v) s := by
  refine ⟨noInfinite _ _, ?_⟩
  have := par_sort_by_cached_key_calls (cfg := cfg) (sz := sz) hs o hv hlen s
  exact Always.noDeadlock (AlwaysS.always (Q := fun _ _ => True) (E := fun _ _ => True) (this.mono (fun _ _ _ => trivial) (fun _ _ _ => trivial)))

/-! ### The hypotheses can be met -/

namespace Sample

/-- A sort with the documented behaviour of `sort_unstable`: insertion into a sorted list. -/
def pairLess (p q : κ × Nat) : Prog α (KeyQ α κ) (κ × Bool) Bool :=
  .call (.lt p.1 q.1) fun
    | none => .throw .user
    | some b => if b.2 then .ret true else .call (.lt q.1 p.1) fun
      | none => .throw .user
      | some c => .ret (!c.2 && decide (p.2 < q.2))

def pairInsert (p : κ × Nat) : List (κ × Nat) → Prog α (KeyQ α κ) (κ × Bool) (List (κ × Nat))
  | [] => pure [p]
  | q :: l => do
    if ← pairLess q p then
      let l ← pairInsert p l
      pure (q :: l)
    else pure (p :: q :: l)

def pairSort : PairSort α κ
  | [] => pure []
  | p :: l => do
    let l ← pairSort l
    pairInsert p l

theorem pairLe_trans {klt : κ → κ → Bool} (so : SWO klt) {p q r : κ × Nat} (h1 : PairLe klt p q) (h2 : PairLe klt q r) : PairLe klt p r := by
  unfold PairLe at *
  cases hpr : klt p.1 r.1 with
  | true => exact .inl rfl
  | false =>
    refine .inr ?_
    have k : ∀ x y z, klt x y = true → klt y z = false → klt z y = false → klt x z = true := by
      intro x y z g1 g2 g3
      cases g : klt x z with
      | true => rfl
      | false => exact absurd (so.ntrans _ _ _ g g3) (by simp [g1])
    have as : ∀ x y, klt x y = true → klt y x = false := by
      intro x y g
      cases g' : klt y x with
      | false => rfl
      | true => exact absurd (so.trans _ _ _ g g') (by simp [so.irrefl])
    rcases h1 with h1 | ⟨h1, h1'⟩
    · rcases h2 with h2 | ⟨h2, h2'⟩
      · rw [so.trans _ _ _ h1 h2] at hpr; cases hpr
      · cases h3 : klt q.1 r.1 with
        | true => rw [so.trans _ _ _ h1 h3] at hpr; cases hpr
        | false => rw [k _ _ _ h1 h3 h2] at hpr; cases hpr
    · rcases h2 with h2 | ⟨h2, h2'⟩
      · have := so.ntrans _ _ _ h1 hpr
        rw [h2] at this; cases this
      · exact ⟨so.ntrans _ _ _ h2 h1, by omega⟩

variable {R : KeyQ α κ → Option (κ × Bool) → Prop}

theorem pairLess_spec {p q : κ × Nat} : TriL R [] (pairLess p q) []
    (fun b _ d => OnlyLt d ∧ ∀ klt, SWO klt → LtIs R klt → if b then PairLe klt p q else PairLe klt q p)
    (fun e _ d => OnlyLt d ∧ PairPanic R e) := by
  refine TriL.call fun r hr => ?_
  cases r with
  | none => exact TriL.throw ⟨by simp [OnlyLt], .inl ⟨rfl, _, _, hr⟩⟩
  | some b =>
    simp only
    split
    · rename_i hb
      refine TriL.pure ⟨by simp [OnlyLt], fun klt so h => ?_⟩
      simp only [if_true]
      exact .inl ((h _ _ _ hr).symm.trans hb)
    · rename_i hb
      refine TriL.call fun r hr' => ?_
      cases r with
      | none => exact TriL.throw ⟨by simp [OnlyLt], .inl ⟨rfl, _, _, hr'⟩⟩
      | some c =>
        refine TriL.pure ⟨by simp [OnlyLt], fun klt so h => ?_⟩
        have e1 := h _ _ _ hr
        have e2 := h _ _ _ hr'
        have hb : klt p.1 q.1 = false := by rw [← e1]; simpa using hb
        split
        · rename_i hc
          simp only [Bool.and_eq_true, Bool.not_eq_true', decide_eq_true_eq] at hc
          exact .inr ⟨by rw [← e2]; exact hc.1, by omega⟩
        · rename_i hc
          simp only [Bool.and_eq_true, Bool.not_eq_true', decide_eq_true_eq, not_and] at hc
          unfold PairLe
          cases hk : klt q.1 p.1 with
          | true => exact .inl rfl
          | false => exact .inr ⟨hb, by have := hc (by rw [e2, hk]); omega⟩

theorem onlyLt_append {d d' : List (KeyQ α κ × Option (κ × Bool))} (h : OnlyLt d) (h' : OnlyLt d') : OnlyLt (d ++ d') := by
  intro q hq
  rcases List.mem_append.mp hq with hq | hq
  · exact h q hq
  · exact h' q hq

theorem pairInsert_spec {p : κ × Nat} {l : List (κ × Nat)} : TriL R [] (pairInsert p l) []
    (fun l' _ d => OnlyLt d ∧ l'.Perm (p :: l) ∧ ∀ klt, SWO klt → LtIs R klt → l.Pairwise (PairLe klt) → l'.Pairwise (PairLe klt))
    (fun e _ d => OnlyLt d ∧ PairPanic R e) := by
  induction l with
  | nil => exact TriL.pure ⟨by simp [OnlyLt], .refl _, fun _ _ _ _ => List.pairwise_singleton _ _⟩
  | cons q l ih =>
    unfold pairInsert
    refine TriL.bind pairLess_spec ?_ (fun _ _ _ h => h)
    rintro b ys d hy ⟨h1, h2⟩
    obtain rfl : ys = [] := List.eq_nil_of_length_eq_zero (by simpa using hy)
    cases b with
    | true =>
      refine TriL.bind (TriL.mono ih (fun _ _ _ _ h => h) (fun _ _ _ _ h => h)) ?_ (fun _ _ _ h => ⟨onlyLt_append h1 h.1, h.2⟩)
      rintro l' ys d' hy ⟨h3, h4, h5⟩
      refine TriL.pure ⟨onlyLt_append h1 (by simpa using h3), (h4.cons q).trans (.swap _ _ _), fun klt so hR hl => ?_⟩
      rw [List.pairwise_cons] at hl ⊢
      refine ⟨fun r hr => ?_, h5 klt so hR hl.2⟩
      rcases List.mem_cons.mp (h4.mem_iff.mp hr) with rfl | hr
      · simpa using h2 klt so hR
      · exact hl.1 r hr
    | false =>
      refine TriL.pure ⟨by simpa using h1, .refl _, fun klt so hR hl => ?_⟩
      have h2 : PairLe klt p q := by simpa using h2 klt so hR
      refine List.pairwise_cons.mpr ⟨fun r hr => ?_, hl⟩
      rcases List.mem_cons.mp hr with rfl | hr
      · exact h2
      · exact pairLe_trans so h2 ((List.pairwise_cons.mp hl).1 r hr)

theorem pairSort_sorts : SortsPairs (pairSort (α := α) (κ := κ)) := by
  intro R l
  induction l with
  | nil => exact TriL.pure ⟨by simp [OnlyLt], .refl _, fun _ _ _ => .nil⟩
  | cons p l ih =>
    unfold pairSort
    refine TriL.bind ih ?_ (fun _ _ _ h => h)
    rintro l' ys d hy ⟨h1, h2, h3⟩
    obtain rfl : ys = [] := List.eq_nil_of_length_eq_zero (by simpa using hy)
    refine TriL.mono pairInsert_spec ?_ (fun _ _ _ _ h => ⟨onlyLt_append h1 h.1, h.2⟩)
    rintro l'' _ d' _ ⟨g1, g2, g3⟩
    exact ⟨onlyLt_append h1 g1, g2.trans (h2.cons p), fun klt so hR => g3 klt so hR (h3 klt so hR)⟩

/-- Keys that are one byte long. -/
def sizes : Sizes := ⟨2, 4, 8, 16⟩

/-- The key is the last decimal digit. -/
def keyOracle : Oracle Unit (KeyQ Nat Nat) (Nat × Bool) :=
  ⟨fun _ q => (some (match q with | .key x => (x % 10, true) | .lt k l => (0, lt k l)), ()), fun _ => (true, ())⟩

theorem keyAgrees : KeyAgrees keyOracle (· % 10) lt := ⟨fun _ _ => ⟨_, rfl⟩, fun _ _ _ => ⟨_, rfl⟩⟩

def keyState : St Nat (KeyQ Nat Nat) (Nat × Bool) Unit := ⟨mem, (), []⟩

end Sample

example := sort_by_cached_key_sorts (cfg := Sample.cfg) (sz := Sample.sizes) Sample.pairSort_sorts Sample.keyAgrees Sample.swo Sample.wf
  (by decide) Sample.keyState
example := sort_by_cached_key_calls (cfg := Sample.cfg) (sz := Sample.sizes) Sample.pairSort_sorts (Sample.nonsense .key) Sample.wf
  (by decide) (Sample.nstate .key)
example : 59999 % 2 ^ indexBits Sample.cfg Sample.sizes 60000 = 59999 := cached_index_fits Sample.cfg Sample.sizes (by decide) (by decide)
example : indexBits Sample.cfg Sample.sizes 255 = 8 ∧ indexBits Sample.cfg Sample.sizes 256 = 16 := by decide
example := par_sort_by_cached_key_sorts (cfg := Sample.cfg) (sz := Sample.sizes) Sample.pairSort_sorts Sample.keyAgrees Sample.swo Sample.wf
  (by decide) Sample.keyState
example := par_sort_by_cached_key_calls (cfg := Sample.cfg) (sz := Sample.sizes) Sample.pairSort_sorts (Sample.nonsense .key) Sample.wf
  (by decide) (Sample.nstate .key)
example {p' s'} (h : Steps (Sample.nonsense .key) (parSortByCachedKey Sample.cfg Sample.sizes Sample.pairSort Sample.view) (Sample.nstate .key) p' s') :
    ¬ Race p' := par_sort_by_cached_key_race_free Sample.pairSort_sorts _ Sample.wf (by decide) _ h
example := par_sort_by_cached_key_ends (cfg := Sample.cfg) (sz := Sample.sizes) Sample.pairSort_sorts (Sample.nonsense .key) Sample.wf
  (by decide) (Sample.nstate .key)

end NdSlice
