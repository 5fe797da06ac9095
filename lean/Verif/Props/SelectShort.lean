import Verif.Props.Select
import Verif.Proof.SelectShortGood

/-
C47 for short arrays: with at most 27 elements the `debug_assert!` of `median_of_medians` cannot fail; with 28 it can.
With a consistent comparator it cannot fail with at most 35 elements; with 40 it can.
-/

namespace NdSlice

open Style

variable {α κ σ : Type} {st : Style} {cfg : Cfg} {v : View}

/-- C47, a part that holds in all builds: with an index in range and at most 27 elements `select_nth_unstable*` does not
panic on its own, whatever the comparator answers.  Missing: longer arrays in debug builds, where the statement is
false, see `select_nth_debug_assert_fails_short` (28 elements, inconsistent comparator) and
`select_nth_debug_assert_fails_good` (40 elements, the order of the numbers). -/
theorem select_nth_short_no_panic_partial {o : Oracle σ (st.Q α κ) (st.A κ)} (ho : NoPanic o) (hv : v.WF) {k : Nat}
    (hk : k < v.len) (hs : v.len ≤ 27) (s : St α (st.Q α κ) (st.A κ) σ) :
    ∃ b s', run o (selectNthUnstable st cfg v k) s = (.ok b, s') := by
  rcases Tri.ends (rel_sat o) hv (partitionAtIndex_short (cfg := cfg) (st.toCmp (rel o)) (v := v) (v.contents_length s.mem) hk hs) with
    ⟨b, s', h1, _⟩ | ⟨e', s', h1, h2, _⟩
  · exact ⟨b, s', h1⟩
  · exact (pan_iff ho h2.2).elim

/-- C47 and C14: with at most 27 elements `select_many_nth_unstable*` panics on its own exactly if the indices are bad, in
debug builds as in release builds.  Missing: longer arrays in debug builds. -/
theorem select_many_short_no_panic_partial {o : Oracle σ (st.Q α κ) (st.A κ)} (ho : NoPanic o)
    (hz : cfg.zst = true → Subsingleton α) (hv : v.WF) (hb : 2 * v.len ≤ 2 ^ cfg.bits) (hs : v.len ≤ 27)
    (is : List Nat) (s : St α (st.Q α κ) (st.A κ) σ) :
    (∃ e s', run o (selectManyNthUnstable st cfg v is) s = (.panic e, s')) ↔ ¬ GoodIndices v.len is := by
  constructor
  · rintro ⟨e, s', h⟩
    rcases select_many_safe o hz hv hb is s with ⟨b, s'', h1, _⟩ | ⟨e', s'', h1, h2, _⟩
    · rw [h] at h1; cases h1
    · rcases h2 with h2 | ⟨rfl, _⟩ | h2
      · exact (h2.2 ho).elim
      · rcases Tri.ends (rel_sat o) hv (partitionAtIndices_short (st.toCmp (rel o)) (partitionAtIndex_short _) (cfg := cfg) (v := v) (n := is.length + 1) (off := 0)
          (is := is) (v.contents_length s.mem) (by omega) (by omega) hs) with ⟨b, s3, h3, _⟩ | ⟨e3, s3, h3, h4, _⟩
        · exact (by cases h1.symm.trans h3)
        · cases h1.symm.trans h3
          exact (h4 rfl).elim
      · exact h2.1
  · intro his
    obtain ⟨e, s', h, _⟩ := select_many_bad_panics o hz hv hb his s
    exact ⟨e, s', h⟩

/-- C47 and C30: with at most 27 elements `par_select_many_nth_unstable*` never fails a `debug_assert!`, under any schedule
and for any comparator.  Missing: longer arrays in debug builds. -/
theorem par_select_many_short_no_debug_partial (o : Oracle σ (st.Q α κ) (st.A κ)) (hv : v.WF) (hb : 2 * v.len ≤ 2 ^ cfg.bits)
    (hs : v.len ≤ 27) (is : List Nat) (extra : Nat) (s : St α (st.Q α κ) (st.A κ) σ) :
    Always o (parSelectManyNthUnstable st cfg v is extra) s (fun _ _ => True) (fun e _ => e ≠ .debugAssert) :=
  (Tri.always (rel_sat o) hv (parPartitionAtIndices_short (st.toCmp (rel o)) (by decide) (partitionAtIndex_short _) (cfg := cfg) (v := v) (n := is.length + 1) (off := 0)
    (is := is) (vs := 0) (vl := is.length + extra) (v.contents_length s.mem) (by omega) (by omega) (by omega) hs)).mono
    (fun _ _ _ => trivial) (fun _ _ h => h.1)

/-! ### Consistent comparators -/

/-- C47, a part that holds in all builds: with an index in range, at most 35 elements and a consistent comparator
`select_nth_unstable*` does not panic.  Missing: longer arrays in debug builds, where the statement is
false, see `select_nth_debug_assert_fails_good` (40 elements). -/
theorem select_nth_few_no_panic_partial {o : Oracle σ (st.Q α κ) (st.A κ)} {lt : α → α → Bool} (so : SWO lt) (ho : Agrees st o lt)
    (hv : v.WF) {k : Nat} (hk : k < v.len) (hs : v.len ≤ 35) (s : St α (st.Q α κ) (st.A κ) σ) :
    ∃ b s', run o (selectNthUnstable st cfg v k) s = (.ok b, s') := by
  rcases Tri.ends (rel_sat o) hv (partitionAtIndex_few (cfg := cfg) (st.toCmp (rel o)) (good_of_agrees ho so) (v := v)
    (v.contents_length s.mem) hk hs) with ⟨b, s', h1, _⟩ | ⟨e', s', h1, h2, _⟩
  · exact ⟨b, s', h1⟩
  · exact (pan_iff (noPanic_of_agrees ho) h2.2).elim

/-- C47 and C14: with at most 35 elements and a consistent comparator `select_many_nth_unstable*` panics exactly if the indices are bad,
in debug builds as in release builds.  Missing: longer arrays in debug builds. -/
theorem select_many_few_no_panic_partial {o : Oracle σ (st.Q α κ) (st.A κ)} {lt : α → α → Bool} (so : SWO lt) (ho : Agrees st o lt)
    (hz : cfg.zst = true → Subsingleton α) (hv : v.WF) (hb : 2 * v.len ≤ 2 ^ cfg.bits) (hs : v.len ≤ 35)
    (is : List Nat) (s : St α (st.Q α κ) (st.A κ) σ) :
    (∃ e s', run o (selectManyNthUnstable st cfg v is) s = (.panic e, s')) ↔ ¬ GoodIndices v.len is := by
  constructor
  · rintro ⟨e, s', h⟩
    rcases select_many_safe o hz hv hb is s with ⟨b, s'', h1, _⟩ | ⟨e', s'', h1, h2, _⟩
    · rw [h] at h1; cases h1
    · rcases h2 with h2 | ⟨rfl, _⟩ | h2
      · exact (h2.2 (noPanic_of_agrees ho)).elim
      · rcases Tri.ends (rel_sat o) hv (partitionAtIndices_short (st.toCmp (rel o)) (partitionAtIndex_few _ (good_of_agrees ho so))
          (cfg := cfg) (v := v) (n := is.length + 1) (off := 0)
          (is := is) (v.contents_length s.mem) (by omega) (by omega) hs) with ⟨b, s3, h3, _⟩ | ⟨e3, s3, h3, h4, _⟩
        · exact (by cases h1.symm.trans h3)
        · cases h1.symm.trans h3
          exact (h4 rfl).elim
      · exact h2.1
  · intro his
    obtain ⟨e, s', h, _⟩ := select_many_bad_panics o hz hv hb his s
    exact ⟨e, s', h⟩

/-- C47 and C30: with at most 35 elements and a consistent comparator `par_select_many_nth_unstable*` never fails a `debug_assert!`,
under any schedule.  Missing: longer arrays in debug builds. -/
theorem par_select_many_few_no_debug_partial {o : Oracle σ (st.Q α κ) (st.A κ)} {lt : α → α → Bool} (so : SWO lt) (ho : Agrees st o lt)
    (hv : v.WF) (hb : 2 * v.len ≤ 2 ^ cfg.bits)
    (hs : v.len ≤ 35) (is : List Nat) (extra : Nat) (s : St α (st.Q α κ) (st.A κ) σ) :
    Always o (parSelectManyNthUnstable st cfg v is extra) s (fun _ _ => True) (fun e _ => e ≠ .debugAssert) :=
  (Tri.always (rel_sat o) hv (parPartitionAtIndices_short (st.toCmp (rel o)) (by decide) (partitionAtIndex_few _ (good_of_agrees ho so))
    (cfg := cfg) (v := v) (n := is.length + 1) (off := 0)
    (is := is) (vs := 0) (vl := is.length + extra) (v.contents_length s.mem) (by omega) (by omega) (by omega) hs)).mono
    (fun _ _ _ => trivial) (fun _ _ h => h.1)

/-! ### Where it is false -/

namespace DebugBug

/-- User code which answers from a list. -/
def scripted : Oracle (List Bool) (Nat × Nat) Bool where
  ask := fun s _ => (some (s.headD false), s.tail)
  flip := fun s => (false, s)

/-- The answers in the rounds on `n`, `n - 1`, ... elements. -/
def script : Nat → Nat → List Bool
  | 0, _ => []
  | r + 1, n => [false, false, false, true] ++ List.replicate n false ++ script r (n - 1)

def answers : List Bool := [false, false, false] ++ List.replicate 28 false ++ script 16 27

end DebugBug

set_option maxRecDepth 100000 in
/-- C47 does not hold for 28 elements: these answers of an (inconsistent) comparator take away one element in each round. -/
theorem select_nth_debug_assert_fails_short :
    (run DebugBug.scripted (selectNthUnstable (κ := Nat) .ord ⟨true, 64, false⟩ ⟨0, 1, 28⟩ 22) ⟨fun a => a.toNat, DebugBug.answers, []⟩).1 =
      .panic .debugAssert := by decide +kernel

/-- 40 numbers, many of them in pairs, on which quickselect is unbalanced sixteen times in a row. -/
def DebugBug.pairs : List Nat := [3, 999, 999, 999, 7, 15, 999, 8, 999, 999, 1, 4, 15, 14, 999, 16, 10, 999, 15, 12, 13, 3, 999, 9, 6, 5,
  8, 12, 2, 14, 1, 4, 6, 9, 11, 13, 11, 10, 16, 999]

set_option maxRecDepth 100000 in
/-- C47 does not hold for 40 elements and the order of the numbers. -/
theorem select_nth_debug_assert_fails_good :
    (run (Sample.oracle .ord) (selectNthUnstable (κ := Nat) .ord ⟨true, 64, false⟩ ⟨0, 1, 40⟩ 34)
      ⟨fun a => DebugBug.pairs.getD a.toNat 0, (), []⟩).1 = .panic .debugAssert := by decide +kernel

/-! ### The hypotheses can be met -/

/-- 27 of the elements of the sample, from the end to the front. -/
def Sample.short : View := ⟨100, -3, 27⟩

theorem Sample.short_wf : Sample.short.WF := .inl (by decide)

example (st : Style) := select_nth_short_no_panic_partial (st := st) (k := 17) (cfg := ⟨true, 64, false⟩) (v := Sample.short)
  (Sample.stubborn_noPanic st) Sample.short_wf (by decide) (by decide) (Sample.state st)
example (st : Style) := select_many_short_no_panic_partial (st := st) (cfg := ⟨true, 64, false⟩) (v := Sample.short) (Sample.stubborn_noPanic st)
  (by simp) Sample.short_wf (by decide) (by decide) [5, 3] (Sample.state st)
example (st : Style) := par_select_many_short_no_debug_partial (st := st) (Sample.nonsense st) (cfg := ⟨true, 64, false⟩) (v := Sample.short)
  Sample.short_wf (by decide) (by decide) [3, 17, 17] 2 (Sample.nstate st)

/-- 35 of the elements of the sample, from the end to the front. -/
def Sample.few : View := ⟨100, -3, 35⟩

theorem Sample.few_wf : Sample.few.WF := .inl (by decide)

example (st : Style) := select_nth_few_no_panic_partial (st := st) (k := 17) (cfg := ⟨true, 64, false⟩) (v := Sample.few)
  Sample.swo (Sample.agrees st) Sample.few_wf (by decide) (by decide) (Sample.state st)
example (st : Style) := select_many_few_no_panic_partial (st := st) (cfg := ⟨true, 64, false⟩) (v := Sample.few) Sample.swo (Sample.agrees st)
  (by simp) Sample.few_wf (by decide) (by decide) [5, 3] (Sample.state st)
example (st : Style) := par_select_many_few_no_debug_partial (st := st) (cfg := ⟨true, 64, false⟩) (v := Sample.few) Sample.swo
  (Sample.agrees st) Sample.few_wf (by decide) (by decide) [3, 17, 17] 2 (Sample.state st)

end NdSlice
