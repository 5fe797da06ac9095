import Verif.Props.Base
import Verif.Props.Sample
import Verif.Proof.Select

/-
Properties of `select_nth_unstable*`, `select_many_nth_unstable*` and `par_select_many_nth_unstable*`:
C10, C11, C12, C13, C14, C30, C47 and the parts of C09, C31, C33 about them.
-/

namespace NdSlice

open Style

/-! ### What selection means -/

theorem countP_prefix {α : Type} {lt : α → α → Bool} (so : SWO lt) {p : α} {ys : List α} {k : Nat} (hs : Sorted lt ys)
    (hk : k < ys.length) (h : lt ys[k] p = true) : k + 1 ≤ ys.countP (fun y => lt y p) := by
  have h1 : (ys.take (k + 1)).countP (fun y => lt y p) = (ys.take (k + 1)).length := by
    rw [List.countP_eq_length]
    intro y hy
    obtain ⟨i, hi, rfl⟩ := List.mem_iff_getElem.mp hy
    simp only [List.length_take] at hi
    rw [List.getElem_take]
    rcases Nat.lt_or_ge i k with hik | hik
    · exact so.lt_of_le_of_lt (List.pairwise_iff_getElem.mp hs i k _ _ hik) h
    · have : i = k := by omega
      subst this; exact h
  have h2 := List.Sublist.countP_le (p := fun y => lt y p) (List.take_sublist (k + 1) ys)
  rw [h1, List.length_take] at h2
  omega

theorem countP_suffix {α : Type} {lt : α → α → Bool} (so : SWO lt) {p : α} {ys : List α} {k : Nat} (hs : Sorted lt ys)
    (hk : k < ys.length) (h : lt p ys[k] = true) : ys.length - k ≤ ys.countP (fun y => lt p y) := by
  have h1 : (ys.drop k).countP (fun y => lt p y) = (ys.drop k).length := by
    rw [List.countP_eq_length]
    intro y hy
    obtain ⟨i, hi, rfl⟩ := List.mem_iff_getElem.mp hy
    simp only [List.length_drop] at hi
    rw [List.getElem_drop]
    rcases Nat.eq_zero_or_pos i with hik | hik
    · subst hik; exact h
    · exact so.lt_of_lt_of_le h (List.pairwise_iff_getElem.mp hs k (k + i) _ _ (by omega))
  have h2 := List.Sublist.countP_le (p := fun y => lt p y) (List.drop_sublist k ys)
  rw [h1, List.length_drop] at h2
  omega

/-- A selected element compares equal to the one a sort puts there. -/
theorem SelectedAt.order_statistic {α : Type} {lt : α → α → Bool} (so : SWO lt) {k : Nat} {zs ys : List α}
    (h : SelectedAt lt k zs) (hp : zs.Perm ys) (hs : Sorted lt ys) :
    ∃ p q, zs[k]? = some p ∧ ys[k]? = some q ∧ eqv lt p q = true := by
  obtain ⟨A, p, B, rfl, rfl, hA, hB⟩ := h
  have hlen := hp.length_eq
  simp only [List.length_append, List.length_cons] at hlen
  have hk : A.length < ys.length := by omega
  refine ⟨p, ys[A.length], by simp, List.getElem?_eq_getElem hk, eqv_iff.mpr ⟨?_, ?_⟩⟩
  · cases hpq : lt p ys[A.length] with
    | false => rfl
    | true =>
      have h1 := countP_suffix so hs hk hpq
      rw [← hp.countP_eq, List.countP_append, List.countP_cons] at h1
      have h2 : A.countP (fun y => lt p y) = 0 := by
        rw [List.countP_eq_zero]; intro a ha; simp [hA a ha]
      have h3 := List.countP_le_length (p := fun y => lt p y) (l := B)
      simp only [so.irrefl, Bool.false_eq_true, if_false] at h1
      omega
  · cases hpq : lt ys[A.length] p with
    | false => rfl
    | true =>
      have h1 := countP_prefix so hs hk hpq
      rw [← hp.countP_eq, List.countP_append, List.countP_cons] at h1
      have h2 : B.countP (fun y => lt y p) = 0 := by
        rw [List.countP_eq_zero]; intro a ha; simp [hB a ha]
      have h3 := List.countP_le_length (p := fun y => lt y p) (l := A)
      simp only [so.irrefl, Bool.false_eq_true, if_false] at h1
      omega

variable {α κ σ : Type} {st : Style} {cfg : Cfg} {v : View}

/-! ### One index -/

/-- C10 (release builds): with a consistent comparator `select_nth_unstable*(k)` returns the views of the first `k` elements
and of those after position `k` and the reference to position `k`; the element there is in its sorted place.
C09: nothing outside the view changed.  For debug builds see `select_nth_debug` and C47. -/
theorem select_nth_selects {o : Oracle σ (st.Q α κ) (st.A κ)} {lt : α → α → Bool} (so : SWO lt) (ho : Agrees st o lt)
    (hz : cfg.zst = true → Subsingleton α) (hdbg : cfg.dbg = false) (hv : v.WF) {k : Nat} (hk : k < v.len)
    (s : St α (st.Q α κ) (st.A κ) σ) :
    ∃ s', run o (selectNthUnstable st cfg v k) s =
        (.ok (v.sub 0 k, v.addr k, v.sub (k + 1) (v.len - (k + 1))), s') ∧
      SelectedAt lt k (v.contents s'.mem) ∧ (v.contents s'.mem).Perm (v.contents s.mem) ∧
      (∀ ys, Sorted lt ys → ys.Perm (v.contents s.mem) →
        ∃ p q, (v.contents s'.mem)[k]? = some p ∧ ys[k]? = some q ∧ eqv lt p q = true) ∧
      ∀ a, a ∉ v.region → s'.mem a = s.mem a := by
  obtain ⟨b, s', h1, ⟨rfl, h2, h3⟩, h4⟩ := (Tri.ends (rel_sat o) hv
    (partitionAtIndex_spec (st.toCmp (rel o)) (cfg := cfg) (v := v) hz (v.contents_length s.mem) hk)).ok
      (fun e m h => by
        rcases h.1.1 with h | h
        · exact pan_iff (noPanic_of_agrees ho) h.2
        · rw [hdbg] at h; exact Bool.false_ne_true h.2)
  have h5 := h3 lt (good_of_agrees ho so)
  exact ⟨s', h1, h5, h2, fun ys h6 h7 => h5.order_statistic so (h2.trans h7.symm) h6, h4⟩

/-- C10, C11 in all builds: for an index in range and any comparator `select_nth_unstable*` ends without undefined
behaviour.  It returns, or the comparator panics, or (debug builds only) a `debug_assert!` fails.  The array is a
permutation in each case.  If it returns and the comparator is consistent, the element is in its place.
C09: nothing outside the view changed. -/
theorem select_nth_safe (o : Oracle σ (st.Q α κ) (st.A κ))
    (hz : cfg.zst = true → Subsingleton α) (hv : v.WF) {k : Nat} (hk : k < v.len) (s : St α (st.Q α κ) (st.A κ) σ) :
    Ends o (selectNthUnstable st cfg v k) s
      (fun r m => r = (v.sub 0 k, v.addr k, v.sub (k + 1) (v.len - (k + 1))) ∧
        (v.contents m).Perm (v.contents s.mem) ∧
        (∀ lt, SWO lt → Agrees st o lt → SelectedAt lt k (v.contents m)) ∧ ∀ a, a ∉ v.region → m a = s.mem a)
      (fun e m => ((e = .user ∧ ¬ NoPanic o) ∨ (e = .debugAssert ∧ cfg.dbg = true)) ∧
        (v.contents m).Perm (v.contents s.mem) ∧ ∀ a, a ∉ v.region → m a = s.mem a) :=
  (Tri.ends (rel_sat o) hv
    (partitionAtIndex_spec (st.toCmp (rel o)) (cfg := cfg) (v := v) hz (v.contents_length s.mem) hk)).mono
      (fun _ _ h => ⟨h.1.1, h.1.2.1, fun lt so ho => h.1.2.2 lt (good_of_agrees ho so), h.2⟩)
      (fun _ _ h => ⟨h.1.1.imp (fun h => ⟨h.1, fun hn => pan_iff hn h.2⟩) id, h.1.2, h.2⟩)

/-- C12: an index out of range makes `select_nth_unstable*` panic at once: nothing changed, user code not called. -/
theorem select_nth_bad_index (o : Oracle σ (st.Q α κ) (st.A κ)) {k : Nat} (hk : v.len ≤ k) (s : St α (st.Q α κ) (st.A κ) σ) :
    run o (selectNthUnstable st cfg v k) s = (.panic .index, s) := by
  unfold selectNthUnstable partitionAtIndex
  rw [if_pos hk]
  rfl

/-- C12: in release builds, with user code that does not panic, `select_nth_unstable*` panics exactly if the index is
out of range. -/
theorem select_nth_panics_iff {o : Oracle σ (st.Q α κ) (st.A κ)} (ho : NoPanic o)
    (hz : cfg.zst = true → Subsingleton α) (hdbg : cfg.dbg = false) (hv : v.WF) {k : Nat} (s : St α (st.Q α κ) (st.A κ) σ) :
    (∃ e s', run o (selectNthUnstable st cfg v k) s = (.panic e, s')) ↔ v.len ≤ k := by
  constructor
  · rintro ⟨e, s', h⟩
    refine Nat.le_of_not_lt fun hk => ?_
    rcases select_nth_safe o hz hv hk s with ⟨b, s'', h1, _⟩ | ⟨e', s'', h1, h2, _⟩
    · rw [h] at h1; cases h1
    · rcases h2 with h2 | h2
      · exact h2.2 ho
      · rw [hdbg] at h2; exact Bool.false_ne_true h2.2
  · exact fun hk => ⟨_, _, select_nth_bad_index o hk s⟩

/-! ### A failing debug assertion (C47) -/

namespace DebugBug

/-- 49 numbers on which quickselect is unbalanced sixteen times in a row. -/
def input : List Nat := [26, 24, 11, 99, 99, 28, 7, 99, 22, 19, 36, 3, 0, 2, 15, 4, 6, 33, 5, 10, 31, 12, 14, 16, 1, 20, 8,
  32, 9, 27, 13, 30, 17, 99, 34, 99, 37, 38, 29, 21, 39, 18, 99, 35, 23, 25, 99, 99, 99]

def state : St Nat (Nat × Nat) Bool Unit := ⟨fun a => input.getD a.toNat 0, (), []⟩

end DebugBug

set_option maxRecDepth 100000 in
/-- C47 does not hold: `select_nth_unstable(40)` on these 49 numbers, ordered by `<`, panics in a debug build.
`median_of_ninthers` on 11 elements computes `frac = 11 / 12 = 0` and calls `median_of_medians` on an empty slice with
`k = 0`, which violates `debug_assert!(k < v.len())` (/repo/src/partition.rs:189). -/
theorem select_nth_debug_assert_fails :
    (run (Sample.oracle .ord) (selectNthUnstable (κ := Nat) .ord ⟨true, 64, false⟩ ⟨0, 1, 49⟩ 40) DebugBug.state).1 =
      .panic .debugAssert := by decide +kernel

/-- C47, the part that holds: without the `debug_assert!` (release builds) an index in range never makes
`select_nth_unstable*` panic on its own.  Missing: debug builds, where the statement is false, see above. -/
theorem select_nth_no_panic_partial {o : Oracle σ (st.Q α κ) (st.A κ)} (ho : NoPanic o)
    (hz : cfg.zst = true → Subsingleton α) (hdbg : cfg.dbg = false) (hv : v.WF) {k : Nat} (hk : k < v.len)
    (s : St α (st.Q α κ) (st.A κ) σ) : ∃ b s', run o (selectNthUnstable st cfg v k) s = (.ok b, s') := by
  rcases select_nth_safe o hz hv hk s with ⟨b, s'', h1, _⟩ | ⟨e', s'', h1, h2, _⟩
  · exact ⟨b, s'', h1⟩
  · rcases h2 with h2 | h2
    · exact (h2.2 ho).elim
    · rw [hdbg] at h2; exact (Bool.false_ne_true h2.2).elim

/-! ### Many indices -/

/-- Strictly increasing and all below `n`. -/
def GoodIndices (n : Nat) (is : List Nat) : Prop := is.Pairwise (· < ·) ∧ ∀ i ∈ is, i < n

theorem validIdx_iff {n : Nat} {is : List Nat} : ValidIdx 0 n is ↔ GoodIndices n is := by
  simp [ValidIdx, GoodIndices]

/-- C13 (release builds): for strictly increasing indices in range and a consistent comparator `select_many_nth_unstable*`
returns, hands out the pairs of each index and the reference to the element there, in order, and each of these
elements is in its sorted place.  `hb`: an array has at most `isize::MAX` elements. C09: nothing else changed. -/
theorem select_many_selects {o : Oracle σ (st.Q α κ) (st.A κ)} {lt : α → α → Bool} (so : SWO lt) (ho : Agrees st o lt)
    (hz : cfg.zst = true → Subsingleton α) (hdbg : cfg.dbg = false) (hv : v.WF) (hb : 2 * v.len ≤ 2 ^ cfg.bits)
    {is : List Nat} (his : GoodIndices v.len is) (s : St α (st.Q α κ) (st.A κ) σ) :
    ∃ s', run o (selectManyNthUnstable st cfg v is) s = (.ok (is.map fun i => (i, v.addr i)), s') ∧
      (∀ i ∈ is, SelectedAt lt i (v.contents s'.mem)) ∧ (v.contents s'.mem).Perm (v.contents s.mem) ∧
      (∀ i ∈ is, ∀ ys, Sorted lt ys → ys.Perm (v.contents s.mem) →
        ∃ p q, (v.contents s'.mem)[i]? = some p ∧ ys[i]? = some q ∧ eqv lt p q = true) ∧
      ∀ a, a ∉ v.region → s'.mem a = s.mem a := by
  obtain ⟨b, s', h1, ⟨_, rfl, h2, h3⟩, h4⟩ := (Tri.ends (rel_sat o) hv
    (selectMany_spec (st.toCmp (rel o)) (cfg := cfg) (v := v) hz (is := is) (v.contents_length s.mem) hb)).ok
      (fun e m h => by
        rcases h.1.2 with h | h | h
        · exact pan_iff (noPanic_of_agrees ho) h.2
        · rw [hdbg] at h; exact Bool.false_ne_true h.2
        · exact h.1 (validIdx_iff.mpr his))
  have h5 := h3 lt (good_of_agrees ho so)
  exact ⟨s', h1, h5, h2, fun i hi ys h6 h7 => (h5 i hi).order_statistic so (h2.trans h7.symm) h6, h4⟩

/-- C13, C14 in all builds and for any comparator and any indices: `select_many_nth_unstable*` ends without undefined
behaviour and leaves a permutation.  If it returns, the indices were good and (with a consistent comparator) all
elements are in place.  If it panics: the comparator did, or a `debug_assert!` failed (debug builds only, C47), or the
indices were bad. -/
theorem select_many_safe (o : Oracle σ (st.Q α κ) (st.A κ))
    (hz : cfg.zst = true → Subsingleton α) (hv : v.WF) (hb : 2 * v.len ≤ 2 ^ cfg.bits)
    (is : List Nat) (s : St α (st.Q α κ) (st.A κ) σ) :
    Ends o (selectManyNthUnstable st cfg v is) s
      (fun r m => GoodIndices v.len is ∧ r = (is.map fun i => (i, v.addr i)) ∧ (v.contents m).Perm (v.contents s.mem) ∧
        (∀ lt, SWO lt → Agrees st o lt → ∀ i ∈ is, SelectedAt lt i (v.contents m)) ∧ ∀ a, a ∉ v.region → m a = s.mem a)
      (fun e m => ((e = .user ∧ ¬ NoPanic o) ∨ (e = .debugAssert ∧ cfg.dbg = true) ∨
          (¬ GoodIndices v.len is ∧ (e = .index ∨ (e = .overflow ∧ cfg.dbg = true)))) ∧
        (v.contents m).Perm (v.contents s.mem) ∧ ∀ a, a ∉ v.region → m a = s.mem a) :=
  (Tri.ends (rel_sat o) hv
    (selectMany_spec (st.toCmp (rel o)) (cfg := cfg) (v := v) hz (is := is) (v.contents_length s.mem) hb)).mono
      (fun _ _ h => ⟨validIdx_iff.mp h.1.1, h.1.2.1, h.1.2.2.1, fun lt so ho => h.1.2.2.2 lt (good_of_agrees ho so), h.2⟩)
      (fun _ _ h => ⟨h.1.2.imp (fun h => ⟨h.1, fun hn => pan_iff hn h.2⟩) (Or.imp id
        (fun h => ⟨fun hg => h.1 (validIdx_iff.mpr hg), h.2⟩)), h.1.1, h.2⟩)

/-- C14: in release builds (wrapping arithmetic), with user code that does not panic, `select_many_nth_unstable*` panics
exactly if the indices are not strictly increasing or out of range. -/
theorem select_many_panics_iff {o : Oracle σ (st.Q α κ) (st.A κ)} (ho : NoPanic o)
    (hz : cfg.zst = true → Subsingleton α) (hdbg : cfg.dbg = false) (hv : v.WF) (hb : 2 * v.len ≤ 2 ^ cfg.bits)
    (is : List Nat) (s : St α (st.Q α κ) (st.A κ) σ) :
    (∃ e s', run o (selectManyNthUnstable st cfg v is) s = (.panic e, s')) ↔ ¬ GoodIndices v.len is := by
  rcases select_many_safe o hz hv hb is s with ⟨b, s'', h1, h2, _⟩ | ⟨e', s'', h1, h2, _⟩
  · rw [h1]
    exact ⟨fun h => (by obtain ⟨e, s', h⟩ := h; cases h), fun h => (h h2).elim⟩
  · rw [h1]
    refine ⟨fun _ => ?_, fun _ => ⟨_, _, rfl⟩⟩
    rcases h2 with h2 | h2 | h2
    · exact (h2.2 ho).elim
    · rw [hdbg] at h2; exact (Bool.false_ne_true h2.2).elim
    · exact h2.1

/-- C14: bad indices make `select_many_nth_unstable*` panic in debug builds as well. -/
theorem select_many_bad_panics (o : Oracle σ (st.Q α κ) (st.A κ))
    (hz : cfg.zst = true → Subsingleton α) (hv : v.WF) (hb : 2 * v.len ≤ 2 ^ cfg.bits)
    {is : List Nat} (his : ¬ GoodIndices v.len is) (s : St α (st.Q α κ) (st.A κ) σ) :
    ∃ e s', run o (selectManyNthUnstable st cfg v is) s = (.panic e, s') ∧ (v.contents s'.mem).Perm (v.contents s.mem) := by
  rcases select_many_safe o hz hv hb is s with ⟨b, s'', h1, h2, _⟩ | ⟨e', s'', h1, _, h2, _⟩
  · exact (his h2).elim
  · exact ⟨e', s'', h1, h2⟩

/-! ### Many indices in parallel -/

/-- C30 (release builds): under every schedule `par_select_many_nth_unstable*` with good indices and a consistent
comparator does not panic, and when it ends every slot `j` below the number of indices has been written exactly once,
with the reference to the element at the `j`-th index, which is in its sorted place.  No other slot has been written.
C31, C33: no race, no infinite schedule.  C09: nothing outside the view changed. -/
theorem par_select_many_selects {o : Oracle σ (st.Q α κ) (st.A κ)} {lt : α → α → Bool} (so : SWO lt) (ho : Agrees st o lt)
    (hz : cfg.zst = true → Subsingleton α) (hdbg : cfg.dbg = false) (hv : v.WF) (hb : 2 * v.len ≤ 2 ^ cfg.bits)
    {is : List Nat} (his : GoodIndices v.len is) (extra : Nat) (s : St α (st.Q α κ) (st.A κ) σ) :
    Always o (parSelectManyNthUnstable st cfg v is extra) s
      (fun r m => r.Perm (is.zipIdx.map fun x => (x.2, v.addr x.1)) ∧
        (∀ i ∈ is, SelectedAt lt i (v.contents m)) ∧ (v.contents m).Perm (v.contents s.mem) ∧
        ∀ a, a ∉ v.region → m a = s.mem a)
      (fun _ _ => False) :=
  (Tri.always (rel_sat o) hv
    (parSelectMany_spec (st.toCmp (rel o)) (cfg := cfg) (v := v) hz (is := is) (v.contents_length s.mem) hb
      (Nat.le_add_right is.length extra))).mono
      (fun _ _ h => ⟨h.1.2.1, h.1.2.2.2 lt (good_of_agrees ho so), h.1.2.2.1, h.2⟩)
      (fun e m h => by
        rcases h.1.2 with h | h | h
        · exact pan_iff (noPanic_of_agrees ho) h.2
        · rw [hdbg] at h; exact Bool.false_ne_true h.2
        · exact h.1 (validIdx_iff.mpr his))

/-- C30 in all builds, for any comparator and any indices, under every schedule: no undefined behaviour, no race; the
array stays a permutation; it returns only if the indices are good, and then all the slots are initialised. -/
theorem par_select_many_safe (o : Oracle σ (st.Q α κ) (st.A κ))
    (hz : cfg.zst = true → Subsingleton α) (hv : v.WF) (hb : 2 * v.len ≤ 2 ^ cfg.bits)
    (is : List Nat) (extra : Nat) (s : St α (st.Q α κ) (st.A κ) σ) :
    Always o (parSelectManyNthUnstable st cfg v is extra) s
      (fun r m => GoodIndices v.len is ∧ r.Perm (is.zipIdx.map fun x => (x.2, v.addr x.1)) ∧
        (v.contents m).Perm (v.contents s.mem) ∧ ∀ a, a ∉ v.region → m a = s.mem a)
      (fun e m => ((e = .user ∧ ¬ NoPanic o) ∨ (e = .debugAssert ∧ cfg.dbg = true) ∨
          (¬ GoodIndices v.len is ∧ (e = .index ∨ (e = .overflow ∧ cfg.dbg = true)))) ∧
        (v.contents m).Perm (v.contents s.mem) ∧ ∀ a, a ∉ v.region → m a = s.mem a) :=
  (Tri.always (rel_sat o) hv
    (parSelectMany_spec (st.toCmp (rel o)) (cfg := cfg) (v := v) hz (is := is) (v.contents_length s.mem) hb
      (Nat.le_add_right is.length extra))).mono
      (fun _ _ h => ⟨validIdx_iff.mp h.1.1, h.1.2.1, h.1.2.2.1, h.2⟩)
      (fun _ _ h => ⟨h.1.2.imp (fun h => ⟨h.1, fun hn => pan_iff hn h.2⟩) (Or.imp id
        (fun h => ⟨fun hg => h.1 (validIdx_iff.mpr hg), h.2⟩)), h.1.1, h.2⟩)

/-! ### The hypotheses can be met -/

example (st : Style) := select_nth_selects (st := st) (k := 17) Sample.swo (Sample.agrees st) (cfg := Sample.release) Sample.notZst rfl
  Sample.wf (by decide) (Sample.state st)
example (st : Style) := select_nth_safe (st := st) (k := 17) (Sample.nonsense st) (cfg := Sample.cfg) Sample.notZst
  Sample.wf (by decide) (Sample.nstate st)
example (st : Style) := select_nth_bad_index (st := st) (k := 60) (v := Sample.view) (cfg := Sample.cfg) (Sample.nonsense st)
  (by decide) (Sample.nstate st)
example (st : Style) := select_nth_panics_iff (st := st) (k := 17) (cfg := Sample.release) (Sample.stubborn_noPanic st) Sample.notZst
  rfl Sample.wf (Sample.state st)
example (st : Style) := select_nth_no_panic_partial (st := st) (k := 17) (cfg := Sample.release) (Sample.stubborn_noPanic st)
  Sample.notZst rfl Sample.wf (by decide) (Sample.state st)

theorem Sample.goodIndices : GoodIndices Sample.view.len [3, 17, 18, 59] := by
  refine ⟨by decide, by decide⟩

theorem Sample.badIndices : ¬ GoodIndices Sample.view.len [3, 17, 17, 59] := by
  rintro ⟨h, _⟩; revert h; decide

example (st : Style) := select_many_selects (st := st) Sample.swo (Sample.agrees st) (cfg := Sample.release) Sample.notZst rfl
  Sample.wf (by decide) Sample.goodIndices (Sample.state st)
example (st : Style) := select_many_safe (st := st) (Sample.nonsense st) (cfg := Sample.cfg) Sample.notZst
  Sample.wf (by decide) [3, 17, 17, 59] (Sample.nstate st)
example (st : Style) := select_many_panics_iff (st := st) (cfg := Sample.release) (Sample.stubborn_noPanic st) Sample.notZst
  rfl Sample.wf (by decide) [5, 3] (Sample.state st)
example (st : Style) := select_many_bad_panics (st := st) (Sample.nonsense st) (cfg := Sample.cfg) Sample.notZst
  Sample.wf (by decide) Sample.badIndices (Sample.nstate st)
example (st : Style) := par_select_many_selects (st := st) Sample.swo (Sample.agrees st) (cfg := Sample.release) Sample.notZst rfl
  Sample.wf (by decide) Sample.goodIndices 5 (Sample.state st)
example (st : Style) := par_select_many_safe (st := st) (Sample.nonsense st) (cfg := Sample.cfg) Sample.notZst
  Sample.wf (by decide) [3, 17, 17, 59] 0 (Sample.nstate st)

end NdSlice
