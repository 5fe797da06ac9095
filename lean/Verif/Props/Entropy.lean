import Mathlib.Data.List.Permutation
import Mathlib.Data.Nat.Factorial.BigOperators
import Mathlib.Algebra.BigOperators.Intervals
import Mathlib.Algebra.Order.BigOperators.Ring.Finset
import Verif.Core.Adversary
import Verif.Props.Told
import Verif.Props.Lag
import Verif.Props.Stable

/-
C83: no comparator sort can do with less than log2 of n! comparisons on the worst order of its elements, and the sorts of this crate are none which
cheat: they look at elements only by comparing them.  So they need that many.
-/

namespace NdSlice

open Style
open scoped Nat

variable {α τ : Type} {cfg : Cfg} {v : View}

/-! ### Vocabulary -/

/-- Questions which compare: all but those for a key. -/
def Style.isComparison {κ : Type} : (st : Style) → st.Q α κ → Bool
  | .ord, _ => true
  | .cmp, _ => true
  | .key, .key _ => false
  | .key, .lt _ _ => true

/-- The number of comparisons in a log. -/
def comparisons {κ : Type} (st : Style) (l : List (st.Q α κ × Option (st.A κ))) : Nat := l.countP fun x => st.isComparison x.1

/-- The order in which elements are listed in `ys`. -/
def ltIn [DecidableEq α] (ys : List α) (x y : α) : Bool := decide (ys.idxOf x < ys.idxOf y)

/-- User code which compares by `ltIn ys`; the key of an element is the element itself. -/
def byRank [DecidableEq α] (ys : List α) : (st : Style) → st.Q α α → st.A α
  | .ord, q => ltIn ys q.1 q.2
  | .cmp, q => compare (ys.idxOf q.1) (ys.idxOf q.2)
  | .key, .key x => (x, false)
  | .key, .lt x y => (x, ltIn ys x y)

theorem ltIn_swo [DecidableEq α] (ys : List α) : SWO (ltIn ys) where
  irrefl x := by simp [ltIn]
  trans x y z := by simp only [ltIn, decide_eq_true_eq]; omega
  ntrans x y z := by simp only [ltIn, decide_eq_false_iff_not]; omega

theorem compare_ltIn [DecidableEq α] (ys : List α) (x y : α) : (compare (ys.idxOf x) (ys.idxOf y) == .lt) = ltIn ys x y := by
  unfold ltIn
  rw [Nat.compare_eq_ite_lt]
  split
  · rename_i h; simp [h]
  · split <;> simp_all

theorem byRank_agrees [DecidableEq α] (ys : List α) (st : Style) : Agrees st (funOracle (byRank ys st)) (ltIn ys) := by
  cases st with
  | ord => exact fun _ _ _ => rfl
  | cmp => exact ⟨fun x y => compare (ys.idxOf x) (ys.idxOf y), fun _ _ _ => rfl, fun x y => (compare_ltIn ys x y).symm⟩
  | key => exact ⟨id, ltIn ys, fun _ _ => ⟨_, rfl⟩, fun _ _ _ => ⟨_, rfl⟩, fun _ _ => rfl⟩

theorem byRank_consistent [DecidableEq α] {ys : List α} {st : Style} {d : List (st.Q α α × Option (st.A α))}
    (h : ∀ x ∈ d, x.2 = some (byRank ys st x.1)) : Consistent st (ltIn ys) d :=
  .of_agrees (byRank_agrees ys st) fun x hx => ⟨(), (h x hx).symm⟩

/-! ### Two answers to each question -/

/-- The one answer. -/
def yes [DecidableEq α] (xs : List α) : (st : Style) → st.Q α α → st.A α
  | .ord, _ => true
  | .cmp, q => if q.1 = q.2 ∨ q.1 ∉ xs ∧ q.2 ∉ xs then .eq else .lt
  | .key, .key x => (x, false)
  | .key, .lt x _ => (x, true)

/-- The other answer. -/
def no [DecidableEq α] (xs : List α) : (st : Style) → st.Q α α → st.A α
  | .ord, _ => false
  | .cmp, q => if q.1 = q.2 ∨ q.1 ∉ xs ∧ q.2 ∉ xs then .eq else .gt
  | .key, .key x => (x, false)
  | .key, .lt x _ => (x, false)

theorem byRank_yes_no [DecidableEq α] {xs ys : List α} (h : ys.Perm xs) (st : Style) (q : st.Q α α) :
    byRank ys st q = yes xs st q ∨ byRank ys st q = no xs st q := by
  cases st with
  | ord => exact Bool.eq_false_or_eq_true _
  | cmp =>
    obtain ⟨x, y⟩ := q
    show compare (ys.idxOf x) (ys.idxOf y) = ite _ _ _ ∨ compare (ys.idxOf x) (ys.idxOf y) = ite _ _ _
    dsimp only
    split
    · rename_i g
      left
      have e : ys.idxOf x = ys.idxOf y := by
        rcases g with g | ⟨g1, g2⟩
        · rw [g]
        · rw [List.idxOf_of_notMem (mt h.mem_iff.mp g1), List.idxOf_of_notMem (mt h.mem_iff.mp g2)]
      rw [e]
      exact Nat.compare_eq_eq.mpr rfl
    · rename_i g
      have e : ys.idxOf x ≠ ys.idxOf y := by
        intro e
        apply g
        by_cases hx : x ∈ ys
        · exact .inl ((List.idxOf_inj hx).mp e)
        · by_cases hy : y ∈ ys
          · exact .inl ((List.idxOf_inj hy).mp e.symm).symm
          · exact .inr ⟨mt h.mem_iff.mpr hx, mt h.mem_iff.mpr hy⟩
      rcases Nat.lt_or_gt_of_ne e with e | e
      · exact .inl (Nat.compare_eq_lt.mpr e)
      · exact .inr (Nat.compare_eq_gt.mpr e)
  | key =>
    cases q with
    | key x => exact .inl rfl
    | lt x y =>
      show (x, ltIn ys x y) = (x, true) ∨ (x, ltIn ys x y) = (x, false)
      cases ltIn ys x y <;> simp

theorem yes_eq_no [DecidableEq α] (xs : List α) (st : Style) (q : st.Q α α) (h : st.isComparison q = false) : yes xs st q = no xs st q := by
  cases st with
  | ord => cases h
  | cmp => cases h
  | key =>
    cases q with
    | key x => rfl
    | lt x y => cases h

/-! ### Sorting finds out the order -/

theorem ltIn_sorted [DecidableEq α] {ys : List α} (h : ys.Nodup) : Sorted (ltIn ys) ys := by
  refine List.pairwise_iff_getElem.mpr fun i j hi hj hij => ?_
  unfold ltIn
  rw [h.idxOf_getElem, h.idxOf_getElem]
  exact decide_eq_false (by omega)

/-- A list sorted by the order of `ys` is `ys`. -/
theorem eq_of_ltIn [DecidableEq α] {ys zs : List α} (h : ys.Nodup) (hp : zs.Perm ys) (hs : Sorted (ltIn ys) zs) : zs = ys := by
  refine List.Perm.eq_of_pairwise (le := fun a b => ltIn ys b a = false) ?_ hs (ltIn_sorted h) hp
  intro a b ha hb h1 h2
  simp only [ltIn, decide_eq_false_iff_not] at h1 h2
  exact (List.idxOf_inj hb).mp (by omega) |>.symm

/-- User code which reveals as little as possible about the order of the elements `xs`. -/
noncomputable def secretive [DecidableEq α] (st : Style) (xs : List α) (flip : τ → Bool × τ) :
    Oracle (List (List α) × τ) (st.Q α α) (st.A α) :=
  .adversary (fun ys => byRank ys st) (yes xs st) (no xs st) flip

theorem secretive_noPanic [DecidableEq α] {st : Style} {xs : List α} {flip : τ → Bool × τ} : NoPanic (secretive st xs flip) :=
  fun _ _ h => nomatch h

theorem secretive_steps [DecidableEq α] {st : Style} {xs zs : List α} (nd : xs.Nodup) {flip : τ → Bool × τ} {p p' : Prog α (st.Q α α) (st.A α) Unit}
    {s s' : St α (st.Q α α) (st.A α) (List (List α) × τ)} (he : s.env.1 = xs.permutations) (h : Steps (secretive st xs flip) p s p' s')
    (sorts : ∀ {lt : α → α → Bool} {d}, SWO lt → s'.log = s.log ++ d → Consistent st lt d → Sorted lt zs ∧ zs.Perm xs) :
    zs.Perm xs ∧ ∃ d, s'.log = s.log ++ d ∧ xs.length ! ≤ 2 ^ comparisons st d ∧ ∀ x ∈ d, x.2 = some (byRank zs st x.1) := by
  obtain ⟨d, h1, h2, h3, h4⟩ := Undecided.steps (S := xs.permutations) (cost := st.isComparison)
    (fun ys hy q => byRank_yes_no (List.mem_permutations.mp hy) st q) (yes_eq_no xs st) h he
  have all : ∀ ys ∈ s'.env.1, ys = zs := by
    intro ys hy
    have hp := List.mem_permutations.mp (h2.subset hy)
    obtain ⟨g1, g2⟩ := sorts (ltIn_swo ys) h1 (byRank_consistent (h3 ys hy))
    exact (eq_of_ltIn (hp.nodup_iff.mpr nd) (g2.trans hp.symm) g1).symm
  have nd' : s'.env.1.Nodup := h2.nodup (List.nodup_permutations xs nd)
  rw [List.length_permutations] at h4
  have le : s'.env.1.length ≤ 1 := by
    have := (List.nodup_iff_count_le_one.mp nd') zs
    rwa [List.count_eq_length.mpr fun ys hy => (all ys hy).symm] at this
  have pos : 0 < s'.env.1.length := by
    rcases Nat.eq_zero_or_pos s'.env.1.length with e | e
    · rw [e, Nat.zero_mul] at h4
      exact absurd (Nat.factorial_pos xs.length) (by omega)
    · exact e
  obtain ⟨ys, hy⟩ := List.exists_mem_of_length_pos pos
  have e := all ys hy
  refine ⟨?_, d, h1, ?_, fun x hx => ?_⟩
  · rw [← e]; exact List.mem_permutations.mp (h2.subset hy)
  · refine Nat.le_trans h4 ?_
    exact Nat.le_trans (Nat.mul_le_mul_right _ le) (by rw [Nat.one_mul]; exact Nat.le_refl _)
  · rw [← e]; exact h3 ys hy x hx

theorem secretive_run [DecidableEq α] {st : Style} {xs : List α} (nd : xs.Nodup) {p : Prog α (st.Q α α) (st.A α) Unit} {m : Mem α}
    {l : List (st.Q α α × Option (st.A α))}
    (ends : ∃ s', run (secretive st xs fun e : Unit => (true, e)) p ⟨m, (xs.permutations, ()), l⟩ = (.ok (), s'))
    (sorts : ∀ {s' lt d}, Steps (secretive st xs fun e : Unit => (true, e)) p ⟨m, (xs.permutations, ()), l⟩ (.ret ()) s' → SWO lt → s'.log = l ++ d →
      Consistent st lt d → Sorted lt (v.contents s'.mem) ∧ (v.contents s'.mem).Perm xs) :
    ∃ (lt : α → α → Bool) (o : Oracle Unit (st.Q α α) (st.A α)), SWO lt ∧ Agrees st o lt ∧
      ∃ m' d, run o p ⟨m, (), l⟩ = (.ok (), ⟨m', (), l ++ d⟩) ∧ xs.length ! ≤ 2 ^ comparisons st d := by
  obtain ⟨s', h⟩ := ends
  have hs := run_steps_ret h
  obtain ⟨-, d, h2, h3, h4⟩ := secretive_steps nd rfl hs (fun so hd hc => sorts hs so hd hc)
  refine ⟨ltIn (v.contents s'.mem), funOracle (byRank (v.contents s'.mem) st), ltIn_swo _, byRank_agrees _ st, s'.mem, d, ?_, h3⟩
  have := run_replay (f := byRank (v.contents s'.mem) st) (o := secretive st xs fun e : Unit => (true, e)) (fun _ => rfl) (p := p)
    (s := ⟨m, (xs.permutations, ()), l⟩) (L := d) h4 (by rw [h, h2])
  rw [h] at this
  have e : s'.forget = ⟨s'.mem, (), l ++ d⟩ := by rw [← h2]; rfl
  rw [← e]
  exact this

/-! ### The sorts -/

/-- C83: for each array of `n` different elements there is a strict weak order, and a comparator which agrees with it, such that
`sort*` makes so many comparisons that there are at least `n!` ways of answering them. -/
theorem sort_entropy [DecidableEq α] (st : Style) (hz : cfg.zst = true → Subsingleton α) (hv : v.WF) {al : Alloc} (hal : al.Succeeds) {heap : Addr}
    (hf : Fresh v (scratch heap (v.len / 2))) (m : Mem α) (l : List (st.Q α α × Option (st.A α))) (nd : (v.contents m).Nodup) :
    ∃ (lt : α → α → Bool) (o : Oracle Unit (st.Q α α) (st.A α)), SWO lt ∧ Agrees st o lt ∧
      ∃ m' d, run o (sortStable st cfg v al heap) ⟨m, (), l⟩ = (.ok (), ⟨m', (), l ++ d⟩) ∧ v.len ! ≤ 2 ^ comparisons st d := by
  rw [← v.contents_length m]
  refine secretive_run (v := v) nd ?_ fun h so hd hc => ?_
  · obtain ⟨s', h, -⟩ := sort_returns (cfg := cfg) (o := secretive st (v.contents m) fun e : Unit => (true, e)) secretive_noPanic hz hv hal hf
      ⟨m, ((v.contents m).permutations, ()), l⟩
    exact ⟨s', h⟩
  · have := sort_sorts_told so hz hv hal hf h hd hc
    exact ⟨this.1, this.2⟩

/-- C83: the same for `sort_unstable*`. -/
theorem sort_unstable_entropy [DecidableEq α] (st : Style) (hz : cfg.zst = true → Subsingleton α) (hv : v.WF) (m : Mem α)
    (l : List (st.Q α α × Option (st.A α))) (nd : (v.contents m).Nodup) :
    ∃ (lt : α → α → Bool) (o : Oracle Unit (st.Q α α) (st.A α)), SWO lt ∧ Agrees st o lt ∧
      ∃ m' d, run o (sortUnstable st cfg v) ⟨m, (), l⟩ = (.ok (), ⟨m', (), l ++ d⟩) ∧ v.len ! ≤ 2 ^ comparisons st d := by
  rw [← v.contents_length m]
  refine secretive_run (v := v) nd ?_ fun h so hd hc => sort_unstable_sorts_told so hz hv h hd hc
  obtain ⟨s', h, -⟩ := sort_unstable_returns (cfg := cfg) (o := secretive st (v.contents m) fun e : Unit => (true, e)) secretive_noPanic hz hv
    ⟨m, ((v.contents m).permutations, ()), l⟩
  exact ⟨s', h⟩

/-- C83: for each array of `n` different elements there is a comparator which never panics, such that `par_sort*` returns, under every schedule and
whatever the other choices of the environment are (`flip`), only after so many comparisons (of all threads together) that there are at least `n!` ways of
answering them; and all its answers in this run are those of one order of the elements. -/
theorem par_sort_entropy [DecidableEq α] (st : Style) (hz : cfg.zst = true → Subsingleton α) (hv : v.WF) {heap : Addr}
    (hf : Fresh v (scratch heap v.len)) (m : Mem α) (l : List (st.Q α α × Option (st.A α))) (nd : (v.contents m).Nodup)
    (flip : τ → Bool × τ) (e : τ) :
    ∃ (σ : Type) (o : Oracle (σ × τ) (st.Q α α) (st.A α)) (e0 : σ), NoPanic o ∧ (∀ e, o.flip e = ((flip e.2).1, (e.1, (flip e.2).2))) ∧
      ∀ s', Steps o (parSortStable st cfg v heap) ⟨m, (e0, e), l⟩ (.ret ()) s' →
        ∃ d, s'.log = l ++ d ∧ v.len ! ≤ 2 ^ comparisons st d ∧ ∃ lt, SWO lt ∧ Consistent st lt d := by
  refine ⟨_, secretive st (v.contents m) flip, (v.contents m).permutations, secretive_noPanic, fun _ => rfl, fun s' h => ?_⟩
  rw [← v.contents_length m]
  obtain ⟨-, d, h2, h3, h4⟩ := secretive_steps nd rfl h
    (fun so hd hc => let t := par_sort_sorts_told so hz hv hf h hd hc; ⟨t.sorted, t.perm⟩)
  exact ⟨d, h2, h3, _, ltIn_swo _, byRank_consistent h4⟩

/-- C83: the same for `par_sort_unstable*`. -/
theorem par_sort_unstable_entropy [DecidableEq α] (st : Style) (hz : cfg.zst = true → Subsingleton α) (hv : v.WF)
    (m : Mem α) (l : List (st.Q α α × Option (st.A α))) (nd : (v.contents m).Nodup) (flip : τ → Bool × τ) (e : τ) :
    ∃ (σ : Type) (o : Oracle (σ × τ) (st.Q α α) (st.A α)) (e0 : σ), NoPanic o ∧ (∀ e, o.flip e = ((flip e.2).1, (e.1, (flip e.2).2))) ∧
      ∀ s', Steps o (parSortUnstable st cfg v) ⟨m, (e0, e), l⟩ (.ret ()) s' →
        ∃ d, s'.log = l ++ d ∧ v.len ! ≤ 2 ^ comparisons st d ∧ ∃ lt, SWO lt ∧ Consistent st lt d := by
  refine ⟨_, secretive st (v.contents m) flip, (v.contents m).permutations, secretive_noPanic, fun _ => rfl, fun s' h => ?_⟩
  rw [← v.contents_length m]
  obtain ⟨-, d, h2, h3, h4⟩ := secretive_steps nd rfl h (fun so hd hc => par_sort_unstable_sorts_told so hz hv h hd hc)
  exact ⟨d, h2, h3, _, ltIn_swo _, byRank_consistent h4⟩

/-- C83: `n!` ways of answering take at least `n * log2 n / 2` comparisons.  So the bounds of C50, C51 and C56 are the best possible ones up to constants. -/
theorem entropy_log {n k : Nat} (h : n ! ≤ 2 ^ k) : n * Nat.log2 n ≤ 2 * k := by
  have h1 : n ^ n ≤ n ! * n ! := by
    have e1 : n ! = ∏ i ∈ Finset.range n, (i + 1) := (Finset.prod_range_add_one_eq_factorial n).symm
    have e2 : n ! = ∏ i ∈ Finset.range n, (n - 1 - i + 1) := by
      rw [e1]; exact (Finset.prod_range_reflect (fun i => i + 1) n).symm
    calc n ^ n = ∏ _i ∈ Finset.range n, n := by rw [Finset.prod_const, Finset.card_range]
      _ ≤ ∏ i ∈ Finset.range n, ((i + 1) * (n - 1 - i + 1)) := by
        refine Finset.prod_le_prod' fun i hi => ?_
        have := Finset.mem_range.mp hi
        obtain ⟨j, rfl⟩ : ∃ j, n = i + j + 1 := ⟨n - 1 - i, by omega⟩
        rw [show i + j + 1 - 1 - i + 1 = j + 1 by omega]
        rw [Nat.add_mul, Nat.mul_add]
        have := Nat.zero_le (i * j)
        omega
      _ = n ! * n ! := by rw [Finset.prod_mul_distrib, ← e1, ← e2]
  rcases Nat.eq_zero_or_pos n with rfl | hn
  · omega
  refine (Nat.pow_le_pow_iff_right (a := 2) (by decide)).mp ?_
  calc 2 ^ (n * Nat.log2 n) = (2 ^ Nat.log2 n) ^ n := by rw [Nat.mul_comm, Nat.pow_mul]
    _ ≤ n ^ n := Nat.pow_le_pow_left (Nat.log2_self_le (by omega)) n
    _ ≤ n ! * n ! := h1
    _ ≤ 2 ^ k * 2 ^ k := Nat.mul_le_mul h h
    _ = 2 ^ (2 * k) := by rw [← Nat.pow_add]; congr 1; omega

/-! ### The hypotheses can be met -/

/-- Each cell holds its address. -/
theorem Sample.addresses_nodup {v : View} (hv : v.WF) : (v.contents (fun a => a : Mem Int)).Nodup :=
  (View.region_nodup hv).map fun _ _ h => h

example (st : Style) : ∃ (lt : Int → Int → Bool) (o : Oracle Unit (st.Q Int Int) (st.A Int)), SWO lt ∧ Agrees st o lt ∧
    ∃ m' d, run o (sortStable st Sample.cfg Sample.view Sample.alloc 300) ⟨fun a => a, (), []⟩ = (.ok (), ⟨m', (), [] ++ d⟩) ∧
      60 ! ≤ 2 ^ comparisons st d :=
  sort_entropy (cfg := Sample.cfg) st (fun h => nomatch h) Sample.wf Sample.alloc_succeeds (Sample.fresh (n := 30)) _ _ (Sample.addresses_nodup Sample.wf)

example (st : Style) := sort_unstable_entropy (α := Int) (cfg := Sample.cfg) (v := Sample.view) st (fun h => nomatch h) Sample.wf _ []
  (Sample.addresses_nodup Sample.wf)

/-- The first comparator and scheduler of which `par_sort_entropy` tells; there are runs which return, so that it tells something. -/
example (st : Style) (c : Bool) : ∃ (o : Oracle (List (List Int) × Unit) (st.Q Int Int) (st.A Int)) (e0 : List (List Int))
    (s' : St Int (st.Q Int Int) (st.A Int) (List (List Int) × Unit)),
    Steps o (parSortStable st Sample.cfg Sample.long 300) ⟨fun a => a, (e0, ()), []⟩ (.ret ()) s' ∧ 5003 ! ≤ 2 ^ comparisons st s'.log := by
  refine ⟨secretive st (Sample.long.contents fun a => a) fun e => (c, e), (Sample.long.contents fun a => a).permutations, ?_⟩
  have hz : Sample.cfg.zst = true → Subsingleton Int := fun h => nomatch h
  obtain ⟨b, c', s', h⟩ := ((par_sort_safe (cfg := Sample.cfg) (secretive st (Sample.long.contents fun a => a) fun e : Unit => (c, e)) hz Sample.long_wf
    Sample.long_fresh ⟨fun a => a, ((Sample.long.contents fun a => a).permutations, ()), []⟩).mono (fun _ _ h => h)
    (fun _ _ h => h.2.1 secretive_noPanic)).returns
  obtain ⟨-, d, h2, h3, -⟩ := secretive_steps (Sample.addresses_nodup Sample.long_wf) rfl h.steps
    (fun so hd hc => let t := par_sort_sorts_told so hz Sample.long_wf Sample.long_fresh h.steps hd hc; ⟨t.sorted, t.perm⟩)
  refine ⟨s', h.steps, ?_⟩
  rw [h2]
  rwa [Sample.long.contents_length] at h3

example (st : Style) := par_sort_entropy (α := Int) (cfg := Sample.cfg) st (fun h => nomatch h) Sample.long_wf Sample.long_fresh _ []
  (Sample.addresses_nodup Sample.long_wf) (fun e : Nat => (e % 2 == 0, e + 1)) 0

example (st : Style) := par_sort_unstable_entropy (α := Int) (cfg := Sample.cfg) (v := Sample.view) st (fun h => nomatch h) Sample.wf _ []
  (Sample.addresses_nodup Sample.wf) (fun e : Nat => (e % 2 == 0, e + 1)) 0

/-- 60 elements take at least 150 comparisons. -/
example {k : Nat} (h : 60 ! ≤ 2 ^ k) : 150 ≤ k := by
  have := entropy_log h
  rw [show Nat.log2 60 = 5 by decide] at this
  omega

end NdSlice
