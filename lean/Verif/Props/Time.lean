import Verif.Core.RunSteps
import Verif.Proof.CreditPar
import Verif.Props.Cached
import Verif.Props.ParCost
import Verif.Props.SelectLinear

/-
C68: running time.  `StepsN o n p s p' s'` says that from `p` and `s` some schedule leads to `p'` and `s'` with exactly `n` steps.  A step is a read or a write of
an element (in the array or in the buffer), a call of user code, the end of a `join`, or a choice of the environment (is a task still started? is there memory?).
Loop control, arithmetic and the operations on the run stack and on the lists of indices come with these and are not counted.

All methods take at most 13 steps per call of user code, and a number of further steps which depends on the length only: whatever user code answers,
and also if it panics.  With the bounds on the number of calls (C50, C51, C53, C56, C57) this bounds the time.
-/

namespace NdSlice

open Style

variable {α κ σ ι ω β : Type} {st : Style} {cfg : Cfg} {v : View}

/-- The run of the tasks one after the other is a sequence of steps as well: so what holds for all `StepsN` holds for it. -/
theorem run_stepsN {o : Oracle σ ι ω} {p : Prog α ι ω β} {s s' : St α ι ω σ} :
    (∀ b, run o p s = (.ok b, s') → ∃ n, StepsN o n p s (.ret b) s') ∧ ∀ e, run o p s = (.panic e, s') → ∃ n, StepsN o n p s (.throw e) s' := by
  have h := run_reaches (o := o) (p := p) (s := s)
  constructor
  · intro b e
    rw [e] at h
    exact Steps.stepsN h
  · intro b e
    rw [e] at h
    exact Steps.stepsN h

theorem Credit.time {o : Oracle σ ι ω} {n B : Nat} {p p' : Prog α ι ω β} {s s' : St α ι ω σ} {Q : β → Nat → Prop} (hc : Credit 12 p B Q)
    (h : StepsN o n p s p' s') : n + 13 * s.log.length ≤ B + 13 * s'.log.length := by
  obtain ⟨B', -, h⟩ := hc.steps h
  omega

theorem Style.yields : Yields 12 (st.less : α → α → Prog α (st.Q α κ) (st.A κ) Bool) := by
  intro x y B
  cases st with
  | ord => intro r; cases r with
    | none => trivial
    | some b => exact Nat.le_refl _
  | cmp => intro r; cases r with
    | none => trivial
    | some b => exact Nat.le_refl _
  | key => intro r; cases r with
    | none => trivial
    | some k => intro r; cases r with
      | none => trivial
      | some l => intro r; cases r with
        | none => trivial
        | some c => show B + 12 ≤ B + 12 + 12 + 12; omega

/-! ### Steps per call -/

/-- C68: `sort*`, whatever user code answers and whatever the allocator does. -/
theorem sort_steps (o : Oracle σ (st.Q α κ) (st.A κ)) (al : Alloc) (heap : Addr) {n : Nat} {s s' : St α (st.Q α κ) (st.A κ) σ}
    {p' : Prog α (st.Q α κ) (st.A κ) Unit} (h : StepsN o n (sortStable st cfg v al heap) s p' s') :
    n + 13 * s.log.length ≤ 2 * v.len + 2 + 13 * s'.log.length :=
  (stableSort_credit Style.yields (Nat.le_refl _)).time h

/-- C68: `sort_unstable*`. -/
theorem sort_unstable_steps (o : Oracle σ (st.Q α κ) (st.A κ)) {n : Nat} {s s' : St α (st.Q α κ) (st.A κ) σ}
    {p' : Prog α (st.Q α κ) (st.A κ) Unit} (h : StepsN o n (sortUnstable st cfg v) s p' s') :
    n + 13 * s.log.length ≤ 2 * v.len + 24 + 13 * s'.log.length :=
  (quickSort_credit Style.yields (Nat.le_refl _)).time h

/-- C68: `par_sort_unstable*`, at every moment of every schedule; the steps of all tasks together. -/
theorem par_sort_unstable_steps (o : Oracle σ (st.Q α κ) (st.A κ)) {n : Nat} {s s' : St α (st.Q α κ) (st.A κ) σ}
    {p' : Prog α (st.Q α κ) (st.A κ) Unit} (h : StepsN o n (parSortUnstable st cfg v) s p' s') :
    n + 13 * s.log.length ≤ 2 * v.len + 24 + 13 * s'.log.length :=
  (parQuickSort_credit Style.yields (Nat.le_refl _)).time h

/-- C68: `par_sort*`, at every moment of every schedule; the steps of all tasks together. -/
theorem par_sort_steps (o : Oracle σ (st.Q α κ) (st.A κ)) (heap : Addr) {n : Nat} {s s' : St α (st.Q α κ) (st.A κ) σ}
    {p' : Prog α (st.Q α κ) (st.A κ) Unit} (h : StepsN o n (parSortStable st cfg v heap) s p' s') :
    n + 13 * s.log.length ≤ 4 * (v.len * Nat.log2 v.len) + 2 * v.len + 2 + 13 * s'.log.length :=
  (parMergeSort_credit Style.yields (Nat.le_refl _)).time h

/-- C68: `select_nth_unstable*`, for every index. -/
theorem select_nth_steps (o : Oracle σ (st.Q α κ) (st.A κ)) (index : Nat) {n : Nat} {s s' : St α (st.Q α κ) (st.A κ) σ}
    {p' : Prog α (st.Q α κ) (st.A κ) (View × Addr × View)} (h : StepsN o n (selectNthUnstable st cfg v index) s p' s') :
    n + 13 * s.log.length ≤ 2 * v.len + 24 + 13 * s'.log.length :=
  (partitionAtIndex_credit Style.yields (Nat.le_refl _)).time h

/-- C68: `select_many_nth_unstable*`, for every list of indices. -/
theorem select_many_steps (o : Oracle σ (st.Q α κ) (st.A κ)) (is : List Nat) {n : Nat} {s s' : St α (st.Q α κ) (st.A κ) σ}
    {p' : Prog α (st.Q α κ) (st.A κ) (List (Nat × Addr))} (h : StepsN o n (selectManyNthUnstable st cfg v is) s p' s') :
    n + 13 * s.log.length ≤ 2 * v.len + 24 + 4 * is.length + 13 * s'.log.length :=
  (selectMany_credit Style.yields (Nat.le_refl _)).time h

/-- C68: `par_select_many_nth_unstable*`, at every moment of every schedule; the steps of all tasks together. -/
theorem par_select_many_steps (o : Oracle σ (st.Q α κ) (st.A κ)) (is : List Nat) (extra : Nat) {n : Nat} {s s' : St α (st.Q α κ) (st.A κ) σ}
    {p' : Prog α (st.Q α κ) (st.A κ) (List (Nat × Addr))} (h : StepsN o n (parSelectManyNthUnstable st cfg v is extra) s p' s') :
    n + 13 * s.log.length ≤ 2 * v.len + 24 + 28 * is.length + 13 * s'.log.length :=
  (parSelectMany_credit Style.yields (Nat.le_refl _)).time h

/-- C68: `reverse` needs no user code: two steps for each element. -/
theorem reverse_steps (o : Oracle σ ι ω) {n : Nat} {s s' : St α ι ω σ} {p' : Prog α ι ω Unit} (h : StepsN o n (reverse cfg v) s p' s') :
    n + 13 * s.log.length ≤ 2 * v.len + 13 * s'.log.length :=
  (reverse_credit (Nat.le_refl _)).time h

/-- C68: `is_sorted*`. -/
theorem is_sorted_steps (rs : RelStyle) (o : Oracle σ (rs.Q α κ) (rs.A κ)) {n : Nat} {s s' : St α (rs.Q α κ) (rs.A κ) σ}
    {p' : Prog α (rs.Q α κ) (rs.A κ) Bool} (h : StepsN o n (isSorted rs v) s p' s') : n + 13 * s.log.length ≤ 2 + 13 * s'.log.length := by
  refine Credit.time (isSortedFrom_credit ?_ (Nat.le_refl _)) h
  intro x y B
  cases rs with
  | rel => intro r; cases r with
    | none => trivial
    | some b => exact Nat.le_refl _
  | key => intro r; cases r with
    | none => trivial
    | some k => intro r; cases r with
      | none => trivial
      | some l => intro r; cases r with
        | none => trivial
        | some c => show B + 12 ≤ B + 12 + 12 + 12; omega

/-- C68: `binary_search*`. -/
theorem binary_search_steps (ss : SearchStyle) (t : ss.T α κ) (o : Oracle σ (ss.Q α κ) (ss.A κ)) {n : Nat} {s s' : St α (ss.Q α κ) (ss.A κ) σ}
    {p' : Prog α (ss.Q α κ) (ss.A κ) (Except Nat Nat)} (h : StepsN o n (binarySearch ss cfg v t) s p' s') :
    n + 13 * s.log.length ≤ 1 + 13 * s'.log.length := by
  refine Credit.time (binarySearchBy_credit ?_ (Nat.le_refl _)) h
  intro x B
  cases ss with
  | ord => intro r; cases r with
    | none => trivial
    | some b => exact Nat.le_refl _
  | fn => intro r; cases r with
    | none => trivial
    | some b => exact Nat.le_refl _
  | key => intro r; cases r with
    | none => trivial
    | some k => intro r; cases r with
      | none => trivial
      | some l => show B + 12 ≤ B + 12 + 12; omega

/-- C68: `partition_point`. -/
theorem partition_point_steps (o : Oracle σ α Bool) {n : Nat} {s s' : St α α Bool σ} {p' : Prog α α Bool Nat}
    (h : StepsN o n (partitionPoint cfg v) s p' s') : n + 13 * s.log.length ≤ 1 + 13 * s'.log.length := by
  refine Credit.time (Q := fun _ _ => True) (Credit.bind (binarySearchBy_credit ?_ (Nat.le_refl _)) fun x _ _ => ?_) h
  · intro x B r
    cases r with
    | none => trivial
    | some b => exact Nat.le_refl _
  · cases x <;> trivial

/-- C68: `contains`. -/
theorem contains_steps (x : α) (o : Oracle σ (α × α) Bool) {n : Nat} {s s' : St α (α × α) Bool σ} {p' : Prog α (α × α) Bool Bool}
    (h : StepsN o n (contains v x) s p' s') : n + 13 * s.log.length ≤ 1 + 13 * s'.log.length := by
  refine Credit.time (anyFrom_credit ?_ (Nat.le_refl _)) h
  intro x B r
  cases r with
  | none => trivial
  | some b => exact Nat.le_refl _

/-- C68: `partition_dedup*`.  The changes which user code makes to the elements it is given are counted as steps. -/
theorem dedup_steps (ds : DedupStyle) (o : Oracle σ (ds.Q α κ) (ds.A α κ)) {n : Nat} {s s' : St α (ds.Q α κ) (ds.A α κ) σ}
    {p' : Prog α (ds.Q α κ) (ds.A α κ) (View × View)} (h : StepsN o n (partitionDedup ds cfg v) s p' s') :
    n + 13 * s.log.length ≤ 2 + 13 * s'.log.length := by
  refine Credit.time (partitionDedupBy_credit ?_ (Nat.le_refl _)) h
  intro a b B hB
  have key : ∀ (a : Addr) (B : Nat), 1 ≤ B → Credit 12 (DedupStyle.askKey (α := α) (κ := κ) a) B (fun _ r => B + 10 ≤ r) := by
    intro a B hB
    refine ⟨B - 1, by omega, fun x r => ?_⟩
    cases r with
    | none => trivial
    | some r =>
      refine ⟨B - 1 + 11, rfl, ?_⟩
      obtain ⟨_, _ | k, _⟩ := r
      · trivial
      · show B + 10 ≤ B - 1 + 11
        omega
  cases ds with
  | eq =>
    refine ⟨B - 1, by omega, fun x => ⟨B - 2, by omega, fun y r => ?_⟩⟩
    cases r with
    | none => trivial
    | some b => show B + 8 ≤ B - 2 + 12; omega
  | fn =>
    refine ⟨B - 1, by omega, fun x => ⟨B - 2, by omega, fun y r => ?_⟩⟩
    cases r with
    | none => trivial
    | some r =>
      refine ⟨B - 2 + 11, rfl, B - 2 + 10, rfl, ?_⟩
      obtain ⟨_, _, _ | c⟩ := r
      · trivial
      · show B + 8 ≤ B - 2 + 10
        omega
  | key =>
    refine Credit.bind (key _ _ (by omega)) fun k r1 h1 => Credit.bind (key _ _ (by omega)) fun l r2 h2 r => ?_
    cases r with
    | none => trivial
    | some b => show B + 8 ≤ r2 + 12; omega

/-- A program which does nothing but call user code. -/
def OnlyCalls {β : Type} : Prog α ι ω β → Prop
  | .ret _ => True
  | .throw _ => True
  | .call _ k => ∀ r, OnlyCalls (k r)
  | _ => False

/-- C68: `sort_by_cached_key`, for every sort of the pairs of keys and indices (not part of this crate) which does nothing but call user code. -/
theorem sort_by_cached_key_steps {sz : Sizes} {srt : PairSort α κ} (hs : ∀ l, OnlyCalls (srt l)) (o : Oracle σ (KeyQ α κ) (κ × Bool)) {n : Nat}
    {s s' : St α (KeyQ α κ) (κ × Bool) σ} {p' : Prog α (KeyQ α κ) (κ × Bool) Unit} (h : StepsN o n (sortByCachedKey cfg sz srt v) s p' s') :
    n + 13 * s.log.length ≤ 1 + 13 * s'.log.length := by
  refine Credit.time (sortByCachedKey_credit ?_ (Nat.le_refl _)) h
  intro l B
  have hs := hs l
  have : ∀ {β : Type} (p : Prog α (KeyQ α κ) (κ × Bool) β) (B B' : Nat), OnlyCalls p → B ≤ B' → Credit 12 p B' (fun _ r => B ≤ r) := by
    intro β p
    induction p with
    | ret b => exact fun B B' _ h => h
    | throw e => exact fun _ _ _ _ => trivial
    | call q k ih => exact fun B B' h hB r => ih r B (B' + 12) (h r) (by omega)
    | get => exact fun _ _ h _ => h.elim
    | set => exact fun _ _ h _ => h.elim
    | choose => exact fun _ _ h _ => h.elim
    | ub => exact fun _ _ h _ => h.elim
    | diverge => exact fun _ _ h _ => h.elim
    | join => exact fun _ _ h _ => h.elim
  exact this _ _ _ hs (Nat.le_refl _)

/-! ### Time -/

/-- C68: `sort*` takes O(n log n) steps, whatever user code answers. -/
theorem sort_time (o : Oracle σ (st.Q α κ) (st.A κ)) (al : Alloc) (heap : Addr) {n : Nat} {s s' : St α (st.Q α κ) (st.A κ) σ}
    {p' : Prog α (st.Q α κ) (st.A κ) Unit} (h : StepsN o n (sortStable st cfg v al heap) s p' s') :
    n ≤ 2 * v.len + 2 + st.calls * (104 * (v.len * Nat.log2 v.len)) := by
  have h1 := sort_steps o al heap h
  obtain ⟨B', -, h2⟩ := Spend.steps (stableSort_cost (cfg := cfg) (al := al) (v := v) (buf := ⟨heap, 1, v.len / 2⟩) (Style.asks (st := st) (α := α) (κ := κ))) h.steps
  rw [show 104 * (v.len * Nat.log2 v.len) = 13 * (8 * (v.len * Nat.log2 v.len)) by omega, Nat.mul_left_comm]
  omega

/-- C68: `par_sort*` takes O(n log n) steps, whatever user code answers: all tasks together, at every moment of every schedule. -/
theorem par_sort_time (o : Oracle σ (st.Q α κ) (st.A κ)) (heap : Addr) {n : Nat} {s s' : St α (st.Q α κ) (st.A κ) σ}
    {p' : Prog α (st.Q α κ) (st.A κ) Unit} (h : StepsN o n (parSortStable st cfg v heap) s p' s') :
    n ≤ 4 * (v.len * Nat.log2 v.len) + 2 * v.len + 2 + st.calls * (104 * (v.len * Nat.log2 v.len)) := by
  have h1 := par_sort_steps o heap h
  have h2 := par_sort_comparisons o heap h.steps
  rw [show 104 * (v.len * Nat.log2 v.len) = 13 * (8 * (v.len * Nat.log2 v.len)) by omega, Nat.mul_left_comm st.calls]
  omega

/-- C68: `sort_unstable*` takes O(n log n) steps if the comparator is consistent. -/
theorem sort_unstable_time {o : Oracle σ (st.Q α κ) (st.A κ)} {lt : α → α → Bool} (ho : Agrees st o lt) (so : SWO lt) (hv : v.WF) {n : Nat}
    {s s' : St α (st.Q α κ) (st.A κ) σ} {p' : Prog α (st.Q α κ) (st.A κ) Unit} (h : StepsN o n (sortUnstable st cfg v) s p' s') :
    n ≤ 2 * v.len + 24 + 13 * (st.calls * (v.len * (263 * Nat.log2 v.len + 279))) := by
  have h1 := sort_unstable_steps o h
  have h2 := TriB.steps (rel_sat o) hv (quickSort_budget (cfg := cfg) (C := st.toCmp (rel o)) (good_of_agrees ho so) Style.asks (v.contents_length s.mem)) h.steps
  omega

/-- C68: `sort_unstable*` takes O(n^2) steps, whatever user code answers. -/
theorem sort_unstable_time_any (o : Oracle σ (st.Q α κ) (st.A κ)) {n : Nat} {s s' : St α (st.Q α κ) (st.A κ) σ}
    {p' : Prog α (st.Q α κ) (st.A κ) Unit} (h : StepsN o n (sortUnstable st cfg v) s p' s') :
    n ≤ 2 * v.len + 24 + st.calls * (91 * v.len ^ 2) := by
  have h1 := sort_unstable_steps o h
  obtain ⟨B', -, h2⟩ := Spend.steps (quickSort_costA (cfg := cfg) (v := v) (Style.asks (st := st) (α := α) (κ := κ))) h.steps
  rw [← Nat.pow_two] at h2
  rw [show 91 * v.len ^ 2 = 13 * (7 * v.len ^ 2) by omega, Nat.mul_left_comm]
  omega

/-- C68: `par_sort_unstable*` takes O(n^2) steps, whatever user code answers: all tasks together, at every moment of every schedule. -/
theorem par_sort_unstable_time_any (o : Oracle σ (st.Q α κ) (st.A κ)) {n : Nat} {s s' : St α (st.Q α κ) (st.A κ) σ}
    {p' : Prog α (st.Q α κ) (st.A κ) Unit} (h : StepsN o n (parSortUnstable st cfg v) s p' s') :
    n ≤ 2 * v.len + 24 + st.calls * (91 * v.len ^ 2) := by
  have h1 := par_sort_unstable_steps o h
  have h2 := par_sort_unstable_comparisons_any o h.steps
  rw [show 91 * v.len ^ 2 = 13 * (7 * v.len ^ 2) by omega, Nat.mul_left_comm]
  omega

/-- C68: selecting many elements of `n` of which no more than `m` are equal takes O(n (log j + 1)) steps for `j > 0` indices, sequentially and in parallel. -/
theorem select_time (m : Nat) : ∃ K, ∀ {α κ σ : Type} {st : Style} {cfg : Cfg} {v : View} {o : Oracle σ (st.Q α κ) (st.A κ)}
    {lt : α → α → Bool} (_ : Agrees st o lt) (_ : SWO lt) (_ : v.WF) (is : List Nat) (extra : Nat) (s : St α (st.Q α κ) (st.A κ) σ),
    FewEqual lt m (v.contents s.mem) →
      (∀ {n index p' s'}, StepsN o n (selectNthUnstable st cfg v index) s p' s' → n ≤ 2 * v.len + 24 + st.calls * (v.len * K)) ∧
      (∀ {n p' s'}, StepsN o n (selectManyNthUnstable st cfg v is) s p' s' →
        n ≤ 2 * v.len + 24 + 4 * is.length + st.calls * (v.len * K * (Nat.log2 is.length + 1))) ∧
      (∀ {n p' s'}, StepsN o n (parSelectManyNthUnstable st cfg v is extra) s p' s' →
        n ≤ 2 * v.len + 24 + 28 * is.length + st.calls * (v.len * K * (Nat.log2 is.length + 1))) := by
  refine ⟨13 * selRate m, fun {_ _ _ st _ v o _} ho so hv is extra s hf => ⟨fun {n index p' s'} h => ?_, fun {n p' s'} h => ?_, fun {n p' s'} h => ?_⟩⟩
  · have h1 := select_nth_steps o index h
    have h2 := TriB.steps (rel_sat o) hv
      (partitionAtIndex_budget (C := st.toCmp (rel o)) (k := index) (good_of_agrees ho so) Style.asks (v.contents_length s.mem) hf) h.steps
    rw [Nat.mul_left_comm v.len, Nat.mul_left_comm st.calls]
    omega
  · have h1 := select_many_steps o is h
    have h2 := TriB.steps (rel_sat o) hv
      (partitionAtIndices_budget (C := st.toCmp (rel o)) (off := 0) (is := is) (good_of_agrees ho so) Style.asks (v.contents_length s.mem)
        (Nat.lt_succ_self _) Nat.lt_log2_self hf) h.steps
    rw [Nat.mul_left_comm v.len, Nat.mul_assoc, Nat.mul_left_comm st.calls]
    omega
  · have h1 := par_select_many_steps o is extra h
    have h2 := TriB.steps (rel_sat o) hv
      (parPartitionAtIndices_budget (C := st.toCmp (rel o)) (off := 0) (is := is) (good_of_agrees ho so) Style.asks (v.contents_length s.mem)
        (Nat.lt_succ_self _) Nat.lt_log2_self hf) h.steps
    rw [Nat.mul_left_comm v.len, Nat.mul_assoc, Nat.mul_left_comm st.calls]
    omega

/-! ### The hypotheses can be met -/

example (st : Style) : ∃ n s', StepsN (Sample.oracle st) n (sortUnstable st Sample.cfg Sample.view) (Sample.state st) (.ret ()) s' ∧
    n ≤ 144 + 13 * (st.calls * (60 * (263 * 5 + 279))) ∧ n ≤ 144 + 13 * s'.log.length := by
  obtain ⟨s', h, -⟩ := sort_unstable_sorts (cfg := Sample.cfg) Sample.swo (Sample.agrees st) Sample.notZst Sample.wf (Sample.state st)
  obtain ⟨n, h⟩ := run_stepsN.1 _ h
  have := sort_unstable_time (Sample.agrees st) Sample.swo Sample.wf h
  rw [show Sample.view.len = 60 from rfl, show Nat.log2 60 = 5 by decide] at this
  exact ⟨n, s', h, this, sort_unstable_steps _ h⟩

/-- The run which panics at its tenth call, too. -/
example (st : Style) {al : Alloc} {e s'} (h : run (Sample.nonsense st) (sortStable st Sample.cfg Sample.view al 300) (Sample.nstate st) = (.panic e, s')) :
    ∃ n, StepsN (Sample.nonsense st) n (sortStable st Sample.cfg Sample.view al 300) (Sample.nstate st) (.throw e) s' ∧ n ≤ 122 + 13 * s'.log.length ∧
      n ≤ 122 + st.calls * (104 * (60 * 5)) := by
  obtain ⟨n, h⟩ := run_stepsN.2 _ h
  have := sort_time _ _ _ h
  rw [show Sample.view.len = 60 from rfl, show Nat.log2 60 = 5 by decide] at this
  exact ⟨n, h, sort_steps _ _ _ h, this⟩

example (st : Style) := par_sort_steps (st := st) (cfg := Sample.cfg) (v := Sample.view) (Sample.nonsense st) 300 (s := Sample.nstate st) (.refl _ _)
example (st : Style) := par_sort_time (st := st) (cfg := Sample.cfg) (v := Sample.view) (Sample.nonsense st) 300 (s := Sample.nstate st) (.refl _ _)
example (st : Style) := par_sort_unstable_steps (st := st) (cfg := Sample.cfg) (v := Sample.view) (Sample.nonsense st) (s := Sample.nstate st) (.refl _ _)
example (st : Style) := par_sort_unstable_time_any (st := st) (cfg := Sample.cfg) (v := Sample.view) (Sample.nonsense st) (s := Sample.nstate st) (.refl _ _)
example (st : Style) := sort_unstable_time_any (st := st) (cfg := Sample.cfg) (v := Sample.view) (Sample.nonsense st) (s := Sample.nstate st) (.refl _ _)
example (st : Style) := select_nth_steps (st := st) (cfg := Sample.cfg) (v := Sample.view) (Sample.nonsense st) 17 (s := Sample.nstate st) (.refl _ _)
example (st : Style) := select_many_steps (st := st) (cfg := Sample.cfg) (v := Sample.view) (Sample.nonsense st) [3, 17, 40] (s := Sample.nstate st) (.refl _ _)
example (st : Style) := par_select_many_steps (st := st) (cfg := Sample.cfg) (v := Sample.view) (Sample.nonsense st) [3, 17, 40] 1 (s := Sample.nstate st)
  (.refl _ _)
example : ∃ n s', StepsN (Sample.oracle .ord) n (reverse Sample.cfg Sample.view) (Sample.state .ord) (.ret ()) s' ∧ n ≤ 120 := by
  have e : run (Sample.oracle .ord) (reverse Sample.cfg Sample.view) (Sample.state .ord) = (.ok (), _) := rfl
  obtain ⟨n, h⟩ := run_stepsN.1 _ e
  exact ⟨n, _, h, reverse_steps _ h⟩
example (st : Style) : ∃ K, ∀ n index p' s', StepsN (Sample.oracle st) n (selectNthUnstable st Sample.cfg Sample.view index) (Sample.state st) p' s' →
    n ≤ 144 + st.calls * (60 * K) := by
  obtain ⟨K, h⟩ := select_time 3
  exact ⟨K, fun n index p' s' hn => (h (Sample.agrees st) Sample.swo Sample.wf [] 0 (Sample.state st) Sample.fewEqual).1 hn⟩
/-- A sort of pairs which does nothing but call user code. -/
example : ∀ l, OnlyCalls (Sample.pairSort (α := Nat) (κ := Nat) l) := by
  have bind : ∀ {β γ : Type} (p : Prog Nat (KeyQ Nat Nat) (Nat × Bool) β) {f : β → Prog Nat (KeyQ Nat Nat) (Nat × Bool) γ}, OnlyCalls p → (∀ b, OnlyCalls (f b)) →
      OnlyCalls (p.bind f) := by
    intro β γ p f h hf
    induction p with
    | ret b => exact hf b
    | throw e => trivial
    | call q k ih => exact fun r => ih r (h r) hf
    | get => exact h.elim
    | set => exact h.elim
    | choose => exact h.elim
    | ub => exact h.elim
    | diverge => exact h.elim
    | join => exact h.elim
  have less : ∀ p q : Nat × Nat, OnlyCalls (Sample.pairLess (α := Nat) p q) := by
    intro p q r
    cases r with
    | none => trivial
    | some b =>
      dsimp only
      split
      · trivial
      · intro r; cases r <;> trivial
  have ins : ∀ (p : Nat × Nat) l, OnlyCalls (Sample.pairInsert (α := Nat) p l) := by
    intro p l
    induction l with
    | nil => trivial
    | cons q l ih =>
      refine bind _ (less _ _) fun b => ?_
      split
      · exact bind _ ih fun _ => trivial
      · trivial
  intro l
  induction l with
  | nil => trivial
  | cons p l ih => exact bind _ ih fun _ => ins _ _

end NdSlice
