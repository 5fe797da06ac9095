import Verif.Proof.Prompt
import Verif.Props.Stable
import Verif.Props.ParStable
import Verif.Props.Unstable
import Verif.Props.Select
import Verif.Props.Cached
import Verif.Props.Search
import Verif.Props.Dedup

/-
C62: panics of user code are passed on, at once, and not invented.

The definitions below are about the part `d` of the log that this run has written: all the questions user code was asked, with the answers.
-/

namespace NdSlice

variable {α κ ι ω σ β : Type} {cfg : Cfg} {v : View}

/-- The sequential run of `p` from `s`: either no answer of user code was a panic, and the run does not end with a panic of user code;
or the last answer of user code was its only panic, and the run ends with a panic of user code. -/
def PassesOn (P : ι → Option ω → Prop) (o : Oracle σ ι ω) (p : Prog α ι ω β) (s : St α ι ω σ) : Prop :=
  ∃ d, (run o p s).2.log = s.log ++ d ∧
    (((∀ x ∈ d, ¬ P x.1 x.2) ∧ (run o p s).1 ≠ .panic .user) ∨
     (∃ d' q r, d = d' ++ [(q, r)] ∧ P q r ∧ (∀ x ∈ d', ¬ P x.1 x.2) ∧ (run o p s).1 = .panic .user))

/-- Every end of every schedule of `p` from `s`: if it is normal no answer of user code was a panic; if it is a panic of user code
some answer was. -/
def PassesOnPar (P : ι → Option ω → Prop) (o : Oracle σ ι ω) (p : Prog α ι ω β) (s : St α ι ω σ) : Prop :=
  ∀ p' s' r, Steps o p s p' s' → Ended p' r → ∃ d, s'.log = s.log ++ d ∧
    (∀ b, r = .ok b → ∀ x ∈ d, ¬ P x.1 x.2) ∧ (r = .panic .user → ∃ x ∈ d, P x.1 x.2)

/-- Every end of every schedule of `p` from `s`: it is normal exactly if no answer of user code was a panic, and otherwise a panic of user
code. -/
def PassesOnExactly (P : ι → Option ω → Prop) (o : Oracle σ ι ω) (p : Prog α ι ω β) (s : St α ι ω σ) : Prop :=
  ∀ p' s' r, Steps o p s p' s' → Ended p' r → ∃ d, s'.log = s.log ++ d ∧
    (((∃ b, r = .ok b) ∧ ∀ x ∈ d, ¬ P x.1 x.2) ∨ (r = .panic .user ∧ ∃ x ∈ d, P x.1 x.2))

/-! ### From properties of the text -/

theorem Prompt.passesOn {P : ι → Option ω → Prop} {X : Panic → Prop} {o : Oracle σ ι ω} {p : Prog α ι ω β} {s : St α ι ω σ}
    {Q : β → Mem α → Prop} {E : Panic → Mem α → Prop} (h : Prompt P X p) (he : Ends o p s Q E) (hX : ∀ e m, E e m → ¬ X e) : PassesOn P o p s := by
  obtain ⟨d, h1, h2⟩ := h.run o s
  refine ⟨d, h1, h2.imp id ?_⟩
  rintro ⟨d', ⟨q, r⟩, rfl, h3, h4, h5, h6⟩
  refine ⟨d', q, r, rfl, h3, h4, ?_⟩
  rcases he with ⟨b, s', hr, -⟩ | ⟨e, s', hr, he⟩
  · exact (h5 b (by rw [hr])).elim
  · rcases h6 e (by rw [hr]) with rfl | hx
    · rw [hr]
    · exact (hX e _ he hx).elim

theorem EndsS.weak {o : Oracle σ ι ω} {p : Prog α ι ω β} {s : St α ι ω σ}
    {Q : β → St α ι ω σ → Prop} {E : Panic → St α ι ω σ → Prop} (h : EndsS o p s Q E) : Ends o p s (fun _ _ => True) (fun _ _ => True) := by
  rcases h with ⟨b, s', h, -⟩ | ⟨e, s', h, -⟩
  · exact .inl ⟨b, s', h, trivial⟩
  · exact .inr ⟨e, s', h, trivial⟩

theorem Honest.passesOn {P : ι → Option ω → Prop} {o : Oracle σ ι ω} {p : Prog α ι ω β} {s : St α ι ω σ} (h : Honest P p) :
    PassesOnPar P o p s := by
  intro p' s' r hs he
  obtain ⟨d, h1, h2⟩ := h.steps hs
  refine ⟨d, h1, ?_, ?_⟩
  · rintro b rfl
    cases he
    rcases h2 with h2 | h2
    · exact h2.2
    · exact h2.1.elim
  · rintro rfl
    cases he
    rcases h2 with h2 | h2
    · exact (h2.1 rfl).elim
    · exact h2.2

theorem Honest.exactly {P : ι → Option ω → Prop} {o : Oracle σ ι ω} {p : Prog α ι ω β} {s : St α ι ω σ} {Q : β → Mem α → Prop}
    {E : Panic → Mem α → Prop} (h : Honest P p) (ha : Always o p s Q E) (hE : ∀ e m, E e m → e = .user) : PassesOnExactly P o p s := by
  intro p' s' r hs he
  obtain ⟨d, h1, h2, h3⟩ := h.passesOn p' s' r hs he
  refine ⟨d, h1, ?_⟩
  cases he with
  | ret b => exact .inl ⟨⟨b, rfl⟩, h2 b rfl⟩
  | throw e =>
    rcases (ha.1 _ _ hs).2.2 with ⟨p'', s'', hn⟩ | ⟨b, hb, -⟩ | ⟨e', he', hE'⟩
    · cases hn
    · cases hb
    · cases he'
      obtain rfl := hE _ _ hE'
      exact .inr ⟨rfl, h3 rfl⟩

/-! ### The sequential sorts and selections -/

/-- C62 for `sort*`: a panic of user code is passed on at once, and there is no other one. -/
theorem sort_passes_on {st : Style} (o : Oracle σ (st.Q α κ) (st.A κ)) (hz : cfg.zst = true → Subsingleton α) (hv : v.WF)
    {al : Alloc} (hal : al.Succeeds) {heap : Addr} (hf : Fresh v (scratch heap (v.len / 2))) (s : St α (st.Q α κ) (st.A κ) σ) :
    PassesOn (fun _ r => r = none) o (sortStable st cfg v al heap) s :=
  Prompt.passesOn (Prompt.stableSort_pr st.less_pr) (sort_safe o hz hv hal hf s) (by rintro _ _ ⟨rfl, -⟩ (h | h) <;> cases h)

/-- C62 for `sort_unstable*`. -/
theorem sort_unstable_passes_on {st : Style} (o : Oracle σ (st.Q α κ) (st.A κ)) (hz : cfg.zst = true → Subsingleton α) (hv : v.WF)
    (s : St α (st.Q α κ) (st.A κ) σ) : PassesOn (fun _ r => r = none) o (sortUnstable st cfg v) s :=
  Prompt.passesOn (X := fun _ => False) (Prompt.quickSort_pr st.less_pr) (sort_unstable_safe o hz hv s) fun _ _ _ h => h

/-- C62 for `select_nth_unstable*`, also with an index out of range and in debug builds (where a `debug_assert!` may fail, C47). -/
theorem select_nth_passes_on {st : Style} (o : Oracle σ (st.Q α κ) (st.A κ)) (hz : cfg.zst = true → Subsingleton α) (hv : v.WF)
    (k : Nat) (s : St α (st.Q α κ) (st.A κ) σ) : PassesOn (fun _ r => r = none) o (selectNthUnstable st cfg v k) s := by
  have hp : Prompt AnsPanic (fun _ => False) (selectNthUnstable (α := α) (κ := κ) st cfg v k) := Prompt.partitionAtIndex_pr st.less_pr
  by_cases hk : k < v.len
  · exact hp.passesOn (select_nth_safe o hz hv hk s) fun _ _ _ h => h
  · exact hp.passesOn (Q := fun _ _ => True) (E := fun _ _ => True)
      (.inr ⟨_, _, select_nth_bad_index o (Nat.le_of_not_lt hk) s, trivial⟩) fun _ _ _ h => h

/-- C62 for `select_many_nth_unstable*`, also with bad indices and in debug builds. -/
theorem select_many_passes_on {st : Style} (o : Oracle σ (st.Q α κ) (st.A κ)) (hz : cfg.zst = true → Subsingleton α) (hv : v.WF)
    (hb : 2 * v.len ≤ 2 ^ cfg.bits) (is : List Nat) (s : St α (st.Q α κ) (st.A κ) σ) :
    PassesOn (fun _ r => r = none) o (selectManyNthUnstable st cfg v is) s :=
  Prompt.passesOn (X := fun _ => False) (Prompt.selectMany_pr st.less_pr) (select_many_safe o hz hv hb is s) fun _ _ _ h => h

/-- C62 for `sort_by_cached_key`, if the standard library's sort of the pairs does so. -/
theorem sort_by_cached_key_passes_on {sz : Sizes} {srt : PairSort α κ} (hs : SortsPairs srt)
    (hp : ∀ l, Prompt (fun _ r => r = none) (fun _ => False) (srt l)) (o : Oracle σ (KeyQ α κ) (κ × Bool)) (hv : v.WF)
    (hlen : v.len ≤ 2 ^ cfg.bits) (s : St α (KeyQ α κ) (κ × Bool) σ) :
    PassesOn (fun _ r => r = none) o (sortByCachedKey cfg sz srt v) s :=
  Prompt.passesOn (Prompt.sortByCachedKey_pr askKeyOf_pr hp) (sort_by_cached_key_calls hs o hv hlen s).weak fun _ _ _ h => h

/-! ### Search and deduplication -/

/-- C62 for `is_sorted*`. -/
theorem is_sorted_passes_on (st : RelStyle) (o : Oracle σ (st.Q α κ) (st.A κ)) (s : St α (st.Q α κ) (st.A κ) σ) :
    PassesOn (fun _ r => r = none) o (isSorted st v) s :=
  Prompt.passesOn (X := fun _ => False) (Prompt.isSortedBy_pr st.test_pr) (is_sorted_safe st o s).weak fun _ _ _ h => h

/-- C62 for `binary_search*`. -/
theorem binary_search_passes_on (st : SearchStyle) (o : Oracle σ (st.Q α κ) (st.A κ)) (t : st.T α κ) (s : St α (st.Q α κ) (st.A κ) σ) :
    PassesOn (fun _ r => r = none) o (binarySearch st cfg v t) s :=
  Prompt.passesOn (X := fun _ => False) (Prompt.binarySearchBy_pr (st.ask_pr t)) (binary_search_safe st cfg o t s).weak fun _ _ _ h => h

theorem askPred_pr {X : Panic → Prop} (x : α) : Prompt AnsPanic X (askPred x) :=
  fun | none => ⟨fun _ => .inl rfl, fun h => absurd rfl h⟩ | some _ => ⟨nofun, fun _ => trivial⟩

/-- C62 for `partition_point`. -/
theorem partition_point_passes_on (o : Oracle σ α Bool) (s : St α α Bool σ) : PassesOn (fun _ r => r = none) o (partitionPoint cfg v) s :=
  Prompt.passesOn (X := fun _ => False)
    (Prompt.bind (Prompt.binarySearchBy_pr fun x => Prompt.bind (askPred_pr x) fun _ => Prompt.pure) fun _ => Prompt.pure)
    (partition_point_safe cfg o s).weak fun _ _ _ h => h

theorem eqAsk_pr {X : Panic → Prop} (x a : α) : Prompt AnsPanic X (.call (a, x) fun
    | none => .throw .user
    | some b => .ret b : Prog α (α × α) Bool Bool) :=
  fun | none => ⟨fun _ => .inl rfl, fun h => absurd rfl h⟩ | some _ => ⟨nofun, fun _ => trivial⟩

/-- C62 for `contains`. -/
theorem contains_passes_on (o : Oracle σ (α × α) Bool) (x : α) (s : St α (α × α) Bool σ) :
    PassesOn (fun _ r => r = none) o (contains v x) s :=
  Prompt.passesOn (X := fun _ => False)
    (Prompt.anyFrom_pr (eqAsk_pr x))
    (contains_safe o x s).weak fun _ _ _ h => h

theorem DedupStyle.isPanic_eq (st : DedupStyle) : st.IsPanic (α := α) (κ := κ) = st.AnsPanic := by
  funext q r
  apply propext
  cases st with
  | eq => exact Iff.rfl
  | fn =>
    rcases r with _ | ⟨x, y, _ | c⟩
    · exact ⟨fun _ _ _ _ => nofun, fun _ => .inl rfl⟩
    · exact ⟨fun _ _ _ _ h => (by cases h), fun _ => .inr ⟨x, y, rfl⟩⟩
    · refine ⟨fun h => ?_, fun h => (h x y c rfl).elim⟩
      rcases h with h | ⟨_, _, h⟩ <;> cases h
  | key =>
    cases q with
    | key z =>
      rcases r with _ | ⟨x, _ | k, c⟩
      · exact ⟨fun _ _ _ _ => nofun, fun _ => .inl rfl⟩
      · exact ⟨fun _ _ _ _ h => (by cases h), fun _ => .inr ⟨z, rfl, x, c, rfl⟩⟩
      · refine ⟨fun h => ?_, fun h => (h x k c rfl).elim⟩
        rcases h with h | ⟨_, _, _, _, h⟩ <;> cases h
    | lt k l =>
      refine ⟨fun h => ?_, fun h => .inl h⟩
      rcases h with h | ⟨_, h, _⟩
      · exact h
      · cases h

/-- C62 for `partition_dedup*`, whose user code may also change elements before it panics. -/
theorem dedup_passes_on (st : DedupStyle) (o : Oracle σ (st.Q α κ) (st.A α κ)) (hv : v.WF) (s : St α (st.Q α κ) (st.A α κ) σ) :
    PassesOn st.IsPanic o (partitionDedup st cfg v) s := by
  rw [st.isPanic_eq]
  exact Prompt.passesOn (X := fun _ => False) (Prompt.partitionDedupBy_pr st.same_pr) (dedup_safe st cfg o hv s).weak fun _ _ _ h => h

/-! ### The parallel functions -/

/-- C62 for `par_sort*`: it returns exactly if user code has not panicked in any task, on every schedule. -/
theorem par_sort_passes_on {st : Style} (o : Oracle σ (st.Q α κ) (st.A κ)) (hz : cfg.zst = true → Subsingleton α) (hv : v.WF)
    {heap : Addr} (hf : Fresh v (scratch heap v.len)) (s : St α (st.Q α κ) (st.A κ) σ) :
    PassesOnExactly (fun _ r => r = none) o (parSortStable st cfg v heap) s :=
  Honest.exactly (Prompt.parMergeSort_ho st.less_pr) (par_sort_safe o hz hv hf s) fun _ _ h => h.1

/-- C62 for `par_sort_unstable*`. -/
theorem par_sort_unstable_passes_on {st : Style} (o : Oracle σ (st.Q α κ) (st.A κ)) (hz : cfg.zst = true → Subsingleton α) (hv : v.WF)
    (s : St α (st.Q α κ) (st.A κ) σ) : PassesOnExactly (fun _ r => r = none) o (parSortUnstable st cfg v) s :=
  Honest.exactly (Prompt.parQuickSort_ho st.less_pr) (par_sort_unstable_safe o hz hv s) fun _ _ h => h.1

/-- C62 for `par_select_many_nth_unstable*`: it does not return if user code has panicked in some task, on every schedule. -/
theorem par_select_many_passes_on {st : Style} (o : Oracle σ (st.Q α κ) (st.A κ)) (is : List Nat) (extra : Nat)
    (s : St α (st.Q α κ) (st.A κ) σ) : PassesOnPar (fun _ r => r = none) o (parSelectManyNthUnstable st cfg v is extra) s :=
  Honest.passesOn (Prompt.parSelectMany_ho st.less_pr)

/-- C62 for `par_sort_by_cached_key`, if the sort of the pairs does so. -/
theorem par_sort_by_cached_key_passes_on {sz : Sizes} {srt : PairSort α κ} (hp : ∀ l, Honest (fun _ r => r = none) (srt l))
    (o : Oracle σ (KeyQ α κ) (κ × Bool)) (s : St α (KeyQ α κ) (κ × Bool) σ) :
    PassesOnPar (fun _ r => r = none) o (parSortByCachedKey cfg sz srt v) s :=
  Honest.passesOn (Prompt.parSortByCachedKey_ho (X := Slack) askKeyOf_pr hp)

/-! ### The hypotheses can be met -/

namespace Sample

theorem pairLess_pr (p q : κ × Nat) : Prompt (fun _ r => r = none) (fun _ => False) (pairLess (α := α) p q) := fun
  | none => ⟨fun _ => .inl rfl, fun h => absurd rfl h⟩
  | some b => ⟨nofun, fun _ => by
      show Prompt _ _ (if b.2 then _ else _)
      exact Prompt.ite (fun _ => trivial) fun _ => fun
        | none => ⟨fun _ => .inl rfl, fun h => absurd rfl h⟩
        | some _ => ⟨nofun, fun _ => trivial⟩⟩

theorem pairInsert_pr (p : κ × Nat) (l : List (κ × Nat)) : Prompt (fun _ r => r = none) (fun _ => False) (pairInsert (α := α) p l) := by
  induction l with
  | nil => exact Prompt.pure
  | cons q l ih => unfold pairInsert; pr_all; exact pairLess_pr _ _

theorem pairSort_pr (l : List (κ × Nat)) : Prompt (fun _ r => r = none) (fun _ => False) (pairSort (α := α) l) := by
  induction l with
  | nil => exact Prompt.pure
  | cons q l ih => unfold pairSort; pr_all; exact pairInsert_pr _ _

end Sample

/-- User code which panics at its tenth call. -/
example (st : Style) := sort_passes_on (Sample.nonsense st) (cfg := Sample.cfg) Sample.notZst Sample.wf Sample.alloc_succeeds Sample.fresh (Sample.nstate st)
example (st : Style) := sort_unstable_passes_on (Sample.nonsense st) (cfg := Sample.cfg) Sample.notZst Sample.wf (Sample.nstate st)
example (st : Style) := select_nth_passes_on (Sample.nonsense st) (cfg := Sample.cfg) Sample.notZst Sample.wf 17 (Sample.nstate st)
example (st : Style) := select_many_passes_on (Sample.nonsense st) (cfg := Sample.cfg) Sample.notZst Sample.wf (by decide) [3, 17] (Sample.nstate st)
example := sort_by_cached_key_passes_on (cfg := Sample.cfg) (sz := Sample.sizes) Sample.pairSort_sorts Sample.pairSort_pr (Sample.nonsense .key)
  Sample.wf (by decide) (Sample.nstate .key)
example (st : Style) := par_sort_passes_on (Sample.nonsense st) (cfg := Sample.cfg) Sample.notZst Sample.long_wf Sample.long_fresh (Sample.nstate st)
example (st : Style) := par_sort_unstable_passes_on (Sample.nonsense st) (cfg := Sample.cfg) Sample.notZst Sample.wf (Sample.nstate st)
example := par_sort_by_cached_key_passes_on (cfg := Sample.cfg) (v := Sample.view) (sz := Sample.sizes) (fun l => (Sample.pairSort_pr l).honest)
  (Sample.nonsense .key) (Sample.nstate .key)

example (st : Style) := par_select_many_passes_on (Sample.nonsense st) (cfg := Sample.cfg) (v := Sample.view) [3, 17] 4 (Sample.nstate st)
example (st : DedupStyle) (o : Oracle Nat (st.Q Nat Nat) (st.A Nat Nat)) (s : St Nat (st.Q Nat Nat) (st.A Nat Nat) Nat) :=
  dedup_passes_on st o (cfg := Sample.cfg) Sample.wf s

/-- Both cases happen: three elements in disorder, and user code that panics at its first call or never. -/
example : (run (α := Nat) (⟨fun _ _ => (none, ()), fun _ => (true, ())⟩ : Oracle Unit (Nat × Nat) Bool)
    (sortUnstable (κ := Nat) .ord Sample.cfg ⟨0, 1, 3⟩) ⟨fun a => (5 - a).toNat, (), []⟩).1 = .panic .user := by rfl

example : (run (α := Nat) (⟨fun _ q => (some (decide (q.1 < q.2)), ()), fun _ => (true, ())⟩ : Oracle Unit (Nat × Nat) Bool)
    (sortUnstable (κ := Nat) .ord Sample.cfg ⟨0, 1, 3⟩) ⟨fun a => (5 - a).toNat, (), []⟩).1 = .ok () := by rfl

end NdSlice
