import Verif.Core.RunSteps
import Verif.Props.ParStable
import Verif.Props.SelectLinear
import Verif.Proof.CostQuick

/-
C69: only the answers given matter.  The theorems of the other files about consistent comparators assume that user code would answer every question, at any time,
according to one strict weak order, and never panic.  Here nothing is assumed about what user code would do: if the answers which it has given in this very run
agree with some strict weak order, then the result is right.  So a comparator may panic (`a.partial_cmp(b).unwrap()`), or be inconsistent about elements
about which it has not been asked.
-/

namespace NdSlice

open Style

variable {α κ ι ω σ β : Type}

/-- The answers in a log agree with `lt`.  For keys: with a key function and an order of the keys, which give `lt`. -/
def Consistent : (st : Style) → (α → α → Bool) → List (st.Q α κ × Option (st.A κ)) → Prop
  | .ord, lt, l => ∀ (x y : α) (b : Bool), ((x, y), some b) ∈ l → b = lt x y
  | .cmp, lt, l => ∀ (x y : α) (c : Ordering), ((x, y), some c) ∈ l → (c == .lt) = lt x y
  | .key, lt, l => ∃ (f : α → κ) (klt : κ → κ → Bool), (∀ x k, (KeyQ.key x, some k) ∈ l → k.1 = f x) ∧
      (∀ k k' c, (KeyQ.lt k k', some c) ∈ l → c.2 = klt k k') ∧ ∀ x y, lt x y = klt (f x) (f y)

/-! ### User code with the wrong answers replaced by panics -/

open Classical in
/-- Panics instead of giving an answer which is not `ok`. -/
noncomputable def Oracle.filter (ok : ι → ω → Prop) (o : Oracle σ ι ω) : Oracle σ ι ω where
  ask e q := ((o.ask e q).1.bind fun a => if ok q a then some a else none, (o.ask e q).2)
  flip := o.flip

theorem Oracle.filter_ask {ok : ι → ω → Prop} {o : Oracle σ ι ω} {e : σ} {q : ι} (h : ∀ a, (o.ask e q).1 = some a → ok q a) :
    (o.filter ok).ask e q = o.ask e q := by
  unfold Oracle.filter
  ext1
  · dsimp only
    cases ha : (o.ask e q).1 with
    | none => rfl
    | some a => exact if_pos (h a ha)
  · rfl

theorem Step.log_prefix {o : Oracle σ ι ω} {p p' : Prog α ι ω β} {s s' : St α ι ω σ} (h : Step o p s p' s') : s.log <+: s'.log := by
  induction h with
  | call q k s => exact List.prefix_append _ _
  | joinL _ _ _ _ _ _ _ ih => exact ih
  | joinR _ _ _ _ _ _ _ ih => exact ih
  | _ => exact List.prefix_refl _

theorem Steps.log_prefix {o : Oracle σ ι ω} {p p' : Prog α ι ω β} {s s' : St α ι ω σ} (h : Steps o p s p' s') : s.log <+: s'.log := by
  induction h with
  | refl => exact List.prefix_refl _
  | tail _ hs ih => exact ih.trans hs.log_prefix

theorem Step.filter {ok : ι → ω → Prop} {o : Oracle σ ι ω} {p p' : Prog α ι ω β} {s s' : St α ι ω σ} (h : Step o p s p' s') {l d : List (ι × Option ω)}
    (hl : l <+: s.log) (hd : s'.log = l ++ d) (hok : ∀ q a, (q, some a) ∈ d → ok q a) : Step (o.filter ok) p s p' s' := by
  induction h with
  | get a k s => exact .get a k s
  | set a x k s => exact .set a x k s
  | call q k s =>
    have h : (o.filter ok).ask s.env q = o.ask s.env q := by
      refine Oracle.filter_ask fun a ha => hok q a ?_
      obtain ⟨t, ht⟩ := hl
      dsimp only at hd
      rw [← ht, List.append_assoc] at hd
      rw [← List.append_cancel_left hd, ha]
      exact List.mem_append_right _ (List.mem_singleton.2 rfl)
    have := Step.call (o := o.filter ok) q k s
    rw [h] at this
    exact this
  | choose k s => exact .choose (o := o.filter ok) k s
  | joinL p p' q k s s' _ ih => exact .joinL _ _ _ _ _ _ (ih hl hd)
  | joinR p q q' k s s' _ ih => exact .joinR _ _ _ _ _ _ (ih hl hd)
  | joinEnd p q k s r t h1 h2 => exact .joinEnd _ _ _ _ _ _ h1 h2

/-- If no answer was wrong then nobody can tell the difference. -/
theorem Steps.filter {ok : ι → ω → Prop} {o : Oracle σ ι ω} {p p' : Prog α ι ω β} {s s' : St α ι ω σ} (h : Steps o p s p' s') {d : List (ι × Option ω)}
    (hd : s'.log = s.log ++ d) (hok : ∀ q a, (q, some a) ∈ d → ok q a) : Steps (o.filter ok) p s p' s' := by
  induction h generalizing d with
  | refl => exact .refl _ _
  | tail hs h ih =>
    obtain ⟨t, ht⟩ := hs.log_prefix
    obtain ⟨u, hu⟩ := h.log_prefix
    rw [← ht, List.append_assoc] at hu
    have he : t ++ u = d := List.append_cancel_left (hu.trans hd)
    refine .tail (ih ht.symm fun q a hq => hok q a ?_) (h.filter ⟨t, ht⟩ hd hok)
    rw [← he]
    exact List.mem_append_left _ hq

/-- The user code which agrees with `lt` or panics, and cannot be told from `o`. -/
theorem Consistent.good {st : Style} {lt : α → α → Bool} (so : SWO lt) {o : Oracle σ (st.Q α κ) (st.A κ)} {p p' : Prog α (st.Q α κ) (st.A κ) β}
    {s s' : St α (st.Q α κ) (st.A κ) σ} (h : Steps o p s p' s') {d : List (st.Q α κ × Option (st.A κ))} (hd : s'.log = s.log ++ d)
    (hc : Consistent st lt d) : ∃ o' : Oracle σ (st.Q α κ) (st.A κ), Steps o' p s p' s' ∧ (st.toCmp (rel o')).Good lt := by
  have some_of : ∀ {ok : st.Q α κ → st.A κ → Prop} {q a}, rel (o.filter ok) q (some a) → ok q a := by
    rintro ok q a ⟨e, he⟩
    unfold Oracle.filter at he
    dsimp only at he
    cases hb : (o.ask e q).1 with
    | none => rw [hb] at he; cases he
    | some b =>
      rw [hb] at he
      simp only [Option.bind_some] at he
      split at he
      · rename_i h
        rwa [← Option.some.inj he]
      · cases he
  cases st with
  | ord =>
    let ok : α × α → Bool → Prop := fun q b => b = lt q.1 q.2
    exact ⟨o.filter ok, h.filter hd fun q a ha => hc q.1 q.2 a ha, so, fun x y b hb => some_of (ok := ok) hb⟩
  | cmp =>
    let ok : α × α → Ordering → Prop := fun q c => (c == .lt) = lt q.1 q.2
    refine ⟨o.filter ok, h.filter hd fun q a ha => hc q.1 q.2 a ha, so, ?_⟩
    rintro x y b ⟨c, hb, rfl⟩
    exact some_of (ok := ok) hb
  | key =>
    obtain ⟨f, klt, h1, h2, h3⟩ := hc
    let ok : KeyQ α κ → κ × Bool → Prop := fun q a => match q with
      | .key x => a.1 = f x
      | .lt k l => a.2 = klt k l
    refine ⟨o.filter ok, h.filter hd fun q a ha => ?_, so, ?_⟩
    · cases q with
      | key x => exact h1 _ _ ha
      | lt k l => exact h2 _ _ _ ha
    · rintro x y b ⟨k, l, c, g1, g2, g3, rfl⟩
      have g1 : k.1 = f x := some_of (ok := ok) g1
      have g2 : l.1 = f y := some_of (ok := ok) g2
      have g3 : c.2 = klt k.1 l.1 := some_of (ok := ok) g3
      rw [h3, ← g1, ← g2]
      exact g3

theorem Always.ret {o : Oracle σ ι ω} {p : Prog α ι ω β} {s s' : St α ι ω σ} {Q : β → Mem α → Prop} {E : Panic → Mem α → Prop} (h : Always o p s Q E)
    {b : β} (hs : Steps o p s (.ret b) s') : Q b s'.mem := by
  obtain ⟨-, -, ⟨p'', s'', h⟩ | ⟨b', h, h'⟩ | ⟨e, h, -⟩⟩ := h.1 _ _ hs
  · cases h
  · cases h; exact h'
  · cases h

variable {st : Style} {cfg : Cfg} {v : View} {o : Oracle σ (st.Q α κ) (st.A κ)} {lt : α → α → Bool} {s s' : St α (st.Q α κ) (st.A κ) σ}
  {d : List (st.Q α κ × Option (st.A κ))}

theorem run_steps_ret {ι ω : Type} {o : Oracle σ ι ω} {p : Prog α ι ω β} {s s' : St α ι ω σ} {b : β} (h : run o p s = (.ok b, s')) : Steps o p s (.ret b) s' := by
  have h' := run_reaches (o := o) (p := p) (s := s)
  rw [h] at h'
  exact h'

/-- Answers of user code which always agrees with `lt` are consistent: so the theorems here imply those which assume `Agrees`. -/
theorem Consistent.of_agrees (ho : Agrees st o lt) (hd : ∀ x ∈ d, rel o x.1 x.2) : Consistent st lt d := by
  cases st with
  | ord =>
    intro x y b hb
    obtain ⟨e, he⟩ := hd _ hb
    exact (Option.some.inj ((ho e x y).symm.trans he)).symm
  | cmp =>
    obtain ⟨cmp, h1, h2⟩ := ho
    intro x y c hc
    obtain ⟨e, he⟩ := hd _ hc
    rw [h2, Option.some.inj ((h1 e x y).symm.trans he)]
  | key =>
    obtain ⟨f, klt, h1, h2, h3⟩ := ho
    refine ⟨f, klt, fun x k hk => ?_, fun k l c hc => ?_, h3⟩
    · obtain ⟨e, he⟩ := hd _ hk
      obtain ⟨b, hb⟩ := h1 e x
      rw [← Option.some.inj (hb.symm.trans he)]
    · obtain ⟨e, he⟩ := hd _ hc
      obtain ⟨b, hb⟩ := h2 e k l
      rw [← Option.some.inj (hb.symm.trans he)]

/-! ### The result is right -/

/-- C69: if `sort*` returns and all answers given in this run agree with `lt`, the array holds its stable sort. -/
theorem sort_sorts_told (so : SWO lt) (hz : cfg.zst = true → Subsingleton α) (hv : v.WF) {al : Alloc} (hal : al.Succeeds) {heap : Addr}
    (hf : Fresh v (scratch heap (v.len / 2))) (h : Steps o (sortStable st cfg v al heap) s (.ret ()) s') (hd : s'.log = s.log ++ d)
    (hc : Consistent st lt d) : StableSortOf lt (v.contents s.mem) (v.contents s'.mem) := by
  obtain ⟨o', h', hg⟩ := hc.good so h hd
  obtain ⟨⟨h1, h2⟩, -⟩ := (TriS.always (rel_sat o') hv scratch_wf hf (stableSort_spec (C := st.toCmp (rel o')) (cfg := cfg) (v := v) (hal.grows _) hz
    (v.contents_length s.mem) (Nat.le_refl _))).ret h'
  exact ⟨(h2 lt hg).1, h1, (h2 lt hg).2⟩

/-- C69: the same for `par_sort*`, under every schedule. -/
theorem par_sort_sorts_told (so : SWO lt) (hz : cfg.zst = true → Subsingleton α) (hv : v.WF) {heap : Addr} (hf : Fresh v (scratch heap v.len))
    (h : Steps o (parSortStable st cfg v heap) s (.ret ()) s') (hd : s'.log = s.log ++ d) (hc : Consistent st lt d) :
    StableSortOf lt (v.contents s.mem) (v.contents s'.mem) := by
  obtain ⟨o', h', hg⟩ := hc.good so h hd
  obtain ⟨⟨h1, h2⟩, -⟩ := (TriS.always (rel_sat o') hv scratch_wf hf (parMergeSort_spec (C := st.toCmp (rel o')) (cfg := cfg) (v := v)
    (v.contents_length s.mem) hz rfl)).ret h'
  exact ⟨(h2 lt hg).1, h1, (h2 lt hg).2⟩

/-- C69: if `sort_unstable*` returns and all answers given in this run agree with `lt`, the array is sorted (and a permutation by C07). -/
theorem sort_unstable_sorts_told (so : SWO lt) (hz : cfg.zst = true → Subsingleton α) (hv : v.WF)
    (h : Steps o (sortUnstable st cfg v) s (.ret ()) s') (hd : s'.log = s.log ++ d) (hc : Consistent st lt d) :
    Sorted lt (v.contents s'.mem) ∧ (v.contents s'.mem).Perm (v.contents s.mem) := by
  obtain ⟨o', h', hg⟩ := hc.good so h hd
  obtain ⟨⟨h1, h2⟩, -⟩ := (Tri.always (rel_sat o') hv (quickSort_spec (C := st.toCmp (rel o')) (cfg := cfg) (v := v) hz (v.contents_length s.mem))).ret h'
  exact ⟨h2 lt hg, h1⟩

/-- C69: the same for `par_sort_unstable*`, under every schedule. -/
theorem par_sort_unstable_sorts_told (so : SWO lt) (hz : cfg.zst = true → Subsingleton α) (hv : v.WF)
    (h : Steps o (parSortUnstable st cfg v) s (.ret ()) s') (hd : s'.log = s.log ++ d) (hc : Consistent st lt d) :
    Sorted lt (v.contents s'.mem) ∧ (v.contents s'.mem).Perm (v.contents s.mem) := by
  obtain ⟨o', h', hg⟩ := hc.good so h hd
  obtain ⟨⟨h1, h2⟩, -⟩ := (Tri.always (rel_sat o') hv (parQuickSort_spec (C := st.toCmp (rel o')) (cfg := cfg) (v := v) hz (v.contents_length s.mem))).ret h'
  exact ⟨h2 lt hg, h1⟩

/-- C69: if `select_nth_unstable*` returns and all answers given in this run agree with `lt`, the element is in its sorted place. -/
theorem select_nth_selects_told (so : SWO lt) (hz : cfg.zst = true → Subsingleton α) (hv : v.WF) {k : Nat} (hk : k < v.len) {r}
    (h : Steps o (selectNthUnstable st cfg v k) s (.ret r) s') (hd : s'.log = s.log ++ d) (hc : Consistent st lt d) :
    SelectedAt lt k (v.contents s'.mem) ∧ (v.contents s'.mem).Perm (v.contents s.mem) := by
  obtain ⟨o', h', hg⟩ := hc.good so h hd
  obtain ⟨⟨-, h1, h2⟩, -⟩ := (Tri.always (rel_sat o') hv (partitionAtIndex_spec (st.toCmp (rel o')) (cfg := cfg) (v := v) hz (v.contents_length s.mem) hk)).ret h'
  exact ⟨h2 lt hg, h1⟩

/-- C69: the same for `select_many_nth_unstable*`. -/
theorem select_many_selects_told (so : SWO lt) (hz : cfg.zst = true → Subsingleton α) (hv : v.WF) (hb : 2 * v.len ≤ 2 ^ cfg.bits) {is : List Nat} {r}
    (h : Steps o (selectManyNthUnstable st cfg v is) s (.ret r) s') (hd : s'.log = s.log ++ d) (hc : Consistent st lt d) :
    (∀ i ∈ is, SelectedAt lt i (v.contents s'.mem)) ∧ (v.contents s'.mem).Perm (v.contents s.mem) := by
  obtain ⟨o', h', hg⟩ := hc.good so h hd
  obtain ⟨⟨-, -, h1, h2⟩, -⟩ := (Tri.always (rel_sat o') hv (selectMany_spec (st.toCmp (rel o')) (cfg := cfg) (v := v) hz (is := is) (v.contents_length s.mem) hb)).ret h'
  exact ⟨h2 lt hg, h1⟩

/-- C69: the same for `par_select_many_nth_unstable*`, under every schedule. -/
theorem par_select_many_selects_told (so : SWO lt) (hz : cfg.zst = true → Subsingleton α) (hv : v.WF) (hb : 2 * v.len ≤ 2 ^ cfg.bits) {is : List Nat}
    {extra : Nat} {r} (h : Steps o (parSelectManyNthUnstable st cfg v is extra) s (.ret r) s') (hd : s'.log = s.log ++ d) (hc : Consistent st lt d) :
    (∀ i ∈ is, SelectedAt lt i (v.contents s'.mem)) ∧ (v.contents s'.mem).Perm (v.contents s.mem) := by
  obtain ⟨o', h', hg⟩ := hc.good so h hd
  obtain ⟨⟨-, -, h1, h2⟩, -⟩ := (Tri.always (rel_sat o') hv (parSelectMany_spec (st.toCmp (rel o')) (cfg := cfg) (v := v) hz (is := is) (v.contents_length s.mem) hb
    (Nat.le_add_right is.length extra))).ret h'
  exact ⟨h2 lt hg, h1⟩

/-! ### The number of comparisons -/

/-- C69: the bound of C51 holds as long as the answers agree with a strict weak order: at every moment, also if user code panics afterwards. -/
theorem sort_unstable_comparisons_told (so : SWO lt) (hv : v.WF) {p'} (h : Steps o (sortUnstable st cfg v) s p' s') (hd : s'.log = s.log ++ d)
    (hc : Consistent st lt d) : d.length ≤ st.calls * (v.len * (263 * Nat.log2 v.len + 279)) := by
  obtain ⟨o', h', hg⟩ := hc.good so h hd
  have := TriB.steps (rel_sat o') hv (quickSort_budget (cfg := cfg) hg Style.asks (v.contents_length s.mem)) h'
  rw [hd, List.length_append] at this
  omega

/-- C69: so do the bounds of C53, if no more than `m` elements are equal to each other. -/
theorem select_linear_told (m : Nat) : ∃ K, ∀ {α κ σ : Type} {st : Style} {cfg : Cfg} {v : View} {o : Oracle σ (st.Q α κ) (st.A κ)}
    {lt : α → α → Bool} (_ : SWO lt) (_ : v.WF) (index : Nat) (is : List Nat) (extra : Nat) (s : St α (st.Q α κ) (st.A κ) σ),
    FewEqual lt m (v.contents s.mem) → ∀ {d : List (st.Q α κ × Option (st.A κ))} {s'}, s'.log = s.log ++ d → Consistent st lt d →
      (∀ {p'}, Steps o (selectNthUnstable st cfg v index) s p' s' → d.length ≤ st.calls * (v.len * K)) ∧
      (∀ {p'}, Steps o (selectManyNthUnstable st cfg v is) s p' s' → d.length ≤ st.calls * (v.len * K * (Nat.log2 is.length + 1))) ∧
      (∀ {p'}, Steps o (parSelectManyNthUnstable st cfg v is extra) s p' s' → d.length ≤ st.calls * (v.len * K * (Nat.log2 is.length + 1))) := by
  refine ⟨selRate m, fun {_ _ _ st _ v o _} so hv index is extra s hf {d s'} hd hc => ⟨fun {p'} h => ?_, fun {p'} h => ?_, fun {p'} h => ?_⟩⟩
  · obtain ⟨o', h', hg⟩ := hc.good so h hd
    have := TriB.steps (rel_sat o') hv (partitionAtIndex_budget (k := index) hg Style.asks (v.contents_length s.mem) hf) h'
    rw [hd, List.length_append] at this
    omega
  · obtain ⟨o', h', hg⟩ := hc.good so h hd
    have := TriB.steps (rel_sat o') hv (partitionAtIndices_budget (off := 0) (is := is) hg Style.asks (v.contents_length s.mem)
        (Nat.lt_succ_self _) Nat.lt_log2_self hf) h'
    rw [hd, List.length_append] at this
    omega
  · obtain ⟨o', h', hg⟩ := hc.good so h hd
    have := TriB.steps (rel_sat o') hv (parPartitionAtIndices_budget (off := 0) (is := is) hg Style.asks (v.contents_length s.mem)
        (Nat.lt_succ_self _) Nat.lt_log2_self hf) h'
    rw [hd, List.length_append] at this
    omega

/-! ### The hypotheses can be met -/

theorem Step.answers {o : Oracle σ ι ω} {p p' : Prog α ι ω β} {s s' : St α ι ω σ} (h : Step o p s p' s') (hl : ∀ x ∈ s.log, rel o x.1 x.2) :
    ∀ x ∈ s'.log, rel o x.1 x.2 := by
  induction h with
  | call q k s =>
    intro x hx
    rcases List.mem_append.1 hx with hx | hx
    · exact hl x hx
    · cases List.mem_singleton.1 hx
      exact ⟨_, rfl⟩
  | joinL _ _ _ _ _ _ _ ih => exact ih hl
  | joinR _ _ _ _ _ _ _ ih => exact ih hl
  | _ => exact hl

theorem Steps.answers {o : Oracle σ ι ω} {p p' : Prog α ι ω β} {s s' : St α ι ω σ} (h : Steps o p s p' s') (hl : ∀ x ∈ s.log, rel o x.1 x.2) :
    ∀ x ∈ s'.log, rel o x.1 x.2 := by
  induction h with
  | refl => exact hl
  | tail _ hs ih => exact hs.answers ih

namespace Sample

/-- Numbers and a value which is not comparable, last in this order. -/
def nanLt : Option Nat → Option Nat → Bool
  | some x, some y => decide (x < y)
  | some _, none => true
  | none, _ => false

theorem nanLt_swo : SWO nanLt where
  irrefl := by rintro (_ | x) <;> simp [nanLt]
  trans := by
    rintro (_ | x) (_ | y) (_ | z) <;> simp [nanLt]
    omega
  ntrans := by
    rintro (_ | x) (_ | y) (_ | z) <;> simp [nanLt]
    omega

/-- `a.partial_cmp(b).unwrap()`: panics if one of them is not comparable. -/
def nanOracle : Oracle Unit (Style.Q (Option Nat) Nat .cmp) (Style.A Nat .cmp) :=
  ⟨fun _ q => (match (q : Option Nat × Option Nat) with
    | (some x, some y) => some (compare x y)
    | _ => none, ()), fun _ => (true, ())⟩

theorem nan_consistent {d : List (Style.Q (Option Nat) Nat .cmp × Option (Style.A Nat .cmp))} (h : ∀ x ∈ d, rel nanOracle x.1 x.2) :
    Consistent .cmp nanLt d := by
  rintro (_ | x) (_ | y) c hc
  · obtain ⟨e, he⟩ := h _ hc; cases he
  · obtain ⟨e, he⟩ := h _ hc; cases he
  · obtain ⟨e, he⟩ := h _ hc; cases he
  · obtain ⟨e, he⟩ := h _ hc
    cases he
    show (compare x y == .lt) = decide (x < y)
    rw [Nat.compare_eq_ite_lt]
    split
    · rename_i h; simp [h]
    · split <;> simp_all

/-- Memory with a value which is not comparable outside of the view. -/
def nanState : St (Option Nat) (Style.Q (Option Nat) Nat .cmp) (Style.A Nat .cmp) Unit := ⟨fun a => if a = 201 then none else some (mem a), (), []⟩

end Sample

/-- Whenever sorting with `partial_cmp().unwrap()` returns, the array is sorted. -/
example {s'} (h : run Sample.nanOracle (sortUnstable .cmp Sample.cfg Sample.view) Sample.nanState = (.ok (), s')) :
    Sorted Sample.nanLt (Sample.view.contents s'.mem) := by
  have h1 := run_steps_ret h
  exact (sort_unstable_sorts_told Sample.nanLt_swo (fun h => by cases h) Sample.wf h1 (d := s'.log) rfl
    (Sample.nan_consistent (h1.answers fun _ h => by cases h))).1

/-- A whole run. -/
example (st : Style) : ∃ s', run (Sample.oracle st) (sortUnstable st Sample.cfg Sample.view) (Sample.state st) = (.ok (), s') ∧
    Sorted Sample.lt (Sample.view.contents s'.mem) ∧ s'.log.length ≤ st.calls * (Sample.view.len * (263 * Nat.log2 Sample.view.len + 279)) := by
  obtain ⟨s', h, -⟩ := sort_unstable_sorts (cfg := Sample.cfg) Sample.swo (Sample.agrees st) Sample.notZst Sample.wf (Sample.state st)
  have hc : Consistent st Sample.lt s'.log := .of_agrees (Sample.agrees st) ((run_steps_ret h).answers fun _ h => by cases h)
  exact ⟨s', h, (sort_unstable_sorts_told Sample.swo Sample.notZst Sample.wf (run_steps_ret h) rfl hc).1,
    sort_unstable_comparisons_told Sample.swo Sample.wf (run_steps_ret h) rfl hc⟩

end NdSlice
