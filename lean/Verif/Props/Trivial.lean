import Verif.Props.Select
import Verif.Props.Dedup
import Verif.Props.ParStable
import Verif.Props.Cached

/-
Trivial arrays (C36), zero-sized elements (C37) and the recursion depth of unstable sorting (C38).
-/

namespace NdSlice

open Style

variable {α κ σ ι ω : Type} {st : Style} {cfg : Cfg} {v : View}

/-- A program that has ended makes no steps. -/
theorem Steps.of_ret {β : Type} {o : Oracle σ ι ω} {b : β} {s : St α ι ω σ} {p' s'} (h : Steps o (.ret b) s p' s') : p' = .ret b ∧ s' = s := by
  induction h with
  | refl => exact ⟨rfl, rfl⟩
  | tail _ h ih =>
    obtain ⟨rfl, rfl⟩ := ih
    cases h

theorem sortUnstable_trivial (h : v.len < 2 ∨ cfg.zst = true) : sortUnstable (α := α) (κ := κ) st cfg v = .ret () := by
  unfold sortUnstable quickSort
  split
  · rfl
  · rename_i hz
    replace h := h.resolve_right hz
    unfold recurse Prog.loop quickStep
    simp only [show v.len ≤ 20 by omega, if_true, show ¬ v.len ≥ 2 by omega, if_false]
    rfl

theorem parSortUnstable_trivial (h : v.len < 2 ∨ cfg.zst = true) : parSortUnstable (α := α) (κ := κ) st cfg v = .ret () := by
  unfold parSortUnstable parQuickSort
  split
  · rfl
  · rename_i hz
    replace h := h.resolve_right hz
    unfold recurse Prog.loop quickStep
    simp only [show v.len ≤ 20 by omega, if_true, show ¬ v.len ≥ 2 by omega, if_false]
    rfl

theorem sortStable_trivial (h : v.len < 2 ∨ cfg.zst = true) (al : Alloc) (heap : Addr) :
    sortStable (α := α) (κ := κ) st cfg v al heap = .ret () := by
  unfold sortStable stableSort mergeSort mergeSortWatch
  split
  · rfl
  · rename_i hz
    replace h := h.resolve_right hz
    simp only [hz, NdSlice.debugAssert, Bool.not_false, Bool.not_true, Bool.and_false, Bool.false_eq_true, if_false]
    rw [if_pos (by omega), if_neg (by omega)]
    rfl

theorem parSortStable_trivial (h : v.len < 2 ∨ cfg.zst = true) (heap : Addr) :
    parSortStable (α := α) (κ := κ) st cfg v heap = .ret () := by
  unfold parSortStable parMergeSort
  split
  · rfl
  · rename_i hz
    replace h := h.resolve_right hz
    rw [if_pos (by omega), if_neg (by omega)]
    rfl

/-! ### C36 -/

/-- C36: `sort_unstable*` on less than two elements returns and does nothing: the state, including the questions asked, is as before. -/
theorem sort_unstable_trivial (h : v.len < 2) (o : Oracle σ (st.Q α κ) (st.A κ)) (s : St α (st.Q α κ) (st.A κ) σ) :
    run o (sortUnstable st cfg v) s = (.ok (), s) := by
  rw [sortUnstable_trivial (.inl h)]
  rfl

/-- C36: `sort*` on less than two elements returns and does nothing; it does not allocate either (`al` is arbitrary). -/
theorem sort_trivial (h : v.len < 2) (al : Alloc) (heap : Addr) (o : Oracle σ (st.Q α κ) (st.A κ)) (s : St α (st.Q α κ) (st.A κ) σ) :
    run o (sortStable st cfg v al heap) s = (.ok (), s) := by
  rw [sortStable_trivial (.inl h)]
  rfl

/-- C36 for `par_sort_unstable*`: it returns at once, without any step. -/
theorem par_sort_unstable_trivial (h : v.len < 2) (o : Oracle σ (st.Q α κ) (st.A κ)) (s : St α (st.Q α κ) (st.A κ) σ) {p' s'}
    (hs : Steps o (parSortUnstable st cfg v) s p' s') : p' = .ret () ∧ s' = s := by
  rw [parSortUnstable_trivial (.inl h)] at hs
  exact hs.of_ret

/-- C36 for `par_sort*`: it returns at once, without any step. -/
theorem par_sort_trivial (h : v.len < 2) (heap : Addr) (o : Oracle σ (st.Q α κ) (st.A κ)) (s : St α (st.Q α κ) (st.A κ) σ) {p' s'}
    (hs : Steps o (parSortStable st cfg v heap) s p' s') : p' = .ret () ∧ s' = s := by
  rw [parSortStable_trivial (.inl h)] at hs
  exact hs.of_ret

/-- C36 for `sort_by_cached_key`. -/
theorem sort_by_cached_key_trivial (h : v.len < 2) (sz : Sizes) (srt : PairSort α κ) (o : Oracle σ (KeyQ α κ) (κ × Bool))
    (s : St α (KeyQ α κ) (κ × Bool) σ) : run o (sortByCachedKey cfg sz srt v) s = (.ok (), s) := by
  unfold sortByCachedKey
  rw [if_pos h]
  rfl

/-- C36 for `par_sort_by_cached_key`. -/
theorem par_sort_by_cached_key_trivial (h : v.len < 2) (sz : Sizes) (srt : PairSort α κ) (o : Oracle σ (KeyQ α κ) (κ × Bool))
    (s : St α (KeyQ α κ) (κ × Bool) σ) {p' s'} (hs : Steps o (parSortByCachedKey cfg sz srt v) s p' s') : p' = .ret () ∧ s' = s := by
  unfold parSortByCachedKey at hs
  rw [if_pos h] at hs
  exact hs.of_ret

/-- C36 for `is_sorted*`. -/
theorem is_sorted_trivial (h : v.len < 2) (st : RelStyle) (o : Oracle σ (st.Q α κ) (st.A κ)) (s : St α (st.Q α κ) (st.A κ) σ) :
    run o (isSorted st v) s = (.ok true, s) := by
  unfold isSorted isSortedBy
  rw [show v.len - 1 = 0 by omega]
  rfl

/-- C36 for `partition_dedup*`. -/
theorem partition_dedup_trivial (h : v.len < 2) (st : DedupStyle) (o : Oracle σ (st.Q α κ) (st.A α κ)) (s : St α (st.Q α κ) (st.A α κ) σ) :
    run o (partitionDedup st cfg v) s = (.ok (v, v.sub 0 0), s) := by
  rw [partitionDedup_small st o (by omega), View.sub_self]

/-! ### C37 -/

/-- C37: sorting zero-sized elements does nothing. -/
theorem sort_unstable_zst (h : cfg.zst = true) (o : Oracle σ (st.Q α κ) (st.A κ)) (s : St α (st.Q α κ) (st.A κ) σ) :
    run o (sortUnstable st cfg v) s = (.ok (), s) := by
  rw [sortUnstable_trivial (.inr h)]
  rfl

/-- C37: sorting zero-sized elements does nothing. -/
theorem sort_zst (h : cfg.zst = true) (al : Alloc) (heap : Addr) (o : Oracle σ (st.Q α κ) (st.A κ)) (s : St α (st.Q α κ) (st.A κ) σ) :
    run o (sortStable st cfg v al heap) s = (.ok (), s) := by
  rw [sortStable_trivial (.inr h)]
  rfl

/-- C37: sorting zero-sized elements does nothing. -/
theorem par_sort_unstable_zst (h : cfg.zst = true) (o : Oracle σ (st.Q α κ) (st.A κ)) (s : St α (st.Q α κ) (st.A κ) σ) {p' s'}
    (hs : Steps o (parSortUnstable st cfg v) s p' s') : p' = .ret () ∧ s' = s := by
  rw [parSortUnstable_trivial (.inr h)] at hs
  exact hs.of_ret

/-- C37: sorting zero-sized elements does nothing. -/
theorem par_sort_zst (h : cfg.zst = true) (heap : Addr) (o : Oracle σ (st.Q α κ) (st.A κ)) (s : St α (st.Q α κ) (st.A κ) σ) {p' s'}
    (hs : Steps o (parSortStable st cfg v heap) s p' s') : p' = .ret () ∧ s' = s := by
  rw [parSortStable_trivial (.inr h)] at hs
  exact hs.of_ret

/-- C37: `sort_by_cached_key` treats zero-sized elements like others; it ends, and as all values are the same, memory is as before. -/
theorem sort_by_cached_key_zst [Subsingleton α] {srt : PairSort α κ} (hs : SortsPairs srt) {sz : Sizes} (o : Oracle σ (KeyQ α κ) (κ × Bool))
    (hv : v.WF) (hlen : v.len ≤ 2 ^ cfg.bits) (s : St α (KeyQ α κ) (κ × Bool) σ) :
    EndsS o (sortByCachedKey cfg sz srt v) s (fun _ s' => s'.mem = s.mem) (fun _ s' => s'.mem = s.mem) :=
  (sort_by_cached_key_calls hs o hv hlen s).mono (fun _ _ _ => Subsingleton.elim _ _) (fun _ _ h => h.1)

/-- C37: `select_nth_unstable*` on zero-sized elements asks nothing, changes nothing, and panics exactly if the index is out of range. -/
theorem select_nth_zst (h : cfg.zst = true) (k : Nat) (o : Oracle σ (st.Q α κ) (st.A κ)) (s : St α (st.Q α κ) (st.A κ) σ) :
    run o (selectNthUnstable st cfg v k) s =
      (if k < v.len then .ok (v.sub 0 k, v.addr k, v.sub (k + 1) (v.len - (k + 1))) else .panic .index, s) := by
  by_cases hk : k < v.len
  · rw [if_pos hk]
    have : partitionAtIndex cfg (st.less (α := α) (κ := κ)) v k = .ret (v.sub 0 k, v.addr k, v.sub (k + 1) (v.len - (k + 1))) :=
      partitionAtIndex_zst h hk
    unfold selectNthUnstable
    rw [this]
    rfl
  · rw [if_neg hk]
    exact select_nth_bad_index o (by omega) s
where
  /-- The program is trivial. -/
  partitionAtIndex_zst {α ι ω : Type} {cfg : Cfg} {less : α → α → Prog α ι ω Bool} {v : View} {k : Nat} (h : cfg.zst = true) (hk : k < v.len) :
      partitionAtIndex cfg less v k = .ret (v.sub 0 k, v.addr k, v.sub (k + 1) (v.len - (k + 1))) := by
    unfold partitionAtIndex View.splitAt View.ref
    rw [if_neg (by omega), if_pos h, if_pos (by omega)]
    show (if 1 ≤ v.len - k then _ else _ : Prog α ι ω (View × View)) >>= _ = _
    rw [if_pos (by omega)]
    show Prog.ret (v.sub 0 k, ((v.sub k (v.len - k)).sub 0 1).addr 0, (v.sub k (v.len - k)).sub 1 (v.len - k - 1)) = _
    rw [View.sub_sub, View.sub_sub, View.sub_addr, show v.len - k - 1 = v.len - (k + 1) by omega]
    rfl

/-- C37: `select_many_nth_unstable*` on zero-sized elements. -/
theorem select_many_zst (h : cfg.zst = true) {is : List Nat} (his : GoodIndices v.len is) (o : Oracle σ (st.Q α κ) (st.A κ))
    (s : St α (st.Q α κ) (st.A κ) σ) : run o (selectManyNthUnstable st cfg v is) s = (.ok (is.map fun i => (i, v.addr i)), s) := by
  have : partitionAtIndices cfg (st.less (α := α) (κ := κ)) (is.length + 1) v 0 is = .ret (is.map fun i => (i, v.addr (i - 0))) :=
    partitionAtIndices_zst h (Nat.lt_succ_self _) (validIdx_iff.mpr his)
  unfold selectManyNthUnstable selectMany
  rw [this]
  rfl
where
  /-- The program is trivial. -/
  partitionAtIndices_zst {α ι ω : Type} {cfg : Cfg} {less : α → α → Prog α ι ω Bool} {v : View} {n off : Nat} {is : List Nat}
      (h : cfg.zst = true) (hn : is.length < n) (his : ValidIdx off v.len is) :
      partitionAtIndices cfg less n v off is = .ret (is.map fun i => (i, v.addr (i - off))) := by
    induction n generalizing v off is with
    | zero => omega
    | succ n ih =>
      unfold partitionAtIndices
      split
      · rename_i hp
        rw [List.getElem?_eq_none_iff] at hp
        rw [List.eq_nil_of_length_eq_zero (l := is) (by omega)]
        rfl
      · rename_i pivot hp
        have hsp := split_mid hp
        generalize is.take (is.length / 2) = I at hsp ⊢
        generalize is.drop (is.length / 2 + 1) = J at hsp ⊢
        clear hp
        subst hsp
        simp only [List.length_append, List.length_cons] at hn
        obtain ⟨hp, hI, hJ⟩ := validIdx_split.mp his
        unfold usub
        rw [if_pos hp.1]
        show partitionAtIndex cfg less v (pivot - off) >>= _ = _
        rw [select_nth_zst.partitionAtIndex_zst h (by omega)]
        show partitionAtIndices cfg less n (v.sub 0 (pivot - off)) off I >>= _ = _
        rw [ih (by omega) hI]
        show partitionAtIndices cfg less n (v.sub (pivot - off + 1) (v.len - (pivot - off + 1))) (pivot + 1) J >>= _ = _
        rw [ih (by omega) hJ]
        show Prog.ret _ = Prog.ret _
        rw [List.map_append, List.map_cons]
        refine congrArg Prog.ret (congr (congrArg _ (List.map_congr_left fun i _ => ?_)) (congrArg _ (List.map_congr_left fun i hi => ?_)))
        · simp [View.sub_addr]
        · have := hJ.2 i hi
          rw [View.sub_addr, show pivot - off + 1 + (i - (pivot + 1)) = i - off by omega]

/-- C37: `partition_dedup*` treats zero-sized elements like others: it ends without undefined behaviour, whatever user code does, and
as all values are the same, memory is as before. -/
theorem dedup_zst [Subsingleton α] (st : DedupStyle) (o : Oracle σ (st.Q α κ) (st.A α κ)) (hv : v.WF) (s : St α (st.Q α κ) (st.A α κ) σ) :
    EndsS o (partitionDedup st cfg v) s
      (fun r s' => s'.mem = s.mem ∧ r.1.region ++ r.2.region = v.region) (fun e s' => s'.mem = s.mem ∧ e = .user) :=
  (dedup_safe st cfg o hv s).mono (fun _ _ h => ⟨Subsingleton.elim _ _, h.2.2.1⟩) (fun _ _ h => ⟨Subsingleton.elim _ _, h.1⟩)

/-! ### C38 -/

/-- C38: `recurse maxSeq d` is the quick sort with at most `d` nested calls; it ends in `diverge` if it needs more.  For any `limit`,
comparator and input, `floor(log2(len)) + 1` nested calls are enough: the sort ends normally or with a panic of the comparator. -/
theorem quick_sort_depth (o : Oracle σ (st.Q α κ) (st.A κ)) (hv : v.WF) {d : Nat} (hd : Nat.log2 v.len + 1 ≤ d) (limit : Nat)
    (s : St α (st.Q α κ) (st.A κ) σ) :
    Ends o (recurse cfg st.less none d v none limit) s
      (fun _ m => (v.contents m).Perm (v.contents s.mem)) (fun e m => e = .user ∧ (v.contents m).Perm (v.contents s.mem)) :=
  (Tri.ends (rel_sat o) hv (recurse_top (C := st.toCmp (rel o)) (cfg := cfg) (maxSeq := none) (d := d) (v := v) (v.contents_length s.mem)
    (show v.len < 2 ^ d ∧ 1 ≤ d from ⟨Nat.lt_of_lt_of_le Nat.lt_log2_self (Nat.pow_le_pow_right (by decide) hd), by omega⟩))).mono
      (fun _ _ h => h.1.1) (fun _ _ h => ⟨h.1.1, h.1.2.2⟩)

/-! ### The hypotheses can be met -/

namespace Sample

/-- One element. -/
def one : View := ⟨5, -3, 1⟩

/-- Zero-sized elements. -/
def zst : Cfg := ⟨true, 64, true⟩

/-- `f` panics at its fifth call. -/
def unitOracle : Oracle Nat (KeyQ Unit Nat) (Nat × Bool) :=
  ⟨fun n q => (if n = 4 then none else some (match q with | .key _ => (n, true) | .lt k l => (0, decide (k < l))), n + 1), fun n => (true, n)⟩

def unitState : St Unit (KeyQ Unit Nat) (Nat × Bool) Nat := ⟨fun _ => (), 0, []⟩

end Sample

example (st : Style) := sort_unstable_trivial (st := st) (cfg := Sample.cfg) (v := Sample.one) (by decide) (Sample.nonsense st) (Sample.nstate st)
example (st : Style) := sort_trivial (st := st) (cfg := Sample.cfg) (v := Sample.one) (by decide) ⟨false, fun _ => false⟩ 0 (Sample.nonsense st)
  (Sample.nstate st)
example (st : Style) := par_sort_unstable_trivial (st := st) (cfg := Sample.cfg) (v := Sample.one) (by decide) (Sample.nonsense st) (Sample.nstate st)
  (.refl _ _)
example (st : Style) := par_sort_trivial (st := st) (cfg := Sample.cfg) (v := Sample.one) (by decide) 0 (Sample.nonsense st) (Sample.nstate st)
  (.refl _ _)
example (srt : PairSort Nat Nat) := sort_by_cached_key_trivial (cfg := Sample.cfg) (v := Sample.one) (by decide) Sample.sizes srt
  (Sample.nonsense .key) (Sample.nstate .key)
example (srt : PairSort Nat Nat) := par_sort_by_cached_key_trivial (cfg := Sample.cfg) (v := Sample.one) (by decide) Sample.sizes srt
  (Sample.nonsense .key) (Sample.nstate .key) (.refl _ _)
example (st : RelStyle) (o : Oracle Unit (st.Q Nat Nat) (st.A Nat)) := is_sorted_trivial (v := Sample.one) (by decide) st o ⟨Sample.mem, (), []⟩
example (st : DedupStyle) (o : Oracle Unit (st.Q Nat Nat) (st.A Nat Nat)) :=
  partition_dedup_trivial (cfg := Sample.cfg) (v := Sample.one) (by decide) st o ⟨Sample.mem, (), []⟩
example := sort_unstable_zst (st := .key) (cfg := Sample.zst) (v := Sample.view) rfl Sample.unitOracle Sample.unitState
example := sort_zst (st := .key) (cfg := Sample.zst) (v := Sample.view) rfl ⟨false, fun _ => false⟩ 0 Sample.unitOracle Sample.unitState
example := par_sort_unstable_zst (st := .key) (cfg := Sample.zst) (v := Sample.view) rfl Sample.unitOracle Sample.unitState (.refl _ _)
example := par_sort_zst (st := .key) (cfg := Sample.zst) (v := Sample.view) rfl 0 Sample.unitOracle Sample.unitState (.refl _ _)
example := sort_by_cached_key_zst (α := Unit) (κ := Nat) (cfg := Sample.zst) (sz := Sample.sizes) (v := Sample.view) Sample.pairSort_sorts Sample.unitOracle
  Sample.wf (by decide) Sample.unitState
example := select_nth_zst (st := .key) (cfg := Sample.zst) (v := Sample.view) rfl 59 Sample.unitOracle Sample.unitState
example := select_many_zst (st := .key) (cfg := Sample.zst) (v := Sample.view) (is := [0, 3, 59]) rfl ⟨by decide, by decide⟩ Sample.unitOracle
  Sample.unitState
example (st : DedupStyle) (o : Oracle Unit (st.Q Unit Nat) (st.A Unit Nat)) := dedup_zst (cfg := Sample.zst) st o Sample.wf ⟨fun _ => (), (), []⟩
example (st : Style) := quick_sort_depth (st := st) (cfg := Sample.cfg) (Sample.nonsense st) Sample.wf (d := 6) (by decide) 1 (Sample.nstate st)

end NdSlice
