import Verif.Core.PathW
import Verif.Proof.AlreadySorted
import Verif.Proof.Pivot
import Verif.Proof.Order

/-
What sorting does with a strictly descending array: the exact path through the code.
-/

namespace NdSlice

variable {α ι ω : Type} {R : ι → Option ω → Prop} {m : Mem α} {cfg : Cfg} {less : α → α → Prog α ι ω Bool} {lt : α → α → Bool} {c : Nat}
  {v : View}

/-- The view shows a strictly descending array. -/
def Falling (m : Mem α) (lt : α → α → Bool) (v : View) : Prop :=
  ∀ i j, i < j → j < v.len → lt (m (v.addr j)) (m (v.addr i)) = true

theorem Falling.sub (h : Falling m lt v) {a n : Nat} (ha : a + n ≤ v.len) : Falling m lt (v.sub a n) := by
  intro i j hij hj
  rw [View.sub_len] at hj
  rw [View.sub_addr, View.sub_addr]
  exact h _ _ (by omega) (by omega)

theorem falling_of_pairwise (h : (v.contents m).Pairwise fun a b => lt b a = true) : Falling m lt v := by
  intro i j hij hj
  have hl := v.contents_length m
  have := List.pairwise_iff_getElem.mp h i j (by omega) (by omega) hij
  have e : ∀ k (hk : k < (v.contents m).length), (v.contents m)[k] = m (v.addr k) := by
    intro k hk
    simp [View.contents, View.region]
  rwa [e, e] at this

/-- Reversing a strictly descending array sorts it. -/
theorem sorted_reverse (so : SWO lt) {xs : List α} (h : xs.Pairwise fun a b => lt b a = true) : Sorted lt xs.reverse := by
  show List.Pairwise _ _
  rw [List.pairwise_reverse]
  exact h.imp fun hab => so.asymm hab

theorem revswap_asksNothing {a b : View} {n i k : Nat} : (revswap cfg a b n i k : Prog α ι ω Unit).Silent := by
  induction k generalizing i with
  | zero => trivial
  | succ k ih =>
    unfold revswap
    exact .bind .usub fun _ => .bind .usub fun _ => .bind .vidx fun _ => .bind .vidx fun _ => .bind .vcset fun _ => .bind .vcset fun _ => ih

theorem reverse_asksNothing : (reverse cfg v : Prog α ι ω Unit).Silent := by
  unfold reverse
  exact .bind .usub fun _ => .bind .vsplitAt fun _ => .bind .vsplitAt fun _ => .bind .debugAssert fun _ => .bind .debugAssert fun _ => revswap_asksNothing

/-- `reverse` asks nothing, reverses the array and changes nothing else. -/
theorem reverse_path (hv : v.WF) (m : Mem α) :
    ∃ m', PathW R m (reverse cfg v) () 0 m' ∧ v.contents m' = (v.contents m).reverse ∧ ∀ a, a ∉ v.region → m' a = m a := by
  obtain ⟨_, m', h1, h2, h3⟩ := reverse_asksNothing.path (wp_unchanged (reverse_spec (R := R) (cfg := cfg) (E := fun _ _ => False) (v.contents_length m)
    m [] (View.region_nodup hv) rfl)) (fun _ _ _ h => h.1)
  exact ⟨m', h1, h2, h3⟩

section

variable (hl : ∀ m, Answers R m less lt c) (hs : Falling m lt v)
include hl hs

theorem sort2_falling {a b s : Nat} (hab : a < b) (hb : b < v.len) : Path R m (sort2 less v a b s) (b, a, s + 1) c := by
  unfold sort2
  refine .seq (.vget (by omega)) (k := c) ?_ (by omega)
  refine .seq (.vget (by omega)) (k := c) ?_ (by omega)
  refine .seq (hl m _ _) (k := 0) ?_ (by omega)
  rw [hs _ _ (by omega) (by omega)]
  exact .pure

theorem sort3_falling {a b d s : Nat} (hab : a < b) (hbd : b < d) (hd : d < v.len) :
    Path R m (sort3 less v a b d s) (d, b, a, s + 3) (3 * c) := by
  unfold sort3
  refine .seq (sort2_falling hl hs hab (by omega)) (k := 2 * c) ?_ (by omega)
  refine .seq (sort2_falling hl hs (a := a) (b := d) (by omega) hd) (k := c) ?_ (by omega)
  exact .seq (sort2_falling hl hs hbd (by omega)) (k := 0) .pure (by omega)

theorem sortAdjacent_falling {a s : Nat} (h1 : 1 ≤ a) (ha : a + 1 < v.len) :
    Path R m (sortAdjacent cfg less v a s) (a, s + 3) (3 * c) := by
  unfold sortAdjacent
  refine .seq (.usub (by omega)) (k := 3 * c) ?_ (by omega)
  exact .seq (sort3_falling hl hs (by omega) (by omega) ha) (k := 0) .pure (by omega)

theorem chooseMedian_falling (h50 : 50 ≤ v.len) :
    Path R m (chooseMedian cfg less v) (v.len / 4 * 2, 12) (12 * c) := by
  unfold chooseMedian
  rw [if_pos (by omega), if_pos (by omega)]
  refine .seq (b := (v.len / 4, v.len / 4 * 2, v.len / 4 * 3, 9)) (n := 9 * c) (k := 3 * c) ?_ ?_ (by omega)
  · refine .seq (sortAdjacent_falling hl hs (by omega) (by omega)) (k := 6 * c) ?_ (by omega)
    refine .seq (sortAdjacent_falling hl hs (by omega) (by omega)) (k := 3 * c) ?_ (by omega)
    exact .seq (sortAdjacent_falling hl hs (by omega) (by omega)) (k := 0) .pure (by omega)
  · exact .seq (sort3_falling hl hs (by omega) (by omega) (by omega)) (k := 0) .pure (by omega)

/-- `recurse` reverses a strictly descending slice. -/
theorem recurse_falling (maxSeq : Option Nat) (d : Nat) {pred : Option Addr} {limit : Nat} (hlim : limit ≠ 0) (h50 : 50 ≤ v.len)
    {m' : Mem α} (hr : PathW R m (reverse cfg v) () 0 m') (hs' : InOrder m' lt v) :
    PathW R m (recurse cfg less maxSeq (d + 1) v pred limit) () ((v.len + 11) * c) m' := by
  unfold recurse Prog.loop
  refine .seq (b := .inr ()) (n := (v.len + 11) * c) (k := 0) (m1 := m') ?_ (.of_path .pure) (by omega)
  unfold quickStep
  dsimp only
  have e : (v.len + 11) * c = 12 * c + (v.len - 1) * c := by rw [← Nat.add_mul]; congr 1; omega
  rw [if_neg (by omega), if_neg hlim, e]
  refine .seq (b := limit) (.of_path .pure) (k := _) ?_ (Nat.zero_add _).symm
  refine .seq (b := (v.len - 1 - v.len / 4 * 2, true)) (n := 12 * c) (k := (v.len - 1) * c) (m1 := m') ?_ ?_ (by omega)
  · unfold choosePivot
    refine .seq (.of_path (chooseMedian_falling hl hs h50)) (k := 0) ?_ (by omega)
    dsimp only
    rw [if_neg (by omega)]
    refine .seq hr (k := 0) ?_ (by omega)
    exact .of_path (.seq (.usub (by omega)) (k := 0) (.seq (.usub (by omega)) (k := 0) .pure (by omega)) (by omega))
  · exact .of_path (.seq (partialInsertionSort_path (hl m') hs' (by omega)) (k := 0) .pure (by omega))

theorem quickSort_falling (hz : cfg.zst = false) (h50 : 50 ≤ v.len) {m' : Mem α} (hr : PathW R m (reverse cfg v) () 0 m')
    (hs' : InOrder m' lt v) : PathW R m (quickSort cfg less v) () ((v.len + 11) * c) m' := by
  unfold quickSort
  rw [hz]
  exact recurse_falling hl hs none _ (by unfold bitLen; rw [if_neg (by omega)]; omega) h50 hr hs'

theorem parQuickSort_falling (hz : cfg.zst = false) (h50 : 50 ≤ v.len) {m' : Mem α} (hr : PathW R m (reverse cfg v) () 0 m')
    (hs' : InOrder m' lt v) : PathW R m (parQuickSort cfg less v) () ((v.len + 11) * c) m' := by
  unfold parQuickSort
  rw [hz]
  exact recurse_falling hl hs _ _ (by unfold bitLen; rw [if_neg (by omega)]; omega) h50 hr hs'

theorem streakLoop_falling {e n : Nat} (h1 : 1 ≤ e) (hn : e + n = v.len) : Path R m (streakLoop less v true e n) v.len (n * c) := by
  induction n generalizing e with
  | zero => rw [Nat.zero_mul, ← hn]; exact .pure
  | succ n ih =>
    unfold streakLoop
    have e : (n + 1) * c = n * c + c := Nat.succ_mul _ _
    refine .seq (.vget (by omega)) (k := (n + 1) * c) ?_ (by omega)
    refine .seq (.vget (by omega)) (k := (n + 1) * c) ?_ (by omega)
    refine .seq (hl m _ _) (k := n * c) ?_ (by omega)
    rw [hs _ _ (by omega) (by omega)]
    exact ih (by omega) (by omega)

theorem findStreak_falling (h2 : 2 ≤ v.len) : Path R m (findStreak less v) (v.len, true) ((v.len - 1) * c) := by
  unfold findStreak
  rw [if_neg (by omega)]
  have e : (v.len - 1) * c = (v.len - 2) * c + c := by rw [show v.len - 1 = v.len - 2 + 1 by omega, Nat.succ_mul]
  refine .seq (.vget (by omega)) (k := (v.len - 1) * c) ?_ (by omega)
  refine .seq (.vget (by omega)) (k := (v.len - 1) * c) ?_ (by omega)
  refine .seq (hl m _ _) (k := (v.len - 2) * c) ?_ (by omega)
  rw [hs _ _ (by omega) (by omega)]
  exact .seq (streakLoop_falling hl hs (by omega) (by omega)) (k := 0) .pure (by omega)

theorem nextRun_falling (h10 : 10 ≤ v.len) {m' : Mem α} (hr : PathW R m (reverse cfg v) () 0 m') :
    PathW R m (nextRun cfg less v 0) v.len ((v.len - 1) * c) m' := by
  have e0 : v.sub 0 v.len = v := by simp [View.sub, View.addr]
  unfold nextRun
  refine .seq (.of_path (.slice (by omega) (by omega))) (k := (v.len - 1) * c) ?_ (by omega)
  rw [Nat.sub_zero, e0]
  refine .seq (.of_path (findStreak_falling hl hs (by omega))) (k := 0) ?_ (by simp)
  dsimp only
  rw [if_pos rfl]
  refine .seq (.of_path (.slice (by omega) (by omega))) (k := 0) ?_ (by omega)
  rw [Nat.zero_add, Nat.sub_zero, e0]
  refine .seq hr (k := 0) (.of_path ?_) (by omega)
  unfold provideSortedBatch
  refine .seq (.assertP (by simp)) (k := 0) ?_ (by omega)
  refine .seq (.usub (by omega)) (k := 0) ?_ (by omega)
  rw [if_neg (by simp)]
  exact .pure

theorem mergeSort_falling {al : Alloc} (hal : al.elem = true ∧ al.run 16 = true) (hz : cfg.zst = false) (buf : View) (h20 : 20 < v.len)
    {m' : Mem α} (hr : PathW R m (reverse cfg v) () 0 m') :
    PathW R m (mergeSort cfg less al v buf) () ((v.len - 1) * c) m' := by
  unfold mergeSort mergeSortWatch
  refine .seq (.of_path (.debugAssert (by simp [hz]))) (k := (v.len - 1) * c) ?_ (by omega)
  rw [if_neg (by omega), if_neg (by simp [hal.1]), if_neg (by simp [hal.2])]
  obtain ⟨rv, h1, h2⟩ := RunVec.new_holds.push (α := α) (ι := ι) (ω := ω) (al := al) (.inl (by decide)) ⟨v.len - 0, 0⟩
  obtain ⟨k, hk⟩ : ∃ k, v.len + 1 = k + 2 := ⟨v.len - 1, by omega⟩
  refine .seq (b := rv) (n := (v.len - 1) * c) (k := 0) (m1 := m') ?_ (.of_path ?_) (by omega)
  · rw [hk]
    unfold Prog.loop
    refine .seq (b := .inl (v.len, rv)) (n := (v.len - 1) * c) (k := 0) (m1 := m') ?_ (.of_path ?_) (by omega)
    · unfold mergeSortBody
      dsimp only
      rw [if_pos (by omega)]
      refine .seq (.onPanic (nextRun_falling hl hs (by omega) hr)) (k := 0) (.of_path ?_) (by omega)
      refine .seq (.usub (by omega)) (k := 0) ?_ (by omega)
      rw [h1]
      refine .seq .pure (k := 0) ?_ (by omega)
      refine .seq (b := rv) (n := 0) (k := 0) ?_ (.seq .pure .pure rfl) (by omega)
      unfold Prog.loop
      refine .seq (b := .inr rv) (n := 0) (k := 0) ?_ .pure (by omega)
      unfold collapseBody
      rw [h2.asSlice]
      refine .seq .pure (k := 0) ?_ (by omega)
      exact .pure
    · unfold Prog.loop
      refine .seq (b := .inr rv) (n := 0) (k := 0) ?_ .pure (by omega)
      unfold mergeSortBody
      dsimp only
      rw [if_neg (by omega)]
      exact .pure
  · by_cases hd : cfg.dbg = true
    · rw [if_pos hd, h2.idx (i := 0) rfl, h2.drop]
      refine .seq .pure (k := 0) ?_ (by omega)
      refine .seq (.debugAssert ?_) (k := 0) .pure (by omega)
      have : rv.len = 1 := h2.len.symm
      simp [this]
    · rw [if_neg hd, h2.drop]
      exact .pure

theorem stableSort_falling {al : Alloc} (hal : al.elem = true ∧ al.run 16 = true) (hz : cfg.zst = false) (buf : View) (h20 : 20 < v.len)
    {m' : Mem α} (hr : PathW R m (reverse cfg v) () 0 m') : PathW R m (stableSort cfg less al v buf) () ((v.len - 1) * c) m' := by
  unfold stableSort
  rw [hz]
  exact mergeSort_falling hl hs hal hz buf h20 hr

end

end NdSlice
