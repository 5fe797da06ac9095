import Verif.Core.Refs

/-
The functions of the model on places against those of the model on objects: insertion sorts, heap sort, partitioning.
-/

namespace NdSlice.Refs

variable {α σ : Type} {K : RCtx α σ} {g : LiveSet} {v : View} {cfg : Cfg}

/-! ### Insertion sorts -/

theorem apart_eq {τ ι ω : Type} {a b : Addr} (h : a ≠ b) : (apart a b : Prog τ ι ω Unit) = pure () := by
  unfold apart; rw [if_neg h]

/-- Different elements are in different cells. -/
theorem In.apart (hv : In g v) {i j : Nat} (hi : i < v.len) (hj : j < v.len) (h : i ≠ j) : v.addr i ≠ v.addr j :=
  fun e => h (hv.inj i j hi hj e)

theorem holeDrop_refs (hs : ∀ a, g.P a → K.T a ∧ a ≠ K.t) (hn : g.vt = none) (hv : In g v) {h : Nat} {x : Addr} :
    K.RT (K.Live (g.hole (v.addr h) x)) (holeDrop v h K.t) (v.set h x) (fun _ _ => K.Live g) (K.Live g) := by
  unfold holeDrop View.set
  by_cases hh : h < v.len
  · simp only [if_pos hh, apart_eq (fun e => (hs _ (hv.mem _ hh)).2 e.symm : K.t ≠ v.addr h)]
    refine RT.getR fun y => RT.set ?_ (RT.pure fun _ _ _ h => h)
    rintro mR mA L ⟨h, rfl⟩
    have := hs _ (hv.mem _ hh)
    exact h.fill this.1 this.2 hn
  · simp only [if_neg hh]
    exact RT.ub

/-- Copying an element into the hole. -/
theorem shift_refs {β γ : Type} {p : Prog α (α × α) (α × α × Option Bool) β} {q : Prog Addr (Addr × Addr) Bool γ} {post : β → γ → Asn α}
    {exc : Asn α} (hs : ∀ a, g.P a → K.T a ∧ a ≠ K.t) (hv : In g v) {h h' : Nat} (hh : h < v.len) (hh' : h' < v.len) (hne : h' ≠ h) {i x : Addr}
    (hk : K.RT (K.Live (g.hole (v.addr h') i)) p q post exc) :
    K.RT (fun mR mA L => K.Live (g.hole (v.addr h) i) mR mA L ∧ mA (v.addr h') = x)
      (deref (v.addr h') >>= fun y => apart (v.addr h') (v.addr h) >>= fun _ => v.set h y >>= fun _ => p)
      (v.set h x >>= fun _ => q) post exc := by
  unfold View.set
  simp only [if_pos hh, apart_eq (hv.apart hh' hh hne)]
  refine RT.getR fun y => RT.set ?_ hk
  rintro mR mA L ⟨⟨hL, rfl⟩, rfl⟩
  have := hs _ (hv.mem _ hh)
  exact hL.shift this.1 this.2 (hv.mem _ hh')

theorem insertTailLoop_refs (hs : ∀ a, g.P a → K.T a ∧ a ≠ K.t) (hn : g.vt = none) (hv : In g v) {i : Addr} {h : Nat} (hh : h < v.len) :
    K.RT (K.Live (g.hole (v.addr h) i)) (insertTailLoop callAt K.t v h) (NdSlice.insertTailLoop ask v i h) (fun _ _ => K.Live g) (K.Live g) := by
  induction h with
  | zero => unfold insertTailLoop NdSlice.insertTailLoop; exact holeDrop_refs hs hn hv
  | succ h ih =>
    have hh' : h < v.len := by omega
    unfold insertTailLoop NdSlice.insertTailLoop
    refine RT.readU fun _ x => ?_
    refine RT.bind (mid := fun b c mR mA L => b = c ∧ K.Live (g.hole (v.addr (h + 1)) i) mR mA L ∧ mA (v.addr h) = x) (RT.onPanic
      (RT.call (g := g.hole (v.addr (h + 1)) i) (F := fun m => m (v.addr h) = x) (.inr ⟨rfl, rfl⟩)
        (.inl ⟨⟨hv.mem _ hh', fun e => by have := hv.inj _ _ hh' hh e; omega⟩, fun _ h => h⟩))
      (RT.conseq (holeDrop_refs hs hn hv) (fun _ _ _ h => h.1) (fun _ _ _ _ _ h => h) (fun _ _ _ h => h))) fun b c => ?_
    refine RT.intro (fun _ _ _ h => h.1) ?_
    rintro rfl
    refine RT.ite (fun _ => RT.conseq (holeDrop_refs hs hn hv) (fun _ _ _ h => h.2.1) (fun _ _ _ _ _ h => h) (fun _ _ _ h => h)) fun _ => ?_
    exact RT.conseq (shift_refs hs hv hh hh' (by omega) (ih hh')) (fun _ _ _ h => h.2) (fun _ _ _ _ _ h => h) (fun _ _ _ h => h)

theorem insertHeadLoop_refs (hs : ∀ a, g.P a → K.T a ∧ a ≠ K.t) (hn : g.vt = none) (hv : In g v) {i : Addr} {n d : Nat} (hd : d < v.len) :
    K.RT (K.Live (g.hole (v.addr d) i)) (insertHeadLoop callAt K.t v d n) (NdSlice.insertHeadLoop ask v i d n) (fun _ _ => K.Live g) (K.Live g) := by
  induction n generalizing d with
  | zero => unfold insertHeadLoop NdSlice.insertHeadLoop; exact holeDrop_refs hs hn hv
  | succ n ih =>
    unfold insertHeadLoop NdSlice.insertHeadLoop
    refine RT.readU fun hh' x => ?_
    refine RT.bind (mid := fun b c mR mA L => b = c ∧ K.Live (g.hole (v.addr d) i) mR mA L ∧ mA (v.addr (d + 1)) = x) (RT.onPanic
      (RT.call (g := g.hole (v.addr d) i) (F := fun m => m (v.addr (d + 1)) = x)
        (.inl ⟨⟨hv.mem _ hh', fun e => by have := hv.inj _ _ hh' hd e; omega⟩, fun _ h => h⟩) (.inr ⟨rfl, rfl⟩))
      (RT.conseq (holeDrop_refs hs hn hv) (fun _ _ _ h => h.1) (fun _ _ _ _ _ h => h) (fun _ _ _ h => h))) fun b c => ?_
    refine RT.intro (fun _ _ _ h => h.1) ?_
    rintro rfl
    refine RT.ite (fun _ => RT.conseq (holeDrop_refs hs hn hv) (fun _ _ _ h => h.2.1) (fun _ _ _ _ _ h => h) (fun _ _ _ h => h)) fun _ => ?_
    exact RT.conseq (shift_refs hs hv hd hh' (by omega) (ih hh')) (fun _ _ _ h => h.2) (fun _ _ _ _ _ h => h) (fun _ _ _ h => h)

/-- Taking out the element `i` and copying the element `j` there. -/
theorem takeOut_refs {p : Prog α (α × α) (α × α × Option Bool) Unit} {q : Addr → Prog Addr (Addr × Addr) Bool Unit} (hv : In g v) {i j : Nat} (hne : j < v.len → j ≠ i)
    (hk : (∀ a, g.P a → K.T a ∧ a ≠ K.t) → j < v.len → ∀ x, K.RT (K.Live (g.hole (v.addr j) x)) p (q x) (fun _ _ => K.Live g) (K.Live g)) :
    K.Keep g (v.get i >>= fun x => store K.t x >>= fun _ => v.get j >>= fun z => apart (v.addr j) (v.addr i) >>= fun _ => v.set i z >>= fun _ => p)
      (v.get i >>= fun x => v.get j >>= fun z => v.set i z >>= fun _ => q x) Eq := by
  unfold View.get View.set
  by_cases hi : i < v.len
  · by_cases hj : j < v.len
    · simp only [if_pos hi, if_pos hj, apart_eq (hv.apart hj hi (hne hj))]
      refine RT.intro (fun _ _ _ h => h.sub) fun hs => ?_
      refine RT.get fun x x' => RT.setR (pre' := K.Live (g.hole (v.addr i) x')) ?_ ?_
      · rintro mR mA L ⟨h, rfl, rfl⟩
        exact h.toHole (hv.mem i hi)
      · refine RT.get fun z z' => RT.set (pre' := K.Live (g.hole (v.addr j) x')) ?_ ?_
        · rintro mR mA L ⟨h, rfl, rfl⟩
          have := hs _ (hv.mem _ hi)
          exact h.shift this.1 this.2 (hv.mem j hj)
        · exact RT.conseq (hk hs hj x') (fun _ _ _ h => h) (fun _ _ _ _ _ h => ⟨rfl, h⟩) (fun _ _ _ h => h)
    · simp only [if_pos hi, if_neg hj]
      refine RT.getA fun _ => ?_
      exact RT.ub
  · simp only [if_neg hi]
    exact RT.ub

theorem Keep.usubE {i j : Nat} (h : j ≤ i) : K.Keep g (NdSlice.usub cfg i j) (NdSlice.usub cfg i j) (fun a b => a = i - j ∧ b = i - j) := by
  unfold NdSlice.usub
  rw [if_pos h, if_pos h]
  exact Keep.pure ⟨rfl, rfl⟩

theorem insertTail_refs (hn : g.vt = none) (hv : In g v) (hl : 2 ≤ v.len) :
    K.Keep g (insertTail cfg callAt K.t v) (NdSlice.insertTail cfg ask v) Eq := by
  unfold insertTail NdSlice.insertTail
  refine Keep.bind Keep.debugAssert fun _ _ _ => Keep.bind (Keep.usubE (by omega)) ?_
  rintro _ _ ⟨rfl, rfl⟩
  refine Keep.bind (Keep.usubE (by omega)) ?_
  rintro _ _ ⟨rfl, rfl⟩
  keep
  exact takeOut_refs hv (fun _ => by omega) fun hs hj x => insertTailLoop_refs hs hn hv hj

theorem insertHead_refs (hn : g.vt = none) (hv : In g v) : K.Keep g (insertHead cfg callAt K.t v) (NdSlice.insertHead cfg ask v) Eq := by
  unfold insertHead NdSlice.insertHead
  keep
  exact takeOut_refs hv (fun _ => by omega) fun hs hj x => insertHeadLoop_refs hs hn hv hj

macro_rules | `(tactic| keep_lemma) => `(tactic| with_reducible exact insertHead_refs ‹_› ‹_›)

theorem Keep.forUpB {body : Nat → Prog α (α × α) (α × α × Option Bool) Unit} {body' : Nat → Prog Addr (Addr × Addr) Bool Unit} {n i : Nat}
    (h : ∀ j, i ≤ j → j < i + n → K.Keep g (body j) (body' j) Eq) : K.Keep g (Prog.forUp body i n) (Prog.forUp body' i n) Eq := by
  induction n generalizing i with
  | zero => exact Keep.pureEq
  | succ n ih =>
    unfold Prog.forUp
    exact Keep.bind (h i (Nat.le_refl _) (by omega)) fun _ _ _ => ih fun j h1 h2 => h j (by omega) (by omega)

theorem Keep.sliceE {i j : Nat} (h : i ≤ j) (h' : j ≤ v.len) : K.Keep g (v.slice i j) (v.slice i j) (fun a b => a = v.sub i (j - i) ∧ b = v.sub i (j - i)) := by
  unfold View.slice
  rw [if_neg (Nat.not_lt.mpr h), if_pos ⟨by omega, h'⟩, if_pos ⟨by omega, h'⟩]
  exact Keep.pure ⟨rfl, rfl⟩

theorem insertionSortShiftLeft_refs (hn : g.vt = none) (hv : In g v) {n : Nat} :
    K.Keep g (insertionSortShiftLeft cfg callAt K.t v n) (NdSlice.insertionSortShiftLeft cfg ask v n) Eq := by
  unfold insertionSortShiftLeft NdSlice.insertionSortShiftLeft assertP
  by_cases hc : (decide (n ≠ 0) && decide (n ≤ v.len)) = true
  · rw [if_pos hc, if_pos hc]
    rw [Bool.and_eq_true, decide_eq_true_eq, decide_eq_true_eq] at hc
    refine Keep.forUpB fun j h1 h2 => Keep.bind (Keep.sliceE (Nat.zero_le _) (by omega)) ?_
    rintro _ _ ⟨rfl, rfl⟩
    exact insertTail_refs hn (hv.sub (by omega)) (by change 2 ≤ j + 1 - 0; omega)
  · rw [if_neg hc, if_neg hc]
    exact Keep.throw _

theorem insertionSortShiftRight_refs (hn : g.vt = none) (hv : In g v) {n : Nat} :
    K.Keep g (insertionSortShiftRight cfg callAt K.t v n) (NdSlice.insertionSortShiftRight cfg ask v n) Eq := by
  unfold insertionSortShiftRight NdSlice.insertionSortShiftRight
  keep

theorem findOutOfOrder_refs (hv : In g v) {n i : Nat} : K.Keep g (findOutOfOrder cfg callAt v i n) (NdSlice.findOutOfOrder cfg ask v i n) Eq := by
  induction n generalizing i with
  | zero => unfold findOutOfOrder NdSlice.findOutOfOrder; keep
  | succ n ih => unfold findOutOfOrder NdSlice.findOutOfOrder; keep; exact ih

macro_rules | `(tactic| keep_lemma) => `(tactic| with_reducible first
  | exact insertionSortShiftLeft_refs ‹_› ‹_›
  | exact insertionSortShiftRight_refs ‹_› ‹_› | exact findOutOfOrder_refs ‹_›)

theorem partialInsertionLoop_refs (hn : g.vt = none) (hv : In g v) {n i : Nat} :
    K.Keep g (partialInsertionLoop cfg callAt K.t v n i) (NdSlice.partialInsertionLoop cfg ask v n i) Eq := by
  induction n generalizing i with
  | zero => unfold partialInsertionLoop NdSlice.partialInsertionLoop; keep
  | succ n ih => unfold partialInsertionLoop NdSlice.partialInsertionLoop; keep <;> exact ih

theorem partialInsertionSort_refs (hn : g.vt = none) (hv : In g v) :
    K.Keep g (partialInsertionSort cfg callAt K.t v) (NdSlice.partialInsertionSort cfg ask v) Eq := partialInsertionLoop_refs hn hv

macro_rules | `(tactic| keep_lemma) => `(tactic| with_reducible exact partialInsertionSort_refs ‹_› ‹_›)

/-! ### Heap sort -/

theorem siftDown_refs (hv : In g v) {n : Nat} : K.Keep g (siftDown callAt v n) (NdSlice.siftDown ask v n) Eq := by
  unfold siftDown siftDownStep NdSlice.siftDown NdSlice.siftDownStep; keep

macro_rules | `(tactic| keep_lemma) => `(tactic| with_reducible exact siftDown_refs ‹_›)

theorem heapSort_refs (hv : In g v) : K.Keep g (heapSort callAt v) (NdSlice.heapSort ask v) Eq := by
  unfold heapSort NdSlice.heapSort; keep

macro_rules | `(tactic| keep_lemma) => `(tactic| with_reducible exact heapSort_refs ‹_›)

/-! ### Partitioning -/

theorem revswap_refs {w : View} (hv : In g v) (hw : In g w) {n i k : Nat} : K.Keep g (revswap cfg v w n i k) (revswap cfg v w n i k) Eq := by
  induction k generalizing i with
  | zero => unfold revswap; keep
  | succ k ih =>
    unfold revswap
    refine (Keep.bindEq (Keep.usub).weak fun j => ?_).keep
    refine (Keep.bindEq (Keep.usub).weak fun j => ?_).keep
    unfold View.idx View.cset
    by_cases hi : i < v.len
    · by_cases hj : j < w.len
      · simp only [if_pos hi, if_pos hj]
        exact Keep.bind (f := fun _ => revswap cfg v w n (i + 1) k) (f' := fun _ => revswap cfg v w n (i + 1) k)
          (Keep.swapA (hv.mem i hi) (hw.mem j hj)) fun _ _ _ => ih
      · simp only [if_pos hi, if_neg hj]
        exact RT.get fun _ _ => RT.throw fun _ _ _ h => h.1
    · simp only [if_neg hi]
      exact RT.throw fun _ _ _ h => h

macro_rules | `(tactic| keep_lemma) => `(tactic| with_reducible exact revswap_refs ‹_› ‹_›)

theorem reverse_refs (hv : In g v) : K.Keep g (reverse cfg v) (reverse cfg v) Eq := by
  unfold reverse; keep

theorem breakPatternsLoop_refs (hv : In g v) {m p i s k : Nat} :
    K.Keep g (breakPatternsLoop cfg v m p i s k) (breakPatternsLoop cfg v m p i s k) Eq := by
  induction k generalizing i s with
  | zero => unfold breakPatternsLoop; keep
  | succ k ih => unfold breakPatternsLoop; keep; exact ih

macro_rules | `(tactic| keep_lemma) => `(tactic| with_reducible first | exact reverse_refs ‹_› | exact breakPatternsLoop_refs ‹_›)

theorem breakPatterns_refs (hv : In g v) : K.Keep g (breakPatterns cfg v) (breakPatterns cfg v) Eq := by
  unfold breakPatterns; keep

theorem sort2_refs (hv : In g v) {a b s : Nat} : K.Keep g (sort2 callAt v a b s) (NdSlice.sort2 ask v a b s) Eq := by
  unfold sort2 NdSlice.sort2; keep

macro_rules | `(tactic| keep_lemma) => `(tactic| with_reducible first | exact breakPatterns_refs ‹_› | exact sort2_refs ‹_›)

theorem sort3_refs (hv : In g v) {a b c s : Nat} : K.Keep g (sort3 callAt v a b c s) (NdSlice.sort3 ask v a b c s) Eq := by
  unfold sort3 NdSlice.sort3; keep

macro_rules | `(tactic| keep_lemma) => `(tactic| with_reducible exact sort3_refs ‹_›)

theorem sortAdjacent_refs (hv : In g v) {a s : Nat} : K.Keep g (sortAdjacent cfg callAt v a s) (NdSlice.sortAdjacent cfg ask v a s) Eq := by
  unfold sortAdjacent NdSlice.sortAdjacent; keep

macro_rules | `(tactic| keep_lemma) => `(tactic| with_reducible exact sortAdjacent_refs ‹_›)

theorem chooseMedian_refs (hv : In g v) : K.Keep g (chooseMedian cfg callAt v) (NdSlice.chooseMedian cfg ask v) Eq := by
  unfold chooseMedian NdSlice.chooseMedian; keep

macro_rules | `(tactic| keep_lemma) => `(tactic| with_reducible exact chooseMedian_refs ‹_›)

theorem choosePivot_refs (hv : In g v) : K.Keep g (choosePivot cfg callAt v) (NdSlice.choosePivot cfg ask v) Eq := by
  unfold choosePivot NdSlice.choosePivot; keep

macro_rules | `(tactic| keep_lemma) => `(tactic| with_reducible exact choosePivot_refs ‹_›)

section
variable {f : Nat → Prog α (α × α) (α × α × Option Bool) Bool} {f' : Nat → Prog Addr (Addr × Addr) Bool Bool}

theorem scanUp_refs (h : ∀ i, K.Keep g (f i) (f' i) Eq) {n l : Nat} : K.Keep g (scanUp f n l) (scanUp f' n l) Eq := by
  induction n generalizing l with
  | zero => unfold scanUp; keep
  | succ n ih => unfold scanUp; keep <;> first | exact h _ | exact ih

theorem scanDown_refs (h : ∀ i, K.Keep g (f i) (f' i) Eq) {n l : Nat} : K.Keep g (scanDown f n l) (scanDown f' n l) Eq := by
  induction n generalizing l with
  | zero => unfold scanDown; keep
  | succ n ih => unfold scanDown; keep <;> first | exact h _ | exact ih

theorem scanEqual_refs (h : ∀ i, K.Keep g (f i) (f' i) Eq) {n l : Nat} : K.Keep g (scanEqual cfg f n l) (scanEqual cfg f' n l) Eq := by
  induction n generalizing l with
  | zero => unfold scanEqual; keep
  | succ n ih => unfold scanEqual; keep <;> first | exact h _ | exact ih

end

macro_rules | `(tactic| keep_lemma) => `(tactic| with_reducible first
  | refine scanUp_refs (fun _ => ?_)
  | refine scanDown_refs (fun _ => ?_)
  | refine scanEqual_refs (fun _ => ?_))

/-- The pivot is on the stack while `p` runs. -/
theorem pivot_refs {β : Type} {P : Prog α (α × α) (α × α × Option Bool) β} {Q : Addr → Prog Addr (Addr × Addr) Bool β} (hn : g.vt = none) (hv : In g v)
    (h : ∀ x, K.Keep (g.hole (v.addr 0) x) P (Q x) Eq) {γ : Type} {f : β → Prog α (α × α) (α × α × Option Bool) γ} {f' : β → Prog Addr (Addr × Addr) Bool γ}
    (hf : ∀ r, K.Keep g (f r) (f' r) Eq) :
    K.Keep g (v.idx 0 >>= fun x => store K.t x >>= fun _ => P.onPanic (holeDrop v 0 K.t) >>= fun r => holeDrop v 0 K.t >>= fun _ => f r)
      (v.idx 0 >>= fun x => (Q x).onPanic (v.set 0 x) >>= fun r => v.set 0 x >>= fun _ => f' r) Eq := by
  refine RT.intro (fun _ _ _ h => h.sub) fun hs => ?_
  unfold View.idx
  by_cases hl : 0 < v.len
  · simp only [if_pos hl]
    refine RT.get fun x x' => RT.setR (pre' := K.Live (g.hole (v.addr 0) x')) ?_ ?_
    · rintro mR mA L ⟨h, rfl, rfl⟩
      exact h.toHole (hv.mem 0 hl)
    · change K.RT _ (P.onPanic (holeDrop v 0 K.t) >>= fun r => holeDrop v 0 K.t >>= fun _ => f r)
        ((Q x').onPanic (v.set 0 x') >>= fun r => v.set 0 x' >>= fun _ => f' r) _ _
      refine RT.bind (RT.onPanic (h x') (holeDrop_refs hs hn hv)) fun b c => ?_
      refine RT.intro (fun _ _ _ h => h.1) ?_
      rintro rfl
      exact RT.bind (RT.conseq (holeDrop_refs hs hn hv) (fun _ _ _ h => h.2) (fun _ _ _ _ _ h => h) (fun _ _ _ h => h)) fun _ _ =>
        hf _
  · simp only [if_neg hl]
    exact RT.throw fun _ _ _ h => h

/-- The rest of a view without its first element. -/
theorem In.hole {n : Nat} (hv : In g v) (hn : n ≤ v.len - 1) {x : Addr} : In (g.hole ((v.sub 0 1).addr 0) x) (v.sub 1 n) := by
  refine ⟨fun i hi => ?_, fun i j hi hj => ?_⟩
  · have hi : i < n := hi
    rw [addr_sub, addr_sub]
    refine ⟨hv.mem _ (by omega), fun e => ?_⟩
    have := hv.inj _ _ (by omega) (by omega) e
    omega
  · have hi : i < n := hi
    have hj : j < n := hj
    rw [addr_sub, addr_sub]
    intro e
    have := hv.inj _ _ (by omega) (by omega) e
    omega

theorem partitionEqualStep_refs {x : Addr} (hn : g.vt = some x) (hv : In g v) {s : Nat × Nat} :
    K.Keep g (partitionEqualStep cfg callAt K.t v s) (NdSlice.partitionEqualStep cfg ask v x s) (Sim.SumR Eq Eq) := by
  rcases s with ⟨l, r⟩
  unfold partitionEqualStep NdSlice.partitionEqualStep; keep

macro_rules | `(tactic| keep_lemma) => `(tactic| with_reducible exact partitionEqualStep_refs ‹_› ‹_›)

theorem partitionEqual_refs (hn : g.vt = none) (hv : In g v) {p : Nat} :
    K.Keep g (partitionEqual cfg callAt K.t v p) (NdSlice.partitionEqual cfg ask v p) Eq := by
  unfold partitionEqual NdSlice.partitionEqual
  refine (Keep.bindEq (Keep.swap hv).weak fun _ => ?_).keep
  unfold View.splitAt
  by_cases h1 : 1 ≤ v.len
  · rw [if_pos h1, if_pos h1]
    refine pivot_refs (Q := fun x => if (v.sub 1 (v.len - 1)).len == 0 then pure 0
      else do
        let l ← Prog.loop (NdSlice.partitionEqualStep cfg ask (v.sub 1 (v.len - 1)) x) ((v.sub 1 (v.len - 1)).len + 1) (0, (v.sub 1 (v.len - 1)).len)
        pure (l + 1)) hn (hv.sub h1) (fun x => ?_) (fun _ => Keep.pureEq)
    have hw := hv.hole (n := v.len - 1) (Nat.le_refl _) (x := x)
    have hn' : (g.hole ((v.sub 0 1).addr 0) x).vt = some x := rfl
    keep
  · rw [if_neg h1, if_neg h1]
    exact Keep.throw _

macro_rules | `(tactic| keep_lemma) => `(tactic| with_reducible exact partitionEqual_refs ‹_› ‹_›)

end NdSlice.Refs
