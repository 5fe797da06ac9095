import Verif.Proof.RefsBlocks

/-
Continuation of `Verif.Proof.RefsBlocks`: quick sort and selection.
-/

namespace NdSlice.Refs

variable {α σ : Type} {K : RCtx α σ} {g : LiveSet} {v : View} {cfg : Cfg}

/-! ### Quick sort -/

/-- The predecessor is one of the elements. -/
def PredIn (g : LiveSet) (pred : Option Addr) : Prop := ∀ a, pred = some a → g.P a

theorem predIn_none : PredIn g none := fun _ h => by cases h
theorem predIn_some {a : Addr} (h : g.P a) : PredIn g (some a) := fun _ e => by cases e; exact h

theorem predCheck_refs (hv : In g v) {pred : Option Addr} (hp : PredIn g pred) {p : Nat} :
    K.Keep g (predCheck callAt v p pred) (NdSlice.predCheck ask v p pred) Eq := by
  rcases pred with _ | a
  · exact Keep.pureEq
  · have := hp a rfl
    unfold predCheck NdSlice.predCheck; keep

theorem selPredCheck_refs (hv : In g v) {pred : Option Addr} (hp : PredIn g pred) {p : Nat} :
    K.Keep g (predCheck callAt v p pred) (NdSlice.selPredCheck ask v p pred) Eq := by
  rcases pred with _ | a
  · exact Keep.pureEq
  · have := hp a rfl
    unfold predCheck NdSlice.selPredCheck; keep

macro_rules | `(tactic| keep_lemma) => `(tactic| with_reducible first | exact predCheck_refs ‹_› ‹_› | exact selPredCheck_refs ‹_› ‹_›)

/-- The state of the loop of `recurse`. -/
def QIn (g : LiveSet) (s s' : QSt) : Prop := s = s' ∧ In g s'.v ∧ PredIn g s'.pred

theorem quickDescend_refs {rec : View → Option Addr → Nat → Prog α (α × α) (α × α × Option Bool) Unit}
    {rec' : View → Option Addr → Nat → Prog Addr (Addr × Addr) Bool Unit}
    (hr : ∀ v pred limit, In g v → PredIn g pred → K.Keep g (rec v pred limit) (rec' v pred limit) Eq)
    {left right : View} (hl : In g left) (hr' : In g right) {pred : Option Addr} (hp : PredIn g pred) {piv : Addr} (hv : g.P piv) {limit : Nat} {bal wasP : Bool} :
    K.Keep g (quickDescend rec left right pred piv limit bal wasP) (NdSlice.quickDescend none rec' left right pred piv limit bal wasP) (Sim.SumR (QIn g) Eq) := by
  unfold quickDescend NdSlice.quickDescend
  rw [if_pos (show goesSeq none _ = true from rfl)]
  refine Keep.ite (fun _ => Keep.bind (hr _ _ _ hl hp) fun _ _ _ => Keep.pureL ⟨rfl, hr', predIn_some hv⟩) (fun _ =>
    Keep.bind (hr _ _ _ hr' (predIn_some hv)) fun _ _ _ => Keep.pureL ⟨rfl, hl, hp⟩)

theorem quickSplit_refs {rec : View → Option Addr → Nat → Prog α (α × α) (α × α × Option Bool) Unit}
    {rec' : View → Option Addr → Nat → Prog Addr (Addr × Addr) Bool Unit} (hn : g.vt = none)
    (hr : ∀ v pred limit, In g v → PredIn g pred → K.Keep g (rec v pred limit) (rec' v pred limit) Eq)
    {s : QSt} (hs : In g s.v) (hp : PredIn g s.pred) {limit pivot : Nat} :
    K.Keep g (quickSplit cfg callAt K.t rec s limit pivot) (NdSlice.quickSplit cfg ask none rec' s limit pivot) (Sim.SumR (QIn g) Eq) := by
  unfold quickSplit NdSlice.quickSplit
  keep
  exact quickDescend_refs hr ‹_› ‹_› hp ‹_›

theorem quickStep_refs {rec : View → Option Addr → Nat → Prog α (α × α) (α × α × Option Bool) Unit}
    {rec' : View → Option Addr → Nat → Prog Addr (Addr × Addr) Bool Unit} (hn : g.vt = none)
    (hr : ∀ v pred limit, In g v → PredIn g pred → K.Keep g (rec v pred limit) (rec' v pred limit) Eq)
    {s : QSt} (hs : In g s.v) (hp : PredIn g s.pred) :
    K.Keep g (quickStep cfg callAt K.t rec s) (NdSlice.quickStep cfg ask none rec' s) (Sim.SumR (QIn g) Eq) := by
  unfold quickStep NdSlice.quickStep
  dsimp only
  keep
  · exact ⟨rfl, ‹_›, hp⟩
  · exact quickSplit_refs hn hr hs hp

theorem recurse_refs (hn : g.vt = none) {d : Nat} (hv : In g v) {pred : Option Addr} (hp : PredIn g pred) {limit : Nat} :
    K.Keep g (recurse cfg callAt K.t d v pred limit) (NdSlice.recurse cfg ask none d v pred limit) Eq := by
  induction d generalizing v pred limit with
  | zero => exact Keep.diverge
  | succ d ih =>
    unfold recurse NdSlice.recurse
    refine Keep.loop (R := QIn g) ?_ ⟨rfl, hv, hp⟩
    rintro s _ ⟨rfl, h1, h2⟩
    exact quickStep_refs hn (fun v pred limit hv hp => ih hv hp) h1 h2

theorem quickSort_refs (hn : g.vt = none) (hv : In g v) : K.Keep g (quickSort cfg callAt K.t v) (NdSlice.quickSort cfg ask v) Eq := by
  unfold quickSort NdSlice.quickSort
  exact Keep.ite (fun _ => Keep.pureEq) (fun _ => recurse_refs hn hv predIn_none)

/-! ### Selection -/

theorem maxLoop_refs (hv : In g v) {b i n : Nat} : K.Keep g (maxLoop callAt v b i n) (NdSlice.maxLoop ask v b i n) Eq := by
  induction n generalizing b i with
  | zero => exact Keep.pureEq
  | succ n ih => unfold maxLoop NdSlice.maxLoop; keep; exact ih

theorem minLoop_refs (hv : In g v) {b i n : Nat} : K.Keep g (minLoop callAt v b i n) (NdSlice.minLoop ask v b i n) Eq := by
  induction n generalizing b i with
  | zero => exact Keep.pureEq
  | succ n ih => unfold minLoop NdSlice.minLoop; keep; exact ih

theorem maxIndex_refs (hv : In g v) : K.Keep g (maxIndex callAt v) (NdSlice.maxIndex ask v) Eq := by
  unfold maxIndex NdSlice.maxIndex
  exact Keep.ite (fun _ => Keep.throw _) (fun _ => maxLoop_refs hv)

theorem minIndex_refs (hv : In g v) : K.Keep g (minIndex callAt v) (NdSlice.minIndex ask v) Eq := by
  unfold minIndex NdSlice.minIndex
  exact Keep.ite (fun _ => Keep.throw _) (fun _ => minLoop_refs hv)

theorem lessAt_refs (hv : In g v) {i j : Nat} : K.Keep g (lessAt callAt v i j) (NdSlice.lessAt ask v i j) Eq := by
  unfold lessAt NdSlice.lessAt; keep

macro_rules | `(tactic| keep_lemma) => `(tactic| with_reducible first | exact maxIndex_refs ‹_› | exact minIndex_refs ‹_› | exact lessAt_refs ‹_›)

theorem medianIdx_refs (hv : In g v) {a b c : Nat} : K.Keep g (medianIdx callAt v a b c) (NdSlice.medianIdx ask v a b c) Eq := by
  unfold medianIdx NdSlice.medianIdx; keep

theorem nintherEnd_refs (hv : In g v) {b d e h : Nat} : K.Keep g (nintherEnd callAt v b d e h) (NdSlice.nintherEnd ask v b d e h) Eq := by
  unfold nintherEnd NdSlice.nintherEnd; keep

macro_rules | `(tactic| keep_lemma) => `(tactic| with_reducible first | exact medianIdx_refs ‹_› | exact nintherEnd_refs ‹_›)

theorem ninther_refs (hv : In g v) {a b c d e f h i j : Nat} :
    K.Keep g (ninther callAt v a b c d e f h i j) (NdSlice.ninther ask v a b c d e f h i j) Eq := by
  unfold ninther NdSlice.ninther; keep

macro_rules | `(tactic| keep_lemma) => `(tactic| with_reducible exact ninther_refs ‹_›)

theorem nintherLoop_refs (hv : In g v) {frac a i b n : Nat} :
    K.Keep g (nintherLoop cfg callAt v frac a i b n) (NdSlice.nintherLoop cfg ask v frac a i b n) Eq := by
  induction n generalizing a i b with
  | zero => exact Keep.pureEq
  | succ n ih => unfold nintherLoop NdSlice.nintherLoop; keep; exact ih

macro_rules | `(tactic| keep_lemma) => `(tactic| with_reducible exact nintherLoop_refs ‹_›)

variable {rec : View → Nat → Prog α (α × α) (α × α × Option Bool) Unit} {rec' : View → Nat → Prog Addr (Addr × Addr) Bool Unit}

theorem medianOfNinthers_refs (hn : g.vt = none) (hr : ∀ v k, In g v → K.Keep g (rec v k) (rec' v k) Eq) (hv : In g v) :
    K.Keep g (medianOfNinthers cfg callAt K.t rec v) (NdSlice.medianOfNinthers cfg ask rec' v) Eq := by
  unfold medianOfNinthers NdSlice.medianOfNinthers
  keep
  exact hr _ _ ‹_›

theorem momLoop_refs (hn : g.vt = none) (hr : ∀ v k, In g v → K.Keep g (rec v k) (rec' v k) Eq) {n : Nat} (hv : In g v) {k : Nat} :
    K.Keep g (momLoop cfg callAt K.t rec n v k) (NdSlice.momLoop cfg ask rec' n v k) Eq := by
  induction n generalizing v k with
  | zero => exact Keep.diverge
  | succ n ih =>
    unfold momLoop NdSlice.momLoop
    keep
    · exact medianOfNinthers_refs hn hr hv
    · exact ih ‹_›
    · exact ih ‹_›

theorem medianOfMedians_refs (hn : g.vt = none) {d : Nat} (hv : In g v) {k : Nat} :
    K.Keep g (medianOfMedians cfg callAt K.t d v k) (NdSlice.medianOfMedians cfg ask d v k) Eq := by
  induction d generalizing v k with
  | zero => exact Keep.diverge
  | succ d ih =>
    unfold medianOfMedians NdSlice.medianOfMedians
    keep
    exact momLoop_refs hn (fun _ _ h => ih h) hv

macro_rules | `(tactic| keep_lemma) => `(tactic| with_reducible exact medianOfMedians_refs ‹_› ‹_›)

theorem selLoop_refs (hn : g.vt = none) {n : Nat} (hv : In g v) {index : Nat} {pred : Option Addr} (hp : PredIn g pred) {limit : Nat} {bal : Bool} :
    K.Keep g (selLoop cfg callAt K.t n v index pred limit bal) (NdSlice.selLoop cfg ask n v index pred limit bal) Eq := by
  induction n generalizing v index pred limit bal with
  | zero => exact Keep.diverge
  | succ n ih =>
    unfold selLoop NdSlice.selLoop
    keep
    · exact ih ‹_› predIn_none
    · exact ih ‹_› (predIn_some ‹_›)
    · exact ih ‹_› hp

theorem partitionAtIndex_refs (hn : g.vt = none) (hv : In g v) {index : Nat} :
    K.Keep g (partitionAtIndex cfg callAt K.t v index) (NdSlice.partitionAtIndex cfg ask v index) (fun a b => a = b ∧ In g b.1 ∧ In g b.2.2) := by
  unfold partitionAtIndex NdSlice.partitionAtIndex
  refine Keep.ite (fun _ => Keep.throw _) (fun _ => ?_)
  refine Keep.bind (R := Eq) ?_ ?_
  · keep
    exact selLoop_refs hn hv predIn_none
  · rintro _ _ _
    keep
    exact Keep.pure ⟨rfl, ‹_›, ‹_›⟩

theorem partitionAtIndices_refs (hn : g.vt = none) {n : Nat} (hv : In g v) {offset : Nat} {indices : List Nat} :
    K.Keep g (partitionAtIndices cfg callAt K.t n v offset indices) (NdSlice.partitionAtIndices cfg ask n v offset indices) Eq := by
  induction n generalizing v offset indices with
  | zero => exact Keep.diverge
  | succ n ih =>
    unfold partitionAtIndices NdSlice.partitionAtIndices
    rcases indices[indices.length / 2]? with _ | p
    · exact Keep.pureEq
    dsimp only
    refine (Keep.bindEq Keep.usub.weak fun i => ?_).keep
    refine Keep.bind (partitionAtIndex_refs hn hv) ?_
    rintro ⟨l, x, r⟩ _ ⟨rfl, h1, h2⟩
    dsimp only
    refine Keep.bind (ih h1) ?_
    rintro xs _ rfl
    refine Keep.bind (ih h2) ?_
    rintro ys _ rfl
    exact Keep.pureEq

theorem selectMany_refs (hn : g.vt = none) (hv : In g v) {indices : List Nat} :
    K.Keep g (selectMany cfg callAt K.t v indices) (NdSlice.selectMany cfg ask v indices) Eq := partitionAtIndices_refs hn hv

end NdSlice.Refs
