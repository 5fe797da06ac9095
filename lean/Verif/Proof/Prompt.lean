import Verif.Core.Prompt
import Verif.Model.Api
import Verif.Model.Cached
import Verif.Model.Search

/-
The functions of the model are prompt (the sequential ones) or honest (the parallel ones).
-/

namespace NdSlice

/-- A comparator that is prompt. -/
def LessP {α ι ω : Type} (P : ι → Option ω → Prop) (X : Panic → Prop) (less : α → α → Prog α ι ω Bool) : Prop := ∀ x y, Prompt P X (less x y)

theorem LessP.app {α ι ω : Type} {P : ι → Option ω → Prop} {X : Panic → Prop} {less : α → α → Prog α ι ω Bool} (h : LessP P X less) {x y : α} : Prompt P X (less x y) := h x y

theorem Prompt.check {α ι ω β : Type} {P : ι → Option ω → Prop} {X : Panic → Prop} : Prompt P X (.throw .check : Prog α ι ω β) := by exact nofun
theorem Prompt.index {α ι ω β : Type} {P : ι → Option ω → Prop} {X : Panic → Prop} : Prompt P X (.throw .index : Prog α ι ω β) := by exact nofun
theorem Prompt.alloc {α ι ω β : Type} {P : ι → Option ω → Prop} {X : Panic → Prop} : Prompt P X (.throw .alloc : Prog α ι ω β) := by exact nofun

/-- The rules for the functions of the model: to be extended. -/
syntax "pr_lemma" : tactic

macro_rules | `(tactic| pr_lemma) => `(tactic| with_reducible first
  | exact Prompt.ub | exact Prompt.diverge | exact Prompt.pure | exact Prompt.check | exact Prompt.index | exact Prompt.alloc
  | exact Quiet.prompt Quiet.vget | exact Quiet.prompt Quiet.vset | exact Quiet.prompt Quiet.vidx | exact Quiet.prompt Quiet.vref
  | exact Quiet.prompt Quiet.vcset | exact Quiet.prompt Quiet.vswap | exact Quiet.prompt Quiet.vuswap
  | exact Quiet.prompt Quiet.vslice | exact Quiet.prompt Quiet.vsplitAt | exact Quiet.prompt Quiet.deref
  | exact Quiet.prompt Quiet.debugAssert | exact Quiet.prompt Quiet.assertP | exact Quiet.prompt Quiet.usub
  | exact LessP.app ‹_›)

/-- What the guards of the stable sorts could panic with (but do not, as is proved elsewhere). -/
def Slack (e : Panic) : Prop := e = .overflow ∨ e = .check

theorem Slack.check : Slack .check := .inr rfl
theorem Slack.overflow : Slack .overflow := .inl rfl

/-- The rules for guards: to be extended. -/
syntax "quiet_lemma" : tactic

macro_rules | `(tactic| quiet_lemma) => `(tactic| with_reducible first
  | exact Calm.pure | exact Calm.vget | exact Calm.vset | exact Calm.vidx Slack.check | exact Calm.vcset Slack.check
  | exact Calm.usub Slack.overflow)

/-- One step. -/
macro "pr1" : tactic => `(tactic| first
  | pr_lemma
  | quiet_lemma
  | with_reducible refine Prompt.onPanic ?_ ?_
  | with_reducible refine Prompt.ite (fun _ => ?_) (fun _ => ?_)
  | with_reducible refine Prompt.whenP ?_
  | with_reducible refine Prompt.forUp (fun _ => ?_)
  | with_reducible refine Prompt.forDown (fun _ => ?_)
  | with_reducible refine Prompt.choose (fun _ => ?_)
  | with_reducible refine Prompt.loop (fun _ => ?_)
  | with_reducible refine Prompt.bind ?_ (fun _ => ?_)
  | with_reducible refine Calm.bind ?_ (fun _ => ?_)
  | with_reducible refine Calm.forUp (fun _ => ?_)
  | exact Calm.quiet (X := Slack) (by quiet_lemma)
  | exact Prompt.honest (X := Slack) (by pr_lemma)
  | with_reducible refine Honest.onPanic ?_ ?_
  | with_reducible refine Honest.ite (fun _ => ?_) (fun _ => ?_)
  | with_reducible refine Honest.choose (fun _ => ?_)
  | with_reducible refine Honest.loop (fun _ => ?_)
  | with_reducible refine Honest.rayonJoin ?_ ?_
  | with_reducible refine Honest.bind ?_ (fun _ => ?_)
  | with_reducible assumption
  | split
  | dsimp only)

/-- Steps as far as possible. -/
macro "pr_all" : tactic => `(tactic| repeat' pr1)

namespace Prompt

variable {α ι ω : Type} {P : ι → Option ω → Prop} {X : Panic → Prop} {cfg : Cfg} {less : α → α → Prog α ι ω Bool} {v w : View}

/-! ### Insertion sorts -/

theorem insertTailLoop_pr (hl : LessP P X less) {x : α} {n : Nat} : Prompt P X (insertTailLoop less v x n) := by
  induction n with
  | zero => unfold insertTailLoop; pr_all
  | succ n ih => unfold insertTailLoop; pr_all

macro_rules | `(tactic| pr_lemma) => `(tactic| with_reducible exact insertTailLoop_pr ‹_›)

theorem insertTail_pr (hl : LessP P X less) : Prompt P X (insertTail cfg less v) := by
  unfold insertTail; pr_all

macro_rules | `(tactic| pr_lemma) => `(tactic| with_reducible exact insertTail_pr ‹_›)

theorem insertHeadLoop_pr (hl : LessP P X less) {x : α} {d n : Nat} : Prompt P X (insertHeadLoop less v x d n) := by
  induction n generalizing d with
  | zero => unfold insertHeadLoop; pr_all
  | succ n ih => unfold insertHeadLoop; pr_all; exact ih

macro_rules | `(tactic| pr_lemma) => `(tactic| with_reducible exact insertHeadLoop_pr ‹_›)

theorem insertHead_pr (hl : LessP P X less) : Prompt P X (insertHead cfg less v) := by
  unfold insertHead; pr_all

macro_rules | `(tactic| pr_lemma) => `(tactic| with_reducible exact insertHead_pr ‹_›)

theorem insertionSortShiftLeft_pr (hl : LessP P X less) {o : Nat} : Prompt P X (insertionSortShiftLeft cfg less v o) := by
  unfold insertionSortShiftLeft; pr_all

theorem insertionSortShiftRight_pr (hl : LessP P X less) {o : Nat} : Prompt P X (insertionSortShiftRight cfg less v o) := by
  unfold insertionSortShiftRight; pr_all

theorem findOutOfOrder_pr (hl : LessP P X less) {i n : Nat} : Prompt P X (findOutOfOrder cfg less v i n) := by
  induction n generalizing i with
  | zero => unfold findOutOfOrder; pr_all
  | succ n ih => unfold findOutOfOrder; pr_all; exact ih

macro_rules | `(tactic| pr_lemma) => `(tactic| with_reducible first
  | exact insertionSortShiftLeft_pr ‹_› | exact insertionSortShiftRight_pr ‹_› | exact findOutOfOrder_pr ‹_›)

theorem partialInsertionLoop_pr (hl : LessP P X less) {n i : Nat} : Prompt P X (partialInsertionLoop cfg less v n i) := by
  induction n generalizing i with
  | zero => unfold partialInsertionLoop; pr_all
  | succ n ih => unfold partialInsertionLoop; pr_all <;> exact ih

theorem partialInsertionSort_pr (hl : LessP P X less) : Prompt P X (partialInsertionSort cfg less v) := partialInsertionLoop_pr hl

/-! ### Heap sort -/

theorem siftDown_pr (hl : LessP P X less) {n : Nat} : Prompt P X (siftDown less v n) := by
  unfold siftDown siftDownStep; pr_all

macro_rules | `(tactic| pr_lemma) => `(tactic| with_reducible first | exact partialInsertionSort_pr ‹_› | exact siftDown_pr ‹_›)

theorem heapSort_pr (hl : LessP P X less) : Prompt P X (heapSort less v) := by
  unfold heapSort; pr_all

macro_rules | `(tactic| pr_lemma) => `(tactic| with_reducible exact heapSort_pr ‹_›)

/-! ### Partitioning -/

theorem revswap_pr {n i k : Nat} : Prompt P X (revswap (α := α) cfg v w n i k) := by
  induction k generalizing i with
  | zero => unfold revswap; pr_all
  | succ k ih => unfold revswap; pr_all; exact ih

macro_rules | `(tactic| pr_lemma) => `(tactic| with_reducible exact revswap_pr)

theorem reverse_pr : Prompt P X (reverse (α := α) cfg v) := by
  unfold reverse; pr_all

theorem breakPatternsLoop_pr {m p i s k : Nat} : Prompt P X (breakPatternsLoop (α := α) cfg v m p i s k) := by
  induction k generalizing i s with
  | zero => unfold breakPatternsLoop; pr_all
  | succ k ih => unfold breakPatternsLoop; pr_all; exact ih

macro_rules | `(tactic| pr_lemma) => `(tactic| with_reducible first | exact reverse_pr | exact breakPatternsLoop_pr)

theorem breakPatterns_pr : Prompt P X (breakPatterns (α := α) cfg v) := by
  unfold breakPatterns; pr_all

theorem sort2_pr (hl : LessP P X less) {a b s : Nat} : Prompt P X (sort2 less v a b s) := by
  unfold sort2; pr_all

macro_rules | `(tactic| pr_lemma) => `(tactic| with_reducible first | exact breakPatterns_pr | exact sort2_pr ‹_›)

theorem sort3_pr (hl : LessP P X less) {a b c s : Nat} : Prompt P X (sort3 less v a b c s) := by
  unfold sort3; pr_all

macro_rules | `(tactic| pr_lemma) => `(tactic| with_reducible exact sort3_pr ‹_›)

theorem sortAdjacent_pr (hl : LessP P X less) {a s : Nat} : Prompt P X (sortAdjacent cfg less v a s) := by
  unfold sortAdjacent; pr_all

macro_rules | `(tactic| pr_lemma) => `(tactic| with_reducible exact sortAdjacent_pr ‹_›)

theorem chooseMedian_pr (hl : LessP P X less) : Prompt P X (chooseMedian cfg less v) := by
  unfold chooseMedian; pr_all

macro_rules | `(tactic| pr_lemma) => `(tactic| with_reducible exact chooseMedian_pr ‹_›)

theorem choosePivot_pr (hl : LessP P X less) : Prompt P X (choosePivot cfg less v) := by
  unfold choosePivot; pr_all

macro_rules | `(tactic| pr_lemma) => `(tactic| with_reducible exact choosePivot_pr ‹_›)

theorem scanUp_pr {t : Nat → Prog α ι ω Bool} (h : ∀ i, Prompt P X (t i)) {n l : Nat} : Prompt P X (scanUp t n l) := by
  induction n generalizing l with
  | zero => unfold scanUp; pr_all
  | succ n ih => unfold scanUp; pr_all <;> first | exact h _ | exact ih

theorem scanDown_pr {t : Nat → Prog α ι ω Bool} (h : ∀ i, Prompt P X (t i)) {n r : Nat} : Prompt P X (scanDown t n r) := by
  induction n generalizing r with
  | zero => unfold scanDown; pr_all
  | succ n ih => unfold scanDown; pr_all <;> first | exact h _ | exact ih

theorem scanEqual_pr {t : Nat → Prog α ι ω Bool} (h : ∀ i, Prompt P X (t i)) {n r : Nat} : Prompt P X (scanEqual cfg t n r) := by
  induction n generalizing r with
  | zero => unfold scanEqual; pr_all
  | succ n ih => unfold scanEqual; pr_all <;> first | exact h _ | exact ih

macro_rules | `(tactic| pr_lemma) => `(tactic| with_reducible first
  | refine scanUp_pr (fun _ => ?_)
  | refine scanDown_pr (fun _ => ?_)
  | refine scanEqual_pr (fun _ => ?_))

theorem partitionEqualStep_pr (hl : LessP P X less) {x : α} {s : Nat × Nat} : Prompt P X (partitionEqualStep cfg less v x s) := by
  rcases s with ⟨l, r⟩
  unfold partitionEqualStep; pr_all

macro_rules | `(tactic| pr_lemma) => `(tactic| with_reducible exact partitionEqualStep_pr ‹_›)

theorem partitionEqual_pr (hl : LessP P X less) {p : Nat} : Prompt P X (partitionEqual cfg less v p) := by
  unfold partitionEqual; pr_all

theorem traceL_pr (hl : LessP P X less) {x : α} {l n i : Nat} {acc : List Nat} : Prompt P X (traceL less v x l n i acc) := by
  induction n generalizing i acc with
  | zero => unfold traceL; pr_all
  | succ n ih => unfold traceL; pr_all <;> exact ih

theorem traceR_pr (hl : LessP P X less) {x : α} {e n i : Nat} {acc : List Nat} : Prompt P X (traceR cfg less v x n e i acc) := by
  induction n generalizing i acc e with
  | zero => unfold traceR; pr_all
  | succ n ih => unfold traceR; pr_all <;> exact ih

theorem leftIdx_pr {l : Nat} {o : List Nat} : Prompt P X (leftIdx (α := α) l o) := by
  cases o <;> unfold leftIdx <;> pr_all

theorem rightIdx_pr {l : Nat} {o : List Nat} : Prompt P X (rightIdx (α := α) cfg l o) := by
  cases o <;> unfold rightIdx <;> pr_all

theorem copyIdx_pr {i j : Nat} : Prompt P X (copyIdx (α := α) v i j) := by
  unfold copyIdx; pr_all

macro_rules | `(tactic| pr_lemma) => `(tactic| with_reducible first
  | exact partitionEqual_pr ‹_› | exact traceL_pr ‹_› | exact traceR_pr ‹_› | exact leftIdx_pr | exact rightIdx_pr | exact copyIdx_pr)

theorem cycleLoop_pr {l r n : Nat} {ol or : List Nat} : Prompt P X (cycleLoop (α := α) cfg v l r n ol or) := by
  induction n generalizing ol or with
  | zero => unfold cycleLoop; pr_all
  | succ n ih => unfold cycleLoop; pr_all; exact ih

macro_rules | `(tactic| pr_lemma) => `(tactic| with_reducible exact cycleLoop_pr)

theorem cycle_pr {l r n : Nat} {ol or : List Nat} : Prompt P X (cycle (α := α) cfg v l r n ol or) := by
  unfold cycle; pr_all

theorem blockSizes_pr {s : BlockSt} : Prompt P X (blockSizes (α := α) cfg s) := by
  unfold blockSizes; pr_all

macro_rules | `(tactic| pr_lemma) => `(tactic| with_reducible first | exact cycle_pr | exact blockSizes_pr)

theorem blockStep_pr (hl : LessP P X less) {x : α} {s : BlockSt} : Prompt P X (blockStep cfg less v x s) := by
  unfold blockStep; pr_all

theorem moveRemL_pr {l n r : Nat} {ol : List Nat} : Prompt P X (moveRemL (α := α) cfg v l n ol r) := by
  induction n generalizing ol r with
  | zero => unfold moveRemL; pr_all
  | succ n ih => unfold moveRemL; pr_all; exact ih

theorem moveRemR_pr {l n r : Nat} {ol : List Nat} : Prompt P X (moveRemR (α := α) cfg v r n ol l) := by
  induction n generalizing ol l with
  | zero => unfold moveRemR; pr_all
  | succ n ih => unfold moveRemR; pr_all; exact ih

macro_rules | `(tactic| pr_lemma) => `(tactic| with_reducible first | exact blockStep_pr ‹_› | exact moveRemL_pr | exact moveRemR_pr)

theorem partitionInBlocks_pr (hl : LessP P X less) {x : α} : Prompt P X (partitionInBlocks cfg less v x) := by
  unfold partitionInBlocks; pr_all

macro_rules | `(tactic| pr_lemma) => `(tactic| with_reducible exact partitionInBlocks_pr ‹_›)

theorem partition_pr (hl : LessP P X less) {p : Nat} : Prompt P X (partition cfg less v p) := by
  unfold partition; pr_all

macro_rules | `(tactic| pr_lemma) => `(tactic| with_reducible exact partition_pr ‹_›)

/-! ### Quick sort -/

theorem predCheck_pr (hl : LessP P X less) {p : Nat} {a : Option Addr} : Prompt P X (predCheck less v p a) := by
  rcases a with _ | a <;> unfold predCheck <;> pr_all

macro_rules | `(tactic| pr_lemma) => `(tactic| with_reducible exact predCheck_pr ‹_›)

section Seq

variable {rec : View → Option Addr → Nat → Prog α ι ω Unit} (hr : ∀ {v p l}, Prompt P X (rec v p l))

include hr in
theorem quickDescend_pr {p : Option Addr} {a : Addr} {l : Nat} {bal was : Bool} : Prompt P X (quickDescend none rec v w p a l bal was) := by
  unfold quickDescend goesSeq
  rw [if_pos rfl]
  pr_all <;> exact hr

include hr in
theorem quickStep_pr (hl : LessP P X less) {s : QSt} : Prompt P X (quickStep cfg less none rec s) := by
  unfold quickStep quickSplit; pr_all
  exact quickDescend_pr hr

end Seq

theorem recurse_pr (hl : LessP P X less) {d : Nat} {p : Option Addr} {l : Nat} : Prompt P X (recurse cfg less none d v p l) := by
  induction d generalizing v p l with
  | zero => exact diverge
  | succ d ih =>
    unfold recurse
    exact loop fun s => quickStep_pr (rec := recurse cfg less none d) ih hl

theorem quickSort_pr (hl : LessP P X less) : Prompt P X (quickSort cfg less v) := by
  unfold quickSort; pr_all
  exact recurse_pr hl

section Par

variable {m : Option Nat} {rec : View → Option Addr → Nat → Prog α ι ω Unit} (hr : ∀ {v p l}, Honest P (rec v p l))

include hr in
theorem quickDescend_ho {p : Option Addr} {a : Addr} {l : Nat} {bal was : Bool} : Honest P (quickDescend m rec v w p a l bal was) := by
  unfold quickDescend
  pr_all <;> exact hr

include hr in
theorem quickStep_ho (hl : LessP P Slack less) {s : QSt} : Honest P (quickStep cfg less m rec s) := by
  unfold quickStep quickSplit; pr_all
  exact quickDescend_ho hr

end Par

theorem recurse_ho (hl : LessP P Slack less) {m : Option Nat} {d : Nat} {p : Option Addr} {l : Nat} : Honest P (recurse cfg less m d v p l) := by
  induction d generalizing v p l with
  | zero => exact Honest.diverge
  | succ d ih =>
    unfold recurse
    exact Honest.loop fun s => quickStep_ho (rec := recurse cfg less m d) ih hl

theorem parQuickSort_ho (hl : LessP P Slack less) : Honest P (parQuickSort cfg less v) := by
  unfold parQuickSort; pr_all
  exact recurse_ho hl

/-! ### Selection -/

theorem maxLoop_pr (hl : LessP P X less) {b i n : Nat} : Prompt P X (maxLoop less v b i n) := by
  induction n generalizing b i with
  | zero => unfold maxLoop; pr_all
  | succ n ih => unfold maxLoop; pr_all <;> exact ih

theorem minLoop_pr (hl : LessP P X less) {b i n : Nat} : Prompt P X (minLoop less v b i n) := by
  induction n generalizing b i with
  | zero => unfold minLoop; pr_all
  | succ n ih => unfold minLoop; pr_all <;> exact ih

macro_rules | `(tactic| pr_lemma) => `(tactic| with_reducible first | exact maxLoop_pr ‹_› | exact minLoop_pr ‹_›)

theorem maxIndex_pr (hl : LessP P X less) : Prompt P X (maxIndex less v) := by
  unfold maxIndex; pr_all

theorem minIndex_pr (hl : LessP P X less) : Prompt P X (minIndex less v) := by
  unfold minIndex; pr_all

theorem lessAt_pr (hl : LessP P X less) {i j : Nat} : Prompt P X (lessAt less v i j) := by
  unfold lessAt; pr_all

macro_rules | `(tactic| pr_lemma) => `(tactic| with_reducible first
  | exact maxIndex_pr ‹_› | exact minIndex_pr ‹_› | exact lessAt_pr ‹_›)

theorem medianIdx_pr (hl : LessP P X less) {a b c : Nat} : Prompt P X (medianIdx less v a b c) := by
  unfold medianIdx
  refine bind (lessAt_pr hl) fun s => ?_
  cases s <;> pr_all

theorem nintherEnd_pr (hl : LessP P X less) {b d e h : Nat} : Prompt P X (nintherEnd less v b d e h) := by
  unfold nintherEnd; pr_all

macro_rules | `(tactic| pr_lemma) => `(tactic| with_reducible first | exact medianIdx_pr ‹_› | exact nintherEnd_pr ‹_›)

theorem ninther_pr (hl : LessP P X less) {a b c d e f g h i : Nat} : Prompt P X (ninther less v a b c d e f g h i) := by
  unfold ninther
  refine bind (medianIdx_pr hl) fun b => bind (medianIdx_pr hl) fun h => bind (lessAt_pr hl) fun s => ?_
  cases s
  all_goals
    refine bind (lessAt_pr hl) fun s => ?_
    cases s <;> pr_all

macro_rules | `(tactic| pr_lemma) => `(tactic| with_reducible exact ninther_pr ‹_›)

theorem nintherLoop_pr (hl : LessP P X less) {f a i b n : Nat} : Prompt P X (nintherLoop cfg less v f a i b n) := by
  induction n generalizing a i b with
  | zero => unfold nintherLoop; pr_all
  | succ n ih => unfold nintherLoop; pr_all; exact ih

macro_rules | `(tactic| pr_lemma) => `(tactic| with_reducible exact nintherLoop_pr ‹_›)

theorem medianOfNinthers_pr (hl : LessP P X less) {rec : View → Nat → Prog α ι ω Unit} (hr : ∀ {v k}, Prompt P X (rec v k)) :
    Prompt P X (medianOfNinthers cfg less rec v) := by
  unfold medianOfNinthers; pr_all
  exact hr

theorem momLoop_pr (hl : LessP P X less) {rec : View → Nat → Prog α ι ω Unit} (hr : ∀ {v k}, Prompt P X (rec v k)) {n k : Nat} :
    Prompt P X (momLoop cfg less rec n v k) := by
  induction n generalizing v k with
  | zero => exact diverge
  | succ n ih =>
    unfold momLoop; pr_all
    · exact medianOfNinthers_pr hl hr
    · exact ih
    · exact ih

theorem medianOfMedians_pr (hl : LessP P X less) {d k : Nat} : Prompt P X (medianOfMedians cfg less d v k) := by
  induction d generalizing v k with
  | zero => exact diverge
  | succ d ih =>
    unfold medianOfMedians; pr_all
    exact momLoop_pr hl (rec := medianOfMedians cfg less d) ih

theorem selPredCheck_pr (hl : LessP P X less) {p : Nat} {a : Option Addr} : Prompt P X (selPredCheck less v p a) := by
  rcases a with _ | a <;> unfold selPredCheck <;> pr_all

macro_rules | `(tactic| pr_lemma) => `(tactic| with_reducible first | exact medianOfMedians_pr ‹_› | exact selPredCheck_pr ‹_›)

theorem selLoop_pr (hl : LessP P X less) {n k l : Nat} {a : Option Addr} {bal : Bool} : Prompt P X (selLoop cfg less n v k a l bal) := by
  induction n generalizing v k l a bal with
  | zero => exact diverge
  | succ n ih => unfold selLoop; pr_all <;> exact ih

theorem partitionAtIndexLoop_pr (hl : LessP P X less) {k : Nat} : Prompt P X (partitionAtIndexLoop cfg less v k) := selLoop_pr hl

macro_rules | `(tactic| pr_lemma) => `(tactic| with_reducible exact partitionAtIndexLoop_pr ‹_›)

theorem partitionAtIndex_pr (hl : LessP P X less) {k : Nat} : Prompt P X (partitionAtIndex cfg less v k) := by
  unfold partitionAtIndex; pr_all

macro_rules | `(tactic| pr_lemma) => `(tactic| with_reducible exact partitionAtIndex_pr ‹_›)

theorem partitionAtIndices_pr (hl : LessP P X less) {n o : Nat} {is : List Nat} : Prompt P X (partitionAtIndices cfg less n v o is) := by
  induction n generalizing v o is with
  | zero => exact diverge
  | succ n ih => unfold partitionAtIndices; pr_all <;> exact ih

theorem selectMany_pr (hl : LessP P X less) {is : List Nat} : Prompt P X (selectMany cfg less v is) := partitionAtIndices_pr hl

theorem parPartitionAtIndices_ho (hl : LessP P Slack less) {n o vs vl : Nat} {is : List Nat} :
    Honest P (parPartitionAtIndices cfg less n v o is vs vl) := by
  induction n generalizing v o is vs vl with
  | zero => exact Honest.diverge
  | succ n ih => unfold parPartitionAtIndices; pr_all <;> exact ih

theorem parSelectMany_ho (hl : LessP P Slack less) {is : List Nat} {s : Nat} : Honest P (parSelectMany cfg less v is s) := parPartitionAtIndices_ho hl

/-! ### The stable sort -/

theorem _root_.NdSlice.Calm.mergeHoleDrop {buf : View} {s f d : Nat} : Calm Slack (mergeHoleDrop cfg v buf s f d : Prog α ι ω Unit) := by
  unfold NdSlice.mergeHoleDrop; pr_all

macro_rules | `(tactic| quiet_lemma) => `(tactic| with_reducible exact Calm.mergeHoleDrop)
macro_rules | `(tactic| pr_lemma) => `(tactic| with_reducible exact Quiet.prompt (Calm.quiet Calm.mergeHoleDrop))

section Merge

variable {rd : View → Nat → Prog α ι ω α} (hrd : ∀ v i, Prompt P Slack (rd v i)) {buf : View}

include hrd in
theorem pick_pr {i j : Nat} {b : Bool} : Prompt P Slack (pick rd v buf i j b) := by
  unfold pick; pr_all; exact hrd _ _

include hrd in
theorem mergeFwdBody_pr (hl : LessP P Slack less) {fin : Nat} {s : Nat × Nat × Nat} : Prompt P Slack (mergeFwdBody cfg less rd v buf fin s) := by
  unfold mergeFwdBody; pr_all; exact pick_pr hrd

include hrd in
theorem mergeBwdBody_pr (hl : LessP P Slack less) {s : Nat × Nat × Nat} : Prompt P Slack (mergeBwdBody cfg less rd v buf s) := by
  unfold mergeBwdBody; pr_all; exact pick_pr hrd

theorem copyToBuf_pr {a n : Nat} : Prompt P Slack (copyToBuf v buf a n : Prog α ι ω Unit) := by
  unfold copyToBuf; pr_all

include hrd in
theorem merge_pr (hl : LessP P Slack less) {mid : Nat} : Prompt P Slack (merge cfg less rd v mid buf) := by
  unfold merge; pr_all
  all_goals first | exact copyToBuf_pr | exact mergeFwdBody_pr hrd hl | exact mergeBwdBody_pr hrd hl

end Merge

theorem mergeGet_pr (hl : LessP P Slack less) {mid : Nat} {buf : View} : Prompt P Slack (merge cfg less View.get v mid buf) :=
  merge_pr (fun _ _ => Quiet.vget.prompt) hl

theorem mergeIdx_pr (hl : LessP P Slack less) {mid : Nat} {buf : View} : Prompt P Slack (merge cfg less View.idx v mid buf) :=
  merge_pr (fun _ _ => Quiet.vidx.prompt) hl

theorem _root_.NdSlice.Calm.drop {rv : RunVec} : Calm Slack (rv.drop : Prog α ι ω Unit) := by
  unfold RunVec.drop
  split <;> trivial

macro_rules | `(tactic| quiet_lemma) => `(tactic| with_reducible exact Calm.drop)
macro_rules | `(tactic| pr_lemma) => `(tactic| with_reducible first
  | exact Quiet.prompt (Calm.quiet (X := Slack) Calm.drop) | exact mergeGet_pr ‹_› | exact mergeIdx_pr ‹_›)

theorem push_pr {rv : RunVec} {al : Alloc} {r : TimRun} : Prompt P Slack (rv.push al r : Prog α ι ω RunVec) := by
  unfold RunVec.push; pr_all

theorem rvIdx_pr {rv : RunVec} {i : Nat} : Prompt P Slack (rv.idx i : Prog α ι ω TimRun) := by
  unfold RunVec.idx; pr_all

theorem setIdx_pr {rv : RunVec} {i : Nat} {r : TimRun} : Prompt P Slack (rv.setIdx i r : Prog α ι ω RunVec) := by
  unfold RunVec.setIdx; pr_all

theorem remove_pr {rv : RunVec} {i : Nat} : Prompt P Slack (rv.remove i : Prog α ι ω RunVec) := by
  unfold RunVec.remove; pr_all

theorem asSlice_pr {rv : RunVec} : Prompt P Slack (rv.asSlice : Prog α ι ω (List TimRun)) := by
  unfold RunVec.asSlice; pr_all

theorem streakLoop_pr (hl : LessP P Slack less) {r : Bool} {e n : Nat} : Prompt P Slack (streakLoop less v r e n) := by
  induction n generalizing e with
  | zero => unfold streakLoop; pr_all
  | succ n ih => unfold streakLoop; pr_all; exact ih

macro_rules | `(tactic| pr_lemma) => `(tactic| with_reducible first
  | exact push_pr | exact rvIdx_pr | exact setIdx_pr | exact remove_pr | exact asSlice_pr | exact streakLoop_pr ‹_›)

theorem findStreak_pr (hl : LessP P Slack less) : Prompt P Slack (findStreak less v) := by
  unfold findStreak; pr_all

theorem provideSortedBatch_pr (hl : LessP P Slack less) {s e : Nat} : Prompt P Slack (provideSortedBatch cfg less v s e) := by
  unfold provideSortedBatch; pr_all

macro_rules | `(tactic| pr_lemma) => `(tactic| with_reducible first | exact findStreak_pr ‹_› | exact provideSortedBatch_pr ‹_›)

theorem nextRun_pr (hl : LessP P Slack less) {s : Nat} : Prompt P Slack (nextRun cfg less v s) := by
  unfold nextRun; pr_all

theorem collapseBody_pr (hl : LessP P Slack less) {buf : View} {rv : RunVec} : Prompt P Slack (collapseBody cfg less v buf rv) := by
  unfold collapseBody; pr_all

macro_rules | `(tactic| pr_lemma) => `(tactic| with_reducible first | exact nextRun_pr ‹_› | exact collapseBody_pr ‹_›)

theorem mergeSort_pr (hl : LessP P Slack less) {al : Alloc} {buf : View} : Prompt P Slack (mergeSort cfg less al v buf) := by
  unfold mergeSort mergeSortWatch mergeSortBody; pr_all

theorem stableSort_pr (hl : LessP P Slack less) {al : Alloc} {buf : View} : Prompt P Slack (stableSort cfg less al v buf) := by
  unfold stableSort; pr_all; exact mergeSort_pr hl

/-! ### The parallel stable sort -/

theorem parInsertHeadLoop_pr (hl : LessP P Slack less) {x : α} {d n : Nat} : Prompt P Slack (parInsertHeadLoop less v x d n) := by
  induction n generalizing d with
  | zero => unfold parInsertHeadLoop; pr_all
  | succ n ih => unfold parInsertHeadLoop; pr_all; exact ih

macro_rules | `(tactic| pr_lemma) => `(tactic| with_reducible exact parInsertHeadLoop_pr ‹_›)

theorem parInsertHead_pr (hl : LessP P Slack less) : Prompt P Slack (parInsertHead less v) := by
  unfold parInsertHead; pr_all

macro_rules | `(tactic| pr_lemma) => `(tactic| with_reducible exact parInsertHead_pr ‹_›)

theorem parStreak_pr (hl : LessP P Slack less) {r : Bool} {s : Nat} : Prompt P Slack (parStreak less v r s) := by
  induction s with
  | zero => unfold parStreak; pr_all
  | succ n ih => unfold parStreak; pr_all

theorem parExtend_pr (hl : LessP P Slack less) {e s : Nat} : Prompt P Slack (parExtend less v e s) := by
  induction s with
  | zero => unfold parExtend; pr_all
  | succ n ih => unfold parExtend; pr_all

macro_rules | `(tactic| pr_lemma) => `(tactic| with_reducible first | exact parStreak_pr ‹_› | exact parExtend_pr ‹_›)

theorem parNextRun_pr (hl : LessP P Slack less) {e : Nat} : Prompt P Slack (parNextRun cfg less v e) := by
  unfold parNextRun; pr_all

theorem runAt_pr {rs : List TimRun} {i : Nat} : Prompt P Slack (runAt rs i : Prog α ι ω TimRun) := by
  unfold runAt; pr_all

macro_rules | `(tactic| pr_lemma) => `(tactic| with_reducible first | exact parNextRun_pr ‹_› | exact runAt_pr)

theorem parCollapseBody_pr (hl : LessP P Slack less) {buf : View} {rs : List TimRun} : Prompt P Slack (parCollapseBody cfg less v buf rs) := by
  unfold parCollapseBody; pr_all

macro_rules | `(tactic| pr_lemma) => `(tactic| with_reducible exact parCollapseBody_pr ‹_›)

theorem parMergeSortSeq_pr (hl : LessP P Slack less) {buf : View} : Prompt P Slack (parMergeSortSeq cfg less v buf) := by
  unfold parMergeSortSeq parMergeSortBody; pr_all

macro_rules | `(tactic| pr_lemma) => `(tactic| with_reducible exact parMergeSortSeq_pr ‹_›)

theorem splitForMerge_pr (hl : LessP P Slack less) : Prompt P Slack (splitForMerge less v w) := by
  unfold splitForMerge splitRightBody splitLeftBody; pr_all

theorem _root_.NdSlice.Calm.copyUp {s d n : Nat} : Calm Slack (copyUp v w s d n : Prog α ι ω Unit) := by
  unfold NdSlice.copyUp; pr_all

macro_rules | `(tactic| quiet_lemma) => `(tactic| with_reducible exact Calm.copyUp)

theorem _root_.NdSlice.Calm.stateDrop {u : View} {l r d : Nat} : Calm Slack (stateDrop cfg v w u l r d : Prog α ι ω Unit) := by
  unfold NdSlice.stateDrop; pr_all

macro_rules | `(tactic| quiet_lemma) => `(tactic| with_reducible exact Calm.stateDrop)
macro_rules | `(tactic| pr_lemma) => `(tactic| with_reducible first
  | exact Quiet.prompt (Calm.quiet Calm.copyUp) | exact Quiet.prompt (Calm.quiet Calm.stateDrop) | exact splitForMerge_pr ‹_›)

theorem parMergeBody_pr (hl : LessP P Slack less) {u : View} {s : Nat × Nat × Nat} : Prompt P Slack (parMergeBody cfg less v w u s) := by
  unfold parMergeBody; pr_all

macro_rules | `(tactic| pr_lemma) => `(tactic| with_reducible exact parMergeBody_pr ‹_›)

theorem parMerge_ho (hl : LessP P Slack less) {n : Nat} {u : View} : Honest P (parMerge cfg less n v w u) := by
  induction n generalizing v w u with
  | zero => exact Honest.diverge
  | succ n ih =>
    unfold parMerge
    refine Honest.ite (fun _ => ?_) fun _ => ?_
    · exact Honest.bind (Prompt.honest (X := Slack) (by pr_all)) fun _ => Prompt.honest (X := Slack) (by pr_all)
    · pr_all <;> exact ih

theorem chunkAt_pr {cs : List (Nat × Nat)} {i : Nat} : Prompt P Slack (chunkAt cs i : Prog α ι ω (Nat × Nat)) := by
  unfold chunkAt; pr_all

macro_rules | `(tactic| pr_lemma) => `(tactic| with_reducible exact chunkAt_pr)

theorem parRecurse_ho (hl : LessP P Slack less) {k : Nat} {cs : List (Nat × Nat)} {b : Bool} : Honest P (parRecurse cfg less v w k cs b) := by
  induction k generalizing cs b with
  | zero => exact Honest.diverge
  | succ k ih =>
    unfold parRecurse; pr_all
    all_goals first | exact ih | exact parMerge_ho hl

theorem chunkTask_pr (hl : LessP P Slack less) {i : Nat} : Prompt P Slack (chunkTask cfg less v w i) := by
  unfold chunkTask; pr_all

macro_rules | `(tactic| pr_lemma) => `(tactic| with_reducible exact chunkTask_pr ‹_›)

theorem chunkTasks_ho (hl : LessP P Slack less) {i n : Nat} : Honest P (chunkTasks cfg less v w i n) := by
  induction n generalizing i with
  | zero => exact Honest.pure
  | succ n ih => unfold chunkTasks; pr_all; exact ih

theorem lateChunks_pr (hl : LessP P Slack less) {i : Nat} {rs : List (Option (Nat × Nat × MergesortResult))} :
    Prompt P Slack (lateChunks cfg less v w i rs) := by
  induction rs generalizing i with
  | nil => exact pure
  | cons r rs ih =>
    cases r <;> unfold lateChunks <;> pr_all <;> exact ih

theorem finishChunk_pr {a b : Nat} {r : MergesortResult} : Prompt P Slack (finishChunk cfg v a b r : Prog α ι ω Unit) := by
  unfold finishChunk; pr_all

theorem canConcat_pr (hl : LessP P Slack less) {x : Nat} {r t : MergesortResult} : Prompt P Slack (canConcat cfg less v r x t) := by
  unfold canConcat; pr_all

macro_rules | `(tactic| pr_lemma) => `(tactic| with_reducible first
  | exact lateChunks_pr ‹_› | exact finishChunk_pr | exact canConcat_pr ‹_›)

theorem concatChunks_pr (hl : LessP P Slack less) {a b : Nat} {r : MergesortResult} {rest : List (Nat × Nat × MergesortResult)} :
    Prompt P Slack (concatChunks cfg less v a b r rest) := by
  induction rest generalizing a b r with
  | nil => unfold concatChunks; pr_all
  | cons c rest ih =>
    obtain ⟨x, y, t⟩ := c
    unfold concatChunks; pr_all <;> exact ih

macro_rules | `(tactic| pr_lemma) => `(tactic| with_reducible exact concatChunks_pr ‹_›)

theorem parMergeSortChunks_ho (hl : LessP P Slack less) : Honest P (parMergeSortChunks cfg less v w) := by
  unfold parMergeSortChunks
  refine Honest.bind (chunkTasks_ho hl) fun rs => Honest.bind (Prompt.honest (lateChunks_pr hl)) fun rs => ?_
  rcases rs with _ | ⟨⟨a, b, r⟩, rest⟩
  · exact Honest.bind Honest.pure fun _ => parRecurse_ho hl
  · exact Honest.bind (Prompt.honest (concatChunks_pr hl)) fun _ => parRecurse_ho hl

theorem parMergeSort_ho (hl : LessP P Slack less) : Honest P (parMergeSort cfg less v w) := by
  unfold parMergeSort
  refine Honest.ite (fun _ => Honest.pure) fun _ => Honest.ite (fun _ => Prompt.honest (X := Slack) (by pr_all)) fun _ =>
    Honest.ite (fun _ => Prompt.honest (X := Slack) (by pr_all)) fun _ => parMergeSortChunks_ho hl

/-! ### Search -/

theorem isSortedBy_pr (hl : LessP P X less) : Prompt P X (isSortedBy less v) := by
  have h : ∀ n i, Prompt P X (isSortedFrom less v i n) := by
    intro n
    induction n with
    | zero => intro i; exact pure
    | succ n ih => intro i; unfold isSortedFrom; pr_all; exact ih _
  exact h _ _

theorem binarySearchBy_pr {f : α → Prog α ι ω Ordering} (hf : ∀ x, Prompt P X (f x)) : Prompt P X (binarySearchBy cfg f v) := by
  unfold binarySearchBy binarySearchBody; pr_all; exact hf _

theorem anyFrom_pr {f : α → Prog α ι ω Bool} (hf : ∀ x, Prompt P X (f x)) {i n : Nat} : Prompt P X (anyFrom f v i n) := by
  induction n generalizing i with
  | zero => exact pure
  | succ n ih =>
    unfold anyFrom; pr_all
    · exact hf _
    · exact ih

theorem partitionDedupBy_pr {same : Addr → Addr → Prog α ι ω Bool} (hf : ∀ a b, Prompt P X (same a b)) :
    Prompt P X (partitionDedupBy cfg same v) := by
  unfold partitionDedupBy dedupBody dedupBody.uref; pr_all; exact hf _ _

/-! ### Cached keys -/

section Cached

variable {κ : Type} {P : KeyQ α κ → Option (κ × Bool) → Prop}

theorem pairAt_pr {l : List (κ × Nat)} {i : Nat} : Prompt P X (pairAt l i : Prog α (KeyQ α κ) (κ × Bool) (κ × Nat)) := by
  unfold pairAt; pr_all

theorem placeAll_pr {i n : Nat} {l : List (κ × Nat)} : Prompt P X (placeAll v i n l : Prog α (KeyQ α κ) (κ × Bool) Unit) := by
  induction n generalizing i l with
  | zero => exact pure
  | succ n ih =>
    unfold placeAll chaseBody; pr_all
    all_goals first | exact pairAt_pr | exact ih

variable (hk : ∀ x : α, Prompt P X (askKeyOf x))

include hk in
theorem keyPair_pr {b i : Nat} : Prompt P X (keyPair v b i : Prog α (KeyQ α κ) (κ × Bool) (κ × Nat)) := by
  unfold keyPair; pr_all; exact hk _

include hk in
theorem keyPairs_pr {b i n : Nat} : Prompt P X (keyPairs v b i n : Prog α (KeyQ α κ) (κ × Bool) (List (κ × Nat))) := by
  induction n generalizing i with
  | zero => exact pure
  | succ n ih =>
    unfold keyPairs; pr_all
    · exact keyPair_pr hk
    · exact ih

include hk in
theorem sortByCachedKey_pr {sz : Sizes} {srt : PairSort α κ} (hs : ∀ l, Prompt P X (srt l)) : Prompt P X (sortByCachedKey cfg sz srt v) := by
  unfold sortByCachedKey; pr_all
  · exact keyPairs_pr hk
  · exact hs _
  · exact placeAll_pr

include hk in
theorem parKeyPairs_ho {b i n : Nat} : Honest P (parKeyPairs v b i n : Prog α (KeyQ α κ) (κ × Bool) (List (Option (κ × Nat)))) := by
  induction n generalizing i with
  | zero => exact Honest.pure
  | succ n ih =>
    unfold parKeyPairs; pr_all
    · exact Prompt.honest (X := X) (keyPair_pr hk)
    · exact ih

include hk in
theorem latePairs_pr {b i : Nat} {ps : List (Option (κ × Nat))} :
    Prompt P X (latePairs v b i ps : Prog α (KeyQ α κ) (κ × Bool) (List (κ × Nat))) := by
  induction ps generalizing i with
  | nil => exact pure
  | cons p ps ih => cases p <;> unfold latePairs <;> pr_all <;> first | exact keyPair_pr hk | exact ih

theorem insertAny_pr {p : κ × Nat} {l : List (κ × Nat)} : Prompt P X (insertAny p l : Prog α (KeyQ α κ) (κ × Bool) (List (κ × Nat))) := by
  induction l with
  | nil => exact pure
  | cons q l ih => unfold insertAny; pr_all

theorem collectAny_pr {l : List (κ × Nat)} : Prompt P X (collectAny l : Prog α (KeyQ α κ) (κ × Bool) (List (κ × Nat))) := by
  induction l with
  | nil => exact pure
  | cons q l ih => unfold collectAny; pr_all; exact insertAny_pr

include hk in
theorem parSortByCachedKey_ho {sz : Sizes} {srt : PairSort α κ} (hs : ∀ l, Honest P (srt l)) : Honest P (parSortByCachedKey cfg sz srt v) := by
  unfold parSortByCachedKey
  refine Honest.ite (fun _ => Honest.pure) fun _ => Honest.bind (parKeyPairs_ho hk) fun _ => Honest.bind (Prompt.honest (latePairs_pr hk)) fun _ =>
    Honest.bind (Prompt.honest (X := X) collectAny_pr) fun _ => Honest.bind (hs _) fun _ => Prompt.honest (X := X) placeAll_pr

end Cached

end Prompt

/-! ### User code -/

/-- The answer is a panic. -/
def AnsPanic {ι ω : Type} (_ : ι) (r : Option ω) : Prop := r = none

section User

variable {α κ : Type} {X : Panic → Prop}

theorem Style.less_pr (st : Style) : LessP AnsPanic X (st.less (α := α) (κ := κ)) := by
  intro x y
  cases st
  · exact fun | none => ⟨fun _ => .inl rfl, fun h => absurd rfl h⟩ | some _ => ⟨nofun, fun _ => trivial⟩
  · exact fun | none => ⟨fun _ => .inl rfl, fun h => absurd rfl h⟩ | some _ => ⟨nofun, fun _ => trivial⟩
  · exact fun
      | none => ⟨fun _ => .inl rfl, fun h => absurd rfl h⟩
      | some _ => ⟨nofun, fun _ => fun
        | none => ⟨fun _ => .inl rfl, fun h => absurd rfl h⟩
        | some _ => ⟨nofun, fun _ => fun
          | none => ⟨fun _ => .inl rfl, fun h => absurd rfl h⟩
          | some _ => ⟨nofun, fun _ => trivial⟩⟩⟩

theorem RelStyle.test_pr (st : RelStyle) : LessP AnsPanic X (st.test (α := α) (κ := κ)) := by
  intro x y
  cases st
  · exact fun | none => ⟨fun _ => .inl rfl, fun h => absurd rfl h⟩ | some _ => ⟨nofun, fun _ => trivial⟩
  · exact fun
      | none => ⟨fun _ => .inl rfl, fun h => absurd rfl h⟩
      | some _ => ⟨nofun, fun _ => fun
        | none => ⟨fun _ => .inl rfl, fun h => absurd rfl h⟩
        | some _ => ⟨nofun, fun _ => fun
          | none => ⟨fun _ => .inl rfl, fun h => absurd rfl h⟩
          | some _ => ⟨nofun, fun _ => trivial⟩⟩⟩

theorem SearchStyle.ask_pr (st : SearchStyle) (t : st.T α κ) (x : α) : Prompt AnsPanic X (st.ask t x) := by
  cases st
  · exact fun | none => ⟨fun _ => .inl rfl, fun h => absurd rfl h⟩ | some _ => ⟨nofun, fun _ => trivial⟩
  · exact fun | none => ⟨fun _ => .inl rfl, fun h => absurd rfl h⟩ | some _ => ⟨nofun, fun _ => trivial⟩
  · exact fun
      | none => ⟨fun _ => .inl rfl, fun h => absurd rfl h⟩
      | some _ => ⟨nofun, fun _ => fun
        | none => ⟨fun _ => .inl rfl, fun h => absurd rfl h⟩
        | some _ => ⟨nofun, fun _ => trivial⟩⟩

theorem askKeyOf_pr (x : α) : Prompt AnsPanic X (askKeyOf x : Prog α (KeyQ α κ) (κ × Bool) κ) :=
  fun | none => ⟨fun _ => .inl rfl, fun h => absurd rfl h⟩ | some _ => ⟨nofun, fun _ => trivial⟩

/-- The answer is a panic: user code of `partition_dedup_by*` may also change elements before it panics. -/
def DedupStyle.AnsPanic : (st : DedupStyle) → st.Q α κ → Option (st.A α κ) → Prop
  | .eq, _, r => r = none
  | .fn, _, r => ∀ x y c, r ≠ some (x, y, some c)
  | .key, .key _, r => ∀ x k c, r ≠ some (x, some k, c)
  | .key, .lt _ _, r => r = none

theorem DedupStyle.same_pr (st : DedupStyle) (a b : Addr) : Prompt st.AnsPanic X (st.same (α := α) (κ := κ) a b) := by
  cases st
  · exact fun _ _ => fun | none => ⟨fun _ => .inl rfl, fun h => absurd rfl h⟩ | some _ => ⟨nofun, fun _ => trivial⟩
  · exact fun _ _ => fun
      | none => ⟨fun _ => .inl rfl, fun h => absurd (fun _ _ _ => nofun) h⟩
      | some (_, _, none) => ⟨fun _ => .inl rfl, fun h => absurd (fun _ _ _ => nofun) h⟩
      | some (x, y, some c) => ⟨fun h => absurd rfl (h x y c), fun _ => trivial⟩
  · have key : ∀ a, Prompt (DedupStyle.AnsPanic (α := α) (κ := κ) .key) X (askKey a) := fun a _ => fun
      | none => ⟨fun _ => .inl rfl, fun h => absurd (fun _ _ _ => nofun) h⟩
      | some (_, none, _) => ⟨fun _ => .inl rfl, fun h => absurd (fun _ _ _ => nofun) h⟩
      | some (x, some k, c) => ⟨fun h => absurd rfl (h x k c), fun _ => trivial⟩
    exact Prompt.bind (key a) fun _ => Prompt.bind (key b) fun _ => fun
      | none => ⟨fun _ => .inl rfl, fun h => absurd rfl h⟩
      | some _ => ⟨nofun, fun _ => trivial⟩

end User

end NdSlice
