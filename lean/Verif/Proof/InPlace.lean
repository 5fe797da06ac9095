import Verif.Core.InPlace
import Verif.Model.Api

/-
What the functions of the model read and what they show to user code: the functions which work in place.
-/

namespace NdSlice.In

variable {α ι ω : Type} {X : α → Prop} {ok : ι → Prop} {I : Addr → Prop} {cfg : Cfg} {less : α → α → Prog α ι ω Bool} {v w : View}

/-! ### Insertion sorts -/

theorem insertTailLoop_in (hl : LessIn X ok less) (hv : VIn I v) {x} (hx : X x) {n : Nat} :
    In (ω := ω) X ok I (insertTailLoop less v x n) Any := by
  induction n with
  | zero => unfold insertTailLoop; in_all
  | succ n ih => unfold insertTailLoop; in_all

macro_rules | `(tactic| in_lemma) => `(tactic| with_reducible exact insertTailLoop_in ‹_› ‹_› ‹_›)

theorem insertTail_in (hl : LessIn X ok less) (hv : VIn I v) :
    In (ω := ω) X ok I (insertTail cfg less v) Any := by
  unfold insertTail; in_all

macro_rules | `(tactic| in_lemma) => `(tactic| with_reducible exact insertTail_in ‹_› ‹_›)

theorem insertHeadLoop_in (hl : LessIn X ok less) (hv : VIn I v) {x} (hx : X x) {d n : Nat} :
    In (ω := ω) X ok I (insertHeadLoop less v x d n) Any := by
  induction n generalizing d with
  | zero => unfold insertHeadLoop; in_all
  | succ n ih => unfold insertHeadLoop; in_all; exact ih

macro_rules | `(tactic| in_lemma) => `(tactic| with_reducible exact insertHeadLoop_in ‹_› ‹_› ‹_›)

theorem insertHead_in (hl : LessIn X ok less) (hv : VIn I v) :
    In (ω := ω) X ok I (insertHead cfg less v) Any := by
  unfold insertHead; in_all

macro_rules | `(tactic| in_lemma) => `(tactic| with_reducible exact insertHead_in ‹_› ‹_›)

theorem insertionSortShiftLeft_in (hl : LessIn X ok less) (hv : VIn I v) {o : Nat} :
    In (ω := ω) X ok I (insertionSortShiftLeft cfg less v o) Any := by
  unfold insertionSortShiftLeft; in_all

macro_rules | `(tactic| in_lemma) => `(tactic| with_reducible exact insertionSortShiftLeft_in ‹_› ‹_›)

theorem insertionSortShiftRight_in (hl : LessIn X ok less) (hv : VIn I v) {o : Nat} :
    In (ω := ω) X ok I (insertionSortShiftRight cfg less v o) Any := by
  unfold insertionSortShiftRight; in_all

macro_rules | `(tactic| in_lemma) => `(tactic| with_reducible exact insertionSortShiftRight_in ‹_› ‹_›)

theorem findOutOfOrder_in (hl : LessIn X ok less) (hv : VIn I v) {i n : Nat} :
    In (ω := ω) X ok I (findOutOfOrder cfg less v i n) Any := by
  induction n generalizing i with
  | zero => unfold findOutOfOrder; in_all
  | succ n ih => unfold findOutOfOrder; in_all; exact ih

macro_rules | `(tactic| in_lemma) => `(tactic| with_reducible exact findOutOfOrder_in ‹_› ‹_›)

theorem partialInsertionLoop_in (hl : LessIn X ok less) (hv : VIn I v) {n i : Nat} :
    In (ω := ω) X ok I (partialInsertionLoop cfg less v n i) Any := by
  induction n generalizing i with
  | zero => unfold partialInsertionLoop; in_all
  | succ n ih => unfold partialInsertionLoop; in_all <;> exact ih

theorem partialInsertionSort_in (hl : LessIn X ok less) (hv : VIn I v) :
    In (ω := ω) X ok I (partialInsertionSort cfg less v) Any := partialInsertionLoop_in hl hv

macro_rules | `(tactic| in_lemma) => `(tactic| with_reducible exact partialInsertionSort_in ‹_› ‹_›)

/-! ### Heap sort -/

theorem siftDown_in (hl : LessIn X ok less) (hv : VIn I v) {n : Nat} : In (ω := ω) X ok I (siftDown less v n) Any := by
  unfold siftDown siftDownStep; in_all

macro_rules | `(tactic| in_lemma) => `(tactic| with_reducible exact siftDown_in ‹_› ‹_›)

theorem heapSort_in (hl : LessIn X ok less) (hv : VIn I v) : In (ω := ω) X ok I (heapSort less v) Any := by
  unfold heapSort; in_all

macro_rules | `(tactic| in_lemma) => `(tactic| with_reducible exact heapSort_in ‹_› ‹_›)

/-! ### Partitioning -/

theorem revswap_in  (hv : VIn I v) (hw : VIn I w) {n i k : Nat} :
    In (ω := ω) X ok I (revswap cfg v w n i k) Any := by
  induction k generalizing i with
  | zero => unfold revswap; in_all
  | succ k ih => unfold revswap; in_all; exact ih

macro_rules | `(tactic| in_lemma) => `(tactic| with_reducible exact revswap_in ‹_› ‹_›)

theorem reverse_in (hv : VIn I v) : In (ω := ω) X ok I (reverse cfg v) Any := by
  unfold reverse; in_all

macro_rules | `(tactic| in_lemma) => `(tactic| with_reducible exact reverse_in ‹_›)

theorem breakPatternsLoop_in (hv : VIn I v) {m p i s k : Nat} :
    In (ω := ω) X ok I (breakPatternsLoop cfg v m p i s k) Any := by
  induction k generalizing i s with
  | zero => unfold breakPatternsLoop; in_all
  | succ k ih => unfold breakPatternsLoop; in_all; exact ih

macro_rules | `(tactic| in_lemma) => `(tactic| with_reducible exact breakPatternsLoop_in ‹_›)

theorem breakPatterns_in (hv : VIn I v) : In (ω := ω) X ok I (breakPatterns cfg v) Any := by
  unfold breakPatterns; in_all

macro_rules | `(tactic| in_lemma) => `(tactic| with_reducible exact breakPatterns_in ‹_›)

theorem sort2_in (hl : LessIn X ok less) (hv : VIn I v) {a b s : Nat} : In (ω := ω) X ok I (sort2 less v a b s) Any := by
  unfold sort2; in_all

macro_rules | `(tactic| in_lemma) => `(tactic| with_reducible exact sort2_in ‹_› ‹_›)

theorem sort3_in (hl : LessIn X ok less) (hv : VIn I v) {a b c s : Nat} :
    In (ω := ω) X ok I (sort3 less v a b c s) Any := by
  unfold sort3; in_all

macro_rules | `(tactic| in_lemma) => `(tactic| with_reducible exact sort3_in ‹_› ‹_›)

theorem sortAdjacent_in (hl : LessIn X ok less) (hv : VIn I v) {a s : Nat} :
    In (ω := ω) X ok I (sortAdjacent cfg less v a s) Any := by
  unfold sortAdjacent; in_all

macro_rules | `(tactic| in_lemma) => `(tactic| with_reducible exact sortAdjacent_in ‹_› ‹_›)

theorem chooseMedian_in (hl : LessIn X ok less) (hv : VIn I v) :
    In (ω := ω) X ok I (chooseMedian cfg less v) Any := by
  unfold chooseMedian; in_all

macro_rules | `(tactic| in_lemma) => `(tactic| with_reducible exact chooseMedian_in ‹_› ‹_›)

theorem choosePivot_in (hl : LessIn X ok less) (hv : VIn I v) : In (ω := ω) X ok I (choosePivot cfg less v) Any := by
  unfold choosePivot; in_all

macro_rules | `(tactic| in_lemma) => `(tactic| with_reducible exact choosePivot_in ‹_› ‹_›)

theorem scanUp_in {t : Nat → Prog α ι ω Bool} (h : ∀ i, In (ω := ω) X ok I (t i) Any) {n l : Nat} :
    In (ω := ω) X ok I (scanUp t n l) Any := by
  induction n generalizing l with
  | zero => unfold scanUp; in_all
  | succ n ih => unfold scanUp; in_all <;> first | exact h _ | exact ih

theorem scanDown_in {t : Nat → Prog α ι ω Bool} (h : ∀ i, In (ω := ω) X ok I (t i) Any) {n r : Nat} :
    In (ω := ω) X ok I (scanDown t n r) Any := by
  induction n generalizing r with
  | zero => unfold scanDown; in_all
  | succ n ih => unfold scanDown; in_all <;> first | exact h _ | exact ih

theorem scanEqual_in {t : Nat → Prog α ι ω Bool} (h : ∀ i, In (ω := ω) X ok I (t i) Any) {n r : Nat} :
    In (ω := ω) X ok I (scanEqual cfg t n r) Any := by
  induction n generalizing r with
  | zero => unfold scanEqual; in_all
  | succ n ih => unfold scanEqual; in_all <;> first | exact h _ | exact ih

macro_rules | `(tactic| in_lemma) => `(tactic| with_reducible first
  | refine scanUp_in (fun _ => ?_)
  | refine scanDown_in (fun _ => ?_)
  | refine scanEqual_in (fun _ => ?_))

theorem partitionEqualStep_in (hl : LessIn X ok less) (hv : VIn I v) {x} (hx : X x) {s : Nat × Nat} :
    In (ω := ω) X ok I (partitionEqualStep cfg less v x s) Any := by
  rcases s with ⟨l, r⟩
  unfold partitionEqualStep; in_all

macro_rules | `(tactic| in_lemma) => `(tactic| with_reducible exact partitionEqualStep_in ‹_› ‹_› ‹_›)

theorem partitionEqual_in (hl : LessIn X ok less) (hv : VIn I v) {p : Nat} :
    In (ω := ω) X ok I (partitionEqual cfg less v p) Any := by
  unfold partitionEqual; in_all

macro_rules | `(tactic| in_lemma) => `(tactic| with_reducible exact partitionEqual_in ‹_› ‹_›)

theorem traceL_in (hl : LessIn X ok less) (hv : VIn I v) {x} (hx : X x) {l n i : Nat} {acc : List Nat} :
    In (ω := ω) X ok I (traceL less v x l n i acc) Any := by
  induction n generalizing i acc with
  | zero => unfold traceL; in_all
  | succ n ih => unfold traceL; in_all; exact ih

theorem traceR_in (hl : LessIn X ok less) (hv : VIn I v) {x} (hx : X x) {e n i : Nat} {acc : List Nat} :
    In (ω := ω) X ok I (traceR cfg less v x n e i acc) Any := by
  induction n generalizing i acc e with
  | zero => unfold traceR; in_all
  | succ n ih => unfold traceR; in_all; exact ih

theorem leftIdx_in {l : Nat} {o : List Nat} : In (ω := ω) X ok I (leftIdx l o) Any := by
  cases o <;> unfold leftIdx <;> in_all

theorem rightIdx_in {l : Nat} {o : List Nat} : In (ω := ω) X ok I (rightIdx cfg l o) Any := by
  cases o <;> unfold rightIdx <;> in_all

theorem copyIdx_in (hv : VIn I v) {i j : Nat} : In (ω := ω) X ok I (copyIdx v i j) Any := by
  unfold copyIdx; in_all

macro_rules | `(tactic| in_lemma) => `(tactic| with_reducible first
  | exact traceL_in ‹_› ‹_› ‹_› | exact traceR_in ‹_› ‹_› ‹_› | exact leftIdx_in | exact rightIdx_in | exact copyIdx_in ‹_›)

theorem cycleLoop_in (hv : VIn I v) {l r n : Nat} {ol or : List Nat} :
    In (ω := ω) X ok I (cycleLoop cfg v l r n ol or) Any := by
  induction n generalizing ol or with
  | zero => unfold cycleLoop; in_all
  | succ n ih => unfold cycleLoop; in_all; exact ih

macro_rules | `(tactic| in_lemma) => `(tactic| with_reducible exact cycleLoop_in ‹_›)

theorem cycle_in (hv : VIn I v) {l r n : Nat} {ol or : List Nat} :
    In (ω := ω) X ok I (cycle cfg v l r n ol or) Any := by
  unfold cycle; in_all

theorem blockSizes_in {s : BlockSt} : In (ω := ω) X ok I (blockSizes cfg s) Any := by
  unfold blockSizes; in_all

macro_rules | `(tactic| in_lemma) => `(tactic| with_reducible first
  | exact cycle_in ‹_› | exact blockSizes_in)

theorem blockStep_in (hl : LessIn X ok less) (hv : VIn I v) {x} (hx : X x) {s : BlockSt} :
    In (ω := ω) X ok I (blockStep cfg less v x s) Any := by
  unfold blockStep; in_all

theorem moveRemL_in (hv : VIn I v) {l n r : Nat} {ol : List Nat} : In (ω := ω) X ok I (moveRemL cfg v l n ol r) Any := by
  induction n generalizing ol r with
  | zero => unfold moveRemL; in_all
  | succ n ih => unfold moveRemL; in_all; exact ih

theorem moveRemR_in (hv : VIn I v) {l n r : Nat} {ol : List Nat} : In (ω := ω) X ok I (moveRemR cfg v r n ol l) Any := by
  induction n generalizing ol l with
  | zero => unfold moveRemR; in_all
  | succ n ih => unfold moveRemR; in_all; exact ih

macro_rules | `(tactic| in_lemma) => `(tactic| with_reducible first
  | exact blockStep_in ‹_› ‹_› ‹_› | exact moveRemL_in ‹_› | exact moveRemR_in ‹_›)

theorem partitionInBlocks_in (hl : LessIn X ok less) (hv : VIn I v) {x} (hx : X x) :
    In (ω := ω) X ok I (partitionInBlocks cfg less v x) Any := by
  unfold partitionInBlocks; in_all

macro_rules | `(tactic| in_lemma) => `(tactic| with_reducible exact partitionInBlocks_in ‹_› ‹_› ‹_›)

theorem partition_in (hl : LessIn X ok less) (hv : VIn I v) {p : Nat} :
    In (ω := ω) X ok I (partition cfg less v p) Any := by
  unfold partition; in_all

macro_rules | `(tactic| in_lemma) => `(tactic| with_reducible exact partition_in ‹_› ‹_›)

end NdSlice.In
