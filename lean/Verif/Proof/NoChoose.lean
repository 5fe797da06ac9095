import Verif.Core.Exact

/-
The environment has no choice in the unstable sorts and the selections.
-/

namespace NdSlice

open Prog

variable {α ι ω : Type}

namespace Prog.NoChoose

variable {cfg : Cfg} {less : α → α → Prog α ι ω Bool} (hl : ∀ x y, NoChoose (less x y)) {v : View}
include hl

theorem insertTailLoop {t : α} {n : Nat} : NoChoose (NdSlice.insertTailLoop less v t n) := by
  induction n with
  | zero => unfold NdSlice.insertTailLoop; nc [hl _ _]
  | succ n ih => unfold NdSlice.insertTailLoop; nc [hl _ _, ih]

theorem insertTail : NoChoose (NdSlice.insertTail cfg less v) := by
  unfold NdSlice.insertTail; nc [hl _ _, insertTailLoop hl]

theorem insertHeadLoop {t : α} {d n : Nat} : NoChoose (NdSlice.insertHeadLoop less v t d n) := by
  induction n generalizing d with
  | zero => unfold NdSlice.insertHeadLoop; nc [hl _ _]
  | succ n ih => unfold NdSlice.insertHeadLoop; nc [hl _ _, ih]

theorem insertHead : NoChoose (NdSlice.insertHead cfg less v) := by
  unfold NdSlice.insertHead; nc [hl _ _, insertHeadLoop hl]

theorem insertionSortShiftLeft {n : Nat} : NoChoose (NdSlice.insertionSortShiftLeft cfg less v n) := by
  unfold NdSlice.insertionSortShiftLeft; nc [insertTail hl]

theorem insertionSortShiftRight {n : Nat} : NoChoose (NdSlice.insertionSortShiftRight cfg less v n) := by
  unfold NdSlice.insertionSortShiftRight; nc [insertHead hl]

theorem findOutOfOrder {i n : Nat} : NoChoose (NdSlice.findOutOfOrder cfg less v i n) := by
  induction n generalizing i with
  | zero => unfold NdSlice.findOutOfOrder; nc [hl _ _]
  | succ n ih => unfold NdSlice.findOutOfOrder; nc [hl _ _, ih]

theorem partialInsertionLoop {i n : Nat} : NoChoose (NdSlice.partialInsertionLoop cfg less v n i) := by
  induction n generalizing i with
  | zero => unfold NdSlice.partialInsertionLoop; nc [findOutOfOrder hl, insertionSortShiftLeft hl, insertionSortShiftRight hl]
  | succ n ih => unfold NdSlice.partialInsertionLoop; nc [findOutOfOrder hl, insertionSortShiftLeft hl, insertionSortShiftRight hl, ih]

theorem partialInsertionSort : NoChoose (NdSlice.partialInsertionSort cfg less v) := by
  unfold NdSlice.partialInsertionSort; nc [partialInsertionLoop hl]

theorem siftDown {n : Nat} : NoChoose (NdSlice.siftDown less v n) := by
  unfold NdSlice.siftDown NdSlice.siftDownStep; nc [hl _ _]

theorem heapSort : NoChoose (NdSlice.heapSort less v) := by
  unfold NdSlice.heapSort; nc [siftDown hl]

omit hl in
theorem breakPatternsLoop {m p i s k : Nat} : NoChoose (NdSlice.breakPatternsLoop cfg v m p i s k : Prog α ι ω Unit) := by
  induction k generalizing i s with
  | zero => unfold NdSlice.breakPatternsLoop; nc []
  | succ k ih => unfold NdSlice.breakPatternsLoop; nc [ih]

omit hl in
theorem breakPatterns : NoChoose (NdSlice.breakPatterns cfg v : Prog α ι ω Unit) := by
  unfold NdSlice.breakPatterns; nc [breakPatternsLoop]

theorem sort2 {a b s : Nat} : NoChoose (NdSlice.sort2 less v a b s) := by
  unfold NdSlice.sort2; nc [hl _ _]

theorem sort3 {a b c s : Nat} : NoChoose (NdSlice.sort3 less v a b c s) := by
  unfold NdSlice.sort3; nc [sort2 hl]

theorem sortAdjacent {a s : Nat} : NoChoose (NdSlice.sortAdjacent cfg less v a s) := by
  unfold NdSlice.sortAdjacent; nc [sort3 hl]

theorem chooseMedian : NoChoose (NdSlice.chooseMedian cfg less v) := by
  unfold NdSlice.chooseMedian; nc [sort3 hl, sortAdjacent hl]

theorem choosePivot : NoChoose (NdSlice.choosePivot cfg less v) := by
  unfold NdSlice.choosePivot; nc [chooseMedian hl, reverse]

omit hl in
theorem scanUp {test : Nat → Prog α ι ω Bool} (h : ∀ i, NoChoose (test i)) {n l : Nat} : NoChoose (NdSlice.scanUp test n l) := by
  induction n generalizing l with
  | zero => unfold NdSlice.scanUp; nc [pure]
  | succ n ih => unfold NdSlice.scanUp; nc [h _, ih]

omit hl in
theorem scanDown {test : Nat → Prog α ι ω Bool} (h : ∀ i, NoChoose (test i)) {n r : Nat} : NoChoose (NdSlice.scanDown test n r) := by
  induction n generalizing r with
  | zero => unfold NdSlice.scanDown; nc [pure]
  | succ n ih => unfold NdSlice.scanDown; nc [h _, ih]

omit hl in
theorem scanEqual {test : Nat → Prog α ι ω Bool} (h : ∀ i, NoChoose (test i)) {n r : Nat} : NoChoose (NdSlice.scanEqual cfg test n r) := by
  induction n generalizing r with
  | zero => unfold NdSlice.scanEqual; nc [pure]
  | succ n ih => unfold NdSlice.scanEqual; nc [h _, ih]

theorem partitionEqualStep {p : α} {s : Nat × Nat} : NoChoose (NdSlice.partitionEqualStep cfg less v p s) := by
  unfold NdSlice.partitionEqualStep; nc [hl _ _, scanUp fun _ => by nc [hl _ _], scanEqual fun _ => by nc [hl _ _]]

theorem partitionEqual {p : Nat} : NoChoose (NdSlice.partitionEqual cfg less v p) := by
  unfold NdSlice.partitionEqual; nc [partitionEqualStep hl]

theorem traceL {p : α} {l n i : Nat} {o : List Nat} : NoChoose (NdSlice.traceL less v p l n i o) := by
  induction n generalizing i o with
  | zero => unfold NdSlice.traceL; nc [hl _ _]
  | succ n ih => unfold NdSlice.traceL; nc [hl _ _, ih]

theorem traceR {p : α} {n e i : Nat} {o : List Nat} : NoChoose (NdSlice.traceR cfg less v p n e i o) := by
  induction n generalizing i o e with
  | zero => unfold NdSlice.traceR; nc [hl _ _]
  | succ n ih => unfold NdSlice.traceR; nc [hl _ _, ih]

omit hl in
theorem leftIdx {l : Nat} {o : List Nat} : NoChoose (NdSlice.leftIdx l o : Prog α ι ω Nat) := by
  unfold NdSlice.leftIdx; nc []

omit hl in
theorem rightIdx {r : Nat} {o : List Nat} : NoChoose (NdSlice.rightIdx cfg r o : Prog α ι ω Nat) := by
  unfold NdSlice.rightIdx; nc []

omit hl in
theorem copyIdx {i j : Nat} : NoChoose (NdSlice.copyIdx v i j : Prog α ι ω Unit) := by
  unfold NdSlice.copyIdx; nc []

omit hl in
theorem cycleLoop {l r n : Nat} {o o' : List Nat} : NoChoose (NdSlice.cycleLoop cfg v l r n o o' : Prog α ι ω (List Nat × List Nat)) := by
  induction n generalizing o o' with
  | zero => unfold NdSlice.cycleLoop; nc [leftIdx, rightIdx, copyIdx]
  | succ n ih => unfold NdSlice.cycleLoop; nc [leftIdx, rightIdx, copyIdx, ih]

omit hl in
theorem cycle {l r n : Nat} {o o' : List Nat} : NoChoose (NdSlice.cycle cfg v l r n o o' : Prog α ι ω (List Nat × List Nat)) := by
  unfold NdSlice.cycle; nc [leftIdx, rightIdx, copyIdx, cycleLoop]

omit hl in
theorem blockSizes {s : BlockSt} : NoChoose (NdSlice.blockSizes cfg s : Prog α ι ω BlockSt) := by
  unfold NdSlice.blockSizes; nc []

theorem blockStep {p : α} {s : BlockSt} : NoChoose (NdSlice.blockStep cfg less v p s) := by
  unfold NdSlice.blockStep; nc [blockSizes, traceL hl, traceR hl, cycle]

omit hl in
theorem moveRemL {l n r : Nat} {o : List Nat} : NoChoose (NdSlice.moveRemL cfg v l n o r : Prog α ι ω Nat) := by
  induction n generalizing o r with
  | zero => unfold NdSlice.moveRemL; nc [leftIdx]
  | succ n ih => unfold NdSlice.moveRemL; nc [leftIdx, ih]

omit hl in
theorem moveRemR {l n r : Nat} {o : List Nat} : NoChoose (NdSlice.moveRemR cfg v r n o l : Prog α ι ω Nat) := by
  induction n generalizing o l with
  | zero => unfold NdSlice.moveRemR; nc [rightIdx]
  | succ n ih => unfold NdSlice.moveRemR; nc [rightIdx, ih]

theorem partitionInBlocks {p : α} : NoChoose (NdSlice.partitionInBlocks cfg less v p) := by
  unfold NdSlice.partitionInBlocks; nc [blockStep hl, moveRemL, moveRemR]

theorem partition {p : Nat} : NoChoose (NdSlice.partition cfg less v p) := by
  unfold NdSlice.partition; nc [hl _ _, scanUp fun _ => by nc [hl _ _], scanDown fun _ => by nc [hl _ _], partitionInBlocks hl]

omit hl in
theorem vderef {a : Addr} : NoChoose (NdSlice.deref a : Prog α ι ω α) := by unfold NdSlice.deref; simp [NoChoose]

omit hl in
theorem vref {i : Nat} : NoChoose (v.ref i : Prog α ι ω Addr) := by unfold View.ref; nc [pure]

theorem predCheck {p : Nat} {a : Option Addr} : NoChoose (NdSlice.predCheck less v p a) := by
  unfold NdSlice.predCheck; nc [hl _ _, vderef]

theorem quickStep {m : Option Nat} {rec : View → Option Addr → Nat → Prog α ι ω Unit} (h : ∀ v p l, NoChoose (rec v p l)) {s : QSt} :
    NoChoose (NdSlice.quickStep cfg less m rec s) := by
  unfold NdSlice.quickStep NdSlice.quickSplit NdSlice.quickDescend
  nc [h _ _ _, insertionSortShiftLeft hl, heapSort hl, breakPatterns, choosePivot hl, partialInsertionSort hl, predCheck hl, partitionEqual hl, partition hl, vref]

theorem recurse {m : Option Nat} {d : Nat} {p : Option Addr} {l : Nat} : NoChoose (NdSlice.recurse cfg less m d v p l) := by
  induction d generalizing v p l with
  | zero => exact diverge
  | succ d ih => unfold NdSlice.recurse; nc [quickStep hl fun _ _ _ => ih]

theorem parQuickSort : NoChoose (NdSlice.parQuickSort cfg less v) := by
  unfold NdSlice.parQuickSort; nc [recurse hl]

theorem maxLoop {b i n : Nat} : NoChoose (NdSlice.maxLoop less v b i n) := by
  induction n generalizing b i with
  | zero => unfold NdSlice.maxLoop; nc [hl _ _]
  | succ n ih => unfold NdSlice.maxLoop; nc [hl _ _, ih]

theorem minLoop {b i n : Nat} : NoChoose (NdSlice.minLoop less v b i n) := by
  induction n generalizing b i with
  | zero => unfold NdSlice.minLoop; nc [hl _ _]
  | succ n ih => unfold NdSlice.minLoop; nc [hl _ _, ih]

theorem maxIndex : NoChoose (NdSlice.maxIndex less v) := by
  unfold NdSlice.maxIndex; nc [maxLoop hl]

theorem minIndex : NoChoose (NdSlice.minIndex less v) := by
  unfold NdSlice.minIndex; nc [minLoop hl]

theorem lessAt {i j : Nat} : NoChoose (NdSlice.lessAt less v i j) := by
  unfold NdSlice.lessAt; nc [hl _ _]

theorem medianIdx {a b c : Nat} : NoChoose (NdSlice.medianIdx less v a b c) := by
  unfold NdSlice.medianIdx; nc [lessAt hl]

theorem nintherEnd {a b c d : Nat} : NoChoose (NdSlice.nintherEnd less v a b c d) := by
  unfold NdSlice.nintherEnd; nc [lessAt hl]

theorem ninther {a b c d e f g h i : Nat} : NoChoose (NdSlice.ninther less v a b c d e f g h i) := by
  unfold NdSlice.ninther; nc [lessAt hl, medianIdx hl, nintherEnd hl]

theorem nintherLoop {q a i b n : Nat} : NoChoose (NdSlice.nintherLoop cfg less v q a i b n) := by
  induction n generalizing a i b with
  | zero => unfold NdSlice.nintherLoop; nc [ninther hl]
  | succ n ih => unfold NdSlice.nintherLoop; nc [ninther hl, ih]

theorem medianOfMedians {d k : Nat} : NoChoose (NdSlice.medianOfMedians cfg less d v k) := by
  induction d generalizing v k with
  | zero => exact diverge
  | succ d ih =>
    have loop : ∀ n (v : View) k, NoChoose (NdSlice.momLoop cfg less (NdSlice.medianOfMedians cfg less d) n v k) := by
      intro n
      induction n with
      | zero => exact fun _ _ => diverge
      | succ n jh =>
        intro v k
        unfold NdSlice.momLoop NdSlice.medianOfNinthers
        nc [ih, jh _ _, insertionSortShiftLeft hl, maxIndex hl, minIndex hl, nintherLoop hl, partition hl]
    unfold NdSlice.medianOfMedians
    nc [loop _ _ _]

theorem selPredCheck {p : Nat} {a : Option Addr} : NoChoose (NdSlice.selPredCheck less v p a) := by
  unfold NdSlice.selPredCheck; nc [hl _ _, vderef]

theorem selLoop {n i l : Nat} {p : Option Addr} {b : Bool} : NoChoose (NdSlice.selLoop cfg less n v i p l b) := by
  induction n generalizing v i l p b with
  | zero => unfold NdSlice.selLoop; nc [insertionSortShiftLeft hl, medianOfMedians hl, breakPatterns, choosePivot hl, selPredCheck hl, partitionEqual hl, partition hl, vref]
  | succ n ih => unfold NdSlice.selLoop; nc [insertionSortShiftLeft hl, medianOfMedians hl, breakPatterns, choosePivot hl, selPredCheck hl, partitionEqual hl, partition hl, vref, ih]

theorem partitionAtIndex {i : Nat} : NoChoose (NdSlice.partitionAtIndex cfg less v i) := by
  unfold NdSlice.partitionAtIndex NdSlice.partitionAtIndexLoop; nc [maxIndex hl, minIndex hl, selLoop hl, vref]

theorem parPartitionAtIndices {n o a b : Nat} {is : List Nat} : NoChoose (NdSlice.parPartitionAtIndices cfg less n v o is a b) := by
  induction n generalizing v o a b is with
  | zero => unfold NdSlice.parPartitionAtIndices; nc [partitionAtIndex hl]
  | succ n ih => unfold NdSlice.parPartitionAtIndices; nc [partitionAtIndex hl, ih]

theorem parSelectMany {is : List Nat} {n : Nat} : NoChoose (NdSlice.parSelectMany cfg less v is n) := by
  unfold NdSlice.parSelectMany; nc [parPartitionAtIndices hl]

end Prog.NoChoose

end NdSlice
