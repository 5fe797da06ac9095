import Verif.Core.Sim
import Verif.Model.Api

/-
The functions of the model on related views with related comparators do related things.
-/

namespace NdSlice.Sim

variable {α₁ ι₁ ω₁ σ₁ α₂ ι₂ ω₂ σ₂ : Type} {D : Sim α₁ ι₁ ω₁ σ₁ α₂ ι₂ ω₂ σ₂} {cfg : Cfg}
  {less₁ : α₁ → α₁ → Prog α₁ ι₁ ω₁ Bool} {less₂ : α₂ → α₂ → Prog α₂ ι₂ ω₂ Bool} {v₁ v₂ : View}

/-- Destructures two related views. -/
macro "sim_view" h:ident v:ident w:ident : tactic => `(tactic|
  (rcases $v:ident with ⟨_, _, _⟩; rcases $w:ident with ⟨_, _, _⟩; cases ($h).len))

/-- Steps as far as possible. -/
macro "sim" : tactic => `(tactic| repeat' sim1)

/-! ### Insertion sorts -/

theorem insertTailLoop_sim (hl : D.LessRel less₁ less₂) (hv : D.VRel v₁ v₂) {x y} (hx : D.V x y) {n : Nat} :
    D.P (insertTailLoop less₁ v₁ x n) (insertTailLoop less₂ v₂ y n) Eq := by
  sim_view hv v₁ v₂
  induction n with
  | zero => unfold insertTailLoop; sim
  | succ n ih => unfold insertTailLoop; sim

macro_rules | `(tactic| sim_lemma) => `(tactic| with_reducible exact insertTailLoop_sim ‹_› ‹_› ‹_›)

theorem insertTail_sim (hl : D.LessRel less₁ less₂) (hv : D.VRel v₁ v₂) :
    D.P (insertTail cfg less₁ v₁) (insertTail cfg less₂ v₂) Eq := by
  sim_view hv v₁ v₂
  unfold insertTail; sim

macro_rules | `(tactic| sim_lemma) => `(tactic| with_reducible exact insertTail_sim ‹_› ‹_›)

theorem insertHeadLoop_sim (hl : D.LessRel less₁ less₂) (hv : D.VRel v₁ v₂) {x y} (hx : D.V x y) {d n : Nat} :
    D.P (insertHeadLoop less₁ v₁ x d n) (insertHeadLoop less₂ v₂ y d n) Eq := by
  sim_view hv v₁ v₂
  induction n generalizing d with
  | zero => unfold insertHeadLoop; sim
  | succ n ih => unfold insertHeadLoop; sim; exact ih

macro_rules | `(tactic| sim_lemma) => `(tactic| with_reducible exact insertHeadLoop_sim ‹_› ‹_› ‹_›)

theorem insertHead_sim (hl : D.LessRel less₁ less₂) (hv : D.VRel v₁ v₂) :
    D.P (insertHead cfg less₁ v₁) (insertHead cfg less₂ v₂) Eq := by
  sim_view hv v₁ v₂
  unfold insertHead; sim

macro_rules | `(tactic| sim_lemma) => `(tactic| with_reducible exact insertHead_sim ‹_› ‹_›)

theorem insertionSortShiftLeft_sim (hl : D.LessRel less₁ less₂) (hv : D.VRel v₁ v₂) {o : Nat} :
    D.P (insertionSortShiftLeft cfg less₁ v₁ o) (insertionSortShiftLeft cfg less₂ v₂ o) Eq := by
  sim_view hv v₁ v₂
  unfold insertionSortShiftLeft; sim

macro_rules | `(tactic| sim_lemma) => `(tactic| with_reducible exact insertionSortShiftLeft_sim ‹_› ‹_›)

theorem insertionSortShiftRight_sim (hl : D.LessRel less₁ less₂) (hv : D.VRel v₁ v₂) {o : Nat} :
    D.P (insertionSortShiftRight cfg less₁ v₁ o) (insertionSortShiftRight cfg less₂ v₂ o) Eq := by
  sim_view hv v₁ v₂
  unfold insertionSortShiftRight; sim

macro_rules | `(tactic| sim_lemma) => `(tactic| with_reducible exact insertionSortShiftRight_sim ‹_› ‹_›)

theorem findOutOfOrder_sim (hl : D.LessRel less₁ less₂) (hv : D.VRel v₁ v₂) {i n : Nat} :
    D.P (findOutOfOrder cfg less₁ v₁ i n) (findOutOfOrder cfg less₂ v₂ i n) Eq := by
  sim_view hv v₁ v₂
  induction n generalizing i with
  | zero => unfold findOutOfOrder; sim
  | succ n ih => unfold findOutOfOrder; sim; exact ih

macro_rules | `(tactic| sim_lemma) => `(tactic| with_reducible exact findOutOfOrder_sim ‹_› ‹_›)

theorem partialInsertionLoop_sim (hl : D.LessRel less₁ less₂) (hv : D.VRel v₁ v₂) {n i : Nat} :
    D.P (partialInsertionLoop cfg less₁ v₁ n i) (partialInsertionLoop cfg less₂ v₂ n i) Eq := by
  sim_view hv v₁ v₂
  induction n generalizing i with
  | zero => unfold partialInsertionLoop; sim
  | succ n ih => unfold partialInsertionLoop; sim <;> exact ih

theorem partialInsertionSort_sim (hl : D.LessRel less₁ less₂) (hv : D.VRel v₁ v₂) :
    D.P (partialInsertionSort cfg less₁ v₁) (partialInsertionSort cfg less₂ v₂) Eq := partialInsertionLoop_sim hl hv

macro_rules | `(tactic| sim_lemma) => `(tactic| with_reducible exact partialInsertionSort_sim ‹_› ‹_›)

/-! ### Heap sort -/

theorem siftDown_sim (hl : D.LessRel less₁ less₂) (hv : D.VRel v₁ v₂) {n : Nat} : D.P (siftDown less₁ v₁ n) (siftDown less₂ v₂ n) Eq := by
  sim_view hv v₁ v₂
  unfold siftDown siftDownStep; sim

macro_rules | `(tactic| sim_lemma) => `(tactic| with_reducible exact siftDown_sim ‹_› ‹_›)

theorem heapSort_sim (hl : D.LessRel less₁ less₂) (hv : D.VRel v₁ v₂) : D.P (heapSort less₁ v₁) (heapSort less₂ v₂) Eq := by
  sim_view hv v₁ v₂
  unfold heapSort; sim

macro_rules | `(tactic| sim_lemma) => `(tactic| with_reducible exact heapSort_sim ‹_› ‹_›)

/-! ### Partitioning -/

theorem revswap_sim {w₁ w₂ : View} (hv : D.VRel v₁ v₂) (hw : D.VRel w₁ w₂) {n i k : Nat} :
    D.P (revswap cfg v₁ w₁ n i k) (revswap cfg v₂ w₂ n i k) Eq := by
  induction k generalizing i with
  | zero => unfold revswap; sim
  | succ k ih => unfold revswap; sim; exact ih

macro_rules | `(tactic| sim_lemma) => `(tactic| with_reducible exact revswap_sim ‹_› ‹_›)

theorem reverse_sim (hv : D.VRel v₁ v₂) : D.P (reverse cfg v₁) (reverse cfg v₂) Eq := by
  sim_view hv v₁ v₂
  unfold reverse; sim

macro_rules | `(tactic| sim_lemma) => `(tactic| with_reducible exact reverse_sim ‹_›)

theorem breakPatternsLoop_sim (hv : D.VRel v₁ v₂) {m p i s k : Nat} :
    D.P (breakPatternsLoop cfg v₁ m p i s k) (breakPatternsLoop cfg v₂ m p i s k) Eq := by
  sim_view hv v₁ v₂
  induction k generalizing i s with
  | zero => unfold breakPatternsLoop; sim
  | succ k ih => unfold breakPatternsLoop; sim; exact ih

macro_rules | `(tactic| sim_lemma) => `(tactic| with_reducible exact breakPatternsLoop_sim ‹_›)

theorem breakPatterns_sim (hv : D.VRel v₁ v₂) : D.P (breakPatterns cfg v₁) (breakPatterns cfg v₂) Eq := by
  sim_view hv v₁ v₂
  unfold breakPatterns; sim

macro_rules | `(tactic| sim_lemma) => `(tactic| with_reducible exact breakPatterns_sim ‹_›)

theorem sort2_sim (hl : D.LessRel less₁ less₂) (hv : D.VRel v₁ v₂) {a b s : Nat} : D.P (sort2 less₁ v₁ a b s) (sort2 less₂ v₂ a b s) Eq := by
  unfold sort2; sim

macro_rules | `(tactic| sim_lemma) => `(tactic| with_reducible exact sort2_sim ‹_› ‹_›)

theorem sort3_sim (hl : D.LessRel less₁ less₂) (hv : D.VRel v₁ v₂) {a b c s : Nat} :
    D.P (sort3 less₁ v₁ a b c s) (sort3 less₂ v₂ a b c s) Eq := by
  unfold sort3; sim

macro_rules | `(tactic| sim_lemma) => `(tactic| with_reducible exact sort3_sim ‹_› ‹_›)

theorem sortAdjacent_sim (hl : D.LessRel less₁ less₂) (hv : D.VRel v₁ v₂) {a s : Nat} :
    D.P (sortAdjacent cfg less₁ v₁ a s) (sortAdjacent cfg less₂ v₂ a s) Eq := by
  unfold sortAdjacent; sim

macro_rules | `(tactic| sim_lemma) => `(tactic| with_reducible exact sortAdjacent_sim ‹_› ‹_›)

theorem chooseMedian_sim (hl : D.LessRel less₁ less₂) (hv : D.VRel v₁ v₂) :
    D.P (chooseMedian cfg less₁ v₁) (chooseMedian cfg less₂ v₂) Eq := by
  sim_view hv v₁ v₂
  unfold chooseMedian; sim

macro_rules | `(tactic| sim_lemma) => `(tactic| with_reducible exact chooseMedian_sim ‹_› ‹_›)

theorem choosePivot_sim (hl : D.LessRel less₁ less₂) (hv : D.VRel v₁ v₂) : D.P (choosePivot cfg less₁ v₁) (choosePivot cfg less₂ v₂) Eq := by
  sim_view hv v₁ v₂
  unfold choosePivot; sim

macro_rules | `(tactic| sim_lemma) => `(tactic| with_reducible exact choosePivot_sim ‹_› ‹_›)

theorem scanUp_sim {t₁ : Nat → Prog α₁ ι₁ ω₁ Bool} {t₂ : Nat → Prog α₂ ι₂ ω₂ Bool} (h : ∀ i, D.P (t₁ i) (t₂ i) Eq) {n l : Nat} :
    D.P (scanUp t₁ n l) (scanUp t₂ n l) Eq := by
  induction n generalizing l with
  | zero => unfold scanUp; sim
  | succ n ih => unfold scanUp; sim <;> first | exact h _ | exact ih

theorem scanDown_sim {t₁ : Nat → Prog α₁ ι₁ ω₁ Bool} {t₂ : Nat → Prog α₂ ι₂ ω₂ Bool} (h : ∀ i, D.P (t₁ i) (t₂ i) Eq) {n r : Nat} :
    D.P (scanDown t₁ n r) (scanDown t₂ n r) Eq := by
  induction n generalizing r with
  | zero => unfold scanDown; sim
  | succ n ih => unfold scanDown; sim <;> first | exact h _ | exact ih

theorem scanEqual_sim {t₁ : Nat → Prog α₁ ι₁ ω₁ Bool} {t₂ : Nat → Prog α₂ ι₂ ω₂ Bool} (h : ∀ i, D.P (t₁ i) (t₂ i) Eq) {n r : Nat} :
    D.P (scanEqual cfg t₁ n r) (scanEqual cfg t₂ n r) Eq := by
  induction n generalizing r with
  | zero => unfold scanEqual; sim
  | succ n ih => unfold scanEqual; sim <;> first | exact h _ | exact ih

macro_rules | `(tactic| sim_lemma) => `(tactic| with_reducible first
  | refine scanUp_sim (fun _ => ?_)
  | refine scanDown_sim (fun _ => ?_)
  | refine scanEqual_sim (fun _ => ?_))

theorem partitionEqualStep_sim (hl : D.LessRel less₁ less₂) (hv : D.VRel v₁ v₂) {x y} (hx : D.V x y) {s : Nat × Nat} :
    D.P (partitionEqualStep cfg less₁ v₁ x s) (partitionEqualStep cfg less₂ v₂ y s) (SumR Eq Eq) := by
  rcases s with ⟨l, r⟩
  unfold partitionEqualStep; sim

macro_rules | `(tactic| sim_lemma) => `(tactic| with_reducible exact partitionEqualStep_sim ‹_› ‹_› ‹_›)

theorem partitionEqual_sim (hl : D.LessRel less₁ less₂) (hv : D.VRel v₁ v₂) {p : Nat} :
    D.P (partitionEqual cfg less₁ v₁ p) (partitionEqual cfg less₂ v₂ p) Eq := by
  sim_view hv v₁ v₂
  unfold partitionEqual; sim

macro_rules | `(tactic| sim_lemma) => `(tactic| with_reducible exact partitionEqual_sim ‹_› ‹_›)

theorem traceL_sim (hl : D.LessRel less₁ less₂) (hv : D.VRel v₁ v₂) {x y} (hx : D.V x y) {l n i : Nat} {acc : List Nat} :
    D.P (traceL less₁ v₁ x l n i acc) (traceL less₂ v₂ y l n i acc) Eq := by
  induction n generalizing i acc with
  | zero => unfold traceL; sim
  | succ n ih => unfold traceL; sim; exact ih

theorem traceR_sim (hl : D.LessRel less₁ less₂) (hv : D.VRel v₁ v₂) {x y} (hx : D.V x y) {e n i : Nat} {acc : List Nat} :
    D.P (traceR cfg less₁ v₁ x n e i acc) (traceR cfg less₂ v₂ y n e i acc) Eq := by
  induction n generalizing i acc e with
  | zero => unfold traceR; sim
  | succ n ih => unfold traceR; sim; exact ih

theorem leftIdx_sim {l : Nat} {o : List Nat} : D.P (leftIdx l o) (leftIdx l o) Eq := by
  cases o <;> unfold leftIdx <;> sim

theorem rightIdx_sim {l : Nat} {o : List Nat} : D.P (rightIdx cfg l o) (rightIdx cfg l o) Eq := by
  cases o <;> unfold rightIdx <;> sim

theorem copyIdx_sim (hv : D.VRel v₁ v₂) {i j : Nat} : D.P (copyIdx v₁ i j) (copyIdx v₂ i j) Eq := by
  unfold copyIdx; sim

macro_rules | `(tactic| sim_lemma) => `(tactic| with_reducible first
  | exact traceL_sim ‹_› ‹_› ‹_› | exact traceR_sim ‹_› ‹_› ‹_› | exact leftIdx_sim | exact rightIdx_sim | exact copyIdx_sim ‹_›)

theorem cycleLoop_sim (hv : D.VRel v₁ v₂) {l r n : Nat} {ol or : List Nat} :
    D.P (cycleLoop cfg v₁ l r n ol or) (cycleLoop cfg v₂ l r n ol or) Eq := by
  induction n generalizing ol or with
  | zero => unfold cycleLoop; sim
  | succ n ih => unfold cycleLoop; sim; exact ih

macro_rules | `(tactic| sim_lemma) => `(tactic| with_reducible exact cycleLoop_sim ‹_›)

theorem cycle_sim (hv : D.VRel v₁ v₂) {l r n : Nat} {ol or : List Nat} :
    D.P (cycle cfg v₁ l r n ol or) (cycle cfg v₂ l r n ol or) Eq := by
  unfold cycle; sim

theorem blockSizes_sim {s : BlockSt} : D.P (blockSizes cfg s) (blockSizes cfg s) Eq := by
  unfold blockSizes; sim

macro_rules | `(tactic| sim_lemma) => `(tactic| with_reducible first
  | exact cycle_sim ‹_› | exact blockSizes_sim)

theorem blockStep_sim (hl : D.LessRel less₁ less₂) (hv : D.VRel v₁ v₂) {x y} (hx : D.V x y) {s : BlockSt} :
    D.P (blockStep cfg less₁ v₁ x s) (blockStep cfg less₂ v₂ y s) (SumR Eq Eq) := by
  unfold blockStep; sim

theorem moveRemL_sim (hv : D.VRel v₁ v₂) {l n r : Nat} {ol : List Nat} : D.P (moveRemL cfg v₁ l n ol r) (moveRemL cfg v₂ l n ol r) Eq := by
  induction n generalizing ol r with
  | zero => unfold moveRemL; sim
  | succ n ih => unfold moveRemL; sim; exact ih

theorem moveRemR_sim (hv : D.VRel v₁ v₂) {l n r : Nat} {ol : List Nat} : D.P (moveRemR cfg v₁ r n ol l) (moveRemR cfg v₂ r n ol l) Eq := by
  induction n generalizing ol l with
  | zero => unfold moveRemR; sim
  | succ n ih => unfold moveRemR; sim; exact ih

macro_rules | `(tactic| sim_lemma) => `(tactic| with_reducible first
  | exact blockStep_sim ‹_› ‹_› ‹_› | exact moveRemL_sim ‹_› | exact moveRemR_sim ‹_›)

theorem partitionInBlocks_sim (hl : D.LessRel less₁ less₂) (hv : D.VRel v₁ v₂) {x y} (hx : D.V x y) :
    D.P (partitionInBlocks cfg less₁ v₁ x) (partitionInBlocks cfg less₂ v₂ y) Eq := by
  sim_view hv v₁ v₂
  unfold partitionInBlocks; sim

macro_rules | `(tactic| sim_lemma) => `(tactic| with_reducible exact partitionInBlocks_sim ‹_› ‹_› ‹_›)

theorem partition_sim (hl : D.LessRel less₁ less₂) (hv : D.VRel v₁ v₂) {p : Nat} :
    D.P (partition cfg less₁ v₁ p) (partition cfg less₂ v₂ p) Eq := by
  unfold partition; sim

macro_rules | `(tactic| sim_lemma) => `(tactic| with_reducible exact partition_sim ‹_› ‹_›)

end NdSlice.Sim
