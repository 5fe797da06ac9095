import Verif.Core.Serial
import Verif.Model.Refs

/-
The footprints of the functions of the model on places: the elements of the array, the predecessor and the cell on the stack.
-/

namespace NdSlice

variable {α ι ω β γ δ : Type} {F : Addr → Prop} {v : View} {cfg : Cfg}

/-- The elements of the view are in the footprint. -/
def InF (F : Addr → Prop) (v : View) : Prop := ∀ i, i < v.len → F (v.addr i)

theorem InF.sub (h : InF F v) {a n : Nat} (hn : a + n ≤ v.len) : InF F (v.sub a n) := by
  intro i hi
  have hi : i < n := hi
  have := h (a + i) (by omega)
  unfold View.sub View.addr at *
  push_cast at this
  rw [Int.mul_add, ← Int.add_assoc] at this
  exact this

/-- Only the footprint is touched. -/
def Ins (F : Addr → Prop) (p : Prog α ι ω β) : Prop := Inside p F fun _ => True
/-- The result is a reference to a cell of the footprint. -/
def InsA (F : Addr → Prop) (p : Prog α ι ω Addr) : Prop := Inside p F F
/-- The result is a view of the footprint. -/
def InsV (F : Addr → Prop) (p : Prog α ι ω View) : Prop := Inside p F (InF F)
/-- The result are two views of the footprint. -/
def InsV2 (F : Addr → Prop) (p : Prog α ι ω (View × View)) : Prop := Inside p F fun x => InF F x.1 ∧ InF F x.2

namespace Ins

variable {p : Prog α ι ω β}

theorem bind {f : β → Prog α ι ω γ} (h : Ins F p) (hf : ∀ b, Ins F (f b)) : Ins F (p >>= f) := Inside.bind h fun b _ => hf b
theorem bind2 {p : Prog α ι ω (β × δ)} {f : β × δ → Prog α ι ω γ} (h : Ins F p) (hf : ∀ b d, Ins F (f (b, d))) : Ins F (p >>= f) :=
  bind h fun ⟨b, d⟩ => hf b d
theorem bindA {p : Prog α ι ω Addr} {f : Addr → Prog α ι ω γ} (h : InsA F p) (hf : ∀ b, F b → Ins F (f b)) : Ins F (p >>= f) := Inside.bind h hf
theorem bindV {p : Prog α ι ω View} {f : View → Prog α ι ω γ} (h : InsV F p) (hf : ∀ b, InF F b → Ins F (f b)) : Ins F (p >>= f) := Inside.bind h hf
theorem bindV2 {p : Prog α ι ω (View × View)} {f : View × View → Prog α ι ω γ} (h : InsV2 F p) (hf : ∀ b c, InF F b → InF F c → Ins F (f (b, c))) :
    Ins F (p >>= f) := Inside.bind h fun ⟨b, c⟩ h => hf b c h.1 h.2

theorem pure (b : β) : Ins F (Pure.pure b : Prog α ι ω β) := trivial
theorem throw (e : Panic) : Ins F (.throw e : Prog α ι ω β) := trivial
theorem ub : Ins F (.ub : Prog α ι ω β) := trivial
theorem diverge : Ins F (.diverge : Prog α ι ω β) := trivial

theorem ite {c : Prop} [Decidable c] {q : Prog α ι ω β} (h : c → Ins F p) (h' : ¬ c → Ins F q) : Ins F (if c then p else q) := by
  split
  · exact h ‹_›
  · exact h' ‹_›

theorem onPanic {h : Prog α ι ω Unit} (hp : Ins F p) (hh : Ins F h) : Ins F (p.onPanic h) := Inside.onPanic hp hh

theorem loop {body : β → Prog α ι ω (β ⊕ γ)} (h : ∀ x, Ins F (body x)) {n : Nat} {x : β} : Ins F (Prog.loop body n x) := by
  induction n generalizing x with
  | zero => exact diverge
  | succ n ih =>
    unfold Prog.loop
    refine bind (h x) ?_
    rintro (a | a)
    · exact ih
    · exact pure _

theorem forUp {body : Nat → Prog α ι ω Unit} (h : ∀ i, Ins F (body i)) {i n : Nat} : Ins F (Prog.forUp body i n) := by
  induction n generalizing i with
  | zero => exact pure _
  | succ n ih => unfold Prog.forUp; exact bind (h i) fun _ => ih

theorem forDown {body : Nat → Prog α ι ω Unit} (h : ∀ i, Ins F (body i)) {i n : Nat} : Ins F (Prog.forDown body i n) := by
  induction n with
  | zero => exact pure _
  | succ n ih => unfold Prog.forDown; exact bind (h _) fun _ => ih

theorem deref {a : Addr} (h : F a) : Ins F (NdSlice.deref a : Prog α ι ω α) := ⟨h, fun _ => trivial⟩
theorem store {a : Addr} {x : α} (h : F a) : Ins F (Refs.store a x : Prog α ι ω Unit) := ⟨h, trivial⟩

theorem get (hv : InF F v) {i : Nat} : Ins F (v.get i : Prog α ι ω α) := by
  unfold View.get
  exact ite (fun h => ⟨hv i h, fun _ => trivial⟩) (fun _ => ub)
theorem idx (hv : InF F v) {i : Nat} : Ins F (v.idx i : Prog α ι ω α) := by
  unfold View.idx
  exact ite (fun h => ⟨hv i h, fun _ => trivial⟩) (fun _ => throw _)
theorem set (hv : InF F v) {i : Nat} {x : α} : Ins F (v.set i x : Prog α ι ω Unit) := by
  unfold View.set
  exact ite (fun h => ⟨hv i h, trivial⟩) (fun _ => ub)
theorem cset (hv : InF F v) {i : Nat} {x : α} : Ins F (v.cset i x : Prog α ι ω Unit) := by
  unfold View.cset
  exact ite (fun h => ⟨hv i h, trivial⟩) (fun _ => throw _)
theorem swap (hv : InF F v) {i j : Nat} : Ins F (v.swap i j : Prog α ι ω Unit) :=
  bind (idx hv) fun _ => bind (idx hv) fun _ => bind (set hv) fun _ => set hv
theorem uswap (hv : InF F v) {i j : Nat} : Ins F (v.uswap i j : Prog α ι ω Unit) :=
  bind (get hv) fun _ => bind (get hv) fun _ => bind (set hv) fun _ => set hv
theorem ref (hv : InF F v) {i : Nat} : InsA F (v.ref i : Prog α ι ω Addr) := by
  unfold View.ref InsA
  split
  · exact hv i ‹_›
  · trivial
theorem uref (hv : InF F v) {i : Nat} : InsA F (Refs.uref v i : Prog α ι ω Addr) := by
  unfold Refs.uref InsA
  split
  · exact hv i ‹_›
  · trivial
theorem slice (hv : InF F v) {i j : Nat} : InsV F (v.slice i j : Prog α ι ω View) := by
  unfold View.slice InsV
  dsimp only
  generalize (if j < i then i else j) = k
  split
  · exact hv.sub (by omega)
  · trivial
theorem splitAt (hv : InF F v) {i : Nat} : InsV2 F (v.splitAt i : Prog α ι ω (View × View)) := by
  unfold View.splitAt InsV2
  split
  · exact ⟨hv.sub (by omega), hv.sub (by omega)⟩
  · trivial

theorem apart {a b : Addr} : Ins F (Refs.apart a b : Prog α ι ω Unit) := by
  unfold Refs.apart
  exact ite (fun _ => ub) (fun _ => pure _)

theorem debugAssert {c : Bool} : Ins F (NdSlice.debugAssert cfg c : Prog α ι ω Unit) := by
  unfold NdSlice.debugAssert
  exact ite (fun _ => throw _) (fun _ => pure _)
theorem assertP {c : Bool} : Ins F (NdSlice.assertP c : Prog α ι ω Unit) := by
  unfold NdSlice.assertP
  exact ite (fun _ => pure _) (fun _ => throw _)
theorem usub {i j : Nat} : Ins F (NdSlice.usub cfg i j : Prog α ι ω Nat) := by
  unfold NdSlice.usub
  exact ite (fun _ => pure _) (fun _ => ite (fun _ => throw _) (fun _ => pure _))

theorem callAt {a b : Addr} (ha : F a) (hb : F b) : Ins F (Refs.callAt a b : Prog α (α × α) (α × α × Option Bool) Bool) := by
  refine ⟨ha, fun _ => ⟨hb, fun _ r => ?_⟩⟩
  rcases r with _ | ⟨x, y, r⟩
  · trivial
  · refine ⟨ha, hb, ?_⟩
    rcases r with _ | r <;> trivial

end Ins

/-- The rules for the functions of the model: to be extended. -/
syntax "ins_lemma" : tactic

macro_rules | `(tactic| ins_lemma) => `(tactic| with_reducible first
  | exact Ins.pure _ | exact Ins.ub | exact Ins.diverge | exact Ins.throw _
  | exact Ins.callAt ‹_› ‹_›
  | exact Ins.get ‹_› | exact Ins.idx ‹_› | exact Ins.set ‹_› | exact Ins.cset ‹_› | exact Ins.swap ‹_› | exact Ins.uswap ‹_› | exact Ins.ref ‹_›
  | exact Ins.uref ‹_› | exact Ins.slice ‹_› | exact Ins.splitAt ‹_› | exact Ins.deref ‹_› | exact Ins.store ‹_›
  | exact Ins.apart | exact Ins.debugAssert | exact Ins.assertP | exact Ins.usub)

/-- One step of `ins`. -/
macro "ins1" : tactic => `(tactic| first
  | ins_lemma
  | with_reducible refine Ins.onPanic ?_ ?_
  | with_reducible refine Ins.ite (fun _ => ?_) (fun _ => ?_)
  | with_reducible refine Ins.forUp (fun _ => ?_)
  | with_reducible refine Ins.forDown (fun _ => ?_)
  | with_reducible refine Ins.loop (fun _ => ?_)
  | with_reducible assumption
  | with_reducible refine Ins.bindV2 ?_ (fun _ _ _ _ => ?_)
  | with_reducible refine Ins.bindV ?_ (fun _ _ => ?_)
  | with_reducible refine Ins.bindA ?_ (fun _ _ => ?_)
  | with_reducible refine Ins.bind2 ?_ (fun _ _ => ?_)
  | with_reducible refine Ins.bind ?_ (fun _ => ?_)
  | dsimp only)

/-- Steps as far as possible. -/
macro "ins" : tactic => `(tactic| repeat' ins1)

namespace Inn

variable {t : Addr}

/-! ### Functions which do not call user code -/

theorem revswap {a b : View} (ha : InF F a) (hb : InF F b) {n i k : Nat} : Ins F (NdSlice.revswap cfg a b n i k : Prog α ι ω Unit) := by
  induction k generalizing i with
  | zero => exact Ins.pure _
  | succ k ih => unfold NdSlice.revswap; ins; exact ih

macro_rules | `(tactic| ins_lemma) => `(tactic| with_reducible exact revswap ‹_› ‹_›)

theorem reverse (hv : InF F v) : Ins F (NdSlice.reverse cfg v : Prog α ι ω Unit) := by
  unfold NdSlice.reverse; ins

theorem breakPatternsLoop (hv : InF F v) {m p i s k : Nat} : Ins F (NdSlice.breakPatternsLoop cfg v m p i s k : Prog α ι ω Unit) := by
  induction k generalizing i s with
  | zero => exact Ins.pure _
  | succ k ih => unfold NdSlice.breakPatternsLoop; ins; exact ih

theorem breakPatterns (hv : InF F v) : Ins F (NdSlice.breakPatterns cfg v : Prog α ι ω Unit) := by
  unfold NdSlice.breakPatterns
  exact Ins.ite (fun _ => breakPatternsLoop hv) (fun _ => Ins.pure _)

macro_rules | `(tactic| ins_lemma) => `(tactic| with_reducible first | exact reverse ‹_› | exact breakPatterns ‹_›)

theorem leftIdx {l : Nat} {o : List Nat} : Ins F (NdSlice.leftIdx l o : Prog α ι ω Nat) := by
  unfold NdSlice.leftIdx; split <;> ins
theorem rightIdx {r : Nat} {o : List Nat} : Ins F (NdSlice.rightIdx cfg r o : Prog α ι ω Nat) := by
  unfold NdSlice.rightIdx; split <;> ins
theorem copyIdx (hv : InF F v) {i j : Nat} : Ins F (Refs.copyIdx v i j : Prog α ι ω Unit) := by
  unfold Refs.copyIdx; ins

macro_rules | `(tactic| ins_lemma) => `(tactic| with_reducible first | exact leftIdx | exact rightIdx | exact copyIdx ‹_›)

theorem cycleLoop (hv : InF F v) {l r n : Nat} {ol or : List Nat} : Ins F (Refs.cycleLoop cfg v l r n ol or : Prog α ι ω _) := by
  induction n generalizing ol or with
  | zero => exact Ins.pure _
  | succ n ih => unfold Refs.cycleLoop; ins; exact ih

macro_rules | `(tactic| ins_lemma) => `(tactic| with_reducible exact cycleLoop ‹_›)

theorem cycle (hv : InF F v) {l r n : Nat} {ol or : List Nat} : Ins F (Refs.cycle cfg v l r n ol or : Prog α ι ω _) := by
  unfold Refs.cycle; ins

theorem blockSizes {s : BlockSt} : Ins F (NdSlice.blockSizes cfg s : Prog α ι ω BlockSt) := by
  unfold NdSlice.blockSizes; ins

theorem moveRemL (hv : InF F v) {l n r : Nat} {ol : List Nat} : Ins F (NdSlice.moveRemL cfg v l n ol r : Prog α ι ω Nat) := by
  induction n generalizing ol r with
  | zero => exact Ins.pure _
  | succ n ih => unfold NdSlice.moveRemL; ins; exact ih

theorem moveRemR (hv : InF F v) {r n l : Nat} {or : List Nat} : Ins F (NdSlice.moveRemR cfg v r n or l : Prog α ι ω Nat) := by
  induction n generalizing or l with
  | zero => exact Ins.pure _
  | succ n ih => unfold NdSlice.moveRemR; ins; exact ih

theorem scanUp {test : Nat → Prog α ι ω Bool} (h : ∀ i, Ins F (test i)) {n l : Nat} : Ins F (NdSlice.scanUp test n l) := by
  induction n generalizing l with
  | zero => exact Ins.pure _
  | succ n ih => unfold NdSlice.scanUp; exact Ins.bind (h l) fun _ => Ins.ite (fun _ => ih) (fun _ => Ins.pure _)

theorem scanDown {test : Nat → Prog α ι ω Bool} (h : ∀ i, Ins F (test i)) {n r : Nat} : Ins F (NdSlice.scanDown test n r) := by
  induction n generalizing r with
  | zero => exact Ins.pure _
  | succ n ih => unfold NdSlice.scanDown; exact Ins.bind (h _) fun _ => Ins.ite (fun _ => ih) (fun _ => Ins.pure _)

theorem scanEqual {test : Nat → Prog α ι ω Bool} (h : ∀ i, Ins F (test i)) {n r : Nat} : Ins F (NdSlice.scanEqual cfg test n r) := by
  induction n generalizing r with
  | zero => exact Ins.pure _
  | succ n ih => unfold NdSlice.scanEqual; exact Ins.bind (h _) fun _ => Ins.ite (fun _ => Ins.bind Ins.usub fun _ => ih) (fun _ => Ins.pure _)

macro_rules | `(tactic| ins_lemma) => `(tactic| with_reducible first | exact cycle ‹_› | exact blockSizes | exact moveRemL ‹_› | exact moveRemR ‹_› | refine scanUp (fun _ => ?_) | refine scanDown (fun _ => ?_) | refine scanEqual (fun _ => ?_))

/-! ### Insertion sorts and heap sort -/

theorem holeDrop (hv : InF F v) (ht : F t) {d : Nat} : Ins F (Refs.holeDrop v d t : Prog α ι ω Unit) := by
  unfold Refs.holeDrop; ins

macro_rules | `(tactic| ins_lemma) => `(tactic| with_reducible exact holeDrop ‹_› ‹_›)

theorem insertTailLoop (hv : InF F v) (ht : F t) {h : Nat} : Ins F (Refs.insertTailLoop (α := α) Refs.callAt t v h) := by
  induction h with
  | zero => unfold Refs.insertTailLoop; ins
  | succ h ih => unfold Refs.insertTailLoop; ins

theorem insertHeadLoop (hv : InF F v) (ht : F t) {d n : Nat} : Ins F (Refs.insertHeadLoop (α := α) Refs.callAt t v d n) := by
  induction n generalizing d with
  | zero => unfold Refs.insertHeadLoop; ins
  | succ n ih => unfold Refs.insertHeadLoop; ins; exact ih

macro_rules | `(tactic| ins_lemma) => `(tactic| with_reducible first | exact insertTailLoop ‹_› ‹_› | exact insertHeadLoop ‹_› ‹_›)

theorem insertTail (hv : InF F v) (ht : F t) : Ins F (Refs.insertTail (α := α) cfg Refs.callAt t v) := by
  unfold Refs.insertTail; ins

theorem insertHead (hv : InF F v) (ht : F t) : Ins F (Refs.insertHead (α := α) cfg Refs.callAt t v) := by
  unfold Refs.insertHead; ins

macro_rules | `(tactic| ins_lemma) => `(tactic| with_reducible first | exact insertTail ‹_› ‹_› | exact insertHead ‹_› ‹_›)

theorem insertionSortShiftLeft (hv : InF F v) (ht : F t) {n : Nat} : Ins F (Refs.insertionSortShiftLeft (α := α) cfg Refs.callAt t v n) := by
  unfold Refs.insertionSortShiftLeft; ins

theorem insertionSortShiftRight (hv : InF F v) (ht : F t) {n : Nat} : Ins F (Refs.insertionSortShiftRight (α := α) cfg Refs.callAt t v n) := by
  unfold Refs.insertionSortShiftRight; ins

theorem findOutOfOrder (hv : InF F v) {i n : Nat} : Ins F (Refs.findOutOfOrder (α := α) cfg Refs.callAt v i n) := by
  induction n generalizing i with
  | zero => exact Ins.pure _
  | succ n ih => unfold Refs.findOutOfOrder; ins; exact ih

macro_rules | `(tactic| ins_lemma) => `(tactic| with_reducible first | exact insertionSortShiftLeft ‹_› ‹_› | exact insertionSortShiftRight ‹_› ‹_› | exact findOutOfOrder ‹_›)

theorem partialInsertionSort (hv : InF F v) (ht : F t) : Ins F (Refs.partialInsertionSort (α := α) cfg Refs.callAt t v) := by
  have : ∀ n i, Ins F (Refs.partialInsertionLoop (α := α) cfg Refs.callAt t v n i) := by
    intro n
    induction n with
    | zero => intro i; exact Ins.pure _
    | succ n ih => intro i; unfold Refs.partialInsertionLoop; ins <;> exact ih _
  exact this _ _

theorem siftDown (hv : InF F v) {n : Nat} : Ins F (Refs.siftDown (α := α) Refs.callAt v n) := by
  unfold Refs.siftDown Refs.siftDownStep; ins

macro_rules | `(tactic| ins_lemma) => `(tactic| with_reducible first | exact partialInsertionSort ‹_› ‹_› | exact siftDown ‹_›)

theorem heapSort (hv : InF F v) : Ins F (Refs.heapSort (α := α) Refs.callAt v) := by
  unfold Refs.heapSort; ins

/-! ### Partitioning -/

theorem sort2 (hv : InF F v) {a b s : Nat} : Ins F (Refs.sort2 (α := α) Refs.callAt v a b s) := by
  unfold Refs.sort2; ins

macro_rules | `(tactic| ins_lemma) => `(tactic| with_reducible first | exact heapSort ‹_› | exact sort2 ‹_›)

theorem sort3 (hv : InF F v) {a b c s : Nat} : Ins F (Refs.sort3 (α := α) Refs.callAt v a b c s) := by
  unfold Refs.sort3; ins

macro_rules | `(tactic| ins_lemma) => `(tactic| with_reducible exact sort3 ‹_›)

theorem sortAdjacent (hv : InF F v) {a s : Nat} : Ins F (Refs.sortAdjacent (α := α) cfg Refs.callAt v a s) := by
  unfold Refs.sortAdjacent; ins

macro_rules | `(tactic| ins_lemma) => `(tactic| with_reducible exact sortAdjacent ‹_›)

theorem chooseMedian (hv : InF F v) : Ins F (Refs.chooseMedian (α := α) cfg Refs.callAt v) := by
  unfold Refs.chooseMedian; ins

macro_rules | `(tactic| ins_lemma) => `(tactic| with_reducible exact chooseMedian ‹_›)

theorem choosePivot (hv : InF F v) : Ins F (Refs.choosePivot (α := α) cfg Refs.callAt v) := by
  unfold Refs.choosePivot; ins

theorem partitionEqualStep (hv : InF F v) (ht : F t) {s : Nat × Nat} : Ins F (Refs.partitionEqualStep (α := α) cfg Refs.callAt t v s) := by
  unfold Refs.partitionEqualStep; ins

macro_rules | `(tactic| ins_lemma) => `(tactic| with_reducible first | exact choosePivot ‹_› | exact partitionEqualStep ‹_› ‹_›)

theorem partitionEqual (hv : InF F v) (ht : F t) {p : Nat} : Ins F (Refs.partitionEqual (α := α) cfg Refs.callAt t v p) := by
  unfold Refs.partitionEqual; ins

theorem traceL (hv : InF F v) (ht : F t) {l n i : Nat} {acc : List Nat} : Ins F (Refs.traceL (α := α) Refs.callAt t v l n i acc) := by
  induction n generalizing i acc with
  | zero => exact Ins.pure _
  | succ n ih => unfold Refs.traceL; ins; exact ih

theorem traceR (hv : InF F v) (ht : F t) {n e i : Nat} {acc : List Nat} : Ins F (Refs.traceR (α := α) cfg Refs.callAt t v n e i acc) := by
  induction n generalizing e i acc with
  | zero => exact Ins.pure _
  | succ n ih => unfold Refs.traceR; ins; exact ih

macro_rules | `(tactic| ins_lemma) => `(tactic| with_reducible first | exact partitionEqual ‹_› ‹_› | exact traceL ‹_› ‹_› | exact traceR ‹_› ‹_›)

theorem blockStep (hv : InF F v) (ht : F t) {s : BlockSt} : Ins F (Refs.blockStep (α := α) cfg Refs.callAt t v s) := by
  unfold Refs.blockStep; ins

macro_rules | `(tactic| ins_lemma) => `(tactic| with_reducible exact blockStep ‹_› ‹_›)

theorem partitionInBlocks (hv : InF F v) (ht : F t) : Ins F (Refs.partitionInBlocks (α := α) cfg Refs.callAt t v) := by
  unfold Refs.partitionInBlocks; ins

macro_rules | `(tactic| ins_lemma) => `(tactic| with_reducible exact partitionInBlocks ‹_› ‹_›)

theorem partition (hv : InF F v) (ht : F t) {p : Nat} : Ins F (Refs.partition (α := α) cfg Refs.callAt t v p) := by
  unfold Refs.partition; ins

macro_rules | `(tactic| ins_lemma) => `(tactic| with_reducible exact partition ‹_› ‹_›)

/-! ### Selection -/

/-- The predecessor is in the footprint. -/
def PredF (F : Addr → Prop) (pred : Option Addr) : Prop := ∀ a, pred = some a → F a

theorem predF_none : PredF F none := fun _ h => by cases h
theorem predF_some {a : Addr} (h : F a) : PredF F (some a) := fun _ e => by cases e; exact h

theorem predCheck (hv : InF F v) {pred : Option Addr} (hp : PredF F pred) {p : Nat} : Ins F (Refs.predCheck (α := α) Refs.callAt v p pred) := by
  rcases pred with _ | a
  · exact Ins.pure _
  · have := hp a rfl
    unfold Refs.predCheck; ins

theorem maxLoop (hv : InF F v) {b i n : Nat} : Ins F (Refs.maxLoop (α := α) Refs.callAt v b i n) := by
  induction n generalizing b i with
  | zero => exact Ins.pure _
  | succ n ih => unfold Refs.maxLoop; ins; exact ih

theorem minLoop (hv : InF F v) {b i n : Nat} : Ins F (Refs.minLoop (α := α) Refs.callAt v b i n) := by
  induction n generalizing b i with
  | zero => exact Ins.pure _
  | succ n ih => unfold Refs.minLoop; ins; exact ih

theorem maxIndex (hv : InF F v) : Ins F (Refs.maxIndex (α := α) Refs.callAt v) := by
  unfold Refs.maxIndex
  exact Ins.ite (fun _ => Ins.throw _) (fun _ => maxLoop hv)

theorem minIndex (hv : InF F v) : Ins F (Refs.minIndex (α := α) Refs.callAt v) := by
  unfold Refs.minIndex
  exact Ins.ite (fun _ => Ins.throw _) (fun _ => minLoop hv)

theorem lessAt (hv : InF F v) {i j : Nat} : Ins F (Refs.lessAt (α := α) Refs.callAt v i j) := by
  unfold Refs.lessAt; ins

macro_rules | `(tactic| ins_lemma) => `(tactic| with_reducible first | exact predCheck ‹_› ‹_› | exact maxIndex ‹_› | exact minIndex ‹_› | exact lessAt ‹_›)

theorem medianIdx (hv : InF F v) {a b c : Nat} : Ins F (Refs.medianIdx (α := α) Refs.callAt v a b c) := by
  unfold Refs.medianIdx; ins

theorem nintherEnd (hv : InF F v) {a b c d : Nat} : Ins F (Refs.nintherEnd (α := α) Refs.callAt v a b c d) := by
  unfold Refs.nintherEnd; ins

macro_rules | `(tactic| ins_lemma) => `(tactic| with_reducible first | exact medianIdx ‹_› | exact nintherEnd ‹_›)

theorem ninther (hv : InF F v) {a b c d e f g h i : Nat} : Ins F (Refs.ninther (α := α) Refs.callAt v a b c d e f g h i) := by
  unfold Refs.ninther; ins

macro_rules | `(tactic| ins_lemma) => `(tactic| with_reducible exact ninther ‹_›)

theorem nintherLoop (hv : InF F v) {frac a i b n : Nat} : Ins F (Refs.nintherLoop (α := α) cfg Refs.callAt v frac a i b n) := by
  induction n generalizing a i b with
  | zero => exact Ins.pure _
  | succ n ih => unfold Refs.nintherLoop; ins; exact ih

macro_rules | `(tactic| ins_lemma) => `(tactic| with_reducible exact nintherLoop ‹_›)

variable {rec : View → Nat → Prog α (α × α) (α × α × Option Bool) Unit}

theorem medianOfNinthers (hr : ∀ v k, InF F v → Ins F (rec v k)) (hv : InF F v) (ht : F t) :
    Ins F (Refs.medianOfNinthers cfg Refs.callAt t rec v) := by
  unfold Refs.medianOfNinthers; ins; exact hr _ _ ‹_›

theorem momLoop (hr : ∀ v k, InF F v → Ins F (rec v k)) (ht : F t) {n : Nat} (hv : InF F v) {k : Nat} :
    Ins F (Refs.momLoop cfg Refs.callAt t rec n v k) := by
  induction n generalizing v k with
  | zero => exact Ins.diverge
  | succ n ih =>
    unfold Refs.momLoop
    ins
    · exact medianOfNinthers hr hv ht
    · exact ih ‹_›
    · exact ih ‹_›

theorem medianOfMedians (ht : F t) {d : Nat} (hv : InF F v) {k : Nat} : Ins F (Refs.medianOfMedians (α := α) cfg Refs.callAt t d v k) := by
  induction d generalizing v k with
  | zero => exact Ins.diverge
  | succ d ih =>
    unfold Refs.medianOfMedians
    ins
    exact momLoop (fun _ _ h => ih h) ht hv

macro_rules | `(tactic| ins_lemma) => `(tactic| with_reducible exact medianOfMedians ‹_› ‹_›)

theorem selLoop (ht : F t) {n : Nat} (hv : InF F v) {index : Nat} {pred : Option Addr} (hp : PredF F pred) {limit : Nat} {bal : Bool} :
    Ins F (Refs.selLoop (α := α) cfg Refs.callAt t n v index pred limit bal) := by
  induction n generalizing v index pred limit bal with
  | zero => exact Ins.diverge
  | succ n ih =>
    unfold Refs.selLoop
    ins
    · exact ih ‹_› predF_none
    · exact ih ‹_› (predF_some ‹_›)
    · exact ih ‹_› hp

end Inn
end NdSlice
