import Verif.Proof.InPlace

/-
Continuation of `Verif.Proof.InPlace`: quick sort and selection.
-/

namespace NdSlice.In

variable {α ι ω : Type} {X : α → Prop} {ok : ι → Prop} {I : Addr → Prop} {cfg : Cfg} {less : α → α → Prog α ι ω Bool} {v w : View}

/-! ### Quick sort -/

/-- States of the loop of `recurse` with references to initialised cells. -/
structure QIn (I : Addr → Prop) (s : QSt) : Prop where
  v : VIn I s.v
  pred : OptIn I s.pred

theorem predCheck_in (hl : LessIn X ok less) (hv : VIn I v) {p : Nat} {a : Option Addr} (h : OptIn I a) :
    In (ω := ω) X ok I (predCheck less v p a) Any := by
  rcases a with _ | a
  · unfold predCheck; in_all
  · have h : I a := h a rfl
    unfold predCheck; in_all

macro_rules | `(tactic| in_lemma) => `(tactic| with_reducible exact predCheck_in ‹_› ‹_› ‹_›)

theorem quickDescend_in {m : Option Nat} {rec : View → Option Addr → Nat → Prog α ι ω Unit}
    (hr : ∀ {v p l}, VIn I v → OptIn I p → In (ω := ω) X ok I (rec v p l) Any) (hv : VIn I v)
    (hw : VIn I w) {p : Option Addr} (hp : OptIn I p) {a : Addr} (ha : I a) {l : Nat} {bal was : Bool} :
    In (ω := ω) X ok I (quickDescend m rec v w p a l bal was) (fun y => Sum.elim (QIn I) Any y) := by
  unfold quickDescend
  have ha' : OptIn I (some a) := OptIn.some ha
  in_all
  · exact hr hv hp
  · exact pure (b := Sum.inl _) ⟨hw, ha'⟩
  · exact hr hw ha'
  · exact pure (b := Sum.inl _) ⟨hv, hp⟩
  · exact (join (hr hv hp) (hr hw ha')).any
  · exact pure (b := Sum.inr _) trivial

theorem quickSplit_in (hl : LessIn X ok less) {m : Option Nat} {rec : View → Option Addr → Nat → Prog α ι ω Unit}
    (hr : ∀ {v p l}, VIn I v → OptIn I p → In (ω := ω) X ok I (rec v p l) Any) {s : QSt} (hs : QIn I s)
    {l p : Nat} : In (ω := ω) X ok I (quickSplit cfg less m rec s l p) (fun y => Sum.elim (QIn I) Any y) := by
  obtain ⟨v, pred, _, _, _⟩ := s
  obtain ⟨hv, hp⟩ := hs
  dsimp only at hv hp
  unfold quickSplit; in_all
  exact quickDescend_in hr ‹_› ‹_› ‹_› ‹_›

theorem quickStep_in (hl : LessIn X ok less) {m : Option Nat} {rec : View → Option Addr → Nat → Prog α ι ω Unit}
    (hr : ∀ {v p l}, VIn I v → OptIn I p → In (ω := ω) X ok I (rec v p l) Any) {s : QSt} (hs : QIn I s) :
    In (ω := ω) X ok I (quickStep cfg less m rec s) (fun y => Sum.elim (QIn I) Any y) := by
  obtain ⟨v, pred, _, _, _⟩ := s
  obtain ⟨hv, hp⟩ := hs
  dsimp only at hv hp
  unfold quickStep; in_all
  all_goals first
    | exact pure (b := Sum.inr _) trivial
    | exact pure (b := Sum.inl _) ⟨by assumption, hp⟩
    | exact quickSplit_in hl hr ⟨hv, hp⟩

theorem recurse_in (hl : LessIn X ok less) {m : Option Nat} {d : Nat} (hv : VIn I v) {p : Option Addr} (hp : OptIn I p)
    {l : Nat} : In (ω := ω) X ok I (recurse cfg less m d v p l) Any := by
  induction d generalizing v p l with
  | zero => exact diverge
  | succ d ih =>
    unfold recurse
    exact loop (Q := QIn I) (fun s hs => quickStep_in hl (rec := recurse cfg less m d) (fun h h' => ih h h') hs) ⟨hv, hp⟩

theorem quickSort_in (hl : LessIn X ok less) (hv : VIn I v) : In (ω := ω) X ok I (quickSort cfg less v) Any := by
  unfold quickSort; in_all
  exact recurse_in hl hv OptIn.none

theorem parQuickSort_in (hl : LessIn X ok less) (hv : VIn I v) : In (ω := ω) X ok I (parQuickSort cfg less v) Any := by
  unfold parQuickSort; in_all
  exact recurse_in hl hv OptIn.none

/-! ### Selection -/

theorem maxLoop_in (hl : LessIn X ok less) (hv : VIn I v) {b i n : Nat} : In (ω := ω) X ok I (maxLoop less v b i n) Any := by
  induction n generalizing b i with
  | zero => unfold maxLoop; in_all
  | succ n ih => unfold maxLoop; in_all; exact ih

theorem minLoop_in (hl : LessIn X ok less) (hv : VIn I v) {b i n : Nat} : In (ω := ω) X ok I (minLoop less v b i n) Any := by
  induction n generalizing b i with
  | zero => unfold minLoop; in_all
  | succ n ih => unfold minLoop; in_all; exact ih

macro_rules | `(tactic| in_lemma) => `(tactic| with_reducible first | exact maxLoop_in ‹_› ‹_› | exact minLoop_in ‹_› ‹_›)

theorem maxIndex_in (hl : LessIn X ok less) (hv : VIn I v) : In (ω := ω) X ok I (maxIndex less v) Any := by
  unfold maxIndex; in_all

theorem minIndex_in (hl : LessIn X ok less) (hv : VIn I v) : In (ω := ω) X ok I (minIndex less v) Any := by
  unfold minIndex; in_all

theorem lessAt_in (hl : LessIn X ok less) (hv : VIn I v) {i j : Nat} : In (ω := ω) X ok I (lessAt less v i j) Any := by
  unfold lessAt; in_all

macro_rules | `(tactic| in_lemma) => `(tactic| with_reducible first
  | exact maxIndex_in ‹_› ‹_› | exact minIndex_in ‹_› ‹_› | exact lessAt_in ‹_› ‹_›)

theorem medianIdx_in (hl : LessIn X ok less) (hv : VIn I v) {a b c : Nat} :
    In (ω := ω) X ok I (medianIdx less v a b c) Any := by
  unfold medianIdx
  refine bindT (lessAt_in hl hv) fun s => ?_
  cases s <;> in_all

theorem nintherEnd_in (hl : LessIn X ok less) (hv : VIn I v) {b d e h : Nat} :
    In (ω := ω) X ok I (nintherEnd less v b d e h) Any := by
  unfold nintherEnd; in_all

macro_rules | `(tactic| in_lemma) => `(tactic| with_reducible first
  | exact medianIdx_in ‹_› ‹_› | exact nintherEnd_in ‹_› ‹_›)

theorem ninther_in (hl : LessIn X ok less) (hv : VIn I v) {a b c d e f g h i : Nat} :
    In (ω := ω) X ok I (ninther less v a b c d e f g h i) Any := by
  unfold ninther
  refine bindT (medianIdx_in hl hv) fun b => bindT (medianIdx_in hl hv) fun h => bindT (lessAt_in hl hv) fun s => ?_
  cases s
  all_goals
    refine bindT (lessAt_in hl hv) fun s => ?_
    cases s <;> in_all

macro_rules | `(tactic| in_lemma) => `(tactic| with_reducible exact ninther_in ‹_› ‹_›)

theorem nintherLoop_in (hl : LessIn X ok less) (hv : VIn I v) {f a i b n : Nat} :
    In (ω := ω) X ok I (nintherLoop cfg less v f a i b n) Any := by
  induction n generalizing a i b with
  | zero => unfold nintherLoop; in_all
  | succ n ih => unfold nintherLoop; in_all; exact ih

macro_rules | `(tactic| in_lemma) => `(tactic| with_reducible exact nintherLoop_in ‹_› ‹_›)

theorem medianOfNinthers_in (hl : LessIn X ok less) {rec : View → Nat → Prog α ι ω Unit}
    (hr : ∀ {v k}, VIn I v → In (ω := ω) X ok I (rec v k) Any) (hv : VIn I v) :
    In (ω := ω) X ok I (medianOfNinthers cfg less rec v) Any := by
  unfold medianOfNinthers; in_all
  exact hr ‹_›

theorem momLoop_in (hl : LessIn X ok less) {rec : View → Nat → Prog α ι ω Unit}
    (hr : ∀ {v k}, VIn I v → In (ω := ω) X ok I (rec v k) Any) (hv : VIn I v) {n k : Nat} :
    In (ω := ω) X ok I (momLoop cfg less rec n v k) Any := by
  induction n generalizing v k with
  | zero => exact diverge
  | succ n ih =>
    unfold momLoop; in_all
    · exact medianOfNinthers_in hl hr hv
    · exact ih ‹_›
    · exact ih ‹_›

theorem medianOfMedians_in (hl : LessIn X ok less) (hv : VIn I v) {d k : Nat} :
    In (ω := ω) X ok I (medianOfMedians cfg less d v k) Any := by
  induction d generalizing v k with
  | zero => exact diverge
  | succ d ih =>
    unfold medianOfMedians; in_all
    exact momLoop_in hl (rec := medianOfMedians cfg less d) (fun h => ih h) hv

theorem selPredCheck_in (hl : LessIn X ok less) (hv : VIn I v) {p : Nat} {a : Option Addr} (h : OptIn I a) :
    In (ω := ω) X ok I (selPredCheck less v p a) Any := by
  rcases a with _ | a
  · unfold selPredCheck; in_all
  · have h : I a := h a rfl
    unfold selPredCheck; in_all

macro_rules | `(tactic| in_lemma) => `(tactic| with_reducible first
  | exact medianOfMedians_in ‹_› ‹_› | exact selPredCheck_in ‹_› ‹_› ‹_›)

theorem selLoop_in (hl : LessIn X ok less) (hv : VIn I v) {n k l : Nat} {a : Option Addr} (h : OptIn I a) {bal : Bool} :
    In (ω := ω) X ok I (selLoop cfg less n v k a l bal) Any := by
  induction n generalizing v k l a bal with
  | zero => exact diverge
  | succ n ih =>
    unfold selLoop; in_all
    · exact ih ‹_› OptIn.none
    · exact ih ‹_› (OptIn.some ‹_›)
    · exact ih ‹_› h

theorem partitionAtIndexLoop_in (hl : LessIn X ok less) (hv : VIn I v) {k : Nat} :
    In (ω := ω) X ok I (partitionAtIndexLoop cfg less v k) Any := by
  unfold partitionAtIndexLoop
  exact selLoop_in hl hv OptIn.none

macro_rules | `(tactic| in_lemma) => `(tactic| with_reducible exact partitionAtIndexLoop_in ‹_› ‹_›)

theorem partitionAtIndex_in (hl : LessIn X ok less) (hv : VIn I v) {k : Nat} :
    In (ω := ω) X ok I (partitionAtIndex cfg less v k) (fun r => VIn I r.1 ∧ I r.2.1 ∧ VIn I r.2.2) := by
  unfold partitionAtIndex; in_all
  exact pure ⟨‹_›, ‹_›, ‹_›⟩

theorem partitionAtIndices_in (hl : LessIn X ok less) (hv : VIn I v) {n o : Nat} {is : List Nat} :
    In (ω := ω) X ok I (partitionAtIndices cfg less n v o is) Any := by
  induction n generalizing v o is with
  | zero => exact diverge
  | succ n ih =>
    unfold partitionAtIndices
    cases is[is.length / 2]? with
    | none => exact pureT
    | some p =>
      dsimp only
      refine bindT usub fun i => bind (partitionAtIndex_in hl hv) ?_
      rintro ⟨l₁, a₁, r₁⟩ ⟨h1, h2, h3⟩
      exact bindT (ih h1) fun _ => bindT (ih h3) fun _ => pureT

theorem selectMany_in (hl : LessIn X ok less) (hv : VIn I v) {is : List Nat} :
    In (ω := ω) X ok I (selectMany cfg less v is) Any := partitionAtIndices_in hl hv

theorem parPartitionAtIndices_in (hl : LessIn X ok less) (hv : VIn I v) {n o vs vl : Nat} {is : List Nat} :
    In (ω := ω) X ok I (parPartitionAtIndices cfg less n v o is vs vl) Any := by
  induction n generalizing v o is vs vl with
  | zero => exact diverge
  | succ n ih =>
    unfold parPartitionAtIndices
    cases is[is.length / 2]? with
    | none => exact pureT
    | some p =>
      dsimp only
      refine bindT usub fun i => bind (partitionAtIndex_in hl hv) ?_
      rintro ⟨l₁, a₁, r₁⟩ ⟨h1, h2, h3⟩
      refine bindT assertP fun _ => bindT assertP fun _ => bindT assertP fun _ => bindT usub fun i => ite (fun _ => ?_) (fun _ => ?_)
      · exact bindT (ih h1) fun _ => bindT (ih h3) fun _ => pureT
      · exact bindT (join (ih h1) (ih h3)).any fun ⟨_, _⟩ => pureT

theorem parSelectMany_in (hl : LessIn X ok less) (hv : VIn I v) {is : List Nat} {s : Nat} :
    In (ω := ω) X ok I (parSelectMany cfg less v is s) Any := parPartitionAtIndices_in hl hv

end NdSlice.In
