import Verif.Proof.Sim

/-
Continuation of `Verif.Proof.Sim`: quick sort and selection.
-/

namespace NdSlice.Sim

variable {α₁ ι₁ ω₁ σ₁ α₂ ι₂ ω₂ σ₂ : Type} {D : Sim α₁ ι₁ ω₁ σ₁ α₂ ι₂ ω₂ σ₂} {cfg : Cfg}
  {less₁ : α₁ → α₁ → Prog α₁ ι₁ ω₁ Bool} {less₂ : α₂ → α₂ → Prog α₂ ι₂ ω₂ Bool} {v₁ v₂ : View}

/-! ### Quick sort -/

/-- Related states of the loop of `recurse`. -/
structure QRel (D : Sim α₁ ι₁ ω₁ σ₁ α₂ ι₂ ω₂ σ₂) (s₁ s₂ : QSt) : Prop where
  v : D.VRel s₁.v s₂.v
  pred : OptR D.A s₁.pred s₂.pred
  limit : s₁.limit = s₂.limit
  bal : s₁.bal = s₂.bal
  part : s₁.part = s₂.part

theorem predCheck_sim (hl : D.LessRel less₁ less₂) (hv : D.VRel v₁ v₂) {p : Nat} {a b : Option Addr} (h : OptR D.A a b) :
    D.P (predCheck less₁ v₁ p a) (predCheck less₂ v₂ p b) Eq := by
  rcases a with _ | a <;> rcases b with _ | b
  · unfold predCheck; sim
  · exact h.elim
  · exact h.elim
  · have h : D.A a b := h
    unfold predCheck; sim

macro_rules | `(tactic| sim_lemma) => `(tactic| with_reducible exact predCheck_sim ‹_› ‹_› ‹_›)

theorem quickDescend_sim {m : Option Nat} {rec₁ : View → Option Addr → Nat → Prog α₁ ι₁ ω₁ Unit} {rec₂ : View → Option Addr → Nat → Prog α₂ ι₂ ω₂ Unit}
    (hr : ∀ {v₁ v₂ p₁ p₂ l}, D.VRel v₁ v₂ → OptR D.A p₁ p₂ → D.P (rec₁ v₁ p₁ l) (rec₂ v₂ p₂ l) Eq) {w₁ w₂ : View} (hv : D.VRel v₁ v₂)
    (hw : D.VRel w₁ w₂) {p₁ p₂ : Option Addr} (hp : OptR D.A p₁ p₂) {a b : Addr} (ha : D.A a b) {l : Nat} {bal was : Bool} :
    D.P (quickDescend m rec₁ v₁ w₁ p₁ a l bal was) (quickDescend m rec₂ v₂ w₂ p₂ b l bal was) (SumR D.QRel Eq) := by
  sim_view hv v₁ v₂
  sim_view hw w₁ w₂
  unfold quickDescend
  have ha' : OptR D.A (some a) (some b) := ha
  sim
  · exact hr hv hp
  · exact ⟨hw, ha, rfl, rfl, rfl⟩
  · exact hr hw ha
  · exact ⟨hv, hp, rfl, rfl, rfl⟩
  · exact P.mono (P.join (hr hv hp) (hr hw ha')) fun ⟨_, _⟩ ⟨_, _⟩ _ => rfl

theorem quickSplit_sim (hl : D.LessRel less₁ less₂) {m : Option Nat} {rec₁ : View → Option Addr → Nat → Prog α₁ ι₁ ω₁ Unit}
    {rec₂ : View → Option Addr → Nat → Prog α₂ ι₂ ω₂ Unit}
    (hr : ∀ {v₁ v₂ p₁ p₂ l}, D.VRel v₁ v₂ → OptR D.A p₁ p₂ → D.P (rec₁ v₁ p₁ l) (rec₂ v₂ p₂ l) Eq) {s₁ s₂ : QSt} (hs : D.QRel s₁ s₂)
    {l p : Nat} : D.P (quickSplit cfg less₁ m rec₁ s₁ l p) (quickSplit cfg less₂ m rec₂ s₂ l p) (SumR D.QRel Eq) := by
  obtain ⟨v₁, pred₁, _, _, _⟩ := s₁
  obtain ⟨v₂, pred₂, _, _, _⟩ := s₂
  obtain ⟨hv, hp, h1, h2, h3⟩ := hs
  cases h1; cases h2; cases h3
  dsimp only at hv hp
  sim_view hv v₁ v₂
  unfold quickSplit; sim
  exact quickDescend_sim hr ‹_› ‹_› ‹_› ‹_›

theorem quickStep_sim (hl : D.LessRel less₁ less₂) {m : Option Nat} {rec₁ : View → Option Addr → Nat → Prog α₁ ι₁ ω₁ Unit}
    {rec₂ : View → Option Addr → Nat → Prog α₂ ι₂ ω₂ Unit}
    (hr : ∀ {v₁ v₂ p₁ p₂ l}, D.VRel v₁ v₂ → OptR D.A p₁ p₂ → D.P (rec₁ v₁ p₁ l) (rec₂ v₂ p₂ l) Eq) {s₁ s₂ : QSt} (hs : D.QRel s₁ s₂) :
    D.P (quickStep cfg less₁ m rec₁ s₁) (quickStep cfg less₂ m rec₂ s₂) (SumR D.QRel Eq) := by
  obtain ⟨v₁, pred₁, _, _, _⟩ := s₁
  obtain ⟨v₂, pred₂, _, _, _⟩ := s₂
  obtain ⟨hv, hp, h1, h2, h3⟩ := hs
  cases h1; cases h2; cases h3
  dsimp only at hv hp
  sim_view hv v₁ v₂
  unfold quickStep; sim
  · refine ⟨?_, hp, rfl, rfl, rfl⟩
    assumption
  · refine quickSplit_sim hl hr ?_
    exact ⟨hv, hp, rfl, rfl, rfl⟩

theorem recurse_sim (hl : D.LessRel less₁ less₂) {m : Option Nat} {d : Nat} (hv : D.VRel v₁ v₂) {p₁ p₂ : Option Addr} (hp : OptR D.A p₁ p₂)
    {l : Nat} : D.P (recurse cfg less₁ m d v₁ p₁ l) (recurse cfg less₂ m d v₂ p₂ l) Eq := by
  induction d generalizing v₁ v₂ p₁ p₂ l with
  | zero => exact P.diverge
  | succ d ih =>
    unfold recurse
    rw [hv.len]
    exact P.loop (R := D.QRel) (fun s₁ s₂ hs => quickStep_sim hl (rec₁ := recurse cfg less₁ m d) (rec₂ := recurse cfg less₂ m d) (fun h h' => ih h h') hs) ⟨hv, hp, rfl, rfl, rfl⟩

theorem quickSort_sim (hl : D.LessRel less₁ less₂) (hv : D.VRel v₁ v₂) : D.P (quickSort cfg less₁ v₁) (quickSort cfg less₂ v₂) Eq := by
  sim_view hv v₁ v₂
  unfold quickSort; sim
  exact recurse_sim hl hv (p₁ := none) (p₂ := none) trivial

theorem parQuickSort_sim (hl : D.LessRel less₁ less₂) (hv : D.VRel v₁ v₂) : D.P (parQuickSort cfg less₁ v₁) (parQuickSort cfg less₂ v₂) Eq := by
  sim_view hv v₁ v₂
  unfold parQuickSort; sim
  exact recurse_sim hl hv (p₁ := none) (p₂ := none) trivial

/-! ### Selection -/

theorem maxLoop_sim (hl : D.LessRel less₁ less₂) (hv : D.VRel v₁ v₂) {b i n : Nat} : D.P (maxLoop less₁ v₁ b i n) (maxLoop less₂ v₂ b i n) Eq := by
  induction n generalizing b i with
  | zero => unfold maxLoop; sim
  | succ n ih => unfold maxLoop; sim; exact ih

theorem minLoop_sim (hl : D.LessRel less₁ less₂) (hv : D.VRel v₁ v₂) {b i n : Nat} : D.P (minLoop less₁ v₁ b i n) (minLoop less₂ v₂ b i n) Eq := by
  induction n generalizing b i with
  | zero => unfold minLoop; sim
  | succ n ih => unfold minLoop; sim; exact ih

macro_rules | `(tactic| sim_lemma) => `(tactic| with_reducible first | exact maxLoop_sim ‹_› ‹_› | exact minLoop_sim ‹_› ‹_›)

theorem maxIndex_sim (hl : D.LessRel less₁ less₂) (hv : D.VRel v₁ v₂) : D.P (maxIndex less₁ v₁) (maxIndex less₂ v₂) Eq := by
  sim_view hv v₁ v₂
  unfold maxIndex; sim

theorem minIndex_sim (hl : D.LessRel less₁ less₂) (hv : D.VRel v₁ v₂) : D.P (minIndex less₁ v₁) (minIndex less₂ v₂) Eq := by
  sim_view hv v₁ v₂
  unfold minIndex; sim

theorem lessAt_sim (hl : D.LessRel less₁ less₂) (hv : D.VRel v₁ v₂) {i j : Nat} : D.P (lessAt less₁ v₁ i j) (lessAt less₂ v₂ i j) Eq := by
  unfold lessAt; sim

macro_rules | `(tactic| sim_lemma) => `(tactic| with_reducible first
  | exact maxIndex_sim ‹_› ‹_› | exact minIndex_sim ‹_› ‹_› | exact lessAt_sim ‹_› ‹_›)

theorem medianIdx_sim (hl : D.LessRel less₁ less₂) (hv : D.VRel v₁ v₂) {a b c : Nat} :
    D.P (medianIdx less₁ v₁ a b c) (medianIdx less₂ v₂ a b c) Eq := by
  unfold medianIdx
  refine P.bindEq (lessAt_sim hl hv) fun s => ?_
  cases s <;> sim

theorem nintherEnd_sim (hl : D.LessRel less₁ less₂) (hv : D.VRel v₁ v₂) {b d e h : Nat} :
    D.P (nintherEnd less₁ v₁ b d e h) (nintherEnd less₂ v₂ b d e h) Eq := by
  unfold nintherEnd; sim

macro_rules | `(tactic| sim_lemma) => `(tactic| with_reducible first
  | exact medianIdx_sim ‹_› ‹_› | exact nintherEnd_sim ‹_› ‹_›)

theorem ninther_sim (hl : D.LessRel less₁ less₂) (hv : D.VRel v₁ v₂) {a b c d e f g h i : Nat} :
    D.P (ninther less₁ v₁ a b c d e f g h i) (ninther less₂ v₂ a b c d e f g h i) Eq := by
  unfold ninther
  refine P.bindEq (medianIdx_sim hl hv) fun b => P.bindEq (medianIdx_sim hl hv) fun h => P.bindEq (lessAt_sim hl hv) fun s => ?_
  cases s
  all_goals
    refine P.bindEq (lessAt_sim hl hv) fun s => ?_
    cases s <;> sim

macro_rules | `(tactic| sim_lemma) => `(tactic| with_reducible exact ninther_sim ‹_› ‹_›)

theorem nintherLoop_sim (hl : D.LessRel less₁ less₂) (hv : D.VRel v₁ v₂) {f a i b n : Nat} :
    D.P (nintherLoop cfg less₁ v₁ f a i b n) (nintherLoop cfg less₂ v₂ f a i b n) Eq := by
  induction n generalizing a i b with
  | zero => unfold nintherLoop; sim
  | succ n ih => unfold nintherLoop; sim; exact ih

macro_rules | `(tactic| sim_lemma) => `(tactic| with_reducible exact nintherLoop_sim ‹_› ‹_›)

theorem medianOfNinthers_sim (hl : D.LessRel less₁ less₂) {rec₁ : View → Nat → Prog α₁ ι₁ ω₁ Unit} {rec₂ : View → Nat → Prog α₂ ι₂ ω₂ Unit}
    (hr : ∀ {v₁ v₂ k}, D.VRel v₁ v₂ → D.P (rec₁ v₁ k) (rec₂ v₂ k) Eq) (hv : D.VRel v₁ v₂) :
    D.P (medianOfNinthers cfg less₁ rec₁ v₁) (medianOfNinthers cfg less₂ rec₂ v₂) Eq := by
  sim_view hv v₁ v₂
  unfold medianOfNinthers; sim
  exact hr ‹_›

theorem momLoop_sim (hl : D.LessRel less₁ less₂) {rec₁ : View → Nat → Prog α₁ ι₁ ω₁ Unit} {rec₂ : View → Nat → Prog α₂ ι₂ ω₂ Unit}
    (hr : ∀ {v₁ v₂ k}, D.VRel v₁ v₂ → D.P (rec₁ v₁ k) (rec₂ v₂ k) Eq) (hv : D.VRel v₁ v₂) {n k : Nat} :
    D.P (momLoop cfg less₁ rec₁ n v₁ k) (momLoop cfg less₂ rec₂ n v₂ k) Eq := by
  induction n generalizing v₁ v₂ k with
  | zero => exact P.diverge
  | succ n ih =>
    sim_view hv v₁ v₂
    unfold momLoop; sim
    · exact medianOfNinthers_sim hl hr hv
    · exact ih ‹_›
    · exact ih ‹_›

theorem medianOfMedians_sim (hl : D.LessRel less₁ less₂) (hv : D.VRel v₁ v₂) {d k : Nat} :
    D.P (medianOfMedians cfg less₁ d v₁ k) (medianOfMedians cfg less₂ d v₂ k) Eq := by
  induction d generalizing v₁ v₂ k with
  | zero => exact P.diverge
  | succ d ih =>
    sim_view hv v₁ v₂
    unfold medianOfMedians; sim
    exact momLoop_sim hl (rec₁ := medianOfMedians cfg less₁ d) (rec₂ := medianOfMedians cfg less₂ d) (fun h => ih h) hv

theorem selPredCheck_sim (hl : D.LessRel less₁ less₂) (hv : D.VRel v₁ v₂) {p : Nat} {a b : Option Addr} (h : OptR D.A a b) :
    D.P (selPredCheck less₁ v₁ p a) (selPredCheck less₂ v₂ p b) Eq := by
  rcases a with _ | a <;> rcases b with _ | b
  · unfold selPredCheck; sim
  · exact h.elim
  · exact h.elim
  · have h : D.A a b := h
    unfold selPredCheck; sim

macro_rules | `(tactic| sim_lemma) => `(tactic| with_reducible first
  | exact medianOfMedians_sim ‹_› ‹_› | exact selPredCheck_sim ‹_› ‹_› ‹_›)

theorem selLoop_sim (hl : D.LessRel less₁ less₂) (hv : D.VRel v₁ v₂) {n k l : Nat} {a b : Option Addr} (h : OptR D.A a b) {bal : Bool} :
    D.P (selLoop cfg less₁ n v₁ k a l bal) (selLoop cfg less₂ n v₂ k b l bal) Eq := by
  induction n generalizing v₁ v₂ k l a b bal with
  | zero => exact P.diverge
  | succ n ih =>
    sim_view hv v₁ v₂
    unfold selLoop; sim
    · exact ih ‹_› (a := none) (b := none) trivial
    · exact ih ‹_› (a := some _) (b := some _) (by assumption)
    · exact ih ‹_› h

theorem partitionAtIndexLoop_sim (hl : D.LessRel less₁ less₂) (hv : D.VRel v₁ v₂) {k : Nat} :
    D.P (partitionAtIndexLoop cfg less₁ v₁ k) (partitionAtIndexLoop cfg less₂ v₂ k) Eq := by
  sim_view hv v₁ v₂
  unfold partitionAtIndexLoop
  exact selLoop_sim hl hv (a := none) (b := none) trivial

macro_rules | `(tactic| sim_lemma) => `(tactic| with_reducible exact partitionAtIndexLoop_sim ‹_› ‹_›)

theorem partitionAtIndex_sim (hl : D.LessRel less₁ less₂) (hv : D.VRel v₁ v₂) {k : Nat} :
    D.P (partitionAtIndex cfg less₁ v₁ k) (partitionAtIndex cfg less₂ v₂ k) (ProdR D.VRel (ProdR D.A D.VRel)) := by
  sim_view hv v₁ v₂
  unfold partitionAtIndex; sim
  exact ⟨‹_›, ‹_›⟩

/-- Lists of positions with related addresses. -/
def RefsR (D : Sim α₁ ι₁ ω₁ σ₁ α₂ ι₂ ω₂ σ₂) : List (Nat × Addr) → List (Nat × Addr) → Prop
  | [], [] => True
  | (i, a) :: l, (j, b) :: m => i = j ∧ D.A a b ∧ RefsR D l m
  | _, _ => False

theorem RefsR.append {l₁ l₂ m₁ m₂ : List (Nat × Addr)} (h : D.RefsR l₁ l₂) (h' : D.RefsR m₁ m₂) : D.RefsR (l₁ ++ m₁) (l₂ ++ m₂) := by
  induction l₁ generalizing l₂ with
  | nil =>
    cases l₂ with
    | nil => exact h'
    | cons => exact h.elim
  | cons x l₁ ih =>
    cases l₂ with
    | nil => exact h.elim
    | cons y l₂ => exact ⟨h.1, h.2.1, ih h.2.2⟩

theorem partitionAtIndices_sim (hl : D.LessRel less₁ less₂) (hv : D.VRel v₁ v₂) {n o : Nat} {is : List Nat} :
    D.P (partitionAtIndices cfg less₁ n v₁ o is) (partitionAtIndices cfg less₂ n v₂ o is) D.RefsR := by
  induction n generalizing v₁ v₂ o is with
  | zero => exact P.diverge
  | succ n ih =>
    unfold partitionAtIndices
    cases is[is.length / 2]? with
    | none => exact P.pure trivial
    | some p =>
      dsimp only
      refine P.bindEq usub fun i => P.bind (partitionAtIndex_sim hl hv) ?_
      rintro ⟨l₁, a₁, r₁⟩ ⟨l₂, a₂, r₂⟩ ⟨h1, h2, h3⟩
      dsimp only at h1 h2 h3
      exact P.bind (ih h1) fun xs₁ xs₂ hx => P.bind (ih h3) fun ys₁ ys₂ hy => P.pure (hx.append ⟨rfl, h2, hy⟩)

theorem selectMany_sim (hl : D.LessRel less₁ less₂) (hv : D.VRel v₁ v₂) {is : List Nat} :
    D.P (selectMany cfg less₁ v₁ is) (selectMany cfg less₂ v₂ is) D.RefsR := partitionAtIndices_sim hl hv

theorem parPartitionAtIndices_sim (hl : D.LessRel less₁ less₂) (hv : D.VRel v₁ v₂) {n o vs vl : Nat} {is : List Nat} :
    D.P (parPartitionAtIndices cfg less₁ n v₁ o is vs vl) (parPartitionAtIndices cfg less₂ n v₂ o is vs vl) D.RefsR := by
  induction n generalizing v₁ v₂ o is vs vl with
  | zero => exact P.diverge
  | succ n ih =>
    unfold parPartitionAtIndices
    cases is[is.length / 2]? with
    | none => exact P.pure trivial
    | some p =>
      dsimp only
      refine P.bindEq usub fun i => P.bind (partitionAtIndex_sim hl hv) ?_
      rintro ⟨l₁, a₁, r₁⟩ ⟨l₂, a₂, r₂⟩ ⟨h1, h2, h3⟩
      dsimp only at h1 h2 h3
      refine P.bindEq assertP fun _ => P.bindEq assertP fun _ => P.bindEq assertP fun _ => P.bindEq usub fun i => P.ite (fun _ => ?_) (fun _ => ?_)
      · exact P.bind (ih h1) fun xs₁ xs₂ hx => P.bind (ih h3) fun ys₁ ys₂ hy => P.pure ⟨rfl, h2, hx.append hy⟩
      · exact P.bind (P.join (ih h1) (ih h3)) fun ⟨_, _⟩ ⟨_, _⟩ hx => P.pure ⟨rfl, h2, hx.1.append hx.2⟩

theorem parSelectMany_sim (hl : D.LessRel less₁ less₂) (hv : D.VRel v₁ v₂) {is : List Nat} {s : Nat} :
    D.P (parSelectMany cfg less₁ v₁ is s) (parSelectMany cfg less₂ v₂ is s) D.RefsR := parPartitionAtIndices_sim hl hv

end NdSlice.Sim
