import Verif.Proof.Sim

/-
Continuation of `Verif.Proof.Sim`: merge sorts.
-/

namespace NdSlice.Sim

variable {α₁ ι₁ ω₁ σ₁ α₂ ι₂ ω₂ σ₂ : Type} {D : Sim α₁ ι₁ ω₁ σ₁ α₂ ι₂ ω₂ σ₂} {cfg : Cfg}
  {less₁ : α₁ → α₁ → Prog α₁ ι₁ ω₁ Bool} {less₂ : α₂ → α₂ → Prog α₂ ι₂ ω₂ Bool} {v₁ v₂ b₁ b₂ : View}

/-! ### Merge sort -/

theorem mergeHoleDrop_sim (hv : D.VRel v₁ v₂) (hb : D.VRel b₁ b₂) {s f d : Nat} :
    D.P (mergeHoleDrop cfg v₁ b₁ s f d) (mergeHoleDrop cfg v₂ b₂ s f d) Eq := by
  unfold mergeHoleDrop; sim

macro_rules | `(tactic| sim_lemma) => `(tactic| with_reducible exact mergeHoleDrop_sim ‹_› ‹_›)

/-- Ways of reading that do the same. -/
def RdRel (D : Sim α₁ ι₁ ω₁ σ₁ α₂ ι₂ ω₂ σ₂) (rd₁ : View → Nat → Prog α₁ ι₁ ω₁ α₁) (rd₂ : View → Nat → Prog α₂ ι₂ ω₂ α₂) : Prop :=
  ∀ {v₁ v₂ i}, D.VRel v₁ v₂ → D.P (rd₁ v₁ i) (rd₂ v₂ i) D.V

variable {rd₁ : View → Nat → Prog α₁ ι₁ ω₁ α₁} {rd₂ : View → Nat → Prog α₂ ι₂ ω₂ α₂}

theorem pick_sim (hr : D.RdRel rd₁ rd₂) (hv : D.VRel v₁ v₂) (hb : D.VRel b₁ b₂) {i j : Nat} {b : Bool} :
    D.P (pick rd₁ v₁ b₁ i j b) (pick rd₂ v₂ b₂ i j b) D.V := by
  unfold pick; sim
  exact hr hv

macro_rules | `(tactic| sim_lemma) => `(tactic| with_reducible exact pick_sim ‹_› ‹_› ‹_›)

theorem mergeFwdBody_sim (hl : D.LessRel less₁ less₂) (hr : D.RdRel rd₁ rd₂) (hv : D.VRel v₁ v₂) (hb : D.VRel b₁ b₂) {f : Nat} {s : Nat × Nat × Nat} :
    D.P (mergeFwdBody cfg less₁ rd₁ v₁ b₁ f s) (mergeFwdBody cfg less₂ rd₂ v₂ b₂ f s) (SumR Eq Eq) := by
  sim_view hv v₁ v₂
  rcases s with ⟨l, r, o⟩
  unfold mergeFwdBody; sim

theorem mergeBwdBody_sim (hl : D.LessRel less₁ less₂) (hr : D.RdRel rd₁ rd₂) (hv : D.VRel v₁ v₂) (hb : D.VRel b₁ b₂) {s : Nat × Nat × Nat} :
    D.P (mergeBwdBody cfg less₁ rd₁ v₁ b₁ s) (mergeBwdBody cfg less₂ rd₂ v₂ b₂ s) (SumR Eq Eq) := by
  sim_view hv v₁ v₂
  rcases s with ⟨l, r, o⟩
  unfold mergeBwdBody; sim

theorem copyToBuf_sim (hv : D.VRel v₁ v₂) (hb : D.VRel b₁ b₂) {a n : Nat} : D.P (copyToBuf v₁ b₁ a n) (copyToBuf v₂ b₂ a n) Eq := by
  unfold copyToBuf; sim

macro_rules | `(tactic| sim_lemma) => `(tactic| with_reducible first
  | exact mergeFwdBody_sim ‹_› ‹_› ‹_› ‹_› | exact mergeBwdBody_sim ‹_› ‹_› ‹_› ‹_› | exact copyToBuf_sim ‹_› ‹_›)

theorem merge_sim (hl : D.LessRel less₁ less₂) (hr : D.RdRel rd₁ rd₂) (hv : D.VRel v₁ v₂) (hb : D.VRel b₁ b₂) {m : Nat} :
    D.P (merge cfg less₁ rd₁ v₁ m b₁) (merge cfg less₂ rd₂ v₂ m b₂) Eq := by
  sim_view hv v₁ v₂
  unfold merge; sim

theorem streakLoop_sim (hl : D.LessRel less₁ less₂) (hv : D.VRel v₁ v₂) {r : Bool} {e n : Nat} :
    D.P (streakLoop less₁ v₁ r e n) (streakLoop less₂ v₂ r e n) Eq := by
  induction n generalizing e with
  | zero => unfold streakLoop; sim
  | succ n ih => unfold streakLoop; sim; exact ih

macro_rules | `(tactic| sim_lemma) => `(tactic| with_reducible first
  | exact merge_sim ‹_› ‹_› ‹_› ‹_› | exact streakLoop_sim ‹_› ‹_›)

theorem findStreak_sim (hl : D.LessRel less₁ less₂) (hv : D.VRel v₁ v₂) : D.P (findStreak less₁ v₁) (findStreak less₂ v₂) Eq := by
  sim_view hv v₁ v₂
  unfold findStreak; sim

theorem provideSortedBatch_sim (hl : D.LessRel less₁ less₂) (hv : D.VRel v₁ v₂) {s e : Nat} :
    D.P (provideSortedBatch cfg less₁ v₁ s e) (provideSortedBatch cfg less₂ v₂ s e) Eq := by
  sim_view hv v₁ v₂
  unfold provideSortedBatch; sim

macro_rules | `(tactic| sim_lemma) => `(tactic| with_reducible first
  | exact findStreak_sim ‹_› ‹_› | exact provideSortedBatch_sim ‹_› ‹_›)

theorem nextRun_sim (hl : D.LessRel less₁ less₂) (hv : D.VRel v₁ v₂) {s : Nat} :
    D.P (nextRun cfg less₁ v₁ s) (nextRun cfg less₂ v₂ s) Eq := by
  sim_view hv v₁ v₂
  unfold nextRun; sim

macro_rules | `(tactic| sim_lemma) => `(tactic| with_reducible exact nextRun_sim ‹_› ‹_›)

section RunVec

theorem rvDrop_sim {rv : RunVec} : D.P rv.drop rv.drop Eq := by
  unfold RunVec.drop
  cases rv.dropHeap <;> sim

macro_rules | `(tactic| sim_lemma) => `(tactic| with_reducible exact rvDrop_sim)

theorem rvPush_sim {rv : RunVec} {al : Alloc} {r : TimRun} : D.P (rv.push al r) (rv.push al r) Eq := by
  unfold RunVec.push
  sim
  · cases rv.grow with
    | none => sim
    | some rv =>
      dsimp only
      cases rv.write r <;> sim
  · cases rv.write r <;> sim

theorem rvIdx_sim {rv : RunVec} {i : Nat} : D.P (rv.idx i) (rv.idx i) Eq := by
  unfold RunVec.idx
  sim
  cases rv.cell i <;> sim

theorem rvSetIdx_sim {rv : RunVec} {i : Nat} {r : TimRun} : D.P (rv.setIdx i r) (rv.setIdx i r) Eq := by
  unfold RunVec.setIdx
  sim
  cases rv.heap[rv.buf]? <;> sim

theorem rvRemove_sim {rv : RunVec} {i : Nat} : D.P (rv.remove i) (rv.remove i) Eq := by
  unfold RunVec.remove
  sim
  cases rv.heap[rv.buf]? <;> sim

theorem rvAsSlice_sim {rv : RunVec} : D.P rv.asSlice rv.asSlice Eq := by
  unfold RunVec.asSlice
  cases (List.range rv.len).mapM rv.cell <;> sim

macro_rules | `(tactic| sim_lemma) => `(tactic| with_reducible first
  | exact rvPush_sim | exact rvIdx_sim | exact rvSetIdx_sim | exact rvRemove_sim | exact rvAsSlice_sim)

end RunVec

theorem collapseBody_sim (hl : D.LessRel less₁ less₂) (hv : D.VRel v₁ v₂) (hb : D.VRel b₁ b₂) {rv : RunVec} :
    D.P (collapseBody cfg less₁ v₁ b₁ rv) (collapseBody cfg less₂ v₂ b₂ rv) (SumR Eq Eq) := by
  unfold collapseBody
  have hr : D.RdRel View.get View.get := vget
  refine P.bindEq rvAsSlice_sim fun rs => ?_
  rw [hv.len]
  cases collapse rs v₂.len <;> sim

macro_rules | `(tactic| sim_lemma) => `(tactic| with_reducible exact collapseBody_sim ‹_› ‹_› ‹_›)

theorem mergeSort_sim (hl : D.LessRel less₁ less₂) {al : Alloc} (hv : D.VRel v₁ v₂) (hb : D.VRel b₁ b₂) :
    D.P (mergeSort cfg less₁ al v₁ b₁) (mergeSort cfg less₂ al v₂ b₂) Eq := by
  sim_view hv v₁ v₂
  unfold mergeSort mergeSortWatch
  sim
  rename_i s
  rcases s with ⟨s, rv⟩
  unfold mergeSortBody
  sim

macro_rules | `(tactic| sim_lemma) => `(tactic| with_reducible exact mergeSort_sim ‹_› ‹_› ‹_›)

theorem stableSort_sim (hl : D.LessRel less₁ less₂) {al : Alloc} (hv : D.VRel v₁ v₂) (hb : D.VRel b₁ b₂) :
    D.P (stableSort cfg less₁ al v₁ b₁) (stableSort cfg less₂ al v₂ b₂) Eq := by
  unfold stableSort; sim

/-! ### Parallel merge sort -/

theorem parInsertHeadLoop_sim (hl : D.LessRel less₁ less₂) (hv : D.VRel v₁ v₂) {x y} (hx : D.V x y) {d n : Nat} :
    D.P (parInsertHeadLoop less₁ v₁ x d n) (parInsertHeadLoop less₂ v₂ y d n) Eq := by
  induction n generalizing d with
  | zero => unfold parInsertHeadLoop; sim
  | succ n ih => unfold parInsertHeadLoop; sim; exact ih

macro_rules | `(tactic| sim_lemma) => `(tactic| with_reducible exact parInsertHeadLoop_sim ‹_› ‹_› ‹_›)

theorem parInsertHead_sim (hl : D.LessRel less₁ less₂) (hv : D.VRel v₁ v₂) : D.P (parInsertHead less₁ v₁) (parInsertHead less₂ v₂) Eq := by
  sim_view hv v₁ v₂
  unfold parInsertHead; sim

macro_rules | `(tactic| sim_lemma) => `(tactic| with_reducible exact parInsertHead_sim ‹_› ‹_›)

theorem parStreak_sim (hl : D.LessRel less₁ less₂) (hv : D.VRel v₁ v₂) {r : Bool} {s : Nat} : D.P (parStreak less₁ v₁ r s) (parStreak less₂ v₂ r s) Eq := by
  induction s with
  | zero => unfold parStreak; sim
  | succ n ih => unfold parStreak; sim

theorem parExtend_sim (hl : D.LessRel less₁ less₂) (hv : D.VRel v₁ v₂) {e s : Nat} : D.P (parExtend less₁ v₁ e s) (parExtend less₂ v₂ e s) Eq := by
  induction s with
  | zero => unfold parExtend; sim
  | succ n ih => unfold parExtend; sim

macro_rules | `(tactic| sim_lemma) => `(tactic| with_reducible first
  | exact parStreak_sim ‹_› ‹_› | exact parExtend_sim ‹_› ‹_›)

theorem parNextRun_sim (hl : D.LessRel less₁ less₂) (hv : D.VRel v₁ v₂) {e : Nat} : D.P (parNextRun cfg less₁ v₁ e) (parNextRun cfg less₂ v₂ e) Eq := by
  sim_view hv v₁ v₂
  unfold parNextRun; sim

theorem runAt_sim {rs : List TimRun} {i : Nat} : D.P (runAt rs i) (runAt rs i) Eq := by
  unfold runAt
  cases rs[i]? <;> sim

macro_rules | `(tactic| sim_lemma) => `(tactic| with_reducible first
  | exact parNextRun_sim ‹_› ‹_› | exact runAt_sim)

theorem parCollapseBody_sim (hl : D.LessRel less₁ less₂) (hv : D.VRel v₁ v₂) (hb : D.VRel b₁ b₂) {rs : List TimRun} :
    D.P (parCollapseBody cfg less₁ v₁ b₁ rs) (parCollapseBody cfg less₂ v₂ b₂ rs) (SumR Eq Eq) := by
  unfold parCollapseBody
  have hr : D.RdRel View.idx View.idx := vidx
  cases parCollapse rs <;> sim

macro_rules | `(tactic| sim_lemma) => `(tactic| with_reducible exact parCollapseBody_sim ‹_› ‹_› ‹_›)

theorem parMergeSortBody_sim (hl : D.LessRel less₁ less₂) (hv : D.VRel v₁ v₂) (hb : D.VRel b₁ b₂) {s : Nat × List TimRun} :
    D.P (parMergeSortBody cfg less₁ v₁ b₁ s) (parMergeSortBody cfg less₂ v₂ b₂ s) (SumR Eq Eq) := by
  rcases s with ⟨e, rs⟩
  unfold parMergeSortBody
  sim
  rename_i r
  cases r <;> sim

macro_rules | `(tactic| sim_lemma) => `(tactic| with_reducible exact parMergeSortBody_sim ‹_› ‹_› ‹_›)

theorem parMergeSortSeq_sim (hl : D.LessRel less₁ less₂) (hv : D.VRel v₁ v₂) (hb : D.VRel b₁ b₂) :
    D.P (parMergeSortSeq cfg less₁ v₁ b₁) (parMergeSortSeq cfg less₂ v₂ b₂) Eq := by
  sim_view hv v₁ v₂
  unfold parMergeSortSeq
  sim
  rename_i r
  cases r <;> sim

macro_rules | `(tactic| sim_lemma) => `(tactic| with_reducible exact parMergeSortSeq_sim ‹_› ‹_› ‹_›)

variable {w₁ w₂ d₁ d₂ : View}

theorem splitForMerge_sim (hl : D.LessRel less₁ less₂) (hv : D.VRel v₁ v₂) (hw : D.VRel w₁ w₂) :
    D.P (splitForMerge less₁ v₁ w₁) (splitForMerge less₂ v₂ w₂) Eq := by
  sim_view hv v₁ v₂
  sim_view hw w₁ w₂
  unfold splitForMerge
  sim
  · rename_i s
    rcases s with ⟨a, b⟩
    unfold splitRightBody
    sim
  · rename_i s
    rcases s with ⟨a, b⟩
    unfold splitLeftBody
    sim

theorem copyUp_sim (hv : D.VRel v₁ v₂) (hw : D.VRel w₁ w₂) {s d n : Nat} : D.P (copyUp v₁ w₁ s d n) (copyUp v₂ w₂ s d n) Eq := by
  unfold copyUp; sim

macro_rules | `(tactic| sim_lemma) => `(tactic| with_reducible first
  | exact splitForMerge_sim ‹_› ‹_› ‹_› | exact copyUp_sim ‹_› ‹_›)

theorem stateDrop_sim (hv : D.VRel v₁ v₂) (hw : D.VRel w₁ w₂) (hd : D.VRel d₁ d₂) {l r d : Nat} :
    D.P (stateDrop cfg v₁ w₁ d₁ l r d) (stateDrop cfg v₂ w₂ d₂ l r d) Eq := by
  sim_view hv v₁ v₂
  sim_view hw w₁ w₂
  unfold stateDrop; sim

macro_rules | `(tactic| sim_lemma) => `(tactic| with_reducible exact stateDrop_sim ‹_› ‹_› ‹_›)

theorem parMergeBody_sim (hl : D.LessRel less₁ less₂) (hv : D.VRel v₁ v₂) (hw : D.VRel w₁ w₂) (hd : D.VRel d₁ d₂) {s : Nat × Nat × Nat} :
    D.P (parMergeBody cfg less₁ v₁ w₁ d₁ s) (parMergeBody cfg less₂ v₂ w₂ d₂ s) (SumR Eq Eq) := by
  sim_view hv v₁ v₂
  sim_view hw w₁ w₂
  rcases s with ⟨l, r, d⟩
  unfold parMergeBody; sim

macro_rules | `(tactic| sim_lemma) => `(tactic| with_reducible exact parMergeBody_sim ‹_› ‹_› ‹_› ‹_›)

theorem parMerge_sim (hl : D.LessRel less₁ less₂) (hv : D.VRel v₁ v₂) (hw : D.VRel w₁ w₂) (hd : D.VRel d₁ d₂) {n : Nat} :
    D.P (parMerge cfg less₁ n v₁ w₁ d₁) (parMerge cfg less₂ n v₂ w₂ d₂) Eq := by
  induction n generalizing v₁ v₂ w₁ w₂ d₁ d₂ with
  | zero => exact P.diverge
  | succ n ih =>
    sim_view hv v₁ v₂
    sim_view hw w₁ w₂
    unfold parMerge
    refine P.ite (fun _ => ?_) (fun _ => ?_)
    · sim
    · refine P.bind (R := ProdR D.VRel (ProdR D.VRel (ProdR D.VRel D.VRel))) (P.onPanic ?_ (by sim)) ?_
      · sim
        exact ⟨‹_›, ‹_›, ‹_›⟩
      · rintro ⟨ll₁, lr₁, rl₁, rr₁⟩ ⟨ll₂, lr₂, rl₂, rr₂⟩ ⟨h1, h2, h3, h4⟩
        dsimp only at h1 h2 h3 h4 ⊢
        rw [h1.len, h3.len]
        sim
        exact P.mono (P.join (ih ‹_› ‹_› ‹_›) (ih ‹_› ‹_› ‹_›)) fun ⟨_, _⟩ ⟨_, _⟩ _ => rfl

macro_rules | `(tactic| sim_lemma) => `(tactic| with_reducible exact parMerge_sim ‹_› ‹_› ‹_› ‹_›)

theorem chunkAt_sim {cs : List (Nat × Nat)} {i : Nat} : D.P (chunkAt cs i) (chunkAt cs i) Eq := by
  unfold chunkAt
  cases cs[i]? <;> sim

macro_rules | `(tactic| sim_lemma) => `(tactic| with_reducible exact chunkAt_sim)

theorem parRecurse_sim (hl : D.LessRel less₁ less₂) (hv : D.VRel v₁ v₂) (hb : D.VRel b₁ b₂) {k : Nat} {cs : List (Nat × Nat)} {into : Bool} :
    D.P (parRecurse cfg less₁ v₁ b₁ k cs into) (parRecurse cfg less₂ v₂ b₂ k cs into) Eq := by
  induction k generalizing cs into with
  | zero => exact P.diverge
  | succ k ih =>
    sim_view hv v₁ v₂
    sim_view hb b₁ b₂
    unfold parRecurse
    cases into <;> simp only [Bool.false_eq_true, ↓reduceIte]
    · sim
      · exact P.mono (P.join ih ih) fun ⟨_, _⟩ ⟨_, _⟩ _ => rfl
    · sim
      · exact P.mono (P.join ih ih) fun ⟨_, _⟩ ⟨_, _⟩ _ => rfl

macro_rules | `(tactic| sim_lemma) => `(tactic| with_reducible exact parRecurse_sim ‹_› ‹_› ‹_›)

theorem chunkTask_sim (hl : D.LessRel less₁ less₂) (hv : D.VRel v₁ v₂) (hb : D.VRel b₁ b₂) (he : b₂.len = v₂.len) {i : Nat} (hi : 2000 * i ≤ v₂.len) :
    D.P (chunkTask cfg less₁ v₁ b₁ i) (chunkTask cfg less₂ v₂ b₂ i) Eq := by
  unfold chunkTask
  rw [hv.len]
  refine P.bindEq (parMergeSortSeq_sim hl (hv.sub (by omega)) (hb.sub (by omega))) fun r => P.pureEq

theorem chunkTasks_sim (hl : D.LessRel less₁ less₂) (hv : D.VRel v₁ v₂) (hb : D.VRel b₁ b₂) (he : b₂.len = v₂.len) {i n : Nat}
    (hi : 2000 * (i + n) ≤ v₂.len + 2000) :
    D.P (chunkTasks cfg less₁ v₁ b₁ i n) (chunkTasks cfg less₂ v₂ b₂ i n) (fun x y => x = y ∧ x.length = n) := by
  induction n generalizing i with
  | zero => exact P.pure ⟨rfl, rfl⟩
  | succ n ih =>
    unfold chunkTasks
    refine P.bind (P.join (R := Eq) (P.choose fun late => ?_) (ih (by omega))) ?_
    · sim
      exact chunkTask_sim hl hv hb he (by omega)
    · rintro ⟨r, rs⟩ ⟨r', rs'⟩ ⟨h1, h2, h3⟩
      cases h1; cases h2
      exact P.pure ⟨rfl, congrArg (· + 1) h3⟩

theorem lateChunks_sim (hl : D.LessRel less₁ less₂) (hv : D.VRel v₁ v₂) (hb : D.VRel b₁ b₂) (he : b₂.len = v₂.len) {i : Nat}
    {rs : List (Option (Nat × Nat × MergesortResult))} (hi : 2000 * (i + rs.length) ≤ v₂.len + 2000) :
    D.P (lateChunks cfg less₁ v₁ b₁ i rs) (lateChunks cfg less₂ v₂ b₂ i rs) Eq := by
  induction rs generalizing i with
  | nil => exact P.pureEq
  | cons r rs ih =>
    rw [List.length_cons] at hi
    cases r with
    | none =>
      unfold lateChunks
      exact P.bindEq (chunkTask_sim hl hv hb he (by omega)) fun r => P.bindEq (ih (by omega)) fun _ => P.pureEq
    | some r =>
      unfold lateChunks
      exact P.bindEq (ih (by omega)) fun _ => P.pureEq

theorem finishChunk_sim (hv : D.VRel v₁ v₂) {a b : Nat} {r : MergesortResult} : D.P (finishChunk cfg v₁ a b r) (finishChunk cfg v₂ a b r) Eq := by
  unfold finishChunk; sim

theorem canConcat_sim (hl : D.LessRel less₁ less₂) (hv : D.VRel v₁ v₂) {x : Nat} {res r : MergesortResult} :
    D.P (canConcat cfg less₁ v₁ res x r) (canConcat cfg less₂ v₂ res x r) Eq := by
  unfold canConcat; sim

macro_rules | `(tactic| sim_lemma) => `(tactic| with_reducible first | exact finishChunk_sim ‹_› | exact canConcat_sim ‹_› ‹_›)

theorem concatChunks_sim (hl : D.LessRel less₁ less₂) (hv : D.VRel v₁ v₂) {a b : Nat} {r : MergesortResult} {l : List (Nat × Nat × MergesortResult)} :
    D.P (concatChunks cfg less₁ v₁ a b r l) (concatChunks cfg less₂ v₂ a b r l) Eq := by
  induction l generalizing a b r with
  | nil => unfold concatChunks; sim
  | cons x l ih =>
    rcases x with ⟨x, y, z⟩
    unfold concatChunks
    sim <;> exact ih

theorem parMergeSortChunks_sim (hl : D.LessRel less₁ less₂) (hv : D.VRel v₁ v₂) (hb : D.VRel b₁ b₂) (he : b₂.len = v₂.len) :
    D.P (parMergeSortChunks cfg less₁ v₁ b₁) (parMergeSortChunks cfg less₂ v₂ b₂) Eq := by
  unfold parMergeSortChunks
  rw [hv.len]
  refine P.bind (chunkTasks_sim hl hv hb he (i := 0) (by omega)) ?_
  rintro rs _ ⟨rfl, hn⟩
  refine P.bindEq (lateChunks_sim hl hv hb he (by omega)) fun rs => ?_
  rcases rs with _ | ⟨⟨a, b, r⟩, rs⟩
  · exact P.bindEq P.pureEq fun cs => parRecurse_sim hl hv hb
  · exact P.bindEq (concatChunks_sim hl hv) fun cs => parRecurse_sim hl hv hb

theorem parMergeSort_sim (hl : D.LessRel less₁ less₂) (hv : D.VRel v₁ v₂) (hb : D.VRel b₁ b₂) (he : b₂.len = v₂.len) :
    D.P (parMergeSort cfg less₁ v₁ b₁) (parMergeSort cfg less₂ v₂ b₂) Eq := by
  unfold parMergeSort
  rw [hv.len]
  sim
  exact parMergeSortChunks_sim hl hv hb he

end NdSlice.Sim
