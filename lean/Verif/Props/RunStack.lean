import Verif.Props.Stable

/-
Properties of the stack of runs of the stable sort: C39 and C40.
-/

namespace NdSlice

open Style

variable {α κ σ ι ω : Type} {st : Style} {cfg : Cfg} {v : View}

/-! ### C39 -/

/-- Each run is longer than the next two together (the last but one: longer than the last). -/
def TimStack : List Nat → Prop
  | a :: b :: c :: l => b + c < a ∧ TimStack (b :: c :: l)
  | [a, b] => b < a
  | _ => True

/-- The runs cover `s .. e` without gaps. -/
def Covers (s : Nat) (rs : List TimRun) (e : Nat) : Prop :=
  (∀ i, ∀ h : i < rs.length, rs[i].start = s + ((rs.take i).map TimRun.len).sum) ∧ s + (rs.map TimRun.len).sum = e

/-- What C39 says about the stack of runs after a round of merging: the invariants, no gaps, and a logarithmic height. -/
def StackGood (len : Nat) (rs : List TimRun) : Prop :=
  TimStack (rs.map TimRun.len) ∧ (∃ e, e ≤ len ∧ Covers 0 rs e) ∧ 2 ^ (rs.length / 2) ≤ len / 10 + 1

open Classical in
/-- Is undefined if the stack of runs is not as it should be. -/
noncomputable def watchStack (len : Nat) (rv : RunVec) : Prog α ι ω Unit := do
  let rs ← rv.asSlice
  if StackGood len rs then pure () else .ub

theorem TimInv.timStack {rs : List TimRun} (h : TimInv rs) : TimStack (rs.map TimRun.len) := by
  induction rs with
  | nil => trivial
  | cons a rs ih =>
    match rs, ih, h with
    | [], _, _ => trivial
    | [b], _, h => exact h.1 0 (by simp)
    | b :: c :: rs, ih, h =>
      refine ⟨?_, ih h.tail⟩
      have := h.2 0 (by simp)
      simpa [runLen] using this

theorem Chain.covers {rs : List TimRun} {s e : Nat} (h : Chain s rs e) : Covers s rs e := by
  induction rs generalizing s with
  | nil => exact ⟨fun i h => by simp at h, by simpa [Chain] using h⟩
  | cons r rs ih =>
    obtain ⟨h1, h2, h3⟩ := h
    obtain ⟨g1, g2⟩ := ih h3
    refine ⟨fun i hi => ?_, ?_⟩
    · cases i with
      | zero => simpa using h1
      | succ i =>
        have := g1 i (by simpa using hi)
        simp only [List.getElem_cons_succ, List.take_succ_cons, List.map_cons, List.sum_cons]
        omega
    · simp only [List.map_cons, List.sum_cons]; omega

theorem two_pow_le_fib (h : Nat) : 2 ^ (h / 2) ≤ Nat.fib (h + 2) := by
  induction h using Nat.strong_induction_on with
  | _ h ih =>
    match h with
    | 0 => decide
    | 1 => decide
    | h + 2 =>
      have := ih h (by omega)
      rw [show (h + 2) / 2 = h / 2 + 1 by omega, Nat.pow_succ]
      have h1 : Nat.fib (h + 2 + 2) = Nat.fib (h + 2) + Nat.fib (h + 2 + 1) := Nat.fib_add_two
      have h2 : Nat.fib (h + 2) ≤ Nat.fib (h + 2 + 1) := Nat.fib_mono (by omega)
      omega

theorem watchStack_pure {rv : RunVec} {rs : List TimRun} {e len : Nat} (h : rv.Holds rs) (ht : TimInv rs) (hc : Chain 0 rs e)
    (he : e ≤ len) (hh : 10 * (Nat.fib (rs.length + 2) - 1) ≤ len) : (watchStack len rv : Prog α ι ω Unit) = pure () := by
  unfold watchStack
  rw [h.asSlice]
  show (@ite _ (StackGood len rs) (Classical.propDecidable _) (pure ()) Prog.ub) = _
  have h2 := two_pow_le_fib rs.length
  exact if_pos ⟨ht.timStack, ⟨e, he, hc.covers⟩, by omega⟩

/-- C39: if the stack of runs is inspected after each round of merging, and it is undefined behaviour if the TimSort
invariants do not hold all the way down, if the runs do not cover the part of the array seen so far, or if the height `h` is
more than logarithmic (`2 ^ (h / 2) > len / 10 + 1`), then there is still no undefined behaviour, whatever the comparator
answers; and in a debug build, where the stable sort itself checks at the end that there is just one run which covers the
whole array, this check never fails. -/
theorem run_stack_invariant (o : Oracle σ (st.Q α κ) (st.A κ)) (hz : cfg.zst = false)
    (hv : v.WF) {al : Alloc} (hal : al.Succeeds) {heap : Addr}
    (hf : Fresh v (scratch heap (v.len / 2))) (s : St α (st.Q α κ) (st.A κ) σ) :
    Ends o (mergeSortWatch cfg st.less (watchStack v.len) al v (scratch heap (v.len / 2))) s
      (fun _ m => (v.contents m).Perm (v.contents s.mem))
      (fun e m => e = .user ∧ (v.contents m).Perm (v.contents s.mem)) :=
  (TriS.ends (rel_sat o) hv scratch_wf hf
    (mergeSortWatch_spec (C := st.toCmp (rel o)) (cfg := cfg) (v := v) (hal.grows _) hz (v.contents_length s.mem) (Nat.le_refl _)
      (fun _ _ _ => watchStack_pure))).mono
      (fun _ _ h => h.1.1)
      (fun e m h => by
        rcases h.1 with h' | ⟨-, -, h' | h', -⟩
        · exact ⟨h'.1, h'.2.2⟩
        · rw [hal.1] at h'; cases h'
        · rw [hal.2] at h'; cases h')

/-! ### C40 -/

/-- What can be done to a stack of runs. -/
inductive RunOp where
  | push (r : TimRun)
  | remove (i : Nat)
  | put (i : Nat) (r : TimRun)

/-- A history of operations.  A panic (an index out of range) drops the stack. -/
def RunVec.history (al : Alloc) : List RunOp → RunVec → Prog α ι ω RunVec
  | [], rv => pure rv
  | .push r :: ops, rv => do
    let rv ← rv.push al r
    history al ops rv
  | .remove i :: ops, rv => do
    let rv ← (rv.remove i).onPanic rv.drop
    history al ops rv
  | .put i r :: ops, rv => do
    let rv ← (rv.setIdx i r).onPanic rv.drop
    history al ops rv

/-- What the history means for a list; `none`: an index is out of range. -/
def histSpec : List RunOp → List TimRun → Option (List TimRun)
  | [], rs => some rs
  | .push r :: ops, rs => histSpec ops (rs ++ [r])
  | .remove i :: ops, rs => if i < rs.length then histSpec ops (rs.eraseIdx i) else none
  | .put i r :: ops, rs => if i < rs.length then histSpec ops (rs.set i r) else none

/-- Every allocation has been freed. -/
def AllFreed (heap : List Block) : Prop := ∀ b ∈ heap, b.live = false

theorem RunVec.history_spec {al : Alloc} (hal : ∀ c, 32 ≤ c → al.run c = true) (ops : List RunOp) {rv : RunVec} {rs : List TimRun} (h : rv.Holds rs) :
    match histSpec ops rs with
    | some rs' => ∃ rv', (rv.history al ops : Prog α ι ω RunVec) = pure rv' ∧ rv'.Holds rs'
    | none => (rv.history al ops : Prog α ι ω RunVec) = .throw .check := by
  induction ops generalizing rv rs with
  | nil => exact ⟨rv, rfl, h⟩
  | cons op ops ih =>
    cases op with
    | push r =>
      obtain ⟨rv1, e1, h1⟩ := h.push (α := α) (ι := ι) (ω := ω) (al := al) (.inr (hal _ (by have := h.cap_le; omega))) r
      simp only [histSpec, history, e1]
      exact ih h1
    | remove i =>
      simp only [histSpec, history]
      by_cases hi : i < rs.length
      · obtain ⟨rv1, e1, h1⟩ := h.remove (α := α) (ι := ι) (ω := ω) hi
        simp only [hi, if_true, e1]
        exact ih h1
      · simp only [hi, if_false]
        have : (rv.remove i : Prog α ι ω RunVec) = .throw .check := by
          rw [h.len] at hi
          simp [RunVec.remove, Nat.not_lt.mp hi]
        rw [this, h.drop]
        rfl
    | put i r =>
      simp only [histSpec, history]
      by_cases hi : i < rs.length
      · obtain ⟨rv1, e1, h1⟩ := h.setIdx (α := α) (ι := ι) (ω := ω) hi r
        simp only [hi, if_true, e1]
        exact ih h1
      · simp only [hi, if_false]
        have : (rv.setIdx i r : Prog α ι ω RunVec) = .throw .check := by
          rw [h.len] at hi
          simp [RunVec.setIdx, hi]
        rw [this, h.drop]
        rfl

/-- C40 as far as it holds: for any history of operations on a new stack of runs, if the allocator does not fail to give more memory
(`run_stack_alloc_failure`: what happens otherwise), there is no undefined behaviour; a panic only happens for an index
out of range; the contents are what they would be for a list; and when the stack is dropped in the end, this frees the last
allocation, with the layout it was allocated with, all others having been freed before (a second time, or another layout, is
undefined behaviour). -/
theorem run_stack_memory_partial {al : Alloc} (hal : ∀ c, 32 ≤ c → al.run c = true) (ops : List RunOp) :
    match histSpec ops [] with
    | some rs => ∃ rv, (RunVec.new.history al ops : Prog α ι ω RunVec) = pure rv ∧ (rv.asSlice : Prog α ι ω _) = pure rs ∧
        ∃ heap, rv.dropHeap = some heap ∧ AllFreed heap
    | none => (RunVec.new.history al ops : Prog α ι ω RunVec) = .throw .check := by
  have h := RunVec.history_spec (α := α) (ι := ι) (ω := ω) hal ops RunVec.new_holds
  split at h
  · obtain ⟨rv, h1, h2⟩ := h
    refine ⟨rv, h1, h2.asSlice, ?_⟩
    obtain ⟨cells, b1, b2, b3⟩ := h2.block
    refine ⟨rv.heap.set rv.buf ⟨rv.cap, false, cells⟩, by simp [RunVec.dropHeap, RunVec.dealloc, b1], ?_⟩
    intro b hb
    obtain ⟨i, hi⟩ := List.mem_iff_getElem?.mp hb
    by_cases hib : rv.buf = i
    · subst hib
      rw [List.getElem?_set_self (RunVec.lt_of_get b1)] at hi
      rw [← Option.some.inj hi]
    · rw [List.getElem?_set_ne hib] at hi
      exact h2.freed i b hi (Ne.symm hib)
  · exact h

/-- C40 does not hold in full: if the allocator fails to give more memory at the seventeenth `push`, the panic drops the stack of
runs with its old allocation and the capacity already doubled: it is freed with a layout it was not allocated with. -/
theorem run_stack_alloc_failure :
    (RunVec.new.history ⟨true, fun c => c == 16⟩ (List.replicate 17 (.push ⟨1, 0⟩)) : Prog Nat Unit Unit RunVec) = .ub := rfl

/-! ### The hypotheses can be met -/

example (st : Style) := run_stack_invariant (st := st) (cfg := Sample.cfg) (Sample.nonsense st) rfl Sample.wf
  Sample.alloc_succeeds (Sample.fresh (n := 30)) (Sample.nstate st)

example := run_stack_memory_partial (α := Nat) (ι := Unit) (ω := Unit) (al := Sample.alloc) (fun _ _ => rfl)
  (List.replicate 40 (.push ⟨3, 5⟩) ++ [.remove 20, .put 7 ⟨8, 2⟩])

example : (histSpec (List.replicate 40 (.push ⟨3, 5⟩) ++ [.remove 20, .put 7 ⟨8, 2⟩]) []).isSome = true := rfl
example : histSpec [.push ⟨3, 5⟩, .remove 1] [] = none := rfl

end NdSlice
