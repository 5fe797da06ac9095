import Verif.Model.Merge
import Mathlib.Data.List.Basic
import Mathlib.Data.List.TakeDrop
import Mathlib.Data.Nat.Fib.Basic

/-
The stack of runs of /repo/src/merge_sort.rs: `RunVec` and `collapse`.
-/

namespace NdSlice

variable {α ι ω : Type}

namespace RunVec

/-- The `RunVec` is in order and holds the runs `rs`: its pointer is a live allocation of the recorded capacity, the first
`len` cells are `rs`, and all other allocations have been freed. -/
structure Holds (rv : RunVec) (rs : List TimRun) : Prop where
  block : ∃ cells, rv.heap[rv.buf]? = some ⟨rv.cap, true, cells⟩ ∧ cells.length = rv.cap ∧ cells.take rv.len = rs.map some
  len : rs.length = rv.len
  fits : rv.len ≤ rv.cap
  cap : ∃ i, rv.cap = 16 * 2 ^ i
  freed : ∀ i b, rv.heap[i]? = some b → i ≠ rv.buf → b.live = false

variable {rv : RunVec} {rs : List TimRun}

theorem new_holds : Holds new [] where
  block := ⟨List.replicate 16 none, rfl, rfl, rfl⟩
  len := rfl
  fits := by decide
  cap := ⟨0, rfl⟩
  freed := by
    intro i b hb hi
    cases i with
    | zero => exact absurd rfl hi
    | succ i => simp [new] at hb

theorem Holds.cap_le (h : rv.Holds rs) : 16 ≤ rv.cap := by
  obtain ⟨i, hi⟩ := h.cap
  have := Nat.two_pow_pos i
  omega

theorem Holds.cell (h : rv.Holds rs) {i : Nat} {r : TimRun} (hr : rs[i]? = some r) : rv.cell i = some r := by
  obtain ⟨cells, h1, h2, h3⟩ := h.block
  have hi : i < rv.len := by
    rw [← h.len]; exact (List.getElem?_eq_some_iff.mp hr).1
  have : cells[i]? = some (some r) := by
    rw [← List.getElem?_take_of_lt (j := rv.len) hi, h3, List.getElem?_map, hr]; rfl
  simp [RunVec.cell, h1, this]

theorem Holds.idx (h : rv.Holds rs) {i : Nat} {r : TimRun} (hr : rs[i]? = some r) :
    (rv.idx i : Prog α ι ω TimRun) = pure r := by
  have hi : i < rv.len := by
    rw [← h.len]; exact (List.getElem?_eq_some_iff.mp hr).1
  simp [RunVec.idx, hi, h.cell hr]

theorem Holds.asSlice (h : rv.Holds rs) : (rv.asSlice : Prog α ι ω (List TimRun)) = pure rs := by
  have : (List.range rv.len).mapM rv.cell = some rs := by
    rw [← h.len]
    have hc : ∀ i r, rs[i]? = some r → rv.cell i = some r := fun i r hr => h.cell hr
    clear h
    have gen : ∀ (rs : List TimRun) (k : Nat), (∀ i r, rs[i]? = some r → rv.cell (k + i) = some r) →
        (List.range' k rs.length).mapM rv.cell = some rs := by
      intro rs
      induction rs with
      | nil => intro k _; rfl
      | cons r rs ih =>
        intro k hc
        rw [List.length_cons, List.range'_succ, List.mapM_cons, show rv.cell k = some r from hc 0 r rfl,
          ih (k + 1) (fun i r' hr => by have := hc (i + 1) r' (by simpa using hr); rwa [show k + 1 + i = k + (i + 1) by omega])]
        rfl
    rw [List.range_eq_range']
    exact gen rs 0 (by simpa using hc)
  simp [RunVec.asSlice, this]

theorem Holds.drop (h : rv.Holds rs) : (rv.drop : Prog α ι ω Unit) = pure () := by
  obtain ⟨cells, h1, h2, h3⟩ := h.block
  simp [RunVec.drop, dropHeap, dealloc, h1]

theorem lt_of_get {β : Type} {xs : List β} {i : Nat} {x : β} (h : xs[i]? = some x) : i < xs.length :=
  (List.getElem?_eq_some_iff.mp h).1

theorem Holds.write (h : rv.Holds rs) (hl : rv.len < rv.cap) (r : TimRun) :
    ∃ rv', rv.write r = some rv' ∧ rv'.Holds (rs ++ [r]) := by
  obtain ⟨cells, h1, h2, h3⟩ := h.block
  refine ⟨_, by simp [RunVec.write, h1, hl]; rfl, ?_⟩
  have hb := lt_of_get h1
  constructor
  · refine ⟨cells.set rv.len (some r), by simp [hb], by simpa using h2, ?_⟩
    rw [List.take_add_one, List.take_set_of_le (Nat.le_refl _), h3, List.getElem?_set_self (by omega)]
    simp
  · simp [h.len]
  · exact hl
  · exact h.cap
  · intro i b hi hne
    rw [List.getElem?_set_ne (Ne.symm hne)] at hi
    exact h.freed i b hi hne

theorem Holds.grow (h : rv.Holds rs) : ∃ rv', rv.grow = some rv' ∧ rv'.Holds rs ∧ rv'.cap = rv.cap * 2 ∧ rv'.len = rv.len := by
  obtain ⟨cells, h1, h2, h3⟩ := h.block
  have hb := lt_of_get h1
  refine ⟨⟨(rv.heap ++ [(⟨rv.cap * 2, true, cells.take rv.cap ++ List.replicate rv.cap none⟩ : Block)]).set rv.buf ⟨rv.cap, false, cells⟩,
    rv.heap.length, rv.cap * 2, rv.len⟩, ?_, ?_, rfl, rfl⟩
  · simp [RunVec.grow, h1, dealloc, List.getElem?_append_left hb]
  · constructor
    · refine ⟨cells.take rv.cap ++ List.replicate rv.cap none, ?_, by simp [h2]; omega, ?_⟩
      · show (List.set _ _ _)[rv.heap.length]? = _
        rw [List.getElem?_set_ne (by omega)]; simp
      · show List.take rv.len _ = _
        rw [List.take_append_of_le_length (by have := h.fits; simp; omega), List.take_take, Nat.min_eq_left h.fits, h3]
    · exact h.len
    · have := h.fits; show rv.len ≤ rv.cap * 2; omega
    · obtain ⟨i, hi⟩ := h.cap
      exact ⟨i + 1, by show rv.cap * 2 = _; rw [hi, Nat.mul_assoc, ← Nat.pow_succ]⟩
    · intro i b hi hne
      simp only at hi hne
      by_cases hib : rv.buf = i
      · subst hib
        rw [List.getElem?_set_self (by simp; omega)] at hi
        rw [← Option.some.inj hi]
      · rw [List.getElem?_set_ne hib] at hi
        have hlt := lt_of_get hi
        simp at hlt
        rw [List.getElem?_append_left (by omega)] at hi
        exact h.freed i b hi (Ne.symm hib)

theorem Holds.push (h : rv.Holds rs) {al : Alloc} (hal : rv.len < rv.cap ∨ al.run (rv.cap * 2) = true) (r : TimRun) :
    ∃ rv', (rv.push al r : Prog α ι ω RunVec) = pure rv' ∧ rv'.Holds (rs ++ [r]) := by
  by_cases hl : rv.len = rv.cap
  · have ha : al.run (rv.cap * 2) = true := by
      rcases hal with h | h
      · omega
      · exact h
    obtain ⟨rv1, g1, g2, g3, g4⟩ := h.grow
    obtain ⟨rv2, w1, w2⟩ := g2.write (by have := h.cap_le; omega) r
    exact ⟨rv2, by simp [RunVec.push, hl, ha, g1, w1], w2⟩
  · obtain ⟨rv2, w1, w2⟩ := h.write (by have := h.fits; omega) r
    exact ⟨rv2, by simp [RunVec.push, hl, w1], w2⟩

theorem Holds.setIdx (h : rv.Holds rs) {i : Nat} (hi : i < rs.length) (r : TimRun) :
    ∃ rv', (rv.setIdx i r : Prog α ι ω RunVec) = pure rv' ∧ rv'.Holds (rs.set i r) := by
  obtain ⟨cells, h1, h2, h3⟩ := h.block
  have hb := lt_of_get h1
  have hil : i < rv.len := by rw [← h.len]; exact hi
  have hic : i < rv.cap := by have := h.fits; omega
  refine ⟨_, by simp [RunVec.setIdx, h1, hil, hic]; rfl, ?_⟩
  constructor
  · refine ⟨cells.set i (some r), by simp [hb], by simpa using h2, ?_⟩
    rw [List.take_set, h3, List.map_set]
  · simp [h.len]
  · exact h.fits
  · exact h.cap
  · intro j b hj hne
    rw [List.getElem?_set_ne (Ne.symm hne)] at hj
    exact h.freed j b hj hne

theorem Holds.remove (h : rv.Holds rs) {i : Nat} (hi : i < rs.length) :
    ∃ rv', (rv.remove i : Prog α ι ω RunVec) = pure rv' ∧ rv'.Holds (rs.eraseIdx i) := by
  obtain ⟨cells, h1, h2, h3⟩ := h.block
  have hb := lt_of_get h1
  have hil : i < rv.len := by rw [← h.len]; exact hi
  have hf := h.fits
  refine ⟨_, by simp [RunVec.remove, h1, Nat.not_le.mpr hil, hf]; rfl, ?_⟩
  constructor
  · refine ⟨cells.take i ++ (cells.drop (i + 1)).take (rv.len - i - 1) ++ cells.drop (rv.len - 1), by simp [hb],
      by simp; omega, ?_⟩
    show List.take (rv.len - 1) _ = _
    rw [List.take_left' (by simp; omega), List.eraseIdx_eq_take_drop_succ, List.map_append, List.map_take, List.map_drop, ← h3,
      List.take_take, Nat.min_eq_left (by omega), List.drop_take, Nat.sub_sub]
  · rw [List.length_eraseIdx_of_lt hi, h.len]
  · show rv.len - 1 ≤ rv.cap; omega
  · exact h.cap
  · intro j b hj hne
    rw [List.getElem?_set_ne (Ne.symm hne)] at hj
    exact h.freed j b hj hne

end RunVec

/-! ### `collapse` -/

theorem collapse_lt {rs : List TimRun} {stop r : Nat} (h : collapse rs stop = some r) : r + 1 < rs.length ∧ rs.length ≤ r + 3 := by
  unfold collapse at h
  simp only at h
  split at h
  · rename_i hc
    rw [Bool.and_eq_true] at hc
    have hn : rs.length ≥ 2 := of_decide_eq_true hc.1
    split at h
    · rename_i h3
      rw [Bool.and_eq_true] at h3
      have : rs.length ≥ 3 := of_decide_eq_true h3.1
      have := Option.some.inj h
      omega
    · have := Option.some.inj h
      omega
  · cases h

/-- The two invariants of TimSort, all the way down the stack. -/
def TimInv (rs : List TimRun) : Prop :=
  (∀ i, i + 1 < rs.length → runLen rs (i + 1) < runLen rs i) ∧
  (∀ i, i + 2 < rs.length → runLen rs (i + 1) + runLen rs (i + 2) < runLen rs i)

/-- What is left of them in between: the second invariant, except for the triples with one of the top two runs. -/
def WeakInv (rs : List TimRun) : Prop :=
  ∀ i, i + 4 < rs.length → runLen rs (i + 1) + runLen rs (i + 2) < runLen rs i

theorem TimInv.nil : TimInv [] := ⟨by simp, by simp⟩

theorem runLen_append {rs : List TimRun} {t : List TimRun} {i : Nat} (h : i < rs.length) : runLen (rs ++ t) i = runLen rs i := by
  unfold runLen; rw [List.getElem?_append_left h]

theorem TimInv.push {rs : List TimRun} (h : TimInv rs) (r : TimRun) : WeakInv (rs ++ [r]) := by
  intro i hi
  simp only [List.length_append, List.length_singleton] at hi
  rw [runLen_append (by omega), runLen_append (by omega), runLen_append (by omega)]
  exact h.2 i (by omega)

theorem WeakInv.merge {pre post : List TimRun} {a b c : TimRun} (h : WeakInv (pre ++ a :: b :: post)) (hp : post.length ≤ 1) :
    WeakInv (pre ++ c :: post) := by
  intro i hi
  have := h i (by simp at hi ⊢; omega)
  simp at hi
  rw [runLen_append (by omega), runLen_append (by omega), runLen_append (by omega)] at this ⊢
  exact this

theorem collapse_none {rs : List TimRun} {stop : Nat} (h : collapse rs stop = none) (hw : WeakInv rs) (hpos : ∀ r ∈ rs, 0 < r.len) :
    TimInv rs ∧ (rs.length ≤ 1 ∨ runStart rs (rs.length - 1) + runLen rs (rs.length - 1) ≠ stop) := by
  have hpos' : ∀ i, i < rs.length → 0 < runLen rs i := by
    intro i hi
    unfold runLen
    rw [List.getElem?_eq_getElem hi]
    exact hpos _ (List.getElem_mem hi)
  by_cases hn : rs.length ≤ 1
  · exact ⟨⟨fun i hi => by omega, fun i hi => by omega⟩, .inl hn⟩
  unfold collapse at h
  simp only at h
  split at h
  · split at h <;> cases h
  rename_i hc
  have hn2 : rs.length ≥ 2 := by omega
  simp only [hn2, decide_true, Bool.true_and, Bool.or_eq_true, not_or, Bool.and_eq_true, not_and, decide_eq_true_eq, beq_iff_eq] at hc
  obtain ⟨⟨⟨c1, c2⟩, c3⟩, c4⟩ := hc
  have key : ∀ i, i + 2 < rs.length → runLen rs (i + 1) + runLen rs (i + 2) < runLen rs i := by
    intro i hi
    rcases Nat.lt_or_ge (i + 4) rs.length with h4 | h4
    · exact hw i h4
    · rcases Nat.lt_or_ge (i + 3) rs.length with h3 | h3
      · have := c4 (by omega)
        rw [show rs.length - 4 = i by omega, show rs.length - 3 = i + 1 by omega, show rs.length - 2 = i + 2 by omega] at this
        omega
      · have := c3 (by omega)
        rw [show rs.length - 3 = i by omega, show rs.length - 2 = i + 1 by omega, show rs.length - 1 = i + 2 by omega] at this
        omega
  refine ⟨⟨fun i hi => ?_, key⟩, .inr c1⟩
  rcases Nat.lt_or_ge (i + 2) rs.length with h2 | h2
  · have := key i h2
    have := hpos' (i + 2) h2
    omega
  · rw [show rs.length - 2 = i by omega, show rs.length - 1 = i + 1 by omega] at c2
    omega

/-- The runs `rs` follow one another from `s` to `e`, none is empty. -/
def Chain : Nat → List TimRun → Nat → Prop
  | s, [], e => s = e
  | s, r :: rs, e => r.start = s ∧ 0 < r.len ∧ Chain (s + r.len) rs e

theorem chain_append {s e : Nat} {as bs : List TimRun} : Chain s (as ++ bs) e ↔ ∃ m, Chain s as m ∧ Chain m bs e := by
  induction as generalizing s with
  | nil => simp [Chain]
  | cons a as ih =>
    simp only [List.cons_append, Chain, ih]
    constructor
    · rintro ⟨h1, h2, m, h3, h4⟩; exact ⟨m, ⟨h1, h2, h3⟩, h4⟩
    · rintro ⟨m, ⟨h1, h2, h3⟩, h4⟩; exact ⟨h1, h2, m, h3, h4⟩

theorem Chain.le {s e : Nat} {rs : List TimRun} (h : Chain s rs e) : s ≤ e := by
  induction rs generalizing s with
  | nil => exact Nat.le_of_eq h
  | cons r rs ih => have := ih h.2.2; omega

theorem Chain.mem {s e : Nat} {rs : List TimRun} (h : Chain s rs e) {r : TimRun} (hr : r ∈ rs) :
    s ≤ r.start ∧ r.start + r.len ≤ e ∧ 0 < r.len := by
  induction rs generalizing s with
  | nil => simp at hr
  | cons a rs ih =>
    obtain ⟨h1, h2, h3⟩ := h
    have := h3.le
    rcases List.mem_cons.mp hr with rfl | hr
    · omega
    · have := ih h3 hr; omega

theorem Chain.last {e : Nat} {rs : List TimRun} {s : Nat} (h : Chain s rs e) (hn : rs ≠ []) :
    runStart rs (rs.length - 1) + runLen rs (rs.length - 1) = e := by
  induction rs generalizing s with
  | nil => exact absurd rfl hn
  | cons a rs ih =>
    obtain ⟨h1, h2, h3⟩ := h
    cases rs with
    | nil => simp [Chain] at h3; simp [runStart, runLen]; omega
    | cons b rs =>
      have := ih h3 (by simp)
      simpa [runStart, runLen] using this

theorem TimInv.tail {r : TimRun} {rs : List TimRun} (h : TimInv (r :: rs)) : TimInv rs := by
  constructor
  · intro i hi
    have := h.1 (i + 1) (by simpa using hi)
    simpa [runLen] using this
  · intro i hi
    have := h.2 (i + 1) (by simp; omega)
    simpa [runLen] using this

theorem TimInv.fib {r : TimRun} {rs : List TimRun} (h : TimInv (r :: rs)) (h10 : ∀ q ∈ r :: rs, 10 ≤ q.len) :
    10 * Nat.fib (rs.length + 1) ≤ r.len := by
  suffices H : ∀ (n : Nat) (r : TimRun) (rs : List TimRun), rs.length = n → TimInv (r :: rs) → (∀ q ∈ r :: rs, 10 ≤ q.len) →
      10 * Nat.fib (n + 1) ≤ r.len from H _ r rs rfl h h10
  intro n
  induction n using Nat.strong_induction_on with
  | _ n ih =>
    intro r rs hn h h10
    match rs, hn with
    | [], hn =>
      subst hn
      have := h10 r (by simp)
      simpa using this
    | [a], hn =>
      subst hn
      have := h10 r (by simp)
      simpa using this
    | a :: b :: rs, hn =>
      subst hn
      have h2 := h.2 0 (by simp)
      simp only [runLen, List.getElem?_cons_zero, List.getElem?_cons_succ, Option.getD_some] at h2
      have ia := ih (rs.length + 1) (by simp) a (b :: rs) (by simp) h.tail (fun q hq => h10 q (List.mem_cons_of_mem _ hq))
      have ib := ih rs.length (by simp only [List.length_cons]; omega) b rs rfl h.tail.tail
        (fun q hq => h10 q (List.mem_cons_of_mem _ (List.mem_cons_of_mem _ hq)))
      have : Nat.fib (rs.length + 3) = Nat.fib (rs.length + 1) + Nat.fib (rs.length + 2) := Nat.fib_add_two
      simp only [List.length_cons]
      rw [show rs.length + 1 + 1 + 1 = rs.length + 3 by omega, this]
      rw [show rs.length + 1 + 1 = rs.length + 2 by omega] at ia
      omega

/-- A high stack needs a long array. -/
theorem TimInv.height {rs : List TimRun} {s e : Nat} (h : TimInv rs) (hc : Chain s rs e) (h10 : ∀ q ∈ rs, 10 ≤ q.len) :
    s + 10 * (Nat.fib (rs.length + 2) - 1) ≤ e := by
  induction rs generalizing s with
  | nil => simp [Chain] at hc; simp [hc]
  | cons r rs ih =>
    obtain ⟨-, -, h3⟩ := hc
    have i1 := ih h.tail h3 (fun q hq => h10 q (List.mem_cons_of_mem _ hq))
    have i2 := h.fib h10
    have : Nat.fib (rs.length + 3) = Nat.fib (rs.length + 1) + Nat.fib (rs.length + 2) := Nat.fib_add_two
    have hp : 0 < Nat.fib (rs.length + 2) := Nat.fib_pos.mpr (by omega)
    simp only [List.length_cons]
    rw [show rs.length + 1 + 2 = rs.length + 3 by omega, this]
    omega

/-! ### The lengths of the runs -/

/-- The least length of the `k`-th run from the top of the stack. -/
def need : Nat → Nat
  | 0 => 0
  | 1 => 10
  | k + 2 => need (k + 1) + need k + 1

/-- The least number of elements in a stack of `h` runs. -/
def cover : Nat → Nat
  | 0 => 0
  | h + 1 => cover h + need (h + 1)

theorem need_pos {k : Nat} (h : 1 ≤ k) : 10 ≤ need k := by
  induction k with
  | zero => omega
  | succ k ih =>
    match k with
    | 0 => exact Nat.le_refl _
    | k + 1 => have := ih (by omega); show 10 ≤ need (k + 1) + need k + 1; omega

theorem need_lt {k : Nat} (h : 1 ≤ k) : need k < need (k + 1) := by
  obtain ⟨k, rfl⟩ := Nat.exists_eq_add_of_le' h
  show need (k + 1) < need (k + 1) + need k + 1
  omega

theorem cover_eq (h : Nat) : cover h + 12 + h = 11 * Nat.fib h + 12 * Nat.fib (h + 1) ∧ need (h + 1) + 1 = 11 * Nat.fib (h + 1) + Nat.fib h := by
  induction h using Nat.strong_induction_on with
  | _ h ih =>
    match h with
    | 0 => decide
    | 1 => decide
    | h + 2 =>
      have h1 := ih (h + 1) (by omega)
      have h0 := ih h (by omega)
      have e1 : cover (h + 2) = cover (h + 1) + need (h + 2) := rfl
      have e2 : need (h + 2 + 1) = need (h + 2) + need (h + 1) + 1 := rfl
      have f1 : Nat.fib (h + 2) = Nat.fib h + Nat.fib (h + 1) := Nat.fib_add_two
      have f2 : Nat.fib (h + 2 + 1) = Nat.fib (h + 1) + Nat.fib (h + 2) := Nat.fib_add_two
      rw [show h + 1 + 1 = h + 2 from rfl] at h1
      omega

theorem cover_le {h k : Nat} (hk : h ≤ k) : cover h ≤ cover k := by
  induction k with
  | zero => rw [show h = 0 by omega]
  | succ k ih =>
    by_cases h' : h = k + 1
    · rw [h']
    · have := ih (by omega)
      show _ ≤ cover k + need (k + 1)
      omega

theorem le_cover (h : Nat) : 10 * h ≤ cover h := by
  induction h with
  | zero => exact Nat.le_refl _
  | succ h ih => have := need_pos (k := h + 1) (by omega); show 10 * (h + 1) ≤ cover h + need (h + 1); omega

theorem TimInv.need {r : TimRun} {rs : List TimRun} (h : TimInv (r :: rs)) (h10 : ∀ q ∈ r :: rs, 10 ≤ q.len) :
    need (rs.length + 1) ≤ r.len := by
  suffices H : ∀ (n : Nat) (r : TimRun) (rs : List TimRun), rs.length = n → TimInv (r :: rs) → (∀ q ∈ r :: rs, 10 ≤ q.len) →
      NdSlice.need (n + 1) ≤ r.len from H _ r rs rfl h h10
  intro n
  induction n using Nat.strong_induction_on with
  | _ n ih =>
    intro r rs hn h h10
    match rs, hn with
    | [], hn =>
      subst hn
      exact h10 r (by simp)
    | [a], hn =>
      subst hn
      have h1 := h.1 0 (by simp)
      simp only [runLen, List.getElem?_cons_zero, List.getElem?_cons_succ, Option.getD_some] at h1
      have := h10 a (by simp)
      show 10 + 0 + 1 ≤ r.len
      omega
    | a :: b :: rs, hn =>
      subst hn
      have h2 := h.2 0 (by simp)
      simp only [runLen, List.getElem?_cons_zero, List.getElem?_cons_succ, Option.getD_some] at h2
      have ia := ih (rs.length + 1) (by simp) a (b :: rs) (by simp) h.tail (fun q hq => h10 q (List.mem_cons_of_mem _ hq))
      have ib := ih rs.length (by simp only [List.length_cons]; omega) b rs rfl h.tail.tail
        (fun q hq => h10 q (List.mem_cons_of_mem _ (List.mem_cons_of_mem _ hq)))
      show NdSlice.need (rs.length + 1 + 1) + NdSlice.need (rs.length + 1) + 1 ≤ r.len
      omega

/-- A high stack needs a long array: the exact bound. -/
theorem TimInv.cover {rs : List TimRun} {s e : Nat} (h : TimInv rs) (hc : Chain s rs e) (h10 : ∀ q ∈ rs, 10 ≤ q.len) :
    s + cover rs.length ≤ e := by
  induction rs generalizing s with
  | nil => simp [Chain] at hc; simp [hc, NdSlice.cover]
  | cons r rs ih =>
    obtain ⟨-, -, h3⟩ := hc
    have i1 := ih h.tail h3 (fun q hq => h10 q (List.mem_cons_of_mem _ hq))
    have i2 := h.need h10
    show s + (NdSlice.cover rs.length + NdSlice.need (rs.length + 1)) ≤ e
    omega

end NdSlice
