import Verif.Proof.Inside
import Verif.Model.RefsPar
import Verif.Core.Refs

/-
The footprints of the tasks of the parallel quick sort and the parallel selection on places.
-/

namespace NdSlice

variable {α ι ω β γ : Type} {F : Addr → Prop} {v : View} {cfg : Cfg} {t : Nat → Addr} {pred : Option Addr}

theorem Inside.splitAt_eq {i : Nat} : Inside (v.splitAt i : Prog α ι ω (View × View)) F (fun x => i ≤ v.len ∧ x = (v.sub 0 i, v.sub i (v.len - i))) := by
  unfold View.splitAt
  split
  · exact ⟨‹_›, rfl⟩
  · trivial

theorem Inside.ref_eq {i : Nat} : Inside (v.ref i : Prog α ι ω Addr) F (fun a => i < v.len ∧ a = v.addr i) := by
  unfold View.ref
  split
  · exact ⟨‹_›, rfl⟩
  · trivial

theorem Inside.loop {body : β → Prog α ι ω (β ⊕ γ)} {I : β → Prop} {Q : γ → Prop}
    (h : ∀ x, I x → Inside (body x) F (fun r => match r with | .inl y => I y | .inr z => Q z)) {n : Nat} {x : β} (hx : I x) :
    Inside (Prog.loop body n x) F Q := by
  induction n generalizing x with
  | zero => trivial
  | succ n ih =>
    unfold Prog.loop
    refine Inside.bind (h x hx) ?_
    rintro (a | a) ha
    · exact ih ha
    · exact ha

theorem Inside.ite {c : Prop} [Decidable c] {p q : Prog α ι ω β} {P : β → Prop} (h : c → Inside p F P) (h' : ¬ c → Inside q F P) :
    Inside (if c then p else q) F P := by
  split
  · exact h ‹_›
  · exact h' ‹_›

theorem Ins.bindP {p : Prog α ι ω β} {f : β → Prog α ι ω γ} {P : γ → Prop} (h : Ins F p) (hf : ∀ b, Inside (f b) F P) : Inside (p >>= f) F P :=
  Inside.bind h fun b _ => hf b

namespace Inn

/-! ### Quick sort -/

/-- The view, the predecessor and the stacks are apart from each other. -/
structure Sep (t : Nat → Addr) (v : View) (pred : Option Addr) : Prop where
  inj : ∀ i j, i < v.len → j < v.len → v.addr i = v.addr j → i = j
  tinj : ∀ n m, t n = t m → n = m
  tv : ∀ n i, i < v.len → t n ≠ v.addr i
  pv : ∀ a, pred = some a → ∀ i, i < v.len → a ≠ v.addr i
  tp : ∀ a n, pred = some a → t n ≠ a

/-- The cells of the view, the predecessor and the stacks. -/
def Fp (t : Nat → Addr) (v : View) (pred : Option Addr) (a : Addr) : Prop := (∃ i, i < v.len ∧ a = v.addr i) ∨ pred = some a ∨ ∃ n, a = t n

theorem Sep.sub (h : Sep t v pred) {a n : Nat} (hn : a + n ≤ v.len) : Sep t (v.sub a n) pred := by
  have hl : ∀ {i}, i < (v.sub a n).len → a + i < v.len := fun {i} hi => by have : i < n := hi; omega
  refine ⟨fun i j hi hj e => ?_, h.tinj, fun m i hi => ?_, fun b hb i hi => ?_, h.tp⟩
  · rw [Refs.addr_sub, Refs.addr_sub] at e
    have := h.inj _ _ (hl hi) (hl hj) e
    omega
  · rw [Refs.addr_sub]
    exact h.tv _ _ (hl hi)
  · rw [Refs.addr_sub]
    exact h.pv b hb _ (hl hi)

theorem Sep.after (h : Sep t v pred) {k n : Nat} (hn : k + 1 + n ≤ v.len) : Sep t (v.sub (k + 1) n) (some (v.addr k)) := by
  have := h.sub hn
  refine ⟨this.inj, h.tinj, this.tv, fun b hb i hi e => ?_, fun b m hb e => ?_⟩
  · cases hb
    have hi : i < n := hi
    rw [Refs.addr_sub] at e
    have := h.inj _ _ (by omega) (by omega) e
    omega
  · cases hb
    exact h.tv m k (by omega) e

theorem Sep.left (h : Sep t v pred) : Sep (Refs.stackL t) v pred :=
  ⟨h.inj, fun n m e => (by have := h.tinj _ _ e; omega), fun n => h.tv _, h.pv, fun a _ => h.tp a _⟩

theorem Sep.right (h : Sep t v pred) : Sep (Refs.stackR t) v pred :=
  ⟨h.inj, fun n m e => (by have := h.tinj _ _ e; omega), fun n => h.tv _, h.pv, fun a _ => h.tp a _⟩

theorem Sep.apart (h : Sep t v pred) {k n : Nat} (hk : k < v.len) (hn : k + 1 + n ≤ v.len) {p : Option Addr} (hp : ∀ a, p = some a → a = v.addr k) (a : Addr)
    (h1 : Fp (Refs.stackL t) (v.sub 0 k) pred a) : ¬ Fp (Refs.stackR t) (v.sub (k + 1) n) p a := by
  intro h2
  rcases h1 with ⟨i, hi, rfl⟩ | e | ⟨m, rfl⟩
  · have hi : i < k := hi
    rw [Refs.addr_sub] at h2
    rcases h2 with ⟨j, hj, e⟩ | e | ⟨m, e⟩
    · have hj : j < n := hj
      rw [Refs.addr_sub] at e
      have := h.inj _ _ (by omega) (by omega) e
      omega
    · have := h.inj _ _ (by omega) hk (hp _ e)
      omega
    · exact h.tv _ _ (by omega) e.symm
  · rcases h2 with ⟨j, hj, e'⟩ | e' | ⟨m, e'⟩
    · have hj : j < n := hj
      rw [Refs.addr_sub] at e'
      exact h.pv _ e _ (by omega) e'
    · exact h.pv _ e _ hk (hp _ e')
    · exact h.tp _ _ e e'.symm
  · rcases h2 with ⟨j, hj, e'⟩ | e' | ⟨m', e'⟩
    · have hj : j < n := hj
      rw [Refs.addr_sub] at e'
      exact h.tv _ _ (by omega) e'
    · exact h.tv _ _ hk (hp _ e')
    · have := h.tinj _ _ e'
      omega

/-- The footprint holds the view, the predecessor and the stacks. -/
structure Holds (F : Addr → Prop) (t : Nat → Addr) (v : View) (pred : Option Addr) : Prop where
  v : InF F v
  p : PredF F pred
  t : ∀ n, F (t n)

theorem Holds.fp : Holds (Fp t v pred) t v pred := ⟨fun i hi => .inl ⟨i, hi, rfl⟩, fun _ h => .inr (.inl h), fun n => .inr (.inr ⟨n, rfl⟩)⟩

theorem Holds.le (h : Holds F t v pred) (a : Addr) (ha : Fp t v pred a) : F a := by
  rcases ha with ⟨i, hi, rfl⟩ | e | ⟨n, rfl⟩
  · exact h.v i hi
  · exact h.p a e
  · exact h.t n

theorem Holds.left (h : Holds F t v pred) : Holds F (Refs.stackL t) v pred := ⟨h.v, h.p, fun _ => h.t _⟩
theorem Holds.right (h : Holds F t v pred) : Holds F (Refs.stackR t) v pred := ⟨h.v, h.p, fun _ => h.t _⟩

/-- What is known about the state of the loop of `recurse`. -/
def QF (F : Addr → Prop) (t : Nat → Addr) (s : QSt) : Prop := Sep t s.v s.pred ∧ Holds F t s.v s.pred

/-- The next state of the loop. -/
def QR (F : Addr → Prop) (t : Nat → Addr) : QSt ⊕ Unit → Prop
  | .inl s => QF F t s
  | .inr _ => True

variable {rec : (Nat → Addr) → View → Option Addr → Nat → Prog α (α × α) (α × α × Option Bool) Unit}

theorem parQuickDescend (hr : ∀ F t v pred limit, Sep t v pred → Holds F t v pred → Ins F (rec t v pred limit)) (hs : Sep t v pred)
    (hh : Holds F t v pred) {k : Nat} (hk : k < v.len) {limit : Nat} {bal wasP : Bool} :
    Inside (Refs.parQuickDescend t rec (v.sub 0 k) (v.sub (k + 1) (v.len - (k + 1))) pred (v.addr k) limit bal wasP) F (QR F t) := by
  have hl : Sep t (v.sub 0 k) pred := hs.sub (by omega)
  have hr' : Sep t (v.sub (k + 1) (v.len - (k + 1))) (some (v.addr k)) := hs.after (by omega)
  have hL : Holds F t (v.sub 0 k) pred := ⟨hh.v.sub (by omega), hh.p, hh.t⟩
  have hR : Holds F t (v.sub (k + 1) (v.len - (k + 1))) (some (v.addr k)) := ⟨hh.v.sub (by omega), predF_some (hh.v k hk), hh.t⟩
  unfold Refs.parQuickDescend
  refine Inside.ite (fun _ => ?_) (fun _ => ?_)
  · refine Inside.ite (fun _ => ?_) (fun _ => ?_)
    · exact Ins.bindP (hr _ _ _ _ _ hl hL) fun _ => show QF F t _ from ⟨hr', hR⟩
    · exact Ins.bindP (hr _ _ _ _ _ hr' hR) fun _ => show QF F t _ from ⟨hl, hL⟩
  · refine Inside.bind (Inside.rayonJoin (F1 := Fp (Refs.stackL t) (v.sub 0 k) pred) (F2 := Fp (Refs.stackR t) (v.sub (k + 1) (v.len - (k + 1))) (some (v.addr k)))
      hL.left.le hR.right.le (hs.apart hk (by omega) (fun _ e => by cases e; rfl)) (hr _ _ _ _ _ hl.left .fp) (hr _ _ _ _ _ hr'.right .fp)) fun _ _ => trivial

theorem parQuickSplit (hr : ∀ F t v pred limit, Sep t v pred → Holds F t v pred → Ins F (rec t v pred limit)) {s : QSt} (hs : QF F t s) {limit pivot : Nat} :
    Inside (Refs.parQuickSplit cfg Refs.callAt t rec s limit pivot) F (QR F t) := by
  obtain ⟨h1, h2⟩ := hs
  unfold Refs.parQuickSplit
  refine Ins.bindP (partition h2.v (h2.t 0)) ?_
  rintro ⟨mid, wasP⟩
  dsimp only
  refine Ins.bindP Ins.usub fun d => ?_
  refine Inside.bind Inside.splitAt_eq ?_
  rintro _ ⟨h3, rfl⟩
  dsimp only
  refine Inside.bind Inside.splitAt_eq ?_
  rintro _ ⟨h4, rfl⟩
  dsimp only
  refine Inside.bind Inside.ref_eq ?_
  rintro _ ⟨h5, rfl⟩
  have h4 : 1 ≤ s.v.len - mid := h4
  have e1 : ((s.v.sub mid (s.v.len - mid)).sub 0 1).addr 0 = s.v.addr mid := by
    rw [Refs.addr_sub, Refs.addr_sub]; rfl
  have e2 : (s.v.sub mid (s.v.len - mid)).sub 1 ((s.v.sub mid (s.v.len - mid)).len - 1) = s.v.sub (mid + 1) (s.v.len - (mid + 1)) := by
    unfold View.sub
    dsimp only
    congr 1
    exact Refs.addr_sub (v := s.v) (a := mid) (n := s.v.len - mid) (j := 1)
  rw [e1, e2]
  exact parQuickDescend hr h1 h2 (by omega)

theorem parQuickStep (hr : ∀ F t v pred limit, Sep t v pred → Holds F t v pred → Ins F (rec t v pred limit)) {s : QSt} (hs : QF F t s) :
    Inside (Refs.parQuickStep cfg Refs.callAt t rec s) F (QR F t) := by
  obtain ⟨h1, h2⟩ := hs
  have hv := h2.v
  have ht := h2.t 0
  have hp := h2.p
  unfold Refs.parQuickStep
  dsimp only
  refine Inside.ite (fun _ => ?_) (fun _ => Inside.ite (fun _ => ?_) (fun _ => ?_))
  · exact Inside.ite (fun _ => Ins.bindP (insertionSortShiftLeft hv ht) fun _ => trivial) (fun _ => trivial)
  · exact Ins.bindP (heapSort hv) fun _ => trivial
  · refine Ins.bindP ?_ fun limit => Ins.bindP (choosePivot hv) ?_
    · ins
    rintro ⟨pivot, likely⟩
    dsimp only
    refine Ins.bindP ?_ fun done => ?_
    · ins
    refine Inside.ite (fun _ => trivial) (fun _ => ?_)
    refine Ins.bindP (predCheck hv hp) fun c => ?_
    refine Inside.ite (fun _ => ?_) (fun _ => parQuickSplit hr ⟨h1, h2⟩)
    refine Ins.bindP (partitionEqual hv ht) fun mid => ?_
    refine Inside.bind Inside.splitAt_eq ?_
    rintro _ ⟨h3, rfl⟩
    exact show QF F t _ from ⟨h1.sub (by omega), hv.sub (by omega), hp, h2.t⟩

theorem parQuickRecurse {d : Nat} (hs : Sep t v pred) (hh : Holds F t v pred) {limit : Nat} :
    Ins F (Refs.parQuickRecurse (α := α) cfg Refs.callAt d t v pred limit) := by
  induction d generalizing F t v pred limit with
  | zero => trivial
  | succ d ih =>
    unfold Refs.parQuickRecurse
    refine Inside.loop (I := QF F t) (fun s h => ?_) ⟨hs, hh⟩
    refine Inside.mono (parQuickStep (rec := Refs.parQuickRecurse cfg Refs.callAt d) (fun F t v pred limit hs hh => ih hs hh) h) (fun _ h => h) ?_
    rintro (s | _) h
    · exact h
    · trivial

theorem parQuickSort (hs : Sep t v none) : Ins (Fp t v none) (Refs.parQuickSort (α := α) cfg Refs.callAt t v) := by
  unfold Refs.parQuickSort
  exact Inside.ite (fun _ => trivial) (fun _ => parQuickRecurse hs .fp)

/-! ### Selection -/

theorem partitionAtIndex {u : Addr} (ht : F u) (hv : InF F v) {index : Nat} :
    Inside (Refs.partitionAtIndex (α := α) cfg Refs.callAt u v index) F
      (fun x => ∃ k, k < v.len ∧ x = (v.sub 0 k, v.addr k, v.sub (k + 1) (v.len - (k + 1)))) := by
  unfold Refs.partitionAtIndex
  refine Inside.ite (fun _ => trivial) (fun h => ?_)
  refine Ins.bindP ?_ fun _ => ?_
  · ins
    exact selLoop ht hv predF_none
  refine Inside.bind Inside.splitAt_eq ?_
  rintro _ ⟨h3, rfl⟩
  dsimp only
  refine Inside.bind Inside.splitAt_eq ?_
  rintro _ ⟨h4, rfl⟩
  dsimp only
  refine Inside.bind Inside.ref_eq ?_
  rintro _ ⟨h5, rfl⟩
  refine ⟨index, by omega, ?_⟩
  refine Prod.ext rfl (Prod.ext ?_ ?_)
  · dsimp only
    rw [Refs.addr_sub, Refs.addr_sub]; rfl
  · unfold View.sub
    dsimp only
    congr 1
    exact Refs.addr_sub (a := index) (n := v.len - index) (j := 1)

theorem parPartitionAtIndices {n : Nat} (hs : Sep t v none) (hh : Holds F t v none) {offset : Nat} {indices : List Nat} {vs vl : Nat} :
    Ins F (Refs.parPartitionAtIndices (α := α) cfg Refs.callAt n t v offset indices vs vl) := by
  induction n generalizing F t v offset indices vs vl with
  | zero => trivial
  | succ n ih =>
    unfold Refs.parPartitionAtIndices
    rcases indices[indices.length / 2]? with _ | p
    · trivial
    dsimp only
    refine Ins.bind Ins.usub fun i => ?_
    refine Inside.bind (partitionAtIndex (hh.t 0) hh.v) ?_
    rintro _ ⟨k, hk, rfl⟩
    have hl : Sep t (v.sub 0 k) none := hs.sub (by omega)
    have hr : Sep t (v.sub (k + 1) (v.len - (k + 1))) none := hs.sub (by omega)
    have hL : Holds F t (v.sub 0 k) none := ⟨hh.v.sub (by omega), hh.p, hh.t⟩
    have hR : Holds F t (v.sub (k + 1) (v.len - (k + 1))) none := ⟨hh.v.sub (by omega), hh.p, hh.t⟩
    dsimp only
    refine Ins.bindP Ins.assertP fun _ => Ins.bindP Ins.assertP fun _ => Ins.bindP Ins.assertP fun _ => Ins.bindP Ins.usub fun j => ?_
    refine Inside.ite (fun _ => ?_) (fun _ => ?_)
    · exact Ins.bindP (ih hl hL) fun _ => Ins.bindP (ih hr hR) fun _ => trivial
    · refine Inside.bind (Inside.rayonJoin (F1 := Fp (Refs.stackL t) (v.sub 0 k) none) (F2 := Fp (Refs.stackR t) (v.sub (k + 1) (v.len - (k + 1))) none)
        hL.left.le hR.right.le (hs.apart hk (by omega) (fun _ e => by cases e)) (ih hl.left .fp) (ih hr.right .fp)) fun _ _ => trivial

end Inn
end NdSlice
