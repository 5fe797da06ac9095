import Verif.Proof.InsidePar
import Verif.Proof.RefsParMerge

/-
The footprints of the tasks of the parallel merge sort on places.
-/

namespace NdSlice

variable {α ι ω β γ : Type} {F : Addr → Prop} {v buf : View} {cfg : Cfg} {t : Addr}

open Refs (Seg addr_sub CChain Tasks Tasked IsChunk)

theorem Ins.forUpB {body : Nat → Prog α ι ω Unit} {i n : Nat} (h : ∀ j, i ≤ j → j < i + n → Ins F (body j)) : Ins F (Prog.forUp body i n) := by
  induction n generalizing i with
  | zero => exact Ins.pure _
  | succ n ih =>
    unfold Prog.forUp
    exact Ins.bind (h i (Nat.le_refl _) (by omega)) fun _ => ih fun j h1 h2 => h j (by omega) (by omega)

theorem Ins.idxB {i : Nat} (h : F (v.addr i)) : Ins F (v.idx i : Prog α ι ω α) := by
  unfold View.idx
  exact Ins.ite (fun _ => ⟨h, fun _ => trivial⟩) (fun _ => Ins.throw _)

theorem Ins.csetB {i : Nat} {x : α} (h : F (v.addr i)) : Ins F (v.cset i x : Prog α ι ω Unit) := by
  unfold View.cset
  exact Ins.ite (fun _ => ⟨h, trivial⟩) (fun _ => Ins.throw _)

theorem Ins.choose {k : Bool → Prog α ι ω β} (h : ∀ b, Ins F (k b)) : Ins F (.choose k) := h

namespace Inn

/-! ### Sorting a chunk -/

theorem copyToBuf (hv : InF F v) (hb : InF F buf) {a n : Nat} : Ins F (Refs.copyToBuf v buf a n : Prog α ι ω Unit) := by
  unfold Refs.copyToBuf; ins

theorem mergeHoleDrop (hv : InF F v) (hb : InF F buf) {l f d : Nat} : Ins F (Refs.mergeHoleDrop cfg v buf l f d : Prog α ι ω Unit) := by
  unfold Refs.mergeHoleDrop; ins

macro_rules | `(tactic| ins_lemma) => `(tactic| with_reducible first | exact copyToBuf ‹_› ‹_› | exact mergeHoleDrop ‹_› ‹_›)

theorem mergeFwdBody (hv : InF F v) (hb : InF F buf) {f : Nat} {s : Nat × Nat × Nat} :
    Ins F (Refs.mergeFwdBody (α := α) cfg Refs.callAt View.idx v buf f s) := by
  obtain ⟨l, r, o⟩ := s
  unfold Refs.mergeFwdBody NdSlice.pick; ins

theorem mergeBwdBody (hv : InF F v) (hb : InF F buf) {s : Nat × Nat × Nat} :
    Ins F (Refs.mergeBwdBody (α := α) cfg Refs.callAt View.idx v buf s) := by
  obtain ⟨l, r, o⟩ := s
  unfold Refs.mergeBwdBody NdSlice.pick; ins

macro_rules | `(tactic| ins_lemma) => `(tactic| with_reducible first | exact mergeFwdBody ‹_› ‹_› | exact mergeBwdBody ‹_› ‹_›)

theorem merge (hv : InF F v) (hb : InF F buf) {m : Nat} : Ins F (Refs.merge (α := α) cfg Refs.callAt View.idx v m buf) := by
  unfold Refs.merge; ins

theorem parInsertHeadLoop (hv : InF F v) (ht : F t) {d n : Nat} : Ins F (Refs.parInsertHeadLoop (α := α) Refs.callAt t v d n) := by
  induction n generalizing d with
  | zero => unfold Refs.parInsertHeadLoop Refs.holeDrop; ins
  | succ n ih => unfold Refs.parInsertHeadLoop Refs.holeDrop; ins; exact ih

macro_rules | `(tactic| ins_lemma) => `(tactic| with_reducible first | exact merge ‹_› ‹_› | exact parInsertHeadLoop ‹_› ‹_›)

theorem parInsertHead (hv : InF F v) (ht : F t) : Ins F (Refs.parInsertHead (α := α) Refs.callAt t v) := by
  unfold Refs.parInsertHead; ins

theorem parStreak (hv : InF F v) {rev : Bool} {s : Nat} : Ins F (Refs.parStreak (α := α) Refs.callAt v rev s) := by
  induction s with
  | zero => exact Ins.pure _
  | succ s ih => unfold Refs.parStreak; ins

macro_rules | `(tactic| ins_lemma) => `(tactic| with_reducible first | exact parInsertHead ‹_› ‹_› | exact parStreak ‹_›)

theorem parExtend (hv : InF F v) (ht : F t) {e s : Nat} : Ins F (Refs.parExtend (α := α) Refs.callAt t v e s) := by
  induction s with
  | zero => exact Ins.pure _
  | succ s ih => unfold Refs.parExtend; ins

macro_rules | `(tactic| ins_lemma) => `(tactic| with_reducible exact parExtend ‹_› ‹_›)

theorem parNextRun (hv : InF F v) (ht : F t) {e : Nat} : Ins F (Refs.parNextRun (α := α) cfg Refs.callAt t v e) := by
  unfold Refs.parNextRun; ins

theorem runAt {rs : List TimRun} {i : Nat} : Ins F (NdSlice.runAt rs i : Prog α ι ω TimRun) := by
  unfold NdSlice.runAt; split <;> ins

macro_rules | `(tactic| ins_lemma) => `(tactic| with_reducible first | exact parNextRun ‹_› ‹_› | exact runAt)

theorem parCollapseBody (hv : InF F v) (hb : InF F buf) {rs : List TimRun} : Ins F (Refs.parCollapseBody (α := α) cfg Refs.callAt v buf rs) := by
  unfold Refs.parCollapseBody; split <;> ins

macro_rules | `(tactic| ins_lemma) => `(tactic| with_reducible exact parCollapseBody ‹_› ‹_›)

theorem parMergeSortBody (hv : InF F v) (hb : InF F buf) (ht : F t) {s : Nat × List TimRun} : Ins F (Refs.parMergeSortBody (α := α) cfg Refs.callAt t v buf s) := by
  obtain ⟨e, rs⟩ := s
  unfold Refs.parMergeSortBody
  refine Ins.ite (fun _ => ?_) (fun _ => Ins.pure _)
  refine Ins.bind (parNextRun hv ht) ?_
  rintro (r | r) <;> dsimp only <;> ins

theorem parMergeSortSeq (hv : InF F v) (hb : InF F buf) (ht : F t) : Ins F (Refs.parMergeSortSeq (α := α) cfg Refs.callAt t v buf) := by
  unfold Refs.parMergeSortSeq
  refine Ins.bind (Ins.loop fun _ => parMergeSortBody hv hb ht) ?_
  rintro (r | r) <;> dsimp only <;> ins

/-! ### Merging in parallel -/

variable {left right dest src : View}

theorem copyUp {s d n : Nat} (hs : ∀ i, s ≤ i → i < s + n → F (src.addr i)) (hd : ∀ i, d ≤ i → i < d + n → F (dest.addr i)) :
    Ins F (Refs.copyUp src dest s d n : Prog α ι ω Unit) := by
  unfold Refs.copyUp
  exact Ins.forUpB fun j _ _ => Ins.bind (Ins.idxB (hs _ (by omega) (by omega))) fun _ => Ins.bind Ins.apart fun _ => Ins.csetB (hd _ (by omega) (by omega))

theorem stateDrop (hl : InF F left) (hr : InF F right) (hd : ∀ i, i < left.len + right.len → F (dest.addr i)) {l r d : Nat} (h1 : l ≤ left.len) (h2 : r ≤ right.len) (h3 : d = l + r) :
    Ins F (Refs.stateDrop cfg left right dest l r d : Prog α ι ω Unit) := by
  unfold Refs.stateDrop
  rw [Refs.usub_eq h1, Refs.usub_eq h2]
  simp only [Refs.pureBind]
  refine Ins.bind (copyUp (fun i _ _ => hl i (by omega)) (fun i _ _ => hd i (by omega))) fun _ => ?_
  exact copyUp (fun i _ _ => hr i (by omega)) (fun i _ _ => hd i (by omega))

theorem parMergeBody (hl : InF F left) (hr : InF F right) (hd : ∀ i, i < left.len + right.len → F (dest.addr i)) {s : Nat × Nat × Nat}
    (hs : s.1 ≤ left.len ∧ s.2.1 ≤ right.len ∧ s.2.2 = s.1 + s.2.1) :
    Inside (Refs.parMergeBody (α := α) cfg Refs.callAt left right dest s) F (fun r => match r with
      | .inl s => s.1 ≤ left.len ∧ s.2.1 ≤ right.len ∧ s.2.2 = s.1 + s.2.1
      | .inr s => s.1 ≤ left.len ∧ s.2.1 ≤ right.len ∧ s.2.2 = s.1 + s.2.1) := by
  obtain ⟨l, r, d⟩ := s
  obtain ⟨h1, h2, h3⟩ := hs
  dsimp only at h1 h2 h3
  unfold Refs.parMergeBody
  refine Inside.ite (fun hc => ?_) (fun _ => ⟨h1, h2, h3⟩)
  rw [Bool.and_eq_true, decide_eq_true_eq, decide_eq_true_eq] at hc
  refine Inside.bind (Ins.ref hr) fun a ha => ?_
  refine Inside.bind (Ins.ref hl) fun c hc' => ?_
  refine Ins.bindP (Ins.onPanic (Ins.callAt ha hc') (stateDrop hl hr hd h1 h2 h3)) fun b => ?_
  refine Inside.ite (fun _ => ?_) (fun _ => ?_)
  · refine Ins.bindP (Ins.idx hr) fun z => Ins.bindP Ins.apart fun _ => Ins.bindP (Ins.csetB (hd _ (by omega))) fun _ => ?_
    exact ⟨h1, hc.2, by dsimp only; omega⟩
  · refine Ins.bindP (Ins.idx hl) fun z => Ins.bindP Ins.apart fun _ => Ins.bindP (Ins.csetB (hd _ (by omega))) fun _ => ?_
    exact ⟨hc.1, h2, by dsimp only; omega⟩

theorem splitForMerge (hl : InF F left) (hr : InF F right) : Ins F (Refs.splitForMerge (α := α) Refs.callAt left right) := by
  unfold Refs.splitForMerge
  refine Ins.ite (fun _ => ?_) (fun _ => ?_)
  · refine Ins.bind (Ins.loop ?_) fun _ => Ins.pure _
    rintro ⟨a, b⟩
    unfold Refs.splitRightBody
    ins
  · refine Ins.bind (Ins.loop ?_) fun _ => Ins.pure _
    rintro ⟨a, b⟩
    unfold Refs.splitLeftBody
    ins

/-- The runs and the room for the result are apart from each other. -/
structure DSep (left right dest : View) : Prop where
  li : ∀ i j, i < left.len → j < left.len → left.addr i = left.addr j → i = j
  ri : ∀ i j, i < right.len → j < right.len → right.addr i = right.addr j → i = j
  di : ∀ i j, i < left.len + right.len → j < left.len + right.len → dest.addr i = dest.addr j → i = j
  lr : ∀ i j, i < left.len → j < right.len → left.addr i ≠ right.addr j
  ld : ∀ i j, i < left.len → j < left.len + right.len → left.addr i ≠ dest.addr j
  rd : ∀ i j, i < right.len → j < left.len + right.len → right.addr i ≠ dest.addr j

/-- Their cells. -/
def MF (left right dest : View) (a : Addr) : Prop := Seg left 0 left.len a ∨ Seg right 0 right.len a ∨ Seg dest 0 (left.len + right.len) a

theorem DSep.sub (h : DSep left right dest) {a m b n c : Nat} (h1 : a + m ≤ left.len) (h2 : b + n ≤ right.len) (h3 : c + (m + n) ≤ left.len + right.len) {k : Nat} :
    DSep (left.sub a m) (right.sub b n) (dest.sub c k) := by
  constructor
  · rintro i j (hi : i < m) (hj : j < m) e
    rw [addr_sub, addr_sub] at e
    have := h.li _ _ (by omega) (by omega) e
    omega
  · rintro i j (hi : i < n) (hj : j < n) e
    rw [addr_sub, addr_sub] at e
    have := h.ri _ _ (by omega) (by omega) e
    omega
  · rintro i j (hi : i < m + n) (hj : j < m + n) e
    rw [addr_sub, addr_sub] at e
    have := h.di _ _ (by omega) (by omega) e
    omega
  · rintro i j (hi : i < m) (hj : j < n)
    rw [addr_sub, addr_sub]
    exact h.lr _ _ (by omega) (by omega)
  · rintro i j (hi : i < m) (hj : j < m + n)
    rw [addr_sub, addr_sub]
    exact h.ld _ _ (by omega) (by omega)
  · rintro i j (hi : i < n) (hj : j < m + n)
    rw [addr_sub, addr_sub]
    exact h.rd _ _ (by omega) (by omega)

theorem seg_in {a b : Nat} {x : Addr} (h : Seg v a b x) (hv : ∀ i, a ≤ i → i < b → F (v.addr i)) : F x := by
  obtain ⟨i, h1, h2, rfl⟩ := h
  exact hv i h1 h2

theorem mf_sub {a m b n c k : Nat} {x : Addr} (h : MF (left.sub a m) (right.sub b n) (dest.sub c k) x) :
    Seg left a (a + m) x ∨ Seg right b (b + n) x ∨ Seg dest c (c + (m + n)) x := by
  rcases h with h | h | h <;> rw [Refs.seg_sub] at h
  · exact .inl h
  · exact .inr (.inl h)
  · exact .inr (.inr h)

theorem parMerge {n : Nat} (hs : DSep left right dest) :
    Ins (MF left right dest) (Refs.parMerge (α := α) cfg Refs.callAt n left right dest) := by
  induction n generalizing left right dest with
  | zero => trivial
  | succ n ih =>
    have hl : InF (MF left right dest) left := fun i hi => .inl ⟨i, Nat.zero_le _, hi, rfl⟩
    have hr : InF (MF left right dest) right := fun i hi => .inr (.inl ⟨i, Nat.zero_le _, hi, rfl⟩)
    have hd : ∀ i, i < left.len + right.len → MF left right dest (dest.addr i) := fun i hi => .inr (.inr ⟨i, Nat.zero_le _, hi, rfl⟩)
    unfold Refs.parMerge
    refine Ins.ite (fun _ => ?_) (fun _ => ?_)
    · refine Inside.bind (Inside.loop (I := fun s => s.1 ≤ left.len ∧ s.2.1 ≤ right.len ∧ s.2.2 = s.1 + s.2.1)
        (Q := fun s => s.1 ≤ left.len ∧ s.2.1 ≤ right.len ∧ s.2.2 = s.1 + s.2.1) (fun s h => Inside.mono (parMergeBody hl hr hd h) (fun _ h => h) (by rintro (s | s) h <;> exact h)) ⟨Nat.zero_le _, Nat.zero_le _, rfl⟩) ?_
      rintro ⟨l, r, d⟩ ⟨h1, h2, h3⟩
      exact stateDrop hl hr hd h1 h2 h3
    · refine Inside.bind (P := fun x => ∃ p q, p ≤ left.len ∧ q ≤ right.len ∧
          x = (left.sub 0 p, left.sub p (left.len - p), right.sub 0 q, right.sub q (right.len - q))) (Inside.onPanic ?_ (stateDrop hl hr hd (Nat.zero_le _) (Nat.zero_le _) rfl)) ?_
      · refine Ins.bindP (splitForMerge hl hr) ?_
        rintro ⟨p, q⟩
        refine Inside.bind Inside.splitAt_eq ?_
        rintro _ ⟨h1, rfl⟩
        refine Inside.bind Inside.splitAt_eq ?_
        rintro _ ⟨h2, rfl⟩
        exact ⟨p, q, h1, h2, rfl⟩
      · rintro _ ⟨p, q, hp, hq, rfl⟩
        dsimp only
        refine Inside.bind Inside.splitAt_eq ?_
        rintro _ ⟨h3, rfl⟩
        dsimp only
        refine Inside.bind (Inside.rayonJoin ?_ ?_ ?_ (ih (hs.sub (by omega) (by omega) ?_)) (ih (hs.sub (by omega) (by omega) ?_))) fun _ _ => trivial
        · intro x hx
          rcases mf_sub hx with h | h | h
          · exact seg_in h fun i _ _ => hl i (by omega)
          · exact seg_in h fun i _ _ => hr i (by omega)
          · exact seg_in h fun i _ _ => hd i (by omega)
        · intro x hx
          rcases mf_sub hx with h | h | h
          · exact seg_in h fun i _ _ => hl i (by omega)
          · exact seg_in h fun i _ _ => hr i (by omega)
          · refine seg_in h fun i _ h => hd i ?_
            change i < p + q + (left.len - p + (right.len - q)) at h
            omega
        · intro x hx hx'
          have e : (left.sub 0 p).len + (right.sub 0 q).len = p + q := rfl
          rw [e] at hx hx'
          rcases mf_sub hx with ⟨i, i1, i2, rfl⟩ | ⟨i, i1, i2, rfl⟩ | ⟨i, i1, i2, rfl⟩ <;> rcases mf_sub hx' with ⟨j, j1, j2, e⟩ | ⟨j, j1, j2, e⟩ | ⟨j, j1, j2, e⟩
          · have := hs.li _ _ (by omega) (by omega) e
            omega
          · exact hs.lr _ _ (by omega) (by omega) e
          · exact hs.ld _ _ (by omega) (by omega) e
          · exact hs.lr _ _ (by omega) (by omega) e.symm
          · have := hs.ri _ _ (by omega) (by omega) e
            omega
          · exact hs.rd _ _ (by omega) (by omega) e
          · exact hs.ld _ _ (by omega) (by omega) e.symm
          · exact hs.rd _ _ (by omega) (by omega) e.symm
          · have := hs.di _ _ (by omega) (by omega) e
            omega
        · omega
        · change p + q + (left.len - p + (right.len - q)) ≤ _
          omega

/-! ### Merging the chunks -/

/-- Array and buffer are apart from each other. -/
structure BSep (v buf : View) : Prop where
  vi : ∀ i j, i < v.len → j < v.len → v.addr i = v.addr j → i = j
  bi : ∀ i j, i < buf.len → j < buf.len → buf.addr i = buf.addr j → i = j
  vb : ∀ i j, i < v.len → j < buf.len → v.addr i ≠ buf.addr j

theorem BSep.swap (h : BSep v buf) : BSep buf v := ⟨h.bi, h.vi, fun i j hi hj e => h.vb j i hj hi e.symm⟩

theorem BSep.both (h : BSep v buf) (ib : Bool) : BSep (if ib then v else buf) (if ib then buf else v) := by
  cases ib
  · exact h.swap
  · exact h

theorem BSep.merge (h : BSep v buf) {s m e : Nat} (hs : s ≤ m) (hm : m ≤ e) (hv : e ≤ v.len) (hb : e ≤ buf.len) {k : Nat} :
    DSep (v.sub s (m - s)) (v.sub m (e - m)) (buf.sub s k) := by
  constructor
  · rintro i j (hi : i < m - s) (hj : j < m - s) e
    rw [addr_sub, addr_sub] at e
    have := h.vi _ _ (by omega) (by omega) e
    omega
  · rintro i j (hi : i < e - m) (hj : j < e - m) e
    rw [addr_sub, addr_sub] at e
    have := h.vi _ _ (by omega) (by omega) e
    omega
  · rintro i j (hi : i < m - s + (e - m)) (hj : j < m - s + (e - m)) e
    rw [addr_sub, addr_sub] at e
    have := h.bi _ _ (by omega) (by omega) e
    omega
  · rintro i j (hi : i < m - s) (hj : j < e - m) e
    rw [addr_sub, addr_sub] at e
    have := h.vi _ _ (by omega) (by omega) e
    omega
  · rintro i j (hi : i < m - s) (hj : j < m - s + (e - m))
    rw [addr_sub, addr_sub]
    exact h.vb _ _ (by omega) (by omega)
  · rintro i j (hi : i < e - m) (hj : j < m - s + (e - m))
    rw [addr_sub, addr_sub]
    exact h.vb _ _ (by omega) (by omega)

/-- The cells of both from `s` to `e`. -/
def RF (v buf : View) (s e : Nat) (a : Addr) : Prop := Seg v s e a ∨ Seg buf s e a

theorem RF.both {s e : Nat} {a : Addr} (ib : Bool) (h : Seg (if ib then v else buf) s e a ∨ Seg (if ib then buf else v) s e a) : RF v buf s e a := by
  cases ib
  · exact h.symm
  · exact h

theorem parRecurse {k : Nat} {cs : List (Nat × Nat)} {ib : Bool} {s e : Nat} (hc : CChain s cs e) (hl : 0 < cs.length) (h : BSep v buf) (hv : e ≤ v.len) (hb : e ≤ buf.len) :
    Ins (RF v buf s e) (Refs.parRecurse (α := α) cfg Refs.callAt v buf k cs ib) := by
  induction k generalizing cs ib s e with
  | zero => trivial
  | succ k ih =>
    obtain ⟨y, hy⟩ := hc.head hl
    obtain ⟨x, hx⟩ := hc.last hl
    have hse := hc.le
    by_cases h1 : cs.length = 1
    · unfold Refs.parRecurse
      rw [Refs.debugAssert_eq (by simpa using hl)]
      simp only [Refs.pureBind, h1, beq_self_eq_true, if_true]
      cases ib
      · trivial
      · have : y = e := by
          rw [h1] at hx
          rw [hy] at hx
          simpa using congrArg Prod.snd (Option.some.inj hx)
        subst this
        simp only [if_true]
        rw [Refs.chunkAt_eq hy]
        exact copyUp (fun i _ _ => .inl ⟨i, by omega, by omega, rfl⟩) (fun i _ _ => .inr ⟨i, by omega, by omega, rfl⟩)
    · obtain ⟨m, c1, c2⟩ := hc.split (cs.length / 2)
      have hsm := c1.le
      have hme := c2.le
      have hm : 0 < (cs.drop (cs.length / 2)).length := by rw [List.length_drop]; omega
      have hm' : 0 < (cs.take (cs.length / 2)).length := by rw [List.length_take]; omega
      obtain ⟨z, hz⟩ := c2.head hm
      have hz : cs[cs.length / 2]? = some (m, z) := by rw [← hz, List.getElem?_drop, Nat.add_zero]
      have hv' : e ≤ (if ib then v else buf).len := by cases ib <;> simpa
      have hb' : e ≤ (if ib then buf else v).len := by cases ib <;> simpa
      rw [Refs.parRecurse_stepR (by omega) hy hz hx hsm hme hv hb]
      refine Ins.bind (Inside.onPanic (Inside.mono (Inside.rayonJoin (F := RF v buf s e) ?_ ?_ ?_ (ih c1 hm' (by omega) (by omega)) (ih c2 hm hv hb)) (fun _ h => h) (fun _ _ => trivial))
        (copyUp (fun i _ _ => RF.both ib (.inl ⟨i, by omega, by omega, rfl⟩)) (fun i _ _ => RF.both ib (.inr ⟨i, by omega, by omega, rfl⟩)))) fun _ => ?_
      · rintro x (⟨i, i1, i2, e⟩ | ⟨i, i1, i2, e⟩)
        · exact .inl ⟨i, i1, by omega, e⟩
        · exact .inr ⟨i, i1, by omega, e⟩
      · rintro x (⟨i, i1, i2, e⟩ | ⟨i, i1, i2, e⟩)
        · exact .inl ⟨i, by omega, i2, e⟩
        · exact .inr ⟨i, by omega, i2, e⟩
      · rintro x (⟨i, i1, i2, rfl⟩ | ⟨i, i1, i2, rfl⟩) (⟨j, j1, j2, e⟩ | ⟨j, j1, j2, e⟩)
        · have := h.vi _ _ (by omega) (by omega) e
          omega
        · exact h.vb _ _ (by omega) (by omega) e
        · exact h.vb _ _ (by omega) (by omega) e.symm
        · have := h.bi _ _ (by omega) (by omega) e
          omega
      · refine Inside.mono (parMerge ((h.both ib).merge hsm hme hv' hb')) (fun x hx => ?_) (fun _ h => h)
        rcases mf_sub hx with ⟨i, i1, i2, e⟩ | ⟨i, i1, i2, e⟩ | ⟨i, i1, i2, e⟩
        · exact RF.both ib (.inl ⟨i, i1, by omega, e⟩)
        · exact RF.both ib (.inl ⟨i, by omega, by omega, e⟩)
        · exact RF.both ib (.inr ⟨i, i1, by omega, e⟩)

/-! ### Sorting the chunks -/

/-- The cells from `s` on and the stacks. -/
def CF (t : Nat → Addr) (v buf : View) (s : Nat) (a : Addr) : Prop := Seg v s v.len a ∨ Seg buf s buf.len a ∨ ∃ n, a = t n

theorem chunkTask {u : Addr} (hu : F u) {i : Nat} (hv : ∀ j, 2000 * i ≤ j → j < 2000 * i + min 2000 (v.len - 2000 * i) → F (v.addr j))
    (hb : ∀ j, 2000 * i ≤ j → j < 2000 * i + min 2000 (v.len - 2000 * i) → F (buf.addr j)) :
    Inside (Refs.chunkTask (α := α) cfg Refs.callAt u v buf i) F (IsChunk v.len i) := by
  unfold Refs.chunkTask
  refine Ins.bindP (parMergeSortSeq ?_ ?_ hu) fun r => ⟨rfl, rfl⟩
  · rintro j (hj : j < min 2000 (v.len - 2000 * i))
    rw [addr_sub]
    exact hv _ (by omega) (by omega)
  · rintro j (hj : j < min 2000 (v.len - 2000 * i))
    rw [addr_sub]
    exact hb _ (by omega) (by omega)

/-- The stacks are apart from each other and from the array and the buffer. -/
structure TSep (t : Nat → Addr) (v buf : View) : Prop where
  tinj : ∀ n m, t n = t m → n = m
  tv : ∀ n i, i < v.len → t n ≠ v.addr i
  tb : ∀ n i, i < buf.len → t n ≠ buf.addr i

theorem chunkTasks (h : BSep v buf) (hl : buf.len = v.len) {n i : Nat} {t : Nat → Addr} (ht : TSep t v buf) :
    Inside (Refs.chunkTasks (α := α) cfg Refs.callAt v buf t i n) (CF t v buf (2000 * i)) (fun rs => rs.length = n ∧ Tasks v.len i rs) := by
  induction n generalizing i t with
  | zero => exact ⟨rfl, trivial⟩
  | succ n ih =>
    unfold Refs.chunkTasks
    have ht' : TSep (Refs.stackR t) v buf := ⟨fun n m e => (by have := ht.tinj _ _ e; omega), fun n => ht.tv _, fun n => ht.tb _⟩
    refine Inside.bind (Inside.rayonJoin (F1 := fun a => Seg v (2000 * i) (2000 * i + min 2000 (v.len - 2000 * i)) a ∨ Seg buf (2000 * i) (2000 * i + min 2000 (v.len - 2000 * i)) a ∨ a = Refs.stackL t 0)
      (P := fun r => ∀ x, r = some x → IsChunk v.len i x) ?_ ?_ ?_ ?_ (ih (i := i + 1) ht')) ?_
    · rintro x (⟨j, j1, j2, e⟩ | ⟨j, j1, j2, e⟩ | rfl)
      · exact .inl ⟨j, j1, by omega, e⟩
      · exact .inr (.inl ⟨j, j1, by omega, e⟩)
      · exact .inr (.inr ⟨_, rfl⟩)
    · rintro x (⟨j, j1, j2, e⟩ | ⟨j, j1, j2, e⟩ | ⟨m, e⟩)
      · exact .inl ⟨j, by omega, j2, e⟩
      · exact .inr (.inl ⟨j, by omega, j2, e⟩)
      · exact .inr (.inr ⟨_, e⟩)
    · rintro x (⟨j, j1, j2, rfl⟩ | ⟨j, j1, j2, rfl⟩ | rfl) (⟨k, k1, k2, e⟩ | ⟨k, k1, k2, e⟩ | ⟨m, e⟩)
      · have := h.vi _ _ (by omega) (by omega) e
        omega
      · exact h.vb _ _ (by omega) (by omega) e
      · exact ht.tv _ _ (by omega) e.symm
      · exact h.vb _ _ (by omega) (by omega) e.symm
      · have := h.bi _ _ (by omega) (by omega) e
        omega
      · exact ht.tb _ _ (by omega) e.symm
      · exact ht.tv _ _ (by omega) e
      · exact ht.tb _ _ (by omega) e
      · have := ht.tinj _ _ e
        omega
    · rintro (_ | _)
      · simp only [Bool.false_eq_true, if_false]
        refine Inside.bind (chunkTask (.inr (.inr rfl)) (fun j h1 h2 => .inl ⟨j, h1, h2, rfl⟩) (fun j h1 h2 => .inr (.inl ⟨j, h1, h2, rfl⟩))) fun r hr => ?_
        exact fun x e => Option.some.inj e ▸ hr
      · exact fun x e => by cases e
    · rintro ⟨r, rs⟩ ⟨h1, h2, h3⟩
      exact ⟨by simp [show rs.length = n from h2], h1, h3⟩

theorem lateChunks {u : Addr} (hu : F u) (hv : InF F v) (hb : InF F buf) (hl : buf.len = v.len) {i : Nat} {rs : List (Option (Nat × Nat × MergesortResult))} (hr : Tasks v.len i rs) :
    Inside (Refs.lateChunks (α := α) cfg Refs.callAt u v buf i rs) F (fun rs' => rs'.length = rs.length ∧ Tasked v.len i rs') := by
  induction rs generalizing i with
  | nil => exact ⟨rfl, trivial⟩
  | cons r rs ih =>
    have ih := ih hr.2
    cases r with
    | none =>
      unfold Refs.lateChunks
      refine Inside.bind (chunkTask hu (fun j _ _ => hv j (by omega)) (fun j _ _ => hb j (by omega))) fun r hr => ?_
      refine Inside.bind ih fun rs' h => ?_
      exact ⟨by simp [h.1], hr, h.2⟩
    | some r =>
      unfold Refs.lateChunks
      refine Inside.bind ih fun rs' h => ?_
      exact ⟨by simp [h.1], hr.1 _ rfl, h.2⟩

theorem canConcat (hv : InF F v) {res r : MergesortResult} {x : Nat} : Ins F (Refs.canConcat (α := α) cfg Refs.callAt v res x r) := by
  unfold Refs.canConcat; ins

theorem finishChunk (hv : InF F v) {res : MergesortResult} {a b : Nat} : Ins F (NdSlice.finishChunk cfg v a b res : Prog α ι ω Unit) := by
  unfold NdSlice.finishChunk; ins

theorem concatChunks (hv : InF F v) {a b e : Nat} {res : MergesortResult} {rs : List (Nat × Nat × MergesortResult)} (hab : a ≤ b) (hc : Refs.TChain b rs e) :
    Inside (Refs.concatChunks (α := α) cfg Refs.callAt v a b res rs) F (fun cs => 0 < cs.length ∧ CChain a cs e) := by
  induction rs generalizing a b res with
  | nil =>
    unfold Refs.concatChunks
    exact Ins.bindP (finishChunk hv) fun _ => ⟨Nat.succ_pos _, rfl, hab, hc⟩
  | cons c rs ih =>
    obtain ⟨x, y, r⟩ := c
    obtain ⟨h1, h2, h3⟩ := hc
    dsimp only at h1 h2 h3
    subst h1
    unfold Refs.concatChunks
    refine Ins.bindP (canConcat hv) fun b => ?_
    refine Inside.ite (fun _ => ih (by omega) h3) (fun _ => ?_)
    refine Ins.bindP (finishChunk hv) fun _ => Inside.bind (ih h2 h3) fun cs h => ?_
    exact ⟨Nat.succ_pos _, rfl, hab, h.2⟩

theorem parMergeSortChunks {t : Nat → Addr} (h : BSep v buf) (ht : TSep t v buf) (hl : buf.len = v.len) (h0 : 0 < v.len) :
    Ins (CF t v buf 0) (Refs.parMergeSortChunks (α := α) cfg Refs.callAt t v buf) := by
  have hv : InF (CF t v buf 0) v := fun i hi => .inl ⟨i, Nat.zero_le _, hi, rfl⟩
  have hb : InF (CF t v buf 0) buf := fun i hi => .inr (.inl ⟨i, Nat.zero_le _, hi, rfl⟩)
  unfold Refs.parMergeSortChunks
  refine Inside.bind (chunkTasks (i := 0) h hl ht) fun rs h1 => ?_
  refine Inside.bind (lateChunks (.inr (.inr ⟨0, rfl⟩)) hv hb hl h1.2) fun rs' h2 => ?_
  have hc := h2.2.chain (by rw [h2.1, h1.1]; omega)
  rcases rs' with _ | ⟨⟨a, b, res⟩, rest⟩
  · have := h2.1
    simp only [List.length_nil] at this
    omega
  obtain ⟨h5, h6, h7⟩ := hc
  dsimp only at h5 h6 h7 ⊢
  have ha : a = 0 := by omega
  subst ha
  refine Inside.bind (concatChunks hv (by omega) h7) fun cs h8 => ?_
  refine Inside.mono (parRecurse h8.2 h8.1 h (Nat.le_refl _) (by omega)) ?_ (fun _ h => h)
  rintro x (⟨i, i1, i2, e⟩ | ⟨i, i1, i2, e⟩)
  · exact .inl ⟨i, i1, i2, e⟩
  · exact .inr (.inl ⟨i, i1, by omega, e⟩)

theorem parMergeSort {t : Nat → Addr} (h : BSep v buf) (ht : TSep t v buf) (hl : buf.len = v.len) :
    Ins (CF t v buf 0) (Refs.parMergeSort (α := α) cfg Refs.callAt t v buf) := by
  have hv : InF (CF t v buf 0) v := fun i hi => .inl ⟨i, Nat.zero_le _, hi, rfl⟩
  have hb : InF (CF t v buf 0) buf := fun i hi => .inr (.inl ⟨i, Nat.zero_le _, hi, rfl⟩)
  have hu : CF t v buf 0 (t 0) := .inr (.inr ⟨0, rfl⟩)
  unfold Refs.parMergeSort
  refine Ins.ite (fun _ => trivial) fun _ => Ins.ite (fun _ => ?_) fun _ => Ins.ite (fun _ => ?_) fun _ => parMergeSortChunks h ht hl (by omega)
  · ins
  · refine Ins.bind (parMergeSortSeq hv hb hu) fun r => ?_
    ins

end Inn
end NdSlice
