import Verif.Model.RefsParMerge
import Verif.Proof.RefsPar
import Verif.Proof.RefsMerge

/-
The parallel stable sort on places: run sequentially it does what the model on objects does.
-/

namespace NdSlice.Refs

variable {α σ : Type} {K : RCtx α σ} {g : LiveSet} {v buf : View} {cfg : Cfg}

/-! ### Sequential merge sort of a chunk -/

theorem RT.readC {β γ : Type} {pre exc : Asn α} {post : β → γ → Asn α} {i : Nat} {k : Addr → Prog α (α × α) (α × α × Option Bool) β}
    {k' : Addr → Prog Addr (Addr × Addr) Bool γ} (hi : i < v.len)
    (h : ∀ x, K.RT (fun mR mA L => pre mR mA L ∧ mA (v.addr i) = x) (k (v.addr i)) (k' x) post exc) :
    K.RT pre (v.ref i >>= k) (v.idx i >>= k') post exc := by
  unfold View.ref View.idx
  rw [if_pos hi, if_pos hi]
  exact RT.getA h

/-- As `shift_refs`, with a checked index. -/
theorem shiftC_refs {β γ : Type} {p : Prog α (α × α) (α × α × Option Bool) β} {q : Prog Addr (Addr × Addr) Bool γ} {post : β → γ → Asn α}
    {exc : Asn α} (hs : ∀ a, g.P a → K.T a ∧ a ≠ K.t) (hv : In g v) {h h' : Nat} (hh : h < v.len) (hh' : h' < v.len) (hne : h' ≠ h) {i x : Addr}
    (hk : K.RT (K.Live (g.hole (v.addr h') i)) p q post exc) :
    K.RT (fun mR mA L => K.Live (g.hole (v.addr h) i) mR mA L ∧ mA (v.addr h') = x) (deref (v.addr h') >>= fun y => apart (v.addr h') (v.addr h) >>= fun _ => v.cset h y >>= fun _ => p)
      (v.cset h x >>= fun _ => q) post exc := by
  unfold View.cset
  simp only [if_pos hh, apart_eq (hv.apart hh' hh hne)]
  refine RT.getR fun y => RT.set ?_ hk
  rintro mR mA L ⟨⟨hL, rfl⟩, rfl⟩
  have := hs _ (hv.mem _ hh)
  exact hL.shift this.1 this.2 (hv.mem _ hh')

theorem parInsertHeadLoop_refs (hs : ∀ a, g.P a → K.T a ∧ a ≠ K.t) (hn : g.vt = none) (hv : In g v) {i : Addr} {n d : Nat} (hd : d + n < v.len) :
    K.RT (K.Live (g.hole (v.addr d) i)) (parInsertHeadLoop callAt K.t v d n) (NdSlice.parInsertHeadLoop ask v i d n) (fun _ _ => K.Live g) (K.Live g) := by
  induction n generalizing d with
  | zero => unfold parInsertHeadLoop NdSlice.parInsertHeadLoop; exact holeDrop_refs hs hn hv
  | succ n ih =>
    have hh' : d + 1 < v.len := by omega
    have hh : d < v.len := by omega
    unfold parInsertHeadLoop NdSlice.parInsertHeadLoop
    refine RT.readC hh' fun x => ?_
    refine RT.bind (mid := fun b c mR mA L => b = c ∧ K.Live (g.hole (v.addr d) i) mR mA L ∧ mA (v.addr (d + 1)) = x) (RT.onPanic
      (RT.call (g := g.hole (v.addr d) i) (F := fun m => m (v.addr (d + 1)) = x)
        (.inl ⟨⟨hv.mem _ hh', fun e => by have := hv.inj _ _ hh' hh e; omega⟩, fun _ h => h⟩) (.inr ⟨rfl, rfl⟩))
      (RT.conseq (holeDrop_refs hs hn hv) (fun _ _ _ h => h.1) (fun _ _ _ _ _ h => h) (fun _ _ _ h => h))) fun b c => ?_
    refine RT.intro (fun _ _ _ h => h.1) ?_
    rintro rfl
    refine RT.ite (fun _ => RT.conseq (holeDrop_refs hs hn hv) (fun _ _ _ h => h.2.1) (fun _ _ _ _ _ h => h) (fun _ _ _ h => h)) fun _ => ?_
    exact RT.conseq (shiftC_refs hs hv hh hh' (by omega) (ih (by omega))) (fun _ _ _ h => h.2) (fun _ _ _ _ _ h => h) (fun _ _ _ h => h)

theorem takeOutC_refs {p : Prog α (α × α) (α × α × Option Bool) Unit} {q : Addr → Prog Addr (Addr × Addr) Bool Unit} (hv : In g v) {i j : Nat}
    (hi : i < v.len) (hj : j < v.len) (hne : j ≠ i)
    (hk : (∀ a, g.P a → K.T a ∧ a ≠ K.t) → ∀ x, K.RT (K.Live (g.hole (v.addr j) x)) p (q x) (fun _ _ => K.Live g) (K.Live g)) :
    K.Keep g (v.idx i >>= fun x => store K.t x >>= fun _ => v.idx j >>= fun z => apart (v.addr j) (v.addr i) >>= fun _ => v.cset i z >>= fun _ => p)
      (v.idx i >>= fun x => v.idx j >>= fun z => v.cset i z >>= fun _ => q x) Eq := by
  unfold View.idx View.cset
  simp only [if_pos hi, if_pos hj, apart_eq (hv.apart hj hi hne)]
  refine RT.intro (fun _ _ _ h => h.sub) fun hs => ?_
  refine RT.get fun x x' => RT.setR (pre' := K.Live (g.hole (v.addr i) x')) ?_ ?_
  · rintro mR mA L ⟨h, rfl, rfl⟩
    exact h.toHole (hv.mem i hi)
  · refine RT.get fun z z' => RT.set (pre' := K.Live (g.hole (v.addr j) x')) ?_ ?_
    · rintro mR mA L ⟨h, rfl, rfl⟩
      have := hs _ (hv.mem _ hi)
      exact h.shift this.1 this.2 (hv.mem j hj)
    · exact RT.conseq (hk hs x') (fun _ _ _ h => h) (fun _ _ _ _ _ h => ⟨rfl, h⟩) (fun _ _ _ h => h)

theorem parInsertHead_refs (hn : g.vt = none) (hv : In g v) : K.Keep g (parInsertHead callAt K.t v) (NdSlice.parInsertHead ask v) Eq := by
  unfold parInsertHead NdSlice.parInsertHead
  refine Keep.ite (fun hl => ?_) (fun _ => Keep.pureEq)
  keep
  exact takeOutC_refs hv (by omega) (by omega) (by omega) fun hs x => parInsertHeadLoop_refs hs hn hv (by omega)

theorem parStreak_refs (hv : In g v) {rev : Bool} {n : Nat} : K.Keep g (parStreak callAt v rev n) (NdSlice.parStreak ask v rev n) Eq := by
  induction n with
  | zero => exact Keep.pureEq
  | succ n ih => unfold parStreak NdSlice.parStreak; keep

macro_rules | `(tactic| keep_lemma) => `(tactic| with_reducible first | exact parInsertHead_refs ‹_› ‹_› | exact parStreak_refs ‹_›)

theorem parExtend_refs (hn : g.vt = none) (hv : In g v) {e n : Nat} : K.Keep g (parExtend callAt K.t v e n) (NdSlice.parExtend ask v e n) Eq := by
  induction n with
  | zero => exact Keep.pureEq
  | succ n ih => unfold parExtend NdSlice.parExtend; keep

macro_rules | `(tactic| keep_lemma) => `(tactic| with_reducible exact parExtend_refs ‹_› ‹_›)

theorem parNextRun_refs (hn : g.vt = none) (hv : In g v) {e : Nat} :
    K.Keep g (parNextRun cfg callAt K.t v e) (NdSlice.parNextRun cfg ask v e) Eq := by
  unfold parNextRun NdSlice.parNextRun; keep

theorem runAt_refs {rs : List TimRun} {i : Nat} : K.Keep g (runAt rs i) (runAt rs i) Eq := by
  unfold runAt
  rcases rs[i]? with _ | r
  · exact Keep.throw _
  · exact Keep.pureEq

macro_rules | `(tactic| keep_lemma) => `(tactic| with_reducible first | exact parNextRun_refs ‹_› ‹_› | exact runAt_refs | exact merge_refs reads_idx reads_idx ‹_› ‹_› ‹_›)

theorem parCollapseBody_refs (hn : g.vt = none) (hv : In g v) (hb : Buf K g buf) {rs : List TimRun} :
    K.Keep g (parCollapseBody cfg callAt v buf rs) (NdSlice.parCollapseBody cfg ask v buf rs) (Sim.SumR Eq Eq) := by
  unfold parCollapseBody NdSlice.parCollapseBody
  rcases parCollapse rs with _ | r
  · exact Keep.pureR rfl
  · dsimp only
    keep

macro_rules | `(tactic| keep_lemma) => `(tactic| with_reducible exact parCollapseBody_refs ‹_› ‹_› ‹_›)

theorem parMergeSortBody_refs (hn : g.vt = none) (hv : In g v) (hb : Buf K g buf) {s : Nat × List TimRun} :
    K.Keep g (parMergeSortBody cfg callAt K.t v buf s) (NdSlice.parMergeSortBody cfg ask v buf s) (Sim.SumR Eq Eq) := by
  obtain ⟨e, rs⟩ := s
  unfold parMergeSortBody NdSlice.parMergeSortBody
  refine Keep.ite (fun _ => Keep.bind (parNextRun_refs hn hv) ?_) (fun _ => Keep.pureR rfl)
  rintro (r | r) _ rfl
  · exact Keep.pureR rfl
  · dsimp only
    keep

macro_rules | `(tactic| keep_lemma) => `(tactic| with_reducible exact parMergeSortBody_refs ‹_› ‹_› ‹_›)

theorem parMergeSortSeq_refs (hn : g.vt = none) (hv : In g v) (hb : Buf K g buf) :
    K.Keep g (parMergeSortSeq cfg callAt K.t v buf) (NdSlice.parMergeSortSeq cfg ask v buf) Eq := by
  unfold parMergeSortSeq NdSlice.parMergeSortSeq
  refine Keep.bind (R := Eq) (by keep) ?_
  rintro (r | r) _ rfl
  · exact Keep.pureEq
  · dsimp only
    keep

/-! ### Merging in parallel -/

/-- The cells of `v[a..b]`. -/
def Seg (v : View) (a b : Nat) (c : Addr) : Prop := ∃ i, a ≤ i ∧ i < b ∧ c = v.addr i

/-- No copies on the stack. -/
abbrev cells (P : Addr → Prop) : LiveSet := ⟨P, none⟩

variable {B : Addr → Prop} {left right dest src : View}

theorem Live.sub {mR : Mem α} {mA : Mem Addr} {L : Mem α} {P P' : Addr → Prop} (h : K.Live (cells P) mR mA L) (hP : ∀ c, P' c → P c) :
    K.Live (cells P') mR mA L := h.mono hP (fun _ h => h)

theorem copyUp_loop_refs {s d n i : Nat} {exc : Asn α} (h1 : s + i + n ≤ src.len) (h2 : d + i + n ≤ dest.len)
    (hB : ∀ j, s ≤ j → j < s + i + n → ¬ B (src.addr j)) (hj : ∀ j k, j < src.len → k < src.len → src.addr j = src.addr k → j = k)
    (hd : ∀ j k, d ≤ j → j < d + i + n → s ≤ k → k < s + i + n → dest.addr j ≠ src.addr k)
    (hT : ∀ j, d ≤ j → j < d + i + n → K.T (dest.addr j) ∧ dest.addr j ≠ K.t) :
    K.RT (K.Live (cells fun c => B c ∨ Seg src (s + i) (s + i + n) c ∨ Seg dest d (d + i) c))
      (Prog.forUp (fun i => do
        let x ← src.idx (s + i)
        apart (src.addr (s + i)) (dest.addr (d + i))
        dest.cset (d + i) x) i n)
      (Prog.forUp (fun i => do
        let x ← src.idx (s + i)
        dest.cset (d + i) x) i n)
      (fun _ _ => K.Live (cells fun c => B c ∨ Seg dest d (d + i + n) c)) exc := by
  induction n generalizing i with
  | zero => exact RT.pure fun _ _ _ h => Live.sub h fun c hc => hc.imp id .inr
  | succ n ih =>
    unfold Prog.forUp
    refine RT.bind (mid := fun _ _ => K.Live (cells fun c => B c ∨ Seg src (s + (i + 1)) (s + (i + 1) + n) c ∨ Seg dest d (d + (i + 1)) c)) ?_ (fun _ _ => ?_)
    · unfold View.idx View.cset
      simp only [if_pos (show s + i < src.len by omega), if_pos (show d + i < dest.len by omega),
        apart_eq (hd (d + i) (s + i) (by omega) (by omega) (by omega) (by omega)).symm]
      refine RT.get fun x y => RT.set (pre' := K.Live (cells fun c => B c ∨ Seg src (s + (i + 1)) (s + (i + 1) + n) c ∨ Seg dest d (d + (i + 1)) c)) ?_
        (RT.pure fun _ _ _ h => h)
      rintro mR mA L ⟨h, rfl, rfl⟩
      have ht := hT (d + i) (by omega) (by omega)
      refine (h.move (a := src.addr (s + i)) (.inr (.inl ⟨s + i, Nat.le_refl _, by omega, rfl⟩)) ht.1 ht.2).mono ?_ (fun _ h => h)
      rintro c (hc | ⟨j, j1, j2, rfl⟩ | ⟨j, j1, j2, rfl⟩)
      · exact .inl ⟨.inl hc, fun e => hB (s + i) (by omega) (by omega) (e ▸ hc)⟩
      · refine .inl ⟨.inr (.inl ⟨j, by omega, by omega, rfl⟩), fun e => ?_⟩
        have := hj _ _ (by omega) (by omega) e
        omega
      · by_cases e : j = d + i
        · exact .inr (by rw [e])
        · exact .inl ⟨.inr (.inr ⟨j, j1, by omega, rfl⟩), hd _ _ j1 (by omega) (by omega) (by omega)⟩
    · have := ih (i := i + 1) (by omega) (by omega) (fun j h1 h2 => hB j h1 (by omega)) (fun j k h1 h2 h3 h4 => hd j k h1 (by omega) h3 (by omega))
        (fun j h1 h2 => hT j h1 (by omega))
      rw [show d + (i + 1) + n = d + i + (n + 1) by omega] at this
      exact this

theorem copyUp_refs {s d n : Nat} {exc : Asn α} (h1 : s + n ≤ src.len) (h2 : d + n ≤ dest.len)
    (hB : ∀ j, s ≤ j → j < s + n → ¬ B (src.addr j)) (hj : ∀ j k, j < src.len → k < src.len → src.addr j = src.addr k → j = k)
    (hd : ∀ j k, d ≤ j → j < d + n → s ≤ k → k < s + n → dest.addr j ≠ src.addr k)
    (hT : ∀ j, d ≤ j → j < d + n → K.T (dest.addr j) ∧ dest.addr j ≠ K.t) :
    K.RT (K.Live (cells fun c => B c ∨ Seg src s (s + n) c)) (copyUp src dest s d n) (NdSlice.copyUp src dest s d n)
      (fun _ _ => K.Live (cells fun c => B c ∨ Seg dest d (d + n) c)) exc := by
  have := copyUp_loop_refs (K := K) (B := B) (src := src) (dest := dest) (s := s) (d := d) (n := n) (i := 0) (exc := exc) h1 h2 hB hj hd hT
  refine RT.conseq this (fun _ _ _ h => Live.sub h ?_) (fun _ _ _ _ _ h => h) (fun _ _ _ h => h)
  rintro c (hc | hc | ⟨j, j1, j2, _⟩)
  · exact .inl hc
  · exact .inr hc
  · omega

/-- `B`, the two runs and the room for the result are apart from each other. -/
structure MSep (K : RCtx α σ) (B : Addr → Prop) (left right dest : View) : Prop where
  lB : ∀ i, i < left.len → ¬ B (left.addr i)
  rB : ∀ i, i < right.len → ¬ B (right.addr i)
  dl : ∀ i j, i < left.len + right.len → j < left.len → dest.addr i ≠ left.addr j
  dr : ∀ i j, i < left.len + right.len → j < right.len → dest.addr i ≠ right.addr j
  lr : ∀ i j, i < left.len → j < right.len → left.addr i ≠ right.addr j
  li : ∀ i j, i < left.len → j < left.len → left.addr i = left.addr j → i = j
  ri : ∀ i j, i < right.len → j < right.len → right.addr i = right.addr j → i = j
  dT : ∀ i, i < left.len + right.len → K.T (dest.addr i) ∧ dest.addr i ≠ K.t
  dlen : left.len + right.len ≤ dest.len

/-- While merging. -/
def mset (B : Addr → Prop) (left right dest : View) (l r d : Nat) : LiveSet :=
  cells fun c => B c ∨ Seg left l left.len c ∨ Seg right r right.len c ∨ Seg dest 0 d c

/-- After merging. -/
def mfin (B : Addr → Prop) (left right dest : View) : LiveSet := cells fun c => B c ∨ Seg dest 0 (left.len + right.len) c

theorem stateDrop_refs (h : MSep K B left right dest) {l r d : Nat} (hl : l ≤ left.len) (hr : r ≤ right.len) (hd : d = l + r) {exc : Asn α} :
    K.RT (K.Live (mset B left right dest l r d)) (stateDrop cfg left right dest l r d) (NdSlice.stateDrop cfg left right dest l r d)
      (fun _ _ => K.Live (mfin B left right dest)) exc := by
  have hlen := h.dlen
  unfold stateDrop NdSlice.stateDrop
  rw [usub_eq hl, usub_eq hl]
  change K.RT _ (copyUp left dest l d (left.len - l) >>= _) (NdSlice.copyUp left dest l d (left.len - l) >>= _) _ _
  refine RT.bind (RT.conseq (copyUp_refs (B := fun c => B c ∨ Seg right r right.len c ∨ Seg dest 0 d c) (exc := exc) (by omega) (by omega) ?_ h.li
    (fun j k _ _ _ _ => h.dl _ _ (by omega) (by omega)) (fun j _ _ => h.dT _ (by omega))) ?_ (fun _ _ _ _ _ h => h) (fun _ _ _ h => h)) fun _ _ => ?_
  · rintro j h1 h2 (hc | ⟨i, i1, i2, e⟩ | ⟨i, i1, i2, e⟩)
    · exact h.lB _ (by omega) hc
    · exact h.lr _ _ (by omega) i2 e
    · exact h.dl _ _ (by omega) (by omega) e.symm
  · refine fun mR mA L h => Live.sub h ?_
    rintro c ((hc | hc | hc) | ⟨i, i1, i2, e⟩)
    · exact .inl hc
    · exact .inr (.inr (.inl hc))
    · exact .inr (.inr (.inr hc))
    · exact .inr (.inl ⟨i, i1, by omega, e⟩)
  rw [usub_eq hr, usub_eq hr]
  change K.RT _ (copyUp right dest r (d + (left.len - l)) (right.len - r)) (NdSlice.copyUp right dest r (d + (left.len - l)) (right.len - r)) _ _
  refine RT.conseq (copyUp_refs (B := fun c => B c ∨ Seg dest 0 (d + (left.len - l)) c) (exc := exc) (by omega) (by omega) ?_ h.ri
    (fun j k _ _ _ _ => h.dr _ _ (by omega) (by omega)) (fun j _ _ => h.dT _ (by omega))) ?_ ?_ (fun _ _ _ h => h)
  · rintro j h1 h2 (hc | ⟨i, i1, i2, e⟩)
    · exact h.rB _ (by omega) hc
    · exact h.dr _ _ (by omega) (by omega) e.symm
  · refine fun mR mA L h => Live.sub h ?_
    rintro c ((hc | ⟨i, i1, i2, e⟩) | ⟨i, i1, i2, e⟩)
    · exact .inl (.inl hc)
    · by_cases hi : i < d
      · exact .inl (.inr (.inr ⟨i, i1, hi, e⟩))
      · exact .inr ⟨i, by omega, i2, e⟩
    · exact .inl (.inr (.inl ⟨i, i1, by omega, e⟩))
  · refine fun _ _ mR mA L h => Live.sub h ?_
    rintro c (hc | ⟨i, i1, i2, e⟩)
    · exact .inl (.inl hc)
    · by_cases hi : i < d + (left.len - l)
      · exact .inl (.inr ⟨i, i1, hi, e⟩)
      · exact .inr ⟨i, by omega, by omega, e⟩

/-- The state of the loop of the sequential merge. -/
def MSt (K : RCtx α σ) (B : Addr → Prop) (left right dest : View) (s s' : Nat × Nat × Nat) : Asn α := fun mR mA L =>
  (s = s' ∧ s.1 ≤ left.len ∧ s.2.1 ≤ right.len ∧ s.2.2 = s.1 + s.2.1) ∧ K.Live (mset B left right dest s.1 s.2.1 s.2.2) mR mA L

theorem parMergeBody_refs (h : MSep K B left right dest) {s s' : Nat × Nat × Nat} :
    K.RT (MSt K B left right dest s s') (parMergeBody cfg callAt left right dest s) (NdSlice.parMergeBody cfg ask left right dest s')
      (SumA (MSt K B left right dest) (MSt K B left right dest)) (K.Live (mfin B left right dest)) := by
  refine RT.intro (fun _ _ _ h => h.1) ?_
  obtain ⟨l, r, d⟩ := s
  rintro ⟨rfl, h1, h2, h3⟩
  dsimp only at h1 h2 h3
  have hlen := h.dlen
  unfold parMergeBody NdSlice.parMergeBody
  dsimp only
  refine RT.ite (fun hc => ?_) (fun _ => RT.pure fun _ _ _ h => h)
  rw [Bool.and_eq_true, decide_eq_true_eq, decide_eq_true_eq] at hc
  obtain ⟨hl, hr⟩ := hc
  refine RT.readC hr fun x => RT.readC hl fun y => ?_
  refine RT.bind (mid := fun b c mR mA L => b = c ∧ K.Live (mset B left right dest l r d) mR mA L) ?_ fun b c => ?_
  · refine RT.conseq (post := fun b c mR mA L => b = c ∧ K.Live (mset B left right dest l r d) mR mA L ∧ mA (right.addr r) = x ∧ mA (left.addr l) = y)
      (RT.onPanic (RT.call (g := mset B left right dest l r d) (F := fun m => m (right.addr r) = x ∧ m (left.addr l) = y)
      (.inl ⟨.inr (.inr (.inl ⟨r, Nat.le_refl _, hr, rfl⟩)), fun _ h => h.1⟩)
      (.inl ⟨.inr (.inl ⟨l, Nat.le_refl _, hl, rfl⟩), fun _ h => h.2⟩))
      (RT.conseq (stateDrop_refs h h1 h2 h3) (fun _ _ _ h => h.1) (fun _ _ _ _ _ h => h) (fun _ _ _ h => h)))
      (fun _ _ _ h => ⟨h.1.1.2, h.1.2, h.2⟩) (fun _ _ _ _ _ h => ⟨h.1, h.2.1⟩) (fun _ _ _ h => h)
  refine RT.intro (fun _ _ _ h => h.1) ?_
  rintro rfl
  have ht := h.dT d (by omega)
  cases b
  · simp only [Bool.false_eq_true, if_false]
    unfold View.idx View.cset
    simp only [if_pos hl, if_pos (show d < dest.len by omega), apart_eq (h.dl d l (by omega) hl).symm]
    refine RT.get fun z z' => RT.set (pre' := K.Live (mset B left right dest (l + 1) r (d + 1))) ?_ (RT.pure fun _ _ _ h => ?_)
    · rintro mR mA L ⟨⟨_, hL⟩, rfl, rfl⟩
      refine (hL.move (a := left.addr l) (.inr (.inl ⟨l, Nat.le_refl _, hl, rfl⟩)) ht.1 ht.2).mono ?_ (fun _ h => h)
      rintro c (hc | ⟨i, i1, i2, rfl⟩ | ⟨i, i1, i2, rfl⟩ | ⟨i, i1, i2, rfl⟩)
      · exact .inl ⟨.inl hc, fun e => h.lB l hl (e ▸ hc)⟩
      · refine .inl ⟨.inr (.inl ⟨i, by omega, i2, rfl⟩), fun e => ?_⟩
        have := h.li _ _ i2 hl e
        omega
      · exact .inl ⟨.inr (.inr (.inl ⟨i, i1, i2, rfl⟩)), fun e => h.lr _ _ hl i2 e.symm⟩
      · by_cases e : i = d
        · exact .inr (by rw [e])
        · exact .inl ⟨.inr (.inr (.inr ⟨i, i1, by omega, rfl⟩)), h.dl _ _ (by omega) hl⟩
    · exact ⟨⟨rfl, hl, h2, by dsimp only; omega⟩, h⟩
  · simp only [if_true]
    unfold View.idx View.cset
    simp only [if_pos hr, if_pos (show d < dest.len by omega), apart_eq (h.dr d r (by omega) hr).symm]
    refine RT.get fun z z' => RT.set (pre' := K.Live (mset B left right dest l (r + 1) (d + 1))) ?_ (RT.pure fun _ _ _ h => ?_)
    · rintro mR mA L ⟨⟨_, hL⟩, rfl, rfl⟩
      refine (hL.move (a := right.addr r) (.inr (.inr (.inl ⟨r, Nat.le_refl _, hr, rfl⟩))) ht.1 ht.2).mono ?_ (fun _ h => h)
      rintro c (hc | ⟨i, i1, i2, rfl⟩ | ⟨i, i1, i2, rfl⟩ | ⟨i, i1, i2, rfl⟩)
      · exact .inl ⟨.inl hc, fun e => h.rB r hr (e ▸ hc)⟩
      · exact .inl ⟨.inr (.inl ⟨i, i1, i2, rfl⟩), h.lr _ _ i2 hr⟩
      · refine .inl ⟨.inr (.inr (.inl ⟨i, by omega, i2, rfl⟩)), fun e => ?_⟩
        have := h.ri _ _ i2 hr e
        omega
      · by_cases e : i = d
        · exact .inr (by rw [e])
        · exact .inl ⟨.inr (.inr (.inr ⟨i, i1, by omega, rfl⟩)), h.dr _ _ (by omega) hr⟩
    · exact ⟨⟨rfl, h1, hr, by dsimp only; omega⟩, h⟩

theorem splitRightBody_refs (hl : In g left) (hr : In g right) {m : Nat} {s : Nat × Nat} :
    K.Keep g (splitRightBody callAt left right m s) (NdSlice.splitRightBody ask left right m s) (Sim.SumR Eq Eq) := by
  obtain ⟨a, b⟩ := s
  unfold splitRightBody NdSlice.splitRightBody
  keep

theorem splitLeftBody_refs (hl : In g left) (hr : In g right) {m : Nat} {s : Nat × Nat} :
    K.Keep g (splitLeftBody callAt left right m s) (NdSlice.splitLeftBody ask left right m s) (Sim.SumR Eq Eq) := by
  obtain ⟨a, b⟩ := s
  unfold splitLeftBody NdSlice.splitLeftBody
  keep

macro_rules | `(tactic| keep_lemma) => `(tactic| with_reducible first | exact splitRightBody_refs ‹_› ‹_› | exact splitLeftBody_refs ‹_› ‹_›)

theorem splitForMerge_refs (hl : In g left) (hr : In g right) :
    K.Keep g (splitForMerge callAt left right) (NdSlice.splitForMerge ask left right) Eq := by
  unfold splitForMerge NdSlice.splitForMerge
  keep

theorem splitAt_refs {i : Nat} : K.Keep g (v.splitAt i) (v.splitAt i) (fun a b => a = b ∧ i ≤ v.len ∧ b = (v.sub 0 i, v.sub i (v.len - i))) := by
  unfold View.splitAt
  exact Keep.ite (fun h => Keep.pure ⟨rfl, h, rfl⟩) (fun _ => Keep.throw _)

theorem seg_sub {a n i j : Nat} {c : Addr} : Seg (v.sub a n) i j c ↔ Seg v (a + i) (a + j) c := by
  constructor
  · rintro ⟨k, h1, h2, rfl⟩
    exact ⟨a + k, by omega, by omega, addr_sub⟩
  · rintro ⟨k, h1, h2, rfl⟩
    exact ⟨k - a, by omega, by omega, by rw [addr_sub, show a + (k - a) = k by omega]⟩

theorem parMerge_refs {n : Nat} (h : MSep K B left right dest) :
    K.RT (K.Live (mset B left right dest 0 0 0)) (parMerge cfg callAt n left right dest) (NdSlice.parMerge cfg ask n left right dest)
      (fun _ _ => K.Live (mfin B left right dest)) (K.Live (mfin B left right dest)) := by
  induction n generalizing B left right dest with
  | zero => exact RT.diverge
  | succ n ih =>
    have hlen := h.dlen
    unfold parMerge NdSlice.parMerge
    refine RT.ite (fun _ => ?_) (fun _ => ?_)
    · refine RT.bind (RT.conseq (RT.loop (R := MSt K B left right dest) (S := MSt K B left right dest) (fun x y => parMergeBody_refs h))
        (fun _ _ _ h => ⟨⟨rfl, Nat.zero_le _, Nat.zero_le _, rfl⟩, h⟩) (fun _ _ _ _ _ h => h) (fun _ _ _ h => h)) ?_
      rintro ⟨l, r, d⟩ s
      refine RT.intro (fun _ _ _ h => h.1) ?_
      rintro ⟨rfl, h1, h2, h3⟩
      exact RT.conseq (stateDrop_refs h h1 h2 h3) (fun _ _ _ h => h.2) (fun _ _ _ _ _ h => h) (fun _ _ _ h => h)
    · have hl : In (mset B left right dest 0 0 0) left := ⟨fun i hi => .inr (.inl ⟨i, Nat.zero_le _, hi, rfl⟩), h.li⟩
      have hr : In (mset B left right dest 0 0 0) right := ⟨fun i hi => .inr (.inr (.inl ⟨i, Nat.zero_le _, hi, rfl⟩)), h.ri⟩
      refine RT.bind (mid := fun b c mR mA L => (b = c ∧ ∃ p q, p ≤ left.len ∧ q ≤ right.len ∧
        b = (left.sub 0 p, left.sub p (left.len - p), right.sub 0 q, right.sub q (right.len - q))) ∧ K.Live (mset B left right dest 0 0 0) mR mA L) ?_ ?_
      · refine RT.onPanic ?_ (stateDrop_refs h (Nat.zero_le _) (Nat.zero_le _) rfl)
        change K.Keep _ _ _ (fun b c => b = c ∧ ∃ p q, p ≤ left.len ∧ q ≤ right.len ∧
          b = (left.sub 0 p, left.sub p (left.len - p), right.sub 0 q, right.sub q (right.len - q)))
        refine Keep.bind (splitForMerge_refs hl hr) ?_
        rintro ⟨p, q⟩ _ rfl
        refine Keep.bind splitAt_refs ?_
        rintro _ _ ⟨rfl, h1, rfl⟩
        refine Keep.bind splitAt_refs ?_
        rintro _ _ ⟨rfl, h2, rfl⟩
        exact Keep.pure ⟨rfl, p, q, h1, h2, rfl⟩
      · intro b c
        refine RT.intro (fun _ _ _ h => h.1) ?_
        rintro ⟨rfl, p, q, hp, hq, rfl⟩
        dsimp only
        have e1 : (left.sub 0 p).len = p := rfl
        have e2 : (right.sub 0 q).len = q := rfl
        have e3 : (left.sub p (left.len - p)).len = left.len - p := rfl
        have e4 : (right.sub q (right.len - q)).len = right.len - q := rfl
        rw [e1, e2]
        unfold View.splitAt
        simp only [if_pos (show p + q ≤ dest.len by omega)]
        change K.RT _ (Prog.rayonJoin (parMerge cfg callAt n _ _ (dest.sub 0 (p + q))) (parMerge cfg callAt n _ _ (dest.sub (p + q) (dest.len - (p + q)))) >>= _)
          (Prog.rayonJoin (NdSlice.parMerge cfg ask n _ _ (dest.sub 0 (p + q))) (NdSlice.parMerge cfg ask n _ _ (dest.sub (p + q) (dest.len - (p + q)))) >>= _) _ _
        refine RT.bind (RT.conseq (RT.rayonJoin (R := fun _ _ => True) (S := fun _ _ => True)
          (mid := K.Live (cells fun c => (B c ∨ Seg left p left.len c ∨ Seg right q right.len c) ∨ Seg dest 0 (p + q) c))
          (fin := K.Live (mfin B left right dest))
          (RT.conseq (ih (B := fun c => B c ∨ Seg left p left.len c ∨ Seg right q right.len c) (left := left.sub 0 p) (right := right.sub 0 q) (dest := dest.sub 0 (p + q)) ?_) ?_ ?_ ?_)
          (RT.conseq (ih (B := fun c => B c ∨ Seg dest 0 (p + q) c) (left := left.sub p (left.len - p)) (right := right.sub q (right.len - q))
            (dest := dest.sub (p + q) (dest.len - (p + q))) ?_) ?_ ?_ ?_)) (fun _ _ _ h => h.2) (fun _ _ _ _ _ h => h.2) (fun _ _ _ h => h)) (fun _ _ => RT.pure fun _ _ _ h => h)
        · constructor
          · rintro i (hi : i < p) (hc | ⟨j, j1, j2, e⟩ | ⟨j, j1, j2, e⟩)
            · rw [addr_sub] at hc; exact h.lB _ (by omega) hc
            · rw [addr_sub] at e
              have := h.li _ _ (by omega) j2 e
              omega
            · rw [addr_sub] at e
              exact h.lr _ _ (by omega) j2 e
          · rintro i (hi : i < q) (hc | ⟨j, j1, j2, e⟩ | ⟨j, j1, j2, e⟩)
            · rw [addr_sub] at hc; exact h.rB _ (by omega) hc
            · rw [addr_sub] at e
              exact h.lr _ _ j2 (by omega) e.symm
            · rw [addr_sub] at e
              have := h.ri _ _ (by omega) j2 e
              omega
          · rintro i j (hi : i < p + q) (hj : j < p)
            rw [addr_sub, addr_sub]
            exact h.dl _ _ (by omega) (by omega)
          · rintro i j (hi : i < p + q) (hj : j < q)
            rw [addr_sub, addr_sub]
            exact h.dr _ _ (by omega) (by omega)
          · rintro i j (hi : i < p) (hj : j < q)
            rw [addr_sub, addr_sub]
            exact h.lr _ _ (by omega) (by omega)
          · rintro i j (hi : i < p) (hj : j < p) e
            rw [addr_sub, addr_sub] at e
            have := h.li _ _ (by omega) (by omega) e
            omega
          · rintro i j (hi : i < q) (hj : j < q) e
            rw [addr_sub, addr_sub] at e
            have := h.ri _ _ (by omega) (by omega) e
            omega
          · rintro i (hi : i < p + q)
            rw [addr_sub]
            exact h.dT _ (by omega)
          · exact Nat.le_refl _
        · refine fun mR mA L h => Live.sub h ?_
          rintro c ((hc | ⟨i, i1, i2, e⟩ | ⟨i, i1, i2, e⟩) | ⟨i, i1, (i2 : i < p), e⟩ | ⟨i, i1, (i2 : i < q), e⟩ | ⟨i, i1, i2, e⟩)
          · exact .inl hc
          · exact .inr (.inl ⟨i, Nat.zero_le _, i2, e⟩)
          · exact .inr (.inr (.inl ⟨i, Nat.zero_le _, i2, e⟩))
          · rw [addr_sub] at e
            exact .inr (.inl ⟨_, Nat.zero_le _, by omega, e⟩)
          · rw [addr_sub] at e
            exact .inr (.inr (.inl ⟨_, Nat.zero_le _, by omega, e⟩))
          · omega
        · refine fun _ _ mR mA L h => ⟨trivial, Live.sub h ?_⟩
          rintro c (hc | ⟨i, i1, i2, e⟩)
          · exact .inl hc
          · exact .inr ⟨i, Nat.zero_le _, i2, by rw [addr_sub]; simpa using e⟩
        · refine fun mR mA L h => Live.sub h ?_
          rintro c (hc | ⟨i, i1, i2, e⟩)
          · exact .inl hc
          · exact .inr ⟨i, Nat.zero_le _, i2, by rw [addr_sub]; simpa using e⟩
        · constructor
          · rintro i (hi : i < left.len - p) (hc | ⟨j, j1, j2, e⟩)
            · rw [addr_sub] at hc; exact h.lB _ (by omega) hc
            · rw [addr_sub] at e
              exact h.dl _ _ (by omega) (by omega) e.symm
          · rintro i (hi : i < right.len - q) (hc | ⟨j, j1, j2, e⟩)
            · rw [addr_sub] at hc; exact h.rB _ (by omega) hc
            · rw [addr_sub] at e
              exact h.dr _ _ (by omega) (by omega) e.symm
          · rintro i j (hi : i < left.len - p + (right.len - q)) (hj : j < left.len - p)
            rw [addr_sub, addr_sub]
            exact h.dl _ _ (by omega) (by omega)
          · rintro i j (hi : i < left.len - p + (right.len - q)) (hj : j < right.len - q)
            rw [addr_sub, addr_sub]
            exact h.dr _ _ (by omega) (by omega)
          · rintro i j (hi : i < left.len - p) (hj : j < right.len - q)
            rw [addr_sub, addr_sub]
            exact h.lr _ _ (by omega) (by omega)
          · rintro i j (hi : i < left.len - p) (hj : j < left.len - p) e
            rw [addr_sub, addr_sub] at e
            have := h.li _ _ (by omega) (by omega) e
            omega
          · rintro i j (hi : i < right.len - q) (hj : j < right.len - q) e
            rw [addr_sub, addr_sub] at e
            have := h.ri _ _ (by omega) (by omega) e
            omega
          · rintro i (hi : i < left.len - p + (right.len - q))
            rw [addr_sub]
            exact h.dT _ (by omega)
          · change left.len - p + (right.len - q) ≤ dest.len - (p + q)
            omega
        · refine fun mR mA L h => Live.sub h ?_
          rintro c ((hc | ⟨i, i1, i2, e⟩) | ⟨i, i1, (i2 : i < left.len - p), e⟩ | ⟨i, i1, (i2 : i < right.len - q), e⟩ | ⟨i, i1, i2, e⟩)
          · exact .inl (.inl hc)
          · exact .inr ⟨i, i1, i2, e⟩
          · rw [addr_sub] at e
            exact .inl (.inr (.inl ⟨_, Nat.le_add_right _ _, by omega, e⟩))
          · rw [addr_sub] at e
            exact .inl (.inr (.inr ⟨_, Nat.le_add_right _ _, by omega, e⟩))
          · omega
        · refine fun _ _ mR mA L h => ⟨trivial, Live.sub h ?_⟩
          rintro c (hc | ⟨i, i1, i2, e⟩)
          · exact .inl (.inl hc)
          · by_cases hi : i < p + q
            · exact .inl (.inr ⟨i, i1, hi, e⟩)
            · refine .inr ⟨i - (p + q), Nat.zero_le _, ?_, by rw [addr_sub, show p + q + (i - (p + q)) = i by omega]; exact e⟩
              change i - (p + q) < left.len - p + (right.len - q)
              omega
        · refine fun mR mA L h => Live.sub h ?_
          rintro c (hc | ⟨i, i1, i2, e⟩)
          · exact .inl (.inl hc)
          · by_cases hi : i < p + q
            · exact .inl (.inr ⟨i, i1, hi, e⟩)
            · refine .inr ⟨i - (p + q), Nat.zero_le _, ?_, by rw [addr_sub, show p + q + (i - (p + q)) = i by omega]; exact e⟩
              change i - (p + q) < left.len - p + (right.len - q)
              omega

/-! ### Merging the chunks -/

/-- Chunks which follow each other from `a` to `b`. -/
def CChain : Nat → List (Nat × Nat) → Nat → Prop
  | a, [], b => a = b
  | a, c :: cs, b => c.1 = a ∧ a ≤ c.2 ∧ CChain c.2 cs b

theorem CChain.le {a b : Nat} {cs : List (Nat × Nat)} (h : CChain a cs b) : a ≤ b := by
  induction cs generalizing a with
  | nil => exact Nat.le_of_eq h
  | cons c cs ih => exact Nat.le_trans h.2.1 (ih h.2.2)

theorem CChain.head {a b : Nat} {cs : List (Nat × Nat)} (h : CChain a cs b) (hc : 0 < cs.length) : ∃ y, cs[0]? = some (a, y) := by
  cases cs with
  | nil => cases hc
  | cons c cs => exact ⟨c.2, by rw [← h.1]; rfl⟩

theorem CChain.last {a b : Nat} {cs : List (Nat × Nat)} (h : CChain a cs b) (hc : 0 < cs.length) : ∃ x, cs[cs.length - 1]? = some (x, b) := by
  induction cs generalizing a with
  | nil => cases hc
  | cons c cs ih =>
    cases cs with
    | nil => exact ⟨c.1, by rw [← (show c.2 = b from h.2.2)]; rfl⟩
    | cons d cs =>
      obtain ⟨x, hx⟩ := ih h.2.2 (Nat.succ_pos _)
      exact ⟨x, by simpa using hx⟩

theorem CChain.split {a b : Nat} {cs : List (Nat × Nat)} (h : CChain a cs b) (n : Nat) :
    ∃ m, CChain a (cs.take n) m ∧ CChain m (cs.drop n) b := by
  induction cs generalizing a n with
  | nil => exact ⟨a, by simp [CChain], by simpa [CChain] using h⟩
  | cons c cs ih =>
    cases n with
    | zero => exact ⟨a, rfl, h⟩
    | succ n =>
      obtain ⟨m, h1, h2⟩ := ih h.2.2 n
      exact ⟨m, ⟨h.1, h.2.1, h1⟩, h2⟩

/-- `B`, `v[s..e]` and `buf[s..e]` are apart from each other. -/
structure RSep (K : RCtx α σ) (B : Addr → Prop) (v buf : View) (s e : Nat) : Prop where
  vB : ∀ i, s ≤ i → i < e → ¬ B (v.addr i)
  bB : ∀ i, s ≤ i → i < e → ¬ B (buf.addr i)
  vb : ∀ i j, s ≤ i → i < e → s ≤ j → j < e → v.addr i ≠ buf.addr j
  vi : ∀ i j, i < v.len → j < v.len → v.addr i = v.addr j → i = j
  bi : ∀ i j, i < buf.len → j < buf.len → buf.addr i = buf.addr j → i = j
  vT : ∀ i, s ≤ i → i < e → K.T (v.addr i) ∧ v.addr i ≠ K.t
  bT : ∀ i, s ≤ i → i < e → K.T (buf.addr i) ∧ buf.addr i ≠ K.t
  vlen : e ≤ v.len
  blen : e ≤ buf.len

theorem RSep.swap {s e : Nat} (h : RSep K B v buf s e) : RSep K B buf v s e :=
  ⟨h.bB, h.vB, fun i j a b c d e => h.vb j i c d a b e.symm, h.bi, h.vi, h.bT, h.vT, h.blen, h.vlen⟩

theorem RSep.lo {s m e : Nat} (h : RSep K B v buf s e) (_ : s ≤ m) (hm : m ≤ e) : RSep K (fun c => B c ∨ Seg v m e c) v buf s m := by
  have h1 := h.vlen
  have h2 := h.blen
  refine ⟨?_, ?_, fun i j _ _ _ _ => h.vb i j (by omega) (by omega) (by omega) (by omega), h.vi, h.bi, fun i _ _ => h.vT i (by omega) (by omega),
    fun i _ _ => h.bT i (by omega) (by omega), by omega, by omega⟩
  · rintro i i1 i2 (hc | ⟨j, j1, j2, e⟩)
    · exact h.vB _ i1 (by omega) hc
    · have := h.vi _ _ (by omega) (by omega) e
      omega
  · rintro i i1 i2 (hc | ⟨j, j1, j2, e⟩)
    · exact h.bB _ i1 (by omega) hc
    · exact h.vb _ _ (by omega) j2 i1 (by omega) e.symm

theorem RSep.hi {s m e : Nat} (h : RSep K B v buf s e) (hs : s ≤ m) (_ : m ≤ e) (ib : Bool) :
    RSep K (fun c => B c ∨ Seg (if ib then buf else v) s m c) v buf m e := by
  have h1 := h.vlen
  have h2 := h.blen
  refine ⟨?_, ?_, fun i j _ _ _ _ => h.vb i j (by omega) (by omega) (by omega) (by omega), h.vi, h.bi, fun i _ _ => h.vT i (by omega) (by omega),
    fun i _ _ => h.bT i (by omega) (by omega), by omega, by omega⟩
  · rintro i i1 i2 (hc | ⟨j, j1, j2, e⟩)
    · exact h.vB _ (by omega) (by omega) hc
    · cases ib
      · have := h.vi _ _ (by omega) (by omega) e
        omega
      · exact h.vb _ _ (by omega) i2 j1 (by omega) e
  · rintro i i1 i2 (hc | ⟨j, j1, j2, e⟩)
    · exact h.bB _ (by omega) (by omega) hc
    · cases ib
      · exact h.vb _ _ j1 (by omega) (by omega) (by omega) e.symm
      · have := h.bi _ _ (by omega) (by omega) e
        omega

theorem RSep.merge {s m e : Nat} (h : RSep K B v buf s e) (hs : s ≤ m) (hm : m ≤ e) :
    MSep K B (v.sub s (m - s)) (v.sub m (e - m)) (buf.sub s (buf.len - s)) := by
  have h1 := h.vlen
  have h2 := h.blen
  constructor
  · rintro i (hi : i < m - s) hc
    rw [addr_sub] at hc; exact h.vB _ (by omega) (by omega) hc
  · rintro i (hi : i < e - m) hc
    rw [addr_sub] at hc; exact h.vB _ (by omega) (by omega) hc
  · rintro i j (hi : i < m - s + (e - m)) (hj : j < m - s)
    rw [addr_sub, addr_sub]
    exact fun e => h.vb _ _ (by omega) (by omega) (by omega) (by omega) e.symm
  · rintro i j (hi : i < m - s + (e - m)) (hj : j < e - m)
    rw [addr_sub, addr_sub]
    exact fun e => h.vb _ _ (by omega) (by omega) (by omega) (by omega) e.symm
  · rintro i j (hi : i < m - s) (hj : j < e - m) e
    rw [addr_sub, addr_sub] at e
    have := h.vi _ _ (by omega) (by omega) e
    omega
  · rintro i j (hi : i < m - s) (hj : j < m - s) e
    rw [addr_sub, addr_sub] at e
    have := h.vi _ _ (by omega) (by omega) e
    omega
  · rintro i j (hi : i < e - m) (hj : j < e - m) e
    rw [addr_sub, addr_sub] at e
    have := h.vi _ _ (by omega) (by omega) e
    omega
  · rintro i (hi : i < m - s + (e - m))
    rw [addr_sub]
    exact h.bT _ (by omega) (by omega)
  · change m - s + (e - m) ≤ buf.len - s
    omega

theorem copyAll_refs {s e : Nat} {exc : Asn α} (h : RSep K B v buf s e) (hs : s ≤ e) :
    K.RT (K.Live (cells fun c => B c ∨ Seg v s e c)) (copyUp v buf s s (e - s)) (NdSlice.copyUp v buf s s (e - s))
      (fun _ _ => K.Live (cells fun c => B c ∨ Seg buf s e c)) exc := by
  have h1 := h.vlen
  have h2 := h.blen
  have := copyUp_refs (K := K) (B := B) (src := v) (dest := buf) (s := s) (d := s) (n := e - s) (exc := exc) (by omega) (by omega)
    (fun j _ _ => h.vB j (by omega) (by omega)) h.vi (fun j k _ _ _ _ e => h.vb k j (by omega) (by omega) (by omega) (by omega) e.symm)
    (fun j _ _ => h.bT j (by omega) (by omega))
  rw [show s + (e - s) = e by omega] at this
  exact this

theorem slice_eq {ι ω τ : Type} {a b : Nat} (h : a ≤ b) (h' : b ≤ v.len) : (v.slice a b : Prog τ ι ω View) = pure (v.sub a (b - a)) := by
  unfold View.slice
  rw [if_neg (Nat.not_lt.mpr h), if_pos ⟨by omega, h'⟩]

theorem chunkAt_eq {ι ω τ : Type} {cs : List (Nat × Nat)} {i : Nat} {c : Nat × Nat} (h : cs[i]? = some c) : (chunkAt cs i : Prog τ ι ω (Nat × Nat)) = pure c := by
  unfold chunkAt; rw [h]

theorem pureBind {ι ω τ β γ : Type} (x : β) (f : β → Prog τ ι ω γ) : (pure x >>= f) = f x := rfl

theorem debugAssert_eq {ι ω τ : Type} {c : Bool} (h : c = true) : (debugAssert cfg c : Prog τ ι ω Unit) = pure () := by
  unfold debugAssert
  rw [h]
  simp

theorem parRecurse_step {ι ω τ : Type} {less : τ → τ → Prog τ ι ω Bool} {k : Nat} {cs : List (Nat × Nat)} {ib : Bool} {s m e x y z : Nat} (hl : 1 < cs.length)
    (hx : cs[0]? = some (s, x)) (hy : cs[cs.length / 2]? = some (m, y)) (hz : cs[cs.length - 1]? = some (z, e)) (hsm : s ≤ m) (hme : m ≤ e)
    (hv : e ≤ v.len) (hb : e ≤ buf.len) :
    NdSlice.parRecurse cfg less v buf (k + 1) cs ib =
      ((Prog.rayonJoin (NdSlice.parRecurse cfg less v buf k (cs.take (cs.length / 2)) !ib) (NdSlice.parRecurse cfg less v buf k (cs.drop (cs.length / 2)) !ib)).onPanic
        (NdSlice.copyUp (if ib then v else buf) (if ib then buf else v) s s (e - s)) >>= fun _ =>
      NdSlice.parMerge cfg less (m - s + (e - m) + 1) ((if ib then v else buf).sub s (m - s)) ((if ib then v else buf).sub m (e - m))
        ((if ib then buf else v).sub s ((if ib then buf else v).len - s))) := by
  have h1 : e ≤ (if ib then v else buf).len := by cases ib <;> simpa
  have h2 : e ≤ (if ib then buf else v).len := by cases ib <;> simpa
  rw [NdSlice.parRecurse, debugAssert_eq (by simpa using by omega), if_neg (by simpa using by omega), chunkAt_eq hx, chunkAt_eq hy, usub_eq (by omega)]
  simp only [pureBind]
  rw [chunkAt_eq hz]
  simp only [pureBind]
  rw [usub_eq (by omega)]
  simp only [pureBind]
  rw [slice_eq hsm (by omega), slice_eq hme h1, slice_eq (by omega) (Nat.le_refl _)]
  rfl

theorem parRecurse_stepR {ι ω τ : Type} {less : Addr → Addr → Prog τ ι ω Bool} {k : Nat} {cs : List (Nat × Nat)} {ib : Bool} {s m e x y z : Nat} (hl : 1 < cs.length)
    (hx : cs[0]? = some (s, x)) (hy : cs[cs.length / 2]? = some (m, y)) (hz : cs[cs.length - 1]? = some (z, e)) (hsm : s ≤ m) (hme : m ≤ e)
    (hv : e ≤ v.len) (hb : e ≤ buf.len) :
    parRecurse cfg less v buf (k + 1) cs ib =
      ((Prog.rayonJoin (parRecurse cfg less v buf k (cs.take (cs.length / 2)) !ib) (parRecurse cfg less v buf k (cs.drop (cs.length / 2)) !ib)).onPanic
        (copyUp (if ib then v else buf) (if ib then buf else v) s s (e - s)) >>= fun _ =>
      parMerge cfg less (m - s + (e - m) + 1) ((if ib then v else buf).sub s (m - s)) ((if ib then v else buf).sub m (e - m))
        ((if ib then buf else v).sub s ((if ib then buf else v).len - s))) := by
  have h1 : e ≤ (if ib then v else buf).len := by cases ib <;> simpa
  have h2 : e ≤ (if ib then buf else v).len := by cases ib <;> simpa
  rw [parRecurse, debugAssert_eq (by simpa using by omega), if_neg (by simpa using by omega), chunkAt_eq hx, chunkAt_eq hy, usub_eq (by omega)]
  simp only [pureBind]
  rw [chunkAt_eq hz]
  simp only [pureBind]
  rw [usub_eq (by omega)]
  simp only [pureBind]
  rw [slice_eq hsm (by omega), slice_eq hme h1, slice_eq (by omega) (Nat.le_refl _)]
  rfl

theorem RSep.both {s e : Nat} (h : RSep K B v buf s e) (ib : Bool) : RSep K B (if ib then v else buf) (if ib then buf else v) s e := by
  cases ib
  · exact h.swap
  · exact h

theorem parRecurse_refs {k : Nat} {cs : List (Nat × Nat)} {ib : Bool} {s e : Nat} (hc : CChain s cs e) (hl : 0 < cs.length) (h : RSep K B v buf s e) :
    K.RT (K.Live (cells fun c => B c ∨ Seg v s e c)) (parRecurse cfg callAt v buf k cs ib) (NdSlice.parRecurse cfg ask v buf k cs ib)
      (fun _ _ => K.Live (cells fun c => B c ∨ Seg (if ib then buf else v) s e c)) (K.Live (cells fun c => B c ∨ Seg (if ib then buf else v) s e c)) := by
  induction k generalizing B cs ib s e with
  | zero => exact RT.diverge
  | succ k ih =>
    obtain ⟨y, hy⟩ := hc.head hl
    obtain ⟨x, hx⟩ := hc.last hl
    have hse := hc.le
    by_cases h1 : cs.length = 1
    · unfold parRecurse NdSlice.parRecurse
      rw [debugAssert_eq (by simpa using hl), debugAssert_eq (by simpa using hl)]
      simp only [pureBind, h1, beq_self_eq_true, if_true]
      cases ib
      · exact RT.pure fun _ _ _ h => h
      · have : y = e := by
          rw [h1] at hx
          rw [hy] at hx
          simpa using congrArg Prod.snd (Option.some.inj hx)
        subst this
        simp only [if_true]
        rw [chunkAt_eq hy, chunkAt_eq hy]
        exact copyAll_refs h hse
    · obtain ⟨m, c1, c2⟩ := hc.split (cs.length / 2)
      have hsm := c1.le
      have hme := c2.le
      have hm : 0 < (cs.drop (cs.length / 2)).length := by rw [List.length_drop]; omega
      have hm' : 0 < (cs.take (cs.length / 2)).length := by rw [List.length_take]; omega
      obtain ⟨z, hz⟩ := c2.head hm
      have hz : cs[cs.length / 2]? = some (m, z) := by rw [← hz, List.getElem?_drop, Nat.add_zero]
      have v1 := h.vlen
      have v2 := h.blen
      rw [parRecurse_step (by omega) hy hz hx hsm hme v1 v2, parRecurse_stepR (by omega) hy hz hx hsm hme v1 v2]
      refine RT.bind (mid := fun _ _ => K.Live (cells fun c => B c ∨ Seg (if ib then v else buf) s e c)) ?_ fun _ _ => ?_
      · refine RT.onPanic (RT.conseq (RT.rayonJoin (R := fun _ _ => True) (S := fun _ _ => True)
          (mid := K.Live (cells fun c => (B c ∨ Seg v m e c) ∨ Seg (if !ib then buf else v) s m c))
          (fin := K.Live (cells fun c => B c ∨ Seg (if ib then v else buf) s e c))
          (RT.conseq (ih c1 hm' (h.lo hsm hme)) ?_ (fun _ _ _ _ _ h => ⟨trivial, h⟩) (fun _ _ _ h => h))
          (RT.conseq (ih c2 hm (h.hi hsm hme (!ib))) ?_ ?_ ?_)) (fun _ _ _ h => h) (fun _ _ _ _ _ h => h.2) (fun _ _ _ h => h)) (copyAll_refs (h.both ib) hse)
        · refine fun mR mA L h => Live.sub h ?_
          rintro c ((hc | ⟨i, i1, i2, e⟩) | ⟨i, i1, i2, e⟩)
          · exact .inl hc
          · exact .inr ⟨i, by omega, i2, e⟩
          · exact .inr ⟨i, i1, by omega, e⟩
        · refine fun mR mA L h => Live.sub h ?_
          rintro c ((hc | hc) | hc)
          · exact .inl (.inl hc)
          · exact .inr hc
          · exact .inl (.inr hc)
        all_goals
          have hw : (if (!ib) = true then buf else v) = (if ib then v else buf) := by cases ib <;> rfl
          rw [hw]
          have hs : ∀ c, (B c ∨ Seg (if ib then v else buf) s e c) → (B c ∨ Seg (if ib then v else buf) s m c) ∨ Seg (if ib then v else buf) m e c := by
            rintro c (hc | ⟨i, i1, i2, e⟩)
            · exact .inl (.inl hc)
            · by_cases hi : i < m
              · exact .inl (.inr ⟨i, i1, hi, e⟩)
              · exact .inr ⟨i, by omega, i2, e⟩
        · exact fun _ _ mR mA L h => ⟨trivial, Live.sub h hs⟩
        · exact fun mR mA L h => Live.sub h hs
      · refine RT.conseq (parMerge_refs ((h.both ib).merge hsm hme)) ?_ ?_ ?_
        · refine fun mR mA L h => Live.sub h ?_
          rintro c (hc | hc | hc | ⟨i, i1, i2, e⟩)
          · exact .inl hc
          · rw [seg_sub] at hc
            obtain ⟨i, i1, i2, he⟩ := hc
            exact .inr ⟨i, i1, by change i < s + (m - s) at i2; omega, he⟩
          · rw [seg_sub] at hc
            obtain ⟨i, i1, i2, he⟩ := hc
            exact .inr ⟨i, by omega, by change i < m + (e - m) at i2; omega, he⟩
          · omega
        all_goals
          have hs : ∀ c, (B c ∨ Seg (if ib then buf else v) s e c) → B c ∨ Seg ((if ib then buf else v).sub s ((if ib then buf else v).len - s)) 0
              (((if ib then v else buf).sub s (m - s)).len + ((if ib then v else buf).sub m (e - m)).len) c := by
            rintro c (hc | ⟨i, i1, i2, e⟩)
            · exact .inl hc
            · refine .inr (seg_sub.2 ⟨i, i1, ?_, e⟩)
              change i < s + (m - s + (_ - m))
              omega
        · exact fun _ _ mR mA L h => Live.sub h hs
        · exact fun mR mA L h => Live.sub h hs

/-! ### Sorting the chunks -/

theorem RT.choose {β γ : Type} {pre exc : Asn α} {k : Bool → Prog α (α × α) (α × α × Option Bool) β} {k' : Bool → Prog Addr (Addr × Addr) Bool γ} {post : β → γ → Asn α}
    (h : ∀ b, K.RT pre (k b) (k' b) post exc) : K.RT pre (.choose k) (.choose k') post exc := by
  intro sR sA hl hp
  simp only [run]
  obtain ⟨he, d, hd, hr⟩ := hl
  have := h (K.o.flip sR.env).1 { sR with env := (K.o.flip sR.env).2 } { sA with env := ((K.o.flip sA.env.1).2, sA.env.2) } ⟨by rw [he], d, hd, hr⟩ hp
  simp only [objOracle, he] at this ⊢
  exact this

/-- The result of the task for chunk `i`. -/
def IsChunk (n i : Nat) (r : Nat × Nat × MergesortResult) : Prop := r.1 = 2000 * i ∧ r.2.1 = 2000 * i + min 2000 (n - 2000 * i)

/-- The results of the tasks from chunk `i` on. -/
def Tasks (n : Nat) : Nat → List (Option (Nat × Nat × MergesortResult)) → Prop
  | _, [] => True
  | i, r :: rs => (∀ x, r = some x → IsChunk n i x) ∧ Tasks n (i + 1) rs

/-- The same without those left out. -/
def Tasked (n : Nat) : Nat → List (Nat × Nat × MergesortResult) → Prop
  | _, [] => True
  | i, r :: rs => IsChunk n i r ∧ Tasked n (i + 1) rs

theorem Buf.sub (hb : Buf K g buf) {a n : Nat} (hn : a + n ≤ buf.len) : Buf K g (buf.sub a n) := by
  refine ⟨fun i hi => ?_, fun i hi => ?_, fun i j hi hj e => ?_⟩
  · have hi : i < n := hi
    rw [addr_sub]
    exact hb.mem _ (by omega)
  · have hi : i < n := hi
    rw [addr_sub]
    exact hb.out _ (by omega)
  · have hi : i < n := hi
    have hj : j < n := hj
    rw [addr_sub, addr_sub] at e
    have := hb.inj _ _ (by omega) (by omega) e
    omega

theorem chunkTask_refs (hn : g.vt = none) (hv : In g v) (hb : Buf K g buf) (hl : buf.len = v.len) {i : Nat} (hi : 2000 * i ≤ v.len) :
    K.Keep g (chunkTask cfg callAt K.t v buf i) (NdSlice.chunkTask cfg ask v buf i) (fun r r' => r = r' ∧ IsChunk v.len i r') := by
  unfold chunkTask NdSlice.chunkTask
  refine Keep.bind (parMergeSortSeq_refs hn (hv.sub (by omega)) (hb.sub (by omega))) ?_
  rintro r _ rfl
  exact Keep.pure ⟨rfl, rfl, rfl⟩

theorem Buf.at (hb : Buf K g buf) {t : Addr} (ht : ∀ i, i < buf.len → buf.addr i ≠ t) : Buf (RCtx.at K t) g buf :=
  ⟨fun i hi => ⟨(hb.mem i hi).1, ht i hi⟩, hb.out, hb.inj⟩

theorem chunkTasks_refs (hn : g.vt = none) (hv : In g v) (hb : Buf K g buf) (hl : buf.len = v.len) {n i : Nat} {t : Nat → Addr} (ht : StacksOf K g t)
    (hk : K.T K.t ∧ ¬ g.P K.t) (hbt : ∀ n i, i < buf.len → buf.addr i ≠ t n) (hi : n = 0 ∨ 2000 * (i + n - 1) ≤ v.len) :
    K.Keep g (chunkTasks cfg callAt v buf t i n) (NdSlice.chunkTasks cfg ask v buf i n) (fun r r' => r = r' ∧ r'.length = n ∧ Tasks v.len i r') := by
  induction n generalizing i t with
  | zero => exact Keep.pure ⟨rfl, rfl, trivial⟩
  | succ n ih =>
    unfold chunkTasks NdSlice.chunkTasks
    refine Keep.bind (Keep.rayonJoin (R := fun r r' => r = r' ∧ ∀ x, r' = some x → IsChunk v.len i x)
      (RT.choose fun b => ?_) (ih (i := i + 1) (t := stackR t) (fun _ => ht _) (fun _ _ h => hbt _ _ h) (by omega))) ?_
    · cases b
      · simp only [Bool.false_eq_true, if_false]
        refine Keep.bind (Keep.at hn (ht _) hk (chunkTask_refs (K := RCtx.at K (stackL t 0)) hn hv (hb.at fun _ h => hbt _ _ h) hl (by omega))) ?_
        rintro r _ ⟨rfl, h⟩
        exact Keep.pure ⟨rfl, fun x e => Option.some.inj e ▸ h⟩
      · exact Keep.pure ⟨rfl, fun x e => by cases e⟩
    · rintro ⟨r, rs⟩ ⟨r', rs'⟩ ⟨⟨h1, h2⟩, h3, h4, h5⟩
      dsimp only at h1 h2 h3 h4 h5
      subst h1 h3
      exact Keep.pure ⟨rfl, by simp [h4], h2, h5⟩

theorem lateChunks_refs (hn : g.vt = none) (hv : In g v) (hb : Buf K g buf) (hl : buf.len = v.len) {i : Nat} {rs : List (Option (Nat × Nat × MergesortResult))}
    (hr : Tasks v.len i rs) (hi : rs.length = 0 ∨ 2000 * (i + rs.length - 1) ≤ v.len) :
    K.Keep g (lateChunks cfg callAt K.t v buf i rs) (NdSlice.lateChunks cfg ask v buf i rs) (fun r r' => r = r' ∧ r'.length = rs.length ∧ Tasked v.len i r') := by
  induction rs generalizing i with
  | nil => exact Keep.pure ⟨rfl, rfl, trivial⟩
  | cons r rs ih =>
    rw [List.length_cons] at hi
    have ih := ih hr.2 (by omega)
    cases r with
    | none =>
      unfold lateChunks NdSlice.lateChunks
      refine Keep.bind (chunkTask_refs hn hv hb hl (by omega)) ?_
      rintro r _ ⟨rfl, h1⟩
      refine Keep.bind ih ?_
      rintro rs' _ ⟨rfl, h2, h3⟩
      exact Keep.pure ⟨rfl, by simp [h2], h1, h3⟩
    | some r =>
      unfold lateChunks NdSlice.lateChunks
      refine Keep.bind ih ?_
      rintro rs' _ ⟨rfl, h2, h3⟩
      exact Keep.pure ⟨rfl, by simp [h2], hr.1 _ rfl, h3⟩

/-- The results follow each other from `a` to `b`. -/
def TChain : Nat → List (Nat × Nat × MergesortResult) → Nat → Prop
  | a, [], b => a = b
  | a, c :: cs, b => c.1 = a ∧ a ≤ c.2.1 ∧ TChain c.2.1 cs b

theorem Tasked.chain {n i : Nat} {rs : List (Nat × Nat × MergesortResult)} (h : Tasked n i rs) (hl : i + rs.length = (n + 1999) / 2000) :
    TChain (min (2000 * i) n) rs n := by
  induction rs generalizing i with
  | nil =>
    change _ = _
    simp only [List.length_nil] at hl
    omega
  | cons r rs ih =>
    rw [List.length_cons] at hl
    have h1 := h.1.1
    have h2 := h.1.2
    have := ih h.2 (by omega)
    have e : min (2000 * (i + 1)) n = r.2.1 := by omega
    rw [e] at this
    exact ⟨by omega, by omega, this⟩

theorem canConcat_refs (hv : In g v) {res r : MergesortResult} {x : Nat} :
    K.Keep g (canConcat cfg callAt v res x r) (NdSlice.canConcat cfg ask v res x r) Eq := by
  unfold canConcat NdSlice.canConcat
  keep

theorem finishChunk_refs (hv : In g v) {res : MergesortResult} {a b : Nat} :
    K.Keep g (finishChunk cfg v a b res) (finishChunk cfg v a b res) Eq := by
  unfold finishChunk
  keep

theorem concatChunks_refs (hv : In g v) {a b e : Nat} {res : MergesortResult} {rs : List (Nat × Nat × MergesortResult)} (hab : a ≤ b) (hc : TChain b rs e) :
    K.Keep g (concatChunks cfg callAt v a b res rs) (NdSlice.concatChunks cfg ask v a b res rs) (fun r r' => r = r' ∧ 0 < r'.length ∧ CChain a r' e) := by
  induction rs generalizing a b res with
  | nil =>
    unfold concatChunks NdSlice.concatChunks
    refine Keep.bind (finishChunk_refs hv) fun _ _ _ => Keep.pure ⟨rfl, Nat.succ_pos _, rfl, hab, hc⟩
  | cons c rs ih =>
    obtain ⟨x, y, r⟩ := c
    obtain ⟨h1, h2, h3⟩ := hc
    dsimp only at h1 h2 h3
    subst h1
    unfold concatChunks NdSlice.concatChunks
    refine Keep.bind (canConcat_refs hv) ?_
    rintro b _ rfl
    refine Keep.ite (fun _ => ih (by omega) h3) (fun _ => ?_)
    refine Keep.bind (finishChunk_refs hv) fun _ _ _ => ?_
    refine Keep.bind (ih h2 h3) ?_
    rintro cs _ ⟨rfl, h4, h5⟩
    exact Keep.pure ⟨rfl, Nat.succ_pos _, rfl, hab, h5⟩

theorem parMergeSortChunks_refs {t : Nat → Addr} (hn : g.vt = none) (hg : ∀ a, g.P a ↔ Seg v 0 v.len a) (hv : In g v) (hb : Buf K g buf) (hl : buf.len = v.len) (ht : StacksOf K g t)
    (hk : K.t = t 0) (hbt : ∀ n i, i < buf.len → buf.addr i ≠ t n) (hT : ∀ i, i < v.len → K.T (v.addr i)) (h0 : 0 < v.len) :
    K.Keep g (parMergeSortChunks cfg callAt t v buf) (NdSlice.parMergeSortChunks cfg ask v buf) Eq := by
  unfold parMergeSortChunks NdSlice.parMergeSortChunks
  refine Keep.bind (chunkTasks_refs hn hv hb hl ht (hk ▸ ht 0) hbt (by omega)) ?_
  rintro rs _ ⟨rfl, h1, h2⟩
  rw [← hk]
  refine Keep.bind (lateChunks_refs hn hv hb hl h2 (by omega)) ?_
  rintro rs' _ ⟨rfl, h3, h4⟩
  have hc := h4.chain (by omega)
  rcases rs' with _ | ⟨⟨a, b, res⟩, rest⟩
  · simp only [List.length_nil] at h3
    omega
  obtain ⟨h5, h6, h7⟩ := hc
  dsimp only at h5 h6 h7 ⊢
  have ha : a = 0 := by omega
  subst ha
  refine Keep.bind (R := fun r r' => r = r' ∧ 0 < r'.length ∧ CChain 0 r' v.len) ?_ ?_
  · exact concatChunks_refs hv (by omega) h7
  · rintro cs _ ⟨rfl, h5, h6⟩
    have hs : RSep K (fun _ => False) v buf 0 v.len :=
      ⟨fun _ _ _ h => h, fun _ _ _ h => h, fun i j _ hi _ hj e => hb.out j (by omega) (e ▸ hv.mem i hi), hv.inj, hb.inj,
        fun i _ hi => ⟨hT i hi, fun e => (ht 0).2 (hk ▸ e ▸ hv.mem i hi)⟩, fun i _ hi => hb.mem i (by omega), Nat.le_refl _, by omega⟩
    have e : (cells fun c => False ∨ Seg v 0 v.len c) = g := by
      cases g
      simp only at hn
      subst hn
      congr
      funext a
      exact propext ⟨fun h => (hg a).2 (h.resolve_left id), fun h => .inr ((hg a).1 h)⟩
    have := parRecurse_refs (cfg := cfg) (k := cs.length) (ib := false) h6 h5 hs
    simp only [Bool.false_eq_true, if_false] at this
    rw [e] at this
    exact RT.conseq this (fun _ _ _ h => h) (fun _ _ _ _ _ h => ⟨rfl, h⟩) (fun _ _ _ h => h)

theorem parMergeSort_refs {t : Nat → Addr} (hn : g.vt = none) (hg : ∀ a, g.P a ↔ Seg v 0 v.len a) (hv : In g v) (hb : Buf K g buf) (hl : buf.len = v.len) (ht : StacksOf K g t)
    (hk : K.t = t 0) (hbt : ∀ n i, i < buf.len → buf.addr i ≠ t n) (hT : ∀ i, i < v.len → K.T (v.addr i)) :
    K.Keep g (parMergeSort cfg callAt t v buf) (NdSlice.parMergeSort cfg ask v buf) Eq := by
  unfold parMergeSort NdSlice.parMergeSort
  rw [← hk]
  refine Keep.ite (fun _ => Keep.pure rfl) fun _ => ?_
  refine Keep.ite (fun _ => ?_) fun _ => ?_
  · keep
  · refine Keep.ite (fun _ => ?_) fun _ => parMergeSortChunks_refs hn hg hv hb hl ht hk hbt hT (by omega)
    refine Keep.bind (parMergeSortSeq_refs hn hv hb) ?_
    rintro r _ rfl
    keep

end NdSlice.Refs
