import Verif.Proof.InPlace

/-
Continuation of `Verif.Proof.InPlace`: the merge sorts, whose buffer is not initialised.
-/

namespace NdSlice

variable {α ι ω : Type} {X : α → Prop} {ok : ι → Prop} {I J : Addr → Prop} {cfg : Cfg} {less : α → α → Prog α ι ω Bool} {v w buf : View}

/-- The cells from `a` to before `b` of a view are initialised (as far as the view has them). -/
def Filled (I : Addr → Prop) (v : View) (a b : Nat) : Prop := ∀ i, a ≤ i → i < b → i < v.len → I (v.addr i)

theorem Filled.more {a b : Nat} (h : Filled I v a b) (hI : Sub I J) : Filled J v a b := fun i h1 h2 h3 => hI _ (h i h1 h2 h3)

theorem VIn.more (h : VIn I v) (hI : Sub I J) : VIn J v := fun i hi => hI _ (h i hi)

theorem Filled.mono {a b c : Nat} (h : Filled I v a b) (hc : c ≤ b) : Filled I v a c := fun i h1 h2 h3 => h i h1 (by omega) h3

theorem Init.triv {β : Type} {p : Prog α ι ω β} {Q : β → (Addr → Prop) → Prop} {E : (Addr → Prop) → Prop} (h : Init X ok p Q E I) :
    Init X ok p (fun _ _ => True) (fun _ => True) I := h.conseq (fun _ _ _ _ => trivial) fun _ _ _ => trivial

namespace In

theorem fget {a b i : Nat} (h : Filled I buf a b) (h1 : a ≤ i) (h2 : i < b) : In (ω := ω) X ok I (buf.get i) X :=
  ite (fun hi => get (h i h1 h2 hi)) fun _ => ub

/-! ### Merge sort -/

theorem mergeHoleDrop_in {s f d : Nat} (h : s ≤ f) (hb : Filled I buf s f) : In (ω := ω) X ok I (mergeHoleDrop cfg v buf s f d) Any := by
  unfold mergeHoleDrop
  rw [show (NdSlice.usub cfg f s : Prog α ι ω Nat) = Pure.pure (f - s) from if_pos h]
  refine bind (Q := fun n => n = f - s) (pure rfl) ?_
  rintro n rfl
  exact forUp fun j _ hj => bindV (fget hb (by omega) (by omega)) fun _ hx => vcset hx

/-- Ways of reading initialised cells. -/
def RdIn (X : α → Prop) (ok : ι → Prop) (rd : View → Nat → Prog α ι ω α) : Prop := ∀ {I v i}, VIn I v → In X ok I (rd v i) X

variable {rd : View → Nat → Prog α ι ω α}

theorem pick_in (hr : RdIn X ok rd) (hv : VIn I v) {a c i j : Nat} (hb : Filled I buf a c) (h1 : a ≤ j) (h2 : j < c) {b : Bool} :
    In X ok I (pick rd v buf i j b) X := ite (fun _ => hr hv) fun _ => fget hb h1 h2

theorem mergeFwdBody_in (hl : LessIn X ok less) (hr : RdIn X ok rd) (hv : VIn I v) {f : Nat} (hb : Filled I buf 0 f) {s : Nat × Nat × Nat}
    (hs : s.1 ≤ f) : In X ok I (mergeFwdBody cfg less rd v buf f s) (fun y => Sum.elim (fun s => s.1 ≤ f) (fun s => s.1 ≤ f) y) := by
  rcases s with ⟨l, r, o⟩
  dsimp only at hs
  unfold mergeFwdBody
  refine ite (fun h => ?_) (fun _ => pure (b := Sum.inr _) hs)
  simp only [Bool.and_eq_true, decide_eq_true_eq] at h
  refine bindV (vget hv) fun x hx => bindV (fget hb (Nat.zero_le _) h.1) fun y hy => bindT (onPanic (hl hx hy) ?_) fun b => ?_
  · exact mergeHoleDrop_in hs fun i _ h2 h3 => hb i (Nat.zero_le _) h2 h3
  · refine bindV (pick_in hr hv hb (Nat.zero_le _) h.1) fun z hz => bindT (vcset hz) fun _ => pure (b := Sum.inl _) ?_
    show (if b then l else l + 1) ≤ f
    split <;> omega

theorem mergeBwdBody_in (hl : LessIn X ok less) (hr : RdIn X ok rd) (hv : VIn I v) {f : Nat} (hb : Filled I buf 0 f) {s : Nat × Nat × Nat}
    (hs : s.2.1 ≤ f) : In X ok I (mergeBwdBody cfg less rd v buf s) (fun y => Sum.elim (fun s => s.2.1 ≤ f) (fun s => s.2.1 ≤ f) y) := by
  rcases s with ⟨l, r, o⟩
  dsimp only at hs
  unfold mergeBwdBody
  refine ite (fun h => ?_) (fun _ => pure (b := Sum.inr _) hs)
  simp only [Bool.and_eq_true, decide_eq_true_eq] at h
  refine bindV (fget hb (Nat.zero_le _) (by omega)) fun x hx => bindV (vget hv) fun y hy => bindT (onPanic (hl hx hy) ?_) fun b => ?_
  · exact mergeHoleDrop_in (Nat.zero_le _) fun i h1 h2 h3 => hb i (Nat.zero_le _) (by omega) h3
  · refine bindV (pick_in hr hv hb (Nat.zero_le _) (by omega)) fun z hz => bindT usub fun o => bindT (vcset hz) fun _ => pure (b := Sum.inl _) ?_
    show (if b then r else r - 1) ≤ f
    split <;> omega

/-- After copying, the first cells of the buffer are initialised. -/
theorem copyToBuf_init (hv : VIn I v) (hI : Sub I J) {a n : Nat} :
    Init (ω := ω) X ok (copyToBuf v buf a n) (fun _ K => Filled K buf 0 n) (fun _ => True) J := by
  unfold copyToBuf
  have := Init.forUp (X := X) (ok := ok) (ω := ω) (E := fun _ => True) (I := I) (J := J) (n := n) (i := 0)
    (body := fun i => do
      let x ← v.idx (a + i)
      buf.set i x) (Inv := fun j K => Filled K buf 0 j) ?_ hI (fun i _ h2 => absurd h2 (Nat.not_lt_zero _))
  · rwa [Nat.zero_add] at this
  · intro j K hK _ _ hj
    refine Init.seq (vidx hv K hK) fun x L hL hx => ?_
    unfold View.set
    split
    · refine ⟨hx, fun i _ h2 h3 => ?_⟩
      by_cases hi : i = j
      · exact .inr (by rw [hi])
      · exact .inl (hL _ (hj i (Nat.zero_le _) (by omega) h3))
    · trivial

theorem merge_in (hl : LessIn X ok less) (hr : RdIn X ok rd) (hv : VIn I v) {m : Nat} : In X ok I (merge cfg less rd v m buf) Any := by
  unfold merge
  refine bindT usub fun rest => ite (fun h => ?_) (fun h => ?_)
  · intro J hJ
    refine Init.seq (copyToBuf_init hv hJ) fun _ K hK hb => ?_
    have hv := hv.more (hJ.trans hK)
    refine (bind (loop (Q := fun s => s.1 ≤ m) (T := fun s => s.1 ≤ m) (fun s hs => mergeFwdBody_in hl hr hv hb hs) (Nat.zero_le _)) ?_ :
      In X ok K _ Any) K (Sub.refl K)
    rintro ⟨l, r, o⟩ hs
    exact mergeHoleDrop_in hs fun i _ h2 h3 => hb i (Nat.zero_le _) h2 h3
  · intro J hJ
    refine Init.seq (copyToBuf_init hv hJ) fun _ K hK hb => ?_
    have hv := hv.more (hJ.trans hK)
    refine (bind (loop (Q := fun s => s.2.1 ≤ rest) (T := fun s => s.2.1 ≤ rest) (fun s hs => mergeBwdBody_in hl hr hv hb hs) (Nat.le_refl _)) ?_ :
      In X ok K _ Any) K (Sub.refl K)
    rintro ⟨l, r, o⟩ hs
    exact mergeHoleDrop_in (Nat.zero_le _) fun i _ h2 h3 => hb i (Nat.zero_le _) (Nat.lt_of_lt_of_le h2 hs) h3

theorem streakLoop_in (hl : LessIn X ok less) (hv : VIn I v) {r : Bool} {e n : Nat} :
    In (ω := ω) X ok I (streakLoop less v r e n) Any := by
  induction n generalizing e with
  | zero => unfold streakLoop; in_all
  | succ n ih => unfold streakLoop; in_all; exact ih

macro_rules | `(tactic| in_lemma) => `(tactic| with_reducible first
  | exact merge_in ‹_› ‹_› ‹_› | exact streakLoop_in ‹_› ‹_›)

theorem findStreak_in (hl : LessIn X ok less) (hv : VIn I v) : In (ω := ω) X ok I (findStreak less v) Any := by
  unfold findStreak; in_all

theorem provideSortedBatch_in (hl : LessIn X ok less) (hv : VIn I v) {s e : Nat} :
    In (ω := ω) X ok I (provideSortedBatch cfg less v s e) Any := by
  unfold provideSortedBatch; in_all

macro_rules | `(tactic| in_lemma) => `(tactic| with_reducible first
  | exact findStreak_in ‹_› ‹_› | exact provideSortedBatch_in ‹_› ‹_›)

theorem nextRun_in (hl : LessIn X ok less) (hv : VIn I v) {s : Nat} :
    In (ω := ω) X ok I (nextRun cfg less v s) Any := by
  unfold nextRun; in_all

macro_rules | `(tactic| in_lemma) => `(tactic| with_reducible exact nextRun_in ‹_› ‹_›)

section RunVec

theorem rvDrop_in {rv : RunVec} : In (ω := ω) X ok I rv.drop Any := by
  unfold RunVec.drop
  cases rv.dropHeap <;> in_all

macro_rules | `(tactic| in_lemma) => `(tactic| with_reducible exact rvDrop_in)

theorem rvPush_in {rv : RunVec} {al : Alloc} {r : TimRun} : In (ω := ω) X ok I (rv.push al r) Any := by
  unfold RunVec.push
  in_all
  · cases rv.grow with
    | none => in_all
    | some rv =>
      dsimp only
      cases rv.write r <;> in_all
  · cases rv.write r <;> in_all

theorem rvIdx_in {rv : RunVec} {i : Nat} : In (ω := ω) X ok I (rv.idx i) Any := by
  unfold RunVec.idx
  in_all
  cases rv.cell i <;> in_all

theorem rvSetIdx_in {rv : RunVec} {i : Nat} {r : TimRun} : In (ω := ω) X ok I (rv.setIdx i r) Any := by
  unfold RunVec.setIdx
  in_all
  cases rv.heap[rv.buf]? <;> in_all

theorem rvRemove_in {rv : RunVec} {i : Nat} : In (ω := ω) X ok I (rv.remove i) Any := by
  unfold RunVec.remove
  in_all
  cases rv.heap[rv.buf]? <;> in_all

theorem rvAsSlice_in {rv : RunVec} : In (ω := ω) X ok I rv.asSlice Any := by
  unfold RunVec.asSlice
  cases (List.range rv.len).mapM rv.cell <;> in_all

macro_rules | `(tactic| in_lemma) => `(tactic| with_reducible first
  | exact rvPush_in | exact rvIdx_in | exact rvSetIdx_in | exact rvRemove_in | exact rvAsSlice_in)

end RunVec

theorem collapseBody_in (hl : LessIn X ok less) (hv : VIn I v) {rv : RunVec} :
    In (ω := ω) X ok I (collapseBody cfg less v buf rv) Any := by
  unfold collapseBody
  have hr : RdIn X ok (ω := ω) View.get := vget
  refine bindT rvAsSlice_in fun rs => ?_
  cases collapse rs v.len <;> in_all

macro_rules | `(tactic| in_lemma) => `(tactic| with_reducible exact collapseBody_in ‹_› ‹_›)

theorem mergeSort_in (hl : LessIn X ok less) {al : Alloc} (hv : VIn I v) :
    In (ω := ω) X ok I (mergeSort cfg less al v buf) Any := by
  unfold mergeSort mergeSortWatch
  in_all
  rename_i s
  rcases s with ⟨s, rv⟩
  unfold mergeSortBody
  in_all

macro_rules | `(tactic| in_lemma) => `(tactic| with_reducible exact mergeSort_in ‹_› ‹_›)

theorem stableSort_in (hl : LessIn X ok less) {al : Alloc} (hv : VIn I v) :
    In (ω := ω) X ok I (stableSort cfg less al v buf) Any := by
  unfold stableSort; in_all

/-! ### Parallel merge sort -/

theorem parInsertHeadLoop_in (hl : LessIn X ok less) (hv : VIn I v) {x} (hx : X x) {d n : Nat} :
    In (ω := ω) X ok I (parInsertHeadLoop less v x d n) Any := by
  induction n generalizing d with
  | zero => unfold parInsertHeadLoop; in_all
  | succ n ih => unfold parInsertHeadLoop; in_all; exact ih

macro_rules | `(tactic| in_lemma) => `(tactic| with_reducible exact parInsertHeadLoop_in ‹_› ‹_› ‹_›)

theorem parInsertHead_in (hl : LessIn X ok less) (hv : VIn I v) : In (ω := ω) X ok I (parInsertHead less v) Any := by
  unfold parInsertHead; in_all

macro_rules | `(tactic| in_lemma) => `(tactic| with_reducible exact parInsertHead_in ‹_› ‹_›)

theorem parStreak_in (hl : LessIn X ok less) (hv : VIn I v) {r : Bool} {s : Nat} : In (ω := ω) X ok I (parStreak less v r s) Any := by
  induction s with
  | zero => unfold parStreak; in_all
  | succ n ih => unfold parStreak; in_all

theorem parExtend_in (hl : LessIn X ok less) (hv : VIn I v) {e s : Nat} : In (ω := ω) X ok I (parExtend less v e s) Any := by
  induction s with
  | zero => unfold parExtend; in_all
  | succ n ih => unfold parExtend; in_all

macro_rules | `(tactic| in_lemma) => `(tactic| with_reducible first
  | exact parStreak_in ‹_› ‹_› | exact parExtend_in ‹_› ‹_›)

theorem parNextRun_in (hl : LessIn X ok less) (hv : VIn I v) {e : Nat} : In (ω := ω) X ok I (parNextRun cfg less v e) Any := by
  unfold parNextRun; in_all

theorem runAt_in {rs : List TimRun} {i : Nat} : In (ω := ω) X ok I (runAt rs i) Any := by
  unfold runAt
  cases rs[i]? <;> in_all

macro_rules | `(tactic| in_lemma) => `(tactic| with_reducible first
  | exact parNextRun_in ‹_› ‹_› | exact runAt_in)

theorem parCollapseBody_in (hl : LessIn X ok less) (hv : VIn I v) {rs : List TimRun} :
    In (ω := ω) X ok I (parCollapseBody cfg less v buf rs) Any := by
  unfold parCollapseBody
  have hr : RdIn X ok (ω := ω) View.idx := vidx
  cases parCollapse rs <;> in_all

macro_rules | `(tactic| in_lemma) => `(tactic| with_reducible exact parCollapseBody_in ‹_› ‹_›)

theorem parMergeSortBody_in (hl : LessIn X ok less) (hv : VIn I v) {s : Nat × List TimRun} :
    In (ω := ω) X ok I (parMergeSortBody cfg less v buf s) Any := by
  rcases s with ⟨e, rs⟩
  unfold parMergeSortBody
  in_all
  rename_i r
  cases r <;> in_all

macro_rules | `(tactic| in_lemma) => `(tactic| with_reducible exact parMergeSortBody_in ‹_› ‹_›)


theorem parMergeSortSeq_in (hl : LessIn X ok less) (hv : VIn I v) : In (ω := ω) X ok I (parMergeSortSeq cfg less v buf) Any := by
  unfold parMergeSortSeq
  in_all
  rename_i r
  cases r <;> in_all

macro_rules | `(tactic| in_lemma) => `(tactic| with_reducible exact parMergeSortSeq_in ‹_› ‹_›)

/-! ### Merging in parallel -/

variable {left right dest src : View}

theorem splitForMerge_in (hl : LessIn X ok less) (hv : VIn I left) (hw : VIn I right) : In (ω := ω) X ok I (splitForMerge less left right) Any := by
  unfold splitForMerge
  in_all
  · rename_i s
    rcases s with ⟨a, b⟩
    unfold splitRightBody
    in_all
  · rename_i s
    rcases s with ⟨a, b⟩
    unfold splitLeftBody
    in_all

end In

variable {left right dest src : View} {E : (Addr → Prop) → Prop}

theorem idx_eq {i : Nat} (h : i < v.len) : (v.idx i : Prog α ι ω α) = .get (v.addr i) .ret := if_pos h
theorem cset_eq {i : Nat} {x : α} (h : i < v.len) : (v.cset i x : Prog α ι ω Unit) = .set (v.addr i) x (.ret ()) := if_pos h
theorem usub_eq {a b : Nat} (h : b ≤ a) : (NdSlice.usub cfg a b : Prog α ι ω Nat) = Pure.pure (a - b) := if_pos h
theorem splitAt_eq {i : Nat} (h : i ≤ v.len) : (v.splitAt i : Prog α ι ω (View × View)) = Pure.pure (v.sub 0 i, v.sub i (v.len - i)) := if_pos h
theorem slice_eq {a b : Nat} (h : a ≤ b) (h' : b ≤ v.len) : (v.slice a b : Prog α ι ω View) = Pure.pure (v.sub a (b - a)) := by
  unfold View.slice
  rw [if_neg (Nat.not_lt.mpr h), if_pos ⟨by omega, h'⟩]

theorem sub_addr' (v : View) (a n i : Nat) : (v.sub a n).addr i = v.addr (a + i) := by
  unfold View.sub View.addr
  push_cast
  rw [Int.mul_add, Int.add_assoc]

/-- A copy does not panic and initialises. -/
theorem copyUp_init {s d n : Nat} (hs : s + n ≤ src.len) (hd : d + n ≤ dest.len) (h : Filled J src s (s + n)) :
    Init (ω := ω) X ok (copyUp src dest s d n) (fun _ K => Filled K dest d (d + n)) E J := by
  unfold copyUp
  have := Init.forUp (X := X) (ok := ok) (ω := ω) (E := E) (I := J) (J := J) (n := n) (i := 0)
    (body := fun i => do
      let x ← src.idx (s + i)
      dest.cset (d + i) x) (Inv := fun j K => Filled K dest d (d + j)) ?_ (Sub.refl J) (fun i h1 h2 => absurd h2 (by omega))
  · rwa [Nat.zero_add] at this
  · intro j K hK _ hj hf
    rw [idx_eq (by omega)]
    refine Init.seq (Q := fun x L => X x ∧ L = K) (⟨hK _ (h _ (by omega) (by omega) (by omega)), fun x hx => ⟨hx, rfl⟩⟩) ?_
    rintro x L _ ⟨hx, rfl⟩
    rw [cset_eq (by omega)]
    refine ⟨hx, fun i h1 h2 h3 => ?_⟩
    by_cases hi : i = d + j
    · exact .inr (by rw [hi])
    · exact .inl (hf i h1 (by omega) h3)

/-- Dropping `State` copies the rest. -/
theorem stateDrop_init {l r d : Nat} (hl : l ≤ left.len) (hr : r ≤ right.len) (he : d = l + r) (hd : left.len + right.len ≤ dest.len)
    (h1 : VIn J left) (h2 : VIn J right) (h3 : Filled J dest 0 d) :
    Init (ω := ω) X ok (stateDrop cfg left right dest l r d) (fun _ K => Filled K dest 0 (left.len + right.len)) E J := by
  unfold stateDrop
  rw [usub_eq hl, usub_eq hr]
  show Init X ok (copyUp left dest l d (left.len - l) >>= fun _ => copyUp right dest r (d + (left.len - l)) (right.len - r)) _ E J
  refine Init.seq (copyUp_init (by omega) (by omega) fun i _ _ hi => h1 i hi) fun _ K hK hf => ?_
  refine (copyUp_init (by omega) (by omega) fun i _ _ hi => hK _ (h2 i hi)).conseq (fun _ L hL hg => ?_) (fun _ _ h => h)
  intro i _ hi hi'
  by_cases c1 : i < d
  · exact hL _ (hK _ (h3 i (Nat.zero_le _) c1 hi'))
  · by_cases c2 : i < d + (left.len - l)
    · exact hL _ (hf i (by omega) c2 hi')
    · exact hg i (by omega) (by omega) hi'

/-- A panic of user code, with what is initialised. -/
theorem In.init {β : Type} {p : Prog α ι ω β} {Q : β → Prop} (h : In X ok I p Q) : Init X ok p (fun b _ => Q b) (fun _ => True) I := h I (Sub.refl I)

theorem parMergeBody_init (hl : LessIn X ok less) (hd : left.len + right.len ≤ dest.len) (h1 : VIn J left) (h2 : VIn J right) {s : Nat × Nat × Nat}
    (hs : s.1 ≤ left.len ∧ s.2.1 ≤ right.len ∧ s.2.2 = s.1 + s.2.1 ∧ Filled J dest 0 s.2.2) :
    Init X ok (parMergeBody cfg less left right dest s)
      (fun y K => Sum.elim (fun s => s.1 ≤ left.len ∧ s.2.1 ≤ right.len ∧ s.2.2 = s.1 + s.2.1 ∧ Filled K dest 0 s.2.2)
        (fun s => s.1 ≤ left.len ∧ s.2.1 ≤ right.len ∧ s.2.2 = s.1 + s.2.1 ∧ Filled K dest 0 s.2.2) y)
      (fun K => Filled K dest 0 (left.len + right.len)) J := by
  rcases s with ⟨l, r, d⟩
  obtain ⟨e1, e2, e3, e4⟩ := hs
  dsimp only at e1 e2 e3 e4
  unfold parMergeBody
  dsimp only
  split
  · rename_i hc
    simp only [Bool.and_eq_true, decide_eq_true_eq] at hc
    rw [idx_eq hc.2, idx_eq hc.1]
    refine Init.seq (Q := fun x L => X x ∧ L = J) ⟨h2 _ hc.2, fun x hx => ⟨hx, rfl⟩⟩ ?_
    rintro x L _ ⟨hx, rfl⟩
    refine Init.seq (Q := fun x K => X x ∧ K = L) ⟨h1 _ hc.1, fun x hx => ⟨hx, rfl⟩⟩ ?_
    rintro y J _ ⟨hy, rfl⟩
    refine Init.seq (Q := fun _ _ => True) (Init.onPanic (E' := fun _ => True) (In.init (hl hx hy)).triv fun K hK _ => ?_) ?_
    · refine (stateDrop_init e1 e2 e3 hd (h1.more hK) (h2.more hK) (e4.more hK)).conseq (fun _ _ _ h => h) fun _ _ h => h
    · intro b K hK _
      have fin : ∀ z, X z → ∀ L, Sub K L → Filled (Plus L (dest.addr d)) dest 0 (d + 1) := by
        intro z _ L hL i _ h3 h4
        by_cases hi : i = d
        · exact .inr (by rw [hi])
        · exact .inl (hL _ (hK _ (e4 i (Nat.zero_le _) (by omega) h4)))
      split
      · refine Init.seq (Q := fun x L => X x ∧ L = K) ⟨hK _ (h2 _ hc.2), fun x hx => ⟨hx, rfl⟩⟩ ?_
        rintro z L _ ⟨hz, rfl⟩
        rw [cset_eq (by omega)]
        exact ⟨hz, e1, hc.2, by show d + 1 = l + (r + 1); omega, fin z hz _ (Sub.refl _)⟩
      · refine Init.seq (Q := fun x L => X x ∧ L = K) ⟨hK _ (h1 _ hc.1), fun x hx => ⟨hx, rfl⟩⟩ ?_
        rintro z L _ ⟨hz, rfl⟩
        rw [cset_eq (by omega)]
        exact ⟨hz, hc.1, e2, by show d + 1 = l + 1 + r; omega, fin z hz _ (Sub.refl _)⟩
  · exact ⟨e1, e2, e3, e4⟩

theorem parMerge_init (hl : LessIn X ok less) {n : Nat} (hd : left.len + right.len ≤ dest.len) (h1 : VIn J left) (h2 : VIn J right) :
    Init X ok (parMerge cfg less n left right dest) (fun _ K => Filled K dest 0 (left.len + right.len))
      (fun K => Filled K dest 0 (left.len + right.len)) J := by
  induction n generalizing left right dest J with
  | zero => trivial
  | succ n ih =>
    unfold parMerge
    split
    · refine Init.seq (Init.loop (I := J) (J := J)
        (Inv := fun s K => s.1 ≤ left.len ∧ s.2.1 ≤ right.len ∧ s.2.2 = s.1 + s.2.1 ∧ Filled K dest 0 s.2.2)
        (T := fun s K => s.1 ≤ left.len ∧ s.2.1 ≤ right.len ∧ s.2.2 = s.1 + s.2.1 ∧ Filled K dest 0 s.2.2)
        (fun s K hK hs => parMergeBody_init hl hd (h1.more hK) (h2.more hK) hs) (Sub.refl J)
        ⟨Nat.zero_le _, Nat.zero_le _, rfl, fun i _ h => absurd h (Nat.not_lt_zero _)⟩) ?_
      rintro ⟨l, r, d⟩ K hK ⟨e1, e2, e3, e4⟩
      exact stateDrop_init e1 e2 e3 hd (h1.more hK) (h2.more hK) e4
    · refine Init.seq (Q := fun t _ => ∃ p q, p ≤ left.len ∧ q ≤ right.len ∧
        t = (left.sub 0 p, left.sub p (left.len - p), right.sub 0 q, right.sub q (right.len - q))) (Init.onPanic (E' := fun _ => True) ?_ ?_) ?_
      · refine Init.seq (In.init (In.splitForMerge_in hl h1 h2)) ?_
        rintro ⟨p, q⟩ K hK _
        dsimp only
        unfold View.splitAt
        by_cases hp : p ≤ left.len
        · rw [if_pos hp]
          by_cases hq : q ≤ right.len
          · rw [if_pos hq]
            exact ⟨p, q, hp, hq, rfl⟩
          · rw [if_neg hq]
            trivial
        · rw [if_neg hp]
          trivial
      · intro K hK _
        exact (stateDrop_init (Nat.zero_le _) (Nat.zero_le _) rfl hd (h1.more hK) (h2.more hK) fun i _ h => absurd h (Nat.not_lt_zero _)).conseq
          (fun _ _ _ h => h) fun _ _ h => h
      · rintro _ K hK ⟨p, q, hp, hq, rfl⟩
        have e : (left.sub 0 p).len + (right.sub 0 q).len = p + q := rfl
        dsimp only
        rw [e, splitAt_eq (by omega)]
        have h1 := h1.more hK
        have h2 := h2.more hK
        have j1 := ih (left := left.sub 0 p) (right := right.sub 0 q) (dest := dest.sub 0 (p + q)) (J := K) (Nat.le_refl _)
          (h1.sub (by omega)) (h2.sub (by omega))
        have j2 := ih (left := left.sub p (left.len - p)) (right := right.sub q (right.len - q)) (dest := dest.sub (p + q) (dest.len - (p + q)))
          (J := K) (by show left.len - p + (right.len - q) ≤ dest.len - (p + q); omega) (h1.sub (by omega)) (h2.sub (by omega))
        have both : ∀ L L1 L2, Sub L1 L → Sub L2 L → Filled L1 (dest.sub 0 (p + q)) 0 (p + q) →
            Filled L2 (dest.sub (p + q) (dest.len - (p + q))) 0 (left.len - p + (right.len - q)) → Filled L dest 0 (left.len + right.len) := by
          intro L L1 L2 hL1 hL2 f1 f2 i _ hi hi'
          by_cases c : i < p + q
          · have := f1 i (Nat.zero_le _) c c
            rw [sub_addr', Nat.zero_add] at this
            exact hL1 _ this
          · have := f2 (i - (p + q)) (Nat.zero_le _) (by omega) (by show i - (p + q) < dest.len - (p + q); omega)
            rw [sub_addr', show p + q + (i - (p + q)) = i by omega] at this
            exact hL2 _ this
        show Init X ok (Prog.rayonJoin (parMerge cfg less n (left.sub 0 p) (right.sub 0 q) (dest.sub 0 (p + q)))
          (parMerge cfg less n (left.sub p (left.len - p)) (right.sub q (right.len - q)) (dest.sub (p + q) (dest.len - (p + q)))) >>= fun _ => Pure.pure ()) _ _ K
        refine Init.seq (Q := fun _ L => Filled L dest 0 (left.len + right.len))
          (Init.rayonJoin j1 j2 (fun _ _ L L1 L2 _ hL1 hL2 f1 f2 => both L L1 L2 hL1 hL2 f1 f2) (fun L L1 L2 _ hL1 hL2 f1 f2 => ?_)) (fun _ L _ h => h)
        refine both L L1 L2 hL1 hL2 ?_ ?_
        · rcases f1 with f1 | ⟨_, f1⟩ <;> exact f1
        · rcases f2 with f2 | ⟨_, f2⟩ <;> exact f2

/-- Chunks one after the other from `p` to `e`. -/
def Follow : Nat → List (Nat × Nat) → Nat → Prop
  | p, [], e => p = e
  | p, c :: cs, e => c.1 = p ∧ c.1 ≤ c.2 ∧ Follow c.2 cs e

theorem Follow.le {p e : Nat} {cs : List (Nat × Nat)} (h : Follow p cs e) : p ≤ e := by
  induction cs generalizing p with
  | nil => exact Nat.le_of_eq h
  | cons c cs ih =>
    have := ih h.2.2
    have := h.1
    have := h.2.1
    omega

theorem Follow.append {p e : Nat} {cs ds : List (Nat × Nat)} (h : Follow p (cs ++ ds) e) : ∃ m, Follow p cs m ∧ Follow m ds e := by
  induction cs generalizing p with
  | nil => exact ⟨p, rfl, h⟩
  | cons c cs ih =>
    obtain ⟨m, h1, h2⟩ := ih h.2.2
    exact ⟨m, ⟨h.1, h.2.1, h1⟩, h2⟩

theorem Follow.head {p e : Nat} {cs : List (Nat × Nat)} (h : Follow p cs e) (hc : 0 < cs.length) : ∃ b, cs[0]? = some (p, b) := by
  cases cs with
  | nil => exact absurd hc (Nat.lt_irrefl _)
  | cons c cs => exact ⟨c.2, by rw [← h.1]; rfl⟩

theorem Follow.last {p e : Nat} {cs : List (Nat × Nat)} (h : Follow p cs e) (hc : 0 < cs.length) : ∃ a, cs[cs.length - 1]? = some (a, e) := by
  induction cs generalizing p with
  | nil => exact absurd hc (Nat.lt_irrefl _)
  | cons c cs ih =>
    cases cs with
    | nil =>
      obtain ⟨_, _, h⟩ := h
      have h : c.2 = e := h
      exact ⟨c.1, by rw [← h]; rfl⟩
    | cons d cs =>
      obtain ⟨a, ha⟩ := ih h.2.2 (Nat.succ_pos _)
      exact ⟨a, by simpa using ha⟩

theorem chunkAt_some {cs : List (Nat × Nat)} {i : Nat} {c : Nat × Nat} (h : cs[i]? = some c) : (chunkAt cs i : Prog α ι ω (Nat × Nat)) = Pure.pure c := by
  unfold chunkAt
  rw [h]

theorem parRecurse_init (hl : LessIn X ok less) {k : Nat} {cs : List (Nat × Nat)} {ib : Bool} {s e : Nat} (hc : 0 < cs.length) (h : Follow s cs e)
    (hv : e ≤ v.len) (hb : e ≤ buf.len) (hI : VIn J v) :
    Init X ok (parRecurse cfg less v buf k cs ib) (fun _ K => ib = true → Filled K buf s e) (fun K => ib = true → Filled K buf s e) J := by
  induction k generalizing cs ib s e J with
  | zero => trivial
  | succ k ih =>
    unfold parRecurse
    have hda : (debugAssert cfg (decide (cs.length > 0)) : Prog α ι ω Unit) = Pure.pure () := by
      unfold debugAssert
      rw [if_neg]
      simp [hc]
    rw [hda]
    have hse := h.le
    show Init X ok (if cs.length == 1 then _ else _) _ _ J
    by_cases hlen : (cs.length == 1) = true
    · rw [if_pos hlen]
      simp only [beq_iff_eq] at hlen
      cases ib with
      | false => exact fun h => absurd h (by decide)
      | true =>
        obtain ⟨⟨a, b⟩, rfl⟩ := List.length_eq_one_iff.mp hlen
        obtain ⟨ha, _, hb'⟩ := h
        have hb' : b = e := hb'
        have ha : a = s := ha
        subst ha hb'
        rw [chunkAt_some (i := 0) rfl]
        show Init X ok (copyUp v buf a a (b - a)) _ _ J
        refine (copyUp_init (by omega) (by omega) fun i _ _ hi => hI i hi).conseq (fun _ K _ hK _ => ?_) (fun _ _ h => h)
        rwa [show a + (b - a) = b by omega] at hK
    · rw [if_neg hlen]
      simp only [beq_iff_eq] at hlen
      have hsplit : cs = cs.take (cs.length / 2) ++ cs.drop (cs.length / 2) := (List.take_append_drop _ _).symm
      have h' := h
      rw [hsplit] at h'
      obtain ⟨m, c1, c2⟩ := h'.append
      obtain ⟨e0, he0⟩ := h.head hc
      obtain ⟨e1, he1⟩ := c2.head (by simp; omega)
      obtain ⟨e2, he2⟩ := h.last hc
      rw [List.getElem?_drop, Nat.add_zero] at he1
      rw [chunkAt_some he0, chunkAt_some he1, usub_eq (by omega)]
      have hsm := c1.le
      have hme := c2.le
      show Init X ok (chunkAt cs (cs.length - 1) >>= _) _ _ J
      rw [chunkAt_some he2]
      show Init X ok (usub cfg e s >>= _) _ _ J
      rw [usub_eq hse]
      have i1 := fun ib => ih (cs := cs.take (cs.length / 2)) (ib := ib) (J := J) (by simp; omega) c1 (by omega) (by omega) hI
      have i2 := fun ib => ih (cs := cs.drop (cs.length / 2)) (ib := ib) (J := J) (by simp; omega) c2 (by omega) (by omega) hI
      -- what the two calls leave in `src`
      have hjoin : Init X ok (Prog.rayonJoin (parRecurse cfg less v buf k (cs.take (cs.length / 2)) !ib)
          (parRecurse cfg less v buf k (cs.drop (cs.length / 2)) !ib)) (fun _ K => Filled K (if ib then v else buf) s e)
          (fun K => Filled K (if ib then v else buf) s e) J := by
        have both : ∀ L L1 L2, Sub J L → Sub L1 L → Sub L2 L → ((!ib) = true → Filled L1 buf s m) → ((!ib) = true → Filled L2 buf m e) →
            Filled L (if ib then v else buf) s e := by
          intro L L1 L2 hL hL1 hL2 f1 f2
          cases ib with
          | true => exact fun i _ _ hi => hL _ (hI i hi)
          | false =>
            intro i h1 h2 hi
            by_cases c : i < m
            · exact hL1 _ (f1 rfl i h1 c hi)
            · exact hL2 _ (f2 rfl i (by omega) h2 hi)
        refine Init.rayonJoin (i1 _) (i2 _) (fun _ _ L L1 L2 hL hL1 hL2 f1 f2 => both L L1 L2 hL hL1 hL2 f1 f2) (fun L L1 L2 hL hL1 hL2 f1 f2 => ?_)
        refine both L L1 L2 hL hL1 hL2 ?_ ?_
        · rcases f1 with f1 | ⟨_, f1⟩ <;> exact f1
        · rcases f2 with f2 | ⟨_, f2⟩ <;> exact f2
      have hsrc : e ≤ (if ib then v else buf).len := by cases ib <;> assumption
      have hdst : e ≤ (if ib then buf else v).len := by cases ib <;> assumption
      have hfin : ∀ K, Filled K (if ib then buf else v) s e → ib = true → Filled K buf s e := by
        intro K hK h
        subst h
        exact hK
      show Init X ok ((Prog.rayonJoin (parRecurse cfg less v buf k (cs.take (cs.length / 2)) !ib)
        (parRecurse cfg less v buf k (cs.drop (cs.length / 2)) !ib)).onPanic
          (copyUp (if ib then v else buf) (if ib then buf else v) s s (e - s)) >>= _) _ _ J
      generalize (if ib then v else buf) = src at hjoin hsrc ⊢
      generalize (if ib then buf else v) = dest at hdst hfin ⊢
      refine Init.seq (Q := fun _ K => Filled K src s e) (Init.onPanic hjoin fun K hK hf => ?_) fun _ K hK hf => ?_
      · refine (copyUp_init (by omega) (by omega) (hf.mono (by omega))).conseq (fun _ L _ hg => hfin L ?_) (fun _ _ h => h)
        rwa [show s + (e - s) = e by omega] at hg
      · rw [slice_eq hsm (by omega), slice_eq hme (by omega), slice_eq (by omega) (Nat.le_refl _)]
        show Init X ok (parMerge cfg less _ (src.sub s (m - s)) (src.sub m (e - m)) (dest.sub s (dest.len - s))) _ _ K
        have k1 : VIn K (src.sub s (m - s)) := by
          intro i hi
          have hi : i < m - s := hi
          rw [sub_addr']
          exact hf _ (by omega) (by omega) (by omega)
        have k2 : VIn K (src.sub m (e - m)) := by
          intro i hi
          have hi : i < e - m := hi
          rw [sub_addr']
          exact hf _ (by omega) (by omega) (by omega)
        have fin : ∀ L, Filled L (dest.sub s (dest.len - s)) 0 (m - s + (e - m)) → Filled L dest s e := by
          intro L hL i h1 h2 h3
          have := hL (i - s) (Nat.zero_le _) (by omega) (by show i - s < dest.len - s; omega)
          rwa [sub_addr', show s + (i - s) = i by omega] at this
        exact (parMerge_init hl (by show m - s + (e - m) ≤ dest.len - s; omega) k1 k2).conseq (fun _ L _ h => hfin L (fin L h)) (fun L _ h => hfin L (fin L h))

/-- The chunk `i` of 2000 elements. -/
def IsChunk (v : View) (i : Nat) (r : Nat × Nat × MergesortResult) : Prop := r.1 = 2000 * i ∧ r.2.1 = 2000 * i + min 2000 (v.len - 2000 * i)

theorem chunkTask_in (hl : LessIn X ok less) (hv : VIn I v) {i : Nat} (hi : 2000 * i < v.len) :
    In (ω := ω) X ok I (chunkTask cfg less v buf i) (IsChunk v i) := by
  unfold chunkTask
  dsimp only
  exact In.bindT (In.parMergeSortSeq_in hl (hv.sub (by omega))) fun _ => In.pure ⟨rfl, rfl⟩

/-- The chunks from number `i` on to the end, some of them missing. -/
def ChunksFrom (v : View) : Nat → List (Option (Nat × Nat × MergesortResult)) → Prop
  | i, [] => v.len ≤ 2000 * i
  | i, o :: os => 2000 * i < v.len ∧ (∀ r, o = some r → IsChunk v i r) ∧ ChunksFrom v (i + 1) os

theorem chunkTasks_in (hl : LessIn X ok less) (hv : VIn I v) {i n : Nat} (hn : n = (v.len - 2000 * i + 1999) / 2000) :
    In (ω := ω) X ok I (chunkTasks cfg less v buf i n) (ChunksFrom v i) := by
  induction n generalizing i with
  | zero =>
    unfold chunkTasks
    exact In.pure (by show v.len ≤ 2000 * i; omega)
  | succ n ih =>
    unfold chunkTasks
    have hi : 2000 * i < v.len := by omega
    refine In.bind (In.join (Q := fun o => ∀ r, o = some r → IsChunk v i r) (In.choose fun b => ?_) (ih (by omega))) fun r h => ?_
    · cases b
      · exact In.bind (chunkTask_in hl hv hi) fun r h => In.pure fun r' e => by cases e; exact h
      · exact In.pure fun r e => by cases e
    · exact In.pure ⟨hi, h.1, h.2⟩

theorem lateChunks_in (hl : LessIn X ok less) (hv : VIn I v) {i : Nat} {os : List (Option (Nat × Nat × MergesortResult))} (h : ChunksFrom v i os) :
    In (ω := ω) X ok I (lateChunks cfg less v buf i os) (fun rs => ChunksFrom v i (rs.map some)) := by
  induction os generalizing i with
  | nil =>
    unfold lateChunks
    exact In.pure h
  | cons o os ih =>
    cases o with
    | some r =>
      unfold lateChunks
      exact In.bind (ih h.2.2) fun rs hrs => In.pure ⟨h.1, fun r' e => h.2.1 r' e, hrs⟩
    | none =>
      unfold lateChunks
      exact In.bind (chunkTask_in hl hv h.1) fun r hr => In.bind (ih h.2.2) fun rs hrs => In.pure ⟨h.1, fun r' e => by cases e; exact hr, hrs⟩

theorem finishChunk_in (hv : VIn I v) {a b : Nat} {res : MergesortResult} : In (ω := ω) X ok I (finishChunk cfg v a b res) Any := by
  unfold finishChunk
  in_all

theorem canConcat_in (hl : LessIn X ok less) (hv : VIn I v) {res r : MergesortResult} {x : Nat} : In (ω := ω) X ok I (canConcat cfg less v res x r) Any := by
  unfold canConcat
  in_all

theorem concatChunks_in (hl : LessIn X ok less) (hv : VIn I v) {a b i : Nat} {res : MergesortResult} {rest : List (Nat × Nat × MergesortResult)}
    (hab : a ≤ b) (hb : b = min (2000 * i) v.len) (h : ChunksFrom v i (rest.map some)) :
    In (ω := ω) X ok I (concatChunks cfg less v a b res rest) (fun cs => 0 < cs.length ∧ Follow a cs v.len) := by
  induction rest generalizing a b i res with
  | nil =>
    unfold concatChunks
    have h : v.len ≤ 2000 * i := h
    exact In.bind (finishChunk_in hv) fun _ _ => In.pure ⟨Nat.succ_pos _, rfl, hab, by show b = v.len; omega⟩
  | cons r rest ih =>
    rcases r with ⟨x, y, r⟩
    obtain ⟨hi, hr, h⟩ := h
    obtain ⟨h1, h2⟩ := hr _ rfl
    dsimp only at h1 h2
    unfold concatChunks
    refine In.bind (canConcat_in hl hv) fun c _ => In.ite (fun _ => ih (by omega) (by omega) h) fun _ => ?_
    refine In.bind (finishChunk_in hv) fun _ _ => In.bind (ih (by omega) (by omega) h) fun cs hcs => In.pure ⟨Nat.succ_pos _, rfl, hab, ?_⟩
    rw [show x = b by omega] at hcs
    exact hcs.2

theorem parMergeSortChunks_in (hl : LessIn X ok less) (hv : VIn I v) (h0 : 0 < v.len) (hb : v.len ≤ buf.len) :
    In (ω := ω) X ok I (parMergeSortChunks cfg less v buf) Any := by
  unfold parMergeSortChunks
  refine In.bind (chunkTasks_in hl hv (by omega)) fun os hos => In.bind (lateChunks_in hl hv hos) fun rs hrs => ?_
  cases rs with
  | nil => exact absurd (show v.len ≤ 2000 * 0 from hrs) (by omega)
  | cons r rest =>
    rcases r with ⟨a, b, res⟩
    obtain ⟨_, hr, h⟩ := hrs
    obtain ⟨h1, h2⟩ := hr _ rfl
    dsimp only at h1 h2
    refine In.bind (concatChunks_in hl hv (by omega) (by omega) h) fun cs hcs => ?_
    intro J hJ
    exact (parRecurse_init hl hcs.1 hcs.2 (Nat.le_refl _) hb fun i hi => hJ _ (hv i hi)).triv

theorem parMergeSort_in (hl : LessIn X ok less) (hv : VIn I v) (hb : v.len ≤ buf.len) : In (ω := ω) X ok I (parMergeSort cfg less v buf) Any := by
  unfold parMergeSort
  refine In.ite (fun _ => In.pureT) fun _ => In.ite (fun _ => ?_) fun h20 => In.ite (fun _ => ?_) fun _ => parMergeSortChunks_in hl hv (by omega) hb
  · in_all
  · in_all

end NdSlice
