import Verif.Proof.MergeSort
import Verif.Model.ParMerge

/-
The sequential merge sort of a chunk: `merge_sort` of /repo/src/par/merge_sort.rs.
-/

namespace NdSlice

variable {α ι ω : Type} {C : Cmp α ι ω} {cfg : Cfg} {v buf : View}

/-! ### `insert_head` is that of the sequential sort -/

theorem View.idx_eq_get {i : Nat} (h : i < v.len) : (v.idx i : Prog α ι ω α) = v.get i := by
  unfold View.idx View.get; rw [if_pos h, if_pos h]

theorem View.cset_eq_set {i : Nat} {x : α} (h : i < v.len) : (v.cset i x : Prog α ι ω Unit) = v.set i x := by
  unfold View.cset View.set; rw [if_pos h, if_pos h]

theorem parInsertHeadLoop_eq {less : α → α → Prog α ι ω Bool} {tmp : α} {d n : Nat} (h : d + n < v.len) :
    parInsertHeadLoop less v tmp d n = insertHeadLoop less v tmp d n := by
  induction n generalizing d with
  | zero => rfl
  | succ n ih =>
    unfold parInsertHeadLoop insertHeadLoop
    simp only [View.idx_eq_get (v := v) (i := d + 1) (by omega), View.cset_eq_set (v := v) (i := d) (by omega), ih (d := d + 1) (by omega)]

theorem parInsertHead_eq {less : α → α → Prog α ι ω Bool} (h : 2 ≤ v.len) : parInsertHead less v = insertHead ⟨false, 0, false⟩ less v := by
  unfold parInsertHead insertHead
  rw [if_pos h]
  simp only [View.idx_eq_get (v := v) (i := 1) (by omega), View.idx_eq_get (v := v) (i := 0) (by omega),
    View.cset_eq_set (v := v) (i := 0) (by omega), parInsertHeadLoop_eq (v := v) (d := 1) (n := v.len - 2) (by omega)]
  rfl

/-! ### Segments -/

/-- Positions `s` up to `e`. -/
def seg (xs : List α) (s e : Nat) : List α := (xs.drop s).take (e - s)

theorem seg_cons {xs : List α} {s e : Nat} {y : α} (h : s < e) (hy : xs[s]? = some y) : seg xs s e = y :: seg xs (s + 1) e := by
  unfold seg
  obtain ⟨hs, rfl⟩ := List.getElem?_eq_some_iff.mp hy
  rw [List.drop_eq_getElem_cons hs, show e - s = (e - (s + 1)) + 1 by omega, List.take_succ_cons]

theorem seg_append {xs : List α} {s m e : Nat} (h1 : s ≤ m) (h2 : m ≤ e) : seg xs s m ++ seg xs m e = seg xs s e := by
  unfold seg
  rw [show e - s = (m - s) + (e - m) by omega, List.take_add, List.drop_drop, show s + (m - s) = m by omega]

theorem seg_length {xs : List α} {s e : Nat} (he : e ≤ xs.length) : (seg xs s e).length = e - s := by
  unfold seg; simp; omega

theorem seg_full {xs : List α} : seg xs 0 xs.length = xs := by unfold seg; simp

theorem seg_drop {xs : List α} {s : Nat} : seg xs s xs.length = xs.drop s := by
  unfold seg; exact List.take_of_length_le (by simp)

/-- A part replaced. -/
theorem seg_mid {xs ys : List α} {a n : Nat} (ha : a ≤ xs.length) (hy : ys.length = n) :
    seg (xs.take a ++ ys ++ xs.drop (a + n)) a (a + n) = ys := by
  unfold seg
  rw [Nat.add_sub_cancel_left]
  exact drop_part ha hy

theorem seg_left {xs ys : List α} {a n s e : Nat} (ha : a ≤ xs.length) (he : e ≤ a) :
    seg (xs.take a ++ ys ++ xs.drop (a + n)) s e = seg xs s e := by
  have h : ∀ us : List α, seg us s e = seg (us.take a) s e := by
    intro us
    unfold seg
    rw [List.drop_take, List.take_take, Nat.min_eq_left (by omega)]
  rw [h, take_part ha, ← h]

theorem seg_right {xs ys : List α} {a n s e : Nat} (ha : a ≤ xs.length) (hy : ys.length = n) (hs : a + n ≤ s) :
    seg (xs.take a ++ ys ++ xs.drop (a + n)) s e = seg xs s e := by
  unfold seg
  obtain ⟨k, rfl⟩ : ∃ k, s = a + n + k := ⟨s - (a + n), by omega⟩
  rw [← List.drop_drop, List.drop_left' (by simp; omega), List.drop_drop]

theorem drop_right {xs ys : List α} {a n e : Nat} (ha : a ≤ xs.length) (hy : ys.length = n) (hs : a + n ≤ e) :
    (xs.take a ++ ys ++ xs.drop (a + n)).drop e = xs.drop e := by
  obtain ⟨k, rfl⟩ : ∃ k, e = a + n + k := ⟨e - (a + n), by omega⟩
  rw [← List.drop_drop, List.drop_left' (by simp; omega), List.drop_drop]

/-! ### Runs -/

theorem Streak.cons {rev : Bool} {x y : α} {xs : List α} (h : C.ans x y rev) (hs : Streak C rev (x :: xs)) : Streak C rev (y :: x :: xs) := by
  intro lt hg
  have h1 := hs lt hg
  have h2 := hg.2 _ _ _ h
  cases rev with
  | true =>
    simp only [if_true] at h1 ⊢
    refine List.pairwise_cons.mpr ⟨fun b hb => ?_, h1⟩
    rcases List.mem_cons.mp hb with rfl | hb
    · exact h2.symm
    · exact hg.1.trans _ _ _ ((List.pairwise_cons.mp h1).1 b hb) h2.symm
  | false =>
    simp only [Bool.false_eq_true, if_false] at h1 ⊢
    refine Sorted.cons_iff.mpr ⟨fun b hb => ?_, h1⟩
    rcases List.mem_cons.mp hb with rfl | hb
    · exact h2.symm
    · exact hg.1.ntrans _ _ _ ((Sorted.cons_iff.mp h1).1 b hb) h2.symm

theorem Streak.single {rev : Bool} {x : α} : Streak C rev [x] := by
  intro lt _
  cases rev
  · exact Sorted.single _
  · exact List.pairwise_singleton _ _

theorem Streak.step {rev : Bool} {xs : List α} {s e : Nat} {x y : α} (h : s + 1 < e) (hx : xs[s + 1]? = some x) (hy : xs[s]? = some y)
    (hb : C.ans x y rev) (hs : Streak C rev (seg xs (s + 1) e)) : Streak C rev (seg xs s e) := by
  rw [seg_cons (by omega) hy, seg_cons (by omega) hx]
  rw [seg_cons (by omega) hx] at hs
  exact hs.cons hb

/-- With at least two elements the list is neither sorted nor strictly descending. -/
def Broken (C : Cmp α ι ω) (xs : List α) : Prop := ∀ lt, C.Good lt → 2 ≤ xs.length → ¬ Sorted lt xs ∧ ¬ StrictDesc lt xs

theorem not_sorted_of_ans {xs : List α} {i : Nat} {x y : α} (hy : xs[i]? = some y) (hx : xs[i + 1]? = some x) (h : C.ans x y true) {lt : α → α → Bool}
    (hg : C.Good lt) : ¬ Sorted lt xs := by
  intro hs
  obtain ⟨hi, rfl⟩ := List.getElem?_eq_some_iff.mp hy
  obtain ⟨hj, rfl⟩ := List.getElem?_eq_some_iff.mp hx
  have := List.pairwise_iff_getElem.mp hs i (i + 1) hi hj (by omega)
  rw [← hg.2 _ _ _ h] at this
  cases this

theorem not_desc_of_ans {xs : List α} {i : Nat} {x y : α} (hy : xs[i]? = some y) (hx : xs[i + 1]? = some x) (h : C.ans x y false) {lt : α → α → Bool}
    (hg : C.Good lt) : ¬ StrictDesc lt xs := by
  intro hs
  obtain ⟨hi, rfl⟩ := List.getElem?_eq_some_iff.mp hy
  obtain ⟨hj, rfl⟩ := List.getElem?_eq_some_iff.mp hx
  have := List.pairwise_iff_getElem.mp hs i (i + 1) hi hj (by omega)
  rw [← hg.2 _ _ _ h] at this
  cases this

theorem parStreak_spec {xs : List α} {rev : Bool} {s e : Nat} (hs : s < e) (he : e ≤ v.len) (h : Streak C rev (seg xs s e)) :
    Tri C.R v.region (parStreak C.less v rev s) xs (fun s' ys => ys = xs ∧ s' ≤ s ∧ Streak C rev (seg xs s' e) ∧
      (s' = 0 ∨ ∃ i x y, xs[i]? = some y ∧ xs[i + 1]? = some x ∧ C.ans x y (!rev))) (EP C xs) := by
  induction s with
  | zero => exact Tri.pure ⟨rfl, Nat.le_refl _, h, .inl rfl⟩
  | succ s ih =>
    unfold parStreak
    refine Tri.vget (by omega) fun x hx => Tri.vget (by omega) fun y hy => ?_
    refine Tri.lessB C (fun b hb => ?_) (fun hp => ⟨rfl, hp, .refl _⟩)
    split
    · rename_i hbr
      have hbr := eq_of_beq hbr
      subst hbr
      refine Tri.mono (ih (by omega) (h.step hs hx hy hb)) ?_ (fun _ _ _ h => h)
      rintro s' ys _ ⟨rfl, h1, h2, h3⟩
      exact ⟨rfl, by omega, h2, h3⟩
    · rename_i hbr
      refine Tri.pure ⟨rfl, Nat.le_refl _, h, .inr ⟨s, x, y, hy, hx, ?_⟩⟩
      have : b = !rev := by cases b <;> cases rev <;> first | rfl | exact absurd rfl hbr
      rwa [this] at hb

theorem parExtend_spec {xs : List α} {s e : Nat} (hx : xs.length = v.len) (hs : s < e) (he : e ≤ v.len) :
    Tri C.R v.region (parExtend C.less v e s) xs
      (fun s' ys => s' ≤ s ∧ ys.Perm xs ∧ ys.drop e = xs.drop e ∧
        ∀ lt, C.Good lt → Sorted lt (seg xs s e) → StableArr lt xs ys ∧ Sorted lt (seg ys s' e)) (EP C xs) := by
  induction s generalizing xs with
  | zero => exact Tri.pure ⟨Nat.le_refl _, .refl _, rfl, fun lt _ h => ⟨.refl _, h⟩⟩
  | succ s ih =>
    unfold parExtend
    split
    · refine Tri.slice (by omega) he ?_
      rw [parInsertHead_eq (by simp; omega)]
      obtain ⟨g, hgi⟩ : ∃ g, xs[s]? = some g := ⟨xs[s]'(by omega), by simp⟩
      have hseg : (xs.drop s).take (e - s) = g :: seg xs (s + 1) e := seg_cons (by omega) hgi
      refine Tri.bind (Q' := fun _ ys => ys.length = v.len ∧ ys.Perm xs ∧ ys.drop e = xs.drop e ∧
        ∀ lt, C.Good lt → Sorted lt (seg xs (s + 1) e) → StableArr lt xs ys ∧ Sorted lt (seg ys s e)) ?_ ?_
      · refine Tri.subMono (a := s) (n := e - s) (by omega) (Q' := fun _ zs => InsL C (seg xs (s + 1) e) g zs)
          (E' := EP C (g :: seg xs (s + 1) e)) ?_ ?_ ?_
        · rw [hseg]
          exact insertHead_spec C (by simp; omega) (by rw [seg_length (by omega)]; simp; omega)
        · intro _ zs hzl hz
          refine ⟨by simp; omega, perm_part (by rw [hseg]; exact hz.perm), drop_right (by omega) hzl (by omega), fun lt hg hso => ?_⟩
          obtain ⟨t1, t2⟩ := hz.good C hg hso
          refine ⟨stable_part (by rw [hseg]; exact t2), ?_⟩
          have := seg_mid (xs := xs) (a := s) (by omega) hzl
          rw [show s + (e - s) = e by omega] at this ⊢
          rw [this]; exact t1
        · rintro e' zs hzl ⟨rfl, hpan, hz⟩
          exact ⟨rfl, hpan, perm_part (by rw [hseg]; exact hz)⟩
      · rintro _ ys _ ⟨hl, hp, hd, hs'⟩
        refine Tri.mono (ih hl (by omega)) ?_ (fun _ _ _ h => EP.of_perm hp h)
        rintro s' zs _ ⟨g1, g2, g3, g4⟩
        refine ⟨by omega, g2.trans hp, g3.trans hd, fun lt hg hso => ?_⟩
        obtain ⟨t1, t2⟩ := hs' lt hg hso
        obtain ⟨t3, t4⟩ := g4 lt hg t2
        exact ⟨t1.trans t3, t4⟩
    · exact Tri.pure ⟨Nat.le_refl _, .refl _, rfl, fun lt _ h => ⟨.refl _, h⟩⟩

/-- The run `start..e` was made, without touching what is behind it. -/
def PRunOk (C : Cmp α ι ω) (start e : Nat) (xs ys : List α) : Prop :=
  ys.Perm xs ∧ ys.drop e = xs.drop e ∧ ∀ lt, C.Good lt → StableArr lt xs ys ∧ Sorted lt (seg ys start e)

/-- What the result of `merge_sort` says about the array. -/
def ResOk (C : Cmp α ι ω) (xs : List α) : MergesortResult → List α → Prop
  | .nonDescending, ys => ys = xs ∧ ∀ lt, C.Good lt → Sorted lt xs
  | .descending, ys => ys = xs ∧ ∀ lt, C.Good lt → StrictDesc lt xs
  | .sorted, ys => ys.Perm xs ∧ ∀ lt, C.Good lt → Sorted lt ys ∧ StableArr lt xs ys

theorem parNextRun_spec {xs : List α} {e : Nat} (hx : xs.length = v.len) (h0 : 0 < e) (he : e ≤ v.len) :
    Tri C.R v.region (parNextRun cfg C.less v e) xs
      (fun o ys => match o with
        | .inl res => e = v.len ∧ ResOk C xs res ys ∧ res ≠ .sorted ∧ 2 ≤ e
        | .inr start => start < e ∧ PRunOk C start e xs ys ∧ (e = v.len → Broken C xs)) (EP C xs) := by
  have ext : ∀ {s : Nat} {ys : List α} (hs : s < e) (hyl : ys.length = v.len) (hp : PRunOk C s e xs ys) (_ : e = v.len → Broken C xs),
      Tri C.R v.region (parExtend C.less v e s >>= fun start => pure (.inr start)) ys
        (fun (o : MergesortResult ⊕ Nat) ys => match o with
          | .inl res => e = v.len ∧ ResOk C xs res ys ∧ res ≠ .sorted ∧ 2 ≤ e
          | .inr start => start < e ∧ PRunOk C start e xs ys ∧ (e = v.len → Broken C xs)) (EP C xs) := by
    intro s ys hs hyl hp hbr
    refine Tri.bind (Tri.mono (parExtend_spec hyl hs he) (fun _ _ _ h => h) (fun _ _ _ h => EP.of_perm hp.1 h)) ?_
    rintro s' zs _ ⟨g1, g2, g3, g4⟩
    refine Tri.pure ⟨by omega, ⟨g2.trans hp.1, g3.trans hp.2.1, fun lt hg => ?_⟩, hbr⟩
    obtain ⟨t1, t2⟩ := hp.2.2 lt hg
    obtain ⟨t3, t4⟩ := g4 lt hg t2
    exact ⟨t1.trans t3, t4⟩
  have hone : ∀ rev, Streak C rev (seg xs (e - 1) e) := by
    intro rev
    rw [seg_cons (y := xs[e - 1]'(by omega)) (by omega) (by simp)]
    unfold seg
    rw [show e - (e - 1 + 1) = 0 by omega, List.take_zero]
    exact .single
  unfold parNextRun
  split
  · refine Tri.vget (by omega) fun x hx1 => Tri.vget (by omega) fun y hy1 => ?_
    refine Tri.lessB C (fun b hb => ?_) (fun hp => ⟨rfl, hp, .refl _⟩)
    have hst : ∀ {r}, C.ans x y r → Streak C r (seg xs (e - 2) e) := by
      intro r hr
      refine Streak.step (by omega) hx1 hy1 hr ?_
      rw [show e - 2 + 1 = e - 1 by omega]
      exact hone r
    cases b with
    | true =>
      simp only [if_true]
      refine Tri.bind (parStreak_spec (by omega) he (hst hb)) ?_
      rintro start xs' _ ⟨rfl, h1, h2, h3⟩
      split
      · rename_i hc
        simp only [Bool.and_eq_true, beq_iff_eq] at hc
        obtain ⟨rfl, rfl⟩ := hc
        refine Tri.pure ⟨rfl, ⟨rfl, fun lt hg => ?_⟩, by decide, by omega⟩
        have := h2 lt hg
        rw [← hx, seg_full] at this
        exact this
      · rename_i hc
        simp only [Bool.and_eq_true, beq_iff_eq] at hc
        refine Tri.slice (by omega) he ?_
        refine Tri.bind (Q' := fun _ ys => ys.length = v.len ∧ PRunOk C start e xs' ys) ?_ ?_
        · refine Tri.subMono (a := start) (n := e - start) (E' := fun _ _ => False) (by omega) (reverse_spec (by simp; omega)) ?_
            (fun _ _ _ h => h.elim)
          rintro _ ys hl rfl
          refine ⟨by simp; omega, perm_part (List.reverse_perm _), drop_right (by omega) hl (by omega), fun lt hg => ?_⟩
          have := StrictDesc.reverse hg.1 (h2 lt hg)
          refine ⟨stable_part this.2, ?_⟩
          have hm := seg_mid (xs := xs') (a := start) (by omega) hl
          rw [show start + (e - start) = e by omega] at hm ⊢
          rw [hm]
          exact this.1
        · rintro _ ys _ ⟨hyl, hp⟩
          refine ext (by omega) hyl hp fun hev lt hg _ => ?_
          rcases h3 with h3 | ⟨i, x', y', hy', hx', ha⟩
          · exact absurd ⟨h3, hev⟩ hc
          · exact ⟨not_sorted_of_ans hy1 hx1 hb hg, not_desc_of_ans hy' hx' ha hg⟩
    | false =>
      simp only [Bool.false_eq_true, if_false]
      refine Tri.bind (parStreak_spec (by omega) he (hst hb)) ?_
      rintro start xs' _ ⟨rfl, h1, h2, h3⟩
      split
      · rename_i hc
        simp only [beq_iff_eq] at hc
        obtain rfl : start = 0 := by omega
        obtain rfl : e = v.len := by omega
        refine Tri.pure ⟨rfl, ⟨rfl, fun lt hg => ?_⟩, by decide, by omega⟩
        have := h2 lt hg
        rw [← hx, seg_full] at this
        exact this
      · rename_i hc
        simp only [beq_iff_eq] at hc
        refine ext (by omega) hx ⟨.refl _, rfl, fun lt hg => ⟨.refl _, h2 lt hg⟩⟩ fun hev lt hg _ => ?_
        rcases h3 with h3 | ⟨i, x', y', hy', hx', ha⟩
        · omega
        · exact ⟨not_sorted_of_ans hy' hx' ha hg, not_desc_of_ans hy1 hx1 hb hg⟩
  · exact ext (by omega) hx ⟨.refl _, rfl, fun lt hg => ⟨.refl _, hone false lt hg⟩⟩ fun _ lt _ _ => by omega

/-! ### The stack of runs -/

/-- The runs `rs` are adjacent, from `e` down to `s`. -/
def RChain : Nat → List TimRun → Nat → Prop
  | e, [], s => e = s
  | e, r :: rs, s => r.start + r.len = e ∧ 0 < r.len ∧ RChain r.start rs s

theorem rchain_append {e s : Nat} {xs ys : List TimRun} : RChain e (xs ++ ys) s ↔ ∃ m, RChain e xs m ∧ RChain m ys s := by
  induction xs generalizing e with
  | nil => simp [RChain]
  | cons x xs ih => simp only [List.cons_append, RChain, ih]; exact ⟨fun ⟨a, b, m, c, d⟩ => ⟨m, ⟨a, b, c⟩, d⟩, fun ⟨m, ⟨a, b, c⟩, d⟩ => ⟨a, b, m, c, d⟩⟩

theorem RChain.le {e s : Nat} {xs : List TimRun} (h : RChain e xs s) : s ≤ e := by
  induction xs generalizing e with
  | nil => simp [RChain] at h; omega
  | cons x xs ih => obtain ⟨h1, h2, h3⟩ := h; have := ih h3; omega

theorem RChain.mem {e s : Nat} {xs : List TimRun} (h : RChain e xs s) {r : TimRun} (hr : r ∈ xs) : s ≤ r.start ∧ r.start + r.len ≤ e := by
  induction xs generalizing e with
  | nil => simp at hr
  | cons x xs ih =>
    obtain ⟨h1, h2, h3⟩ := h
    rcases List.mem_cons.mp hr with rfl | hr
    · exact ⟨h3.le, by omega⟩
    · have := ih h3 hr; omega

/-- The runs are sorted. -/
def PRunsOk (C : Cmp α ι ω) (rs : List TimRun) (xs ys : List α) : Prop :=
  ys.Perm xs ∧ ∀ lt, C.Good lt → StableArr lt xs ys ∧ ∀ r ∈ rs, Sorted lt (seg ys r.start (r.start + r.len))

theorem PRunsOk.push {rs : List TimRun} {xs ys zs : List α} {start e l : Nat} (h : PRunsOk C rs xs ys) (hc : RChain l rs e) (hse : start ≤ e)
    (hr : PRunOk C start e ys zs) : PRunsOk C (rs ++ [⟨e - start, start⟩]) xs zs := by
  refine ⟨hr.1.trans h.1, fun lt hg => ⟨(h.2 lt hg).1.trans (hr.2.2 lt hg).1, ?_⟩⟩
  intro r hr'
  rcases List.mem_append.mp hr' with hr' | hr'
  · have hm := hc.mem hr'
    have := (h.2 lt hg).2 r hr'
    have hseg : ∀ us : List α, seg us r.start (r.start + r.len) = ((us.drop e).drop (r.start - e)).take r.len := by
      intro us
      unfold seg
      rw [List.drop_drop, Nat.add_sub_cancel_left, show e + (r.start - e) = r.start by omega]
    rw [hseg, hr.2.1, ← hseg]
    exact this
  · rw [List.mem_singleton.mp hr']
    have := (hr.2.2 lt hg).2
    rw [show start + (e - start) = e by omega]
    exact this

theorem PRunsOk.merge {pre post : List TimRun} {a b : TimRun} {xs ys zs : List α} {l e : Nat}
    (h : PRunsOk C (pre ++ b :: a :: post) xs ys) (hc : RChain l (pre ++ b :: a :: post) e) (hl : l ≤ ys.length)
    (hm : MergeOk C (seg ys a.start (a.start + a.len)) (seg ys b.start (b.start + b.len)) zs) (hz : zs.length = a.len + b.len) :
    PRunsOk C (pre ++ ⟨a.len + b.len, a.start⟩ :: post) xs (ys.take a.start ++ zs ++ ys.drop (a.start + (a.len + b.len))) := by
  obtain ⟨m, c1, c2, c3, c4, c5, c6⟩ := rchain_append.mp hc
  have hle1 := c1.le
  have hle := c6.le
  have hseg : seg ys a.start (a.start + a.len) ++ seg ys b.start (b.start + b.len) = (ys.drop a.start).take (a.len + b.len) := by
    rw [show b.start = a.start + a.len by omega, seg_append (by omega) (by omega)]
    unfold seg
    congr 1; omega
  obtain ⟨hm1, hm2⟩ := hm
  rw [hseg] at hm1
  refine ⟨(perm_part hm1).trans h.1, fun lt hg => ?_⟩
  obtain ⟨s1, s2⟩ := h.2 lt hg
  have hmm := hm2 lt hg (s2 a (by simp)) (s2 b (by simp))
  rw [hseg] at hmm
  refine ⟨s1.trans (stable_part hmm.2), ?_⟩
  intro r hr
  rcases List.mem_append.mp hr with hr | hr
  · have hk := c1.mem hr
    rw [seg_right (by omega) hz (by omega)]
    exact s2 r (by simp [hr])
  rcases List.mem_cons.mp hr with rfl | hr
  · rw [seg_mid (by omega) hz]
    exact hmm.1
  · have hk := c6.mem hr
    rw [seg_left (by omega) (by omega)]
    exact s2 r (by simp [hr])

theorem parCollapse_lt {rs : List TimRun} {r : Nat} (h : parCollapse rs = some r) : r + 1 < rs.length := by
  unfold parCollapse at h
  simp only at h
  split at h
  · rename_i hc
    simp only [Bool.and_eq_true, decide_eq_true_eq] at hc
    split at h
    · rename_i h3
      simp only [Bool.and_eq_true, decide_eq_true_eq] at h3
      cases h; omega
    · cases h; omega
  · cases h

theorem parCollapse_none {rs : List TimRun} {l : Nat} (h : parCollapse rs = none) (hc : RChain l rs 0) : rs.length ≤ 1 := by
  unfold parCollapse at h
  simp only at h
  split at h
  · split at h <;> cases h
  · rename_i hn
    by_contra hlen
    apply hn
    obtain ⟨ys, y, rfl⟩ := snoc_of_pos (xs := rs) (by omega)
    obtain ⟨m, -, h1, h2, h3⟩ := rchain_append.mp hc
    simp only [RChain] at h3
    simp [runStart, h3]
    simp at hlen
    exact List.length_pos_iff.mpr hlen

/-- The stack of runs when the array has been processed down to `e`. -/
structure PStackOk (C : Cmp α ι ω) (l e : Nat) (xs : List α) (ys : List α) (rs : List TimRun) : Prop where
  chain : RChain l rs e
  runs : PRunsOk C rs xs ys

theorem runAt_eq {rs : List TimRun} {i : Nat} {r : TimRun} (h : rs[i]? = some r) : (runAt rs i : Prog α ι ω TimRun) = pure r := by
  unfold runAt; rw [h]

theorem parCollapseBody_spec {xs ys : List α} {e : Nat} {rs : List TimRun} (hy : ys.length = v.len)
    (hb : v.len / 2 ≤ buf.len) (h : PStackOk C v.len e xs ys rs) :
    TriS C.R v.region buf.region (parCollapseBody cfg C.less v buf rs) ys
      (fun o zs => match o with
        | .inl rs' => PStackOk C v.len e xs zs rs' ∧ rs'.length < rs.length
        | .inr rs' => PStackOk C v.len e xs zs rs' ∧ (e = 0 → rs'.length ≤ 1)) (EP C xs) := by
  obtain ⟨h2, h4⟩ := h
  unfold parCollapseBody
  cases hc : parCollapse rs with
  | none => exact TriS.pure ⟨⟨h2, h4⟩, fun he => parCollapse_none hc (he ▸ h2)⟩
  | some r =>
    have hr1 := parCollapse_lt hc
    obtain ⟨pre, b, a, post, rfl, hpre, hb', ha, hpost⟩ := split_two hr1
    obtain ⟨m, c1, c2, c3, c4, c5, c6⟩ := rchain_append.mp h2
    have hle1 := c1.le
    have hle := c6.le
    have hrs : ((pre ++ b :: a :: post).set r ⟨a.len + b.len, a.start⟩).eraseIdx (r + 1) = pre ++ ⟨a.len + b.len, a.start⟩ :: post := by
      subst hpre
      simp [List.set_append_right, List.eraseIdx_append_of_length_le]
    simp only [runAt_eq ha, runAt_eq hb']
    refine TriS.pureB (TriS.pureB (TriS.slice (by omega) (by omega) ?_))
    rw [show b.start + b.len - a.start = a.len + b.len by omega]
    have hseg : (ys.drop a.start).take (a.len + b.len) = seg ys a.start (a.start + a.len) ++ seg ys b.start (b.start + b.len) := by
      rw [show b.start = a.start + a.len by omega, seg_append (by omega) (by omega)]
      unfold seg
      congr 1; omega
    refine TriS.bind (Q' := fun _ zs => PRunsOk C (pre ++ ⟨a.len + b.len, a.start⟩ :: post) xs zs) ?_ ?_
    · refine TriS.subMono (a := a.start) (n := a.len + b.len) (by omega) (E' := EP C ((ys.drop a.start).take (a.len + b.len)))
        (Q' := fun _ zs => MergeOk C (seg ys a.start (a.start + a.len)) (seg ys b.start (b.start + b.len)) zs) ?_ ?_ ?_
      · rw [hseg]
        refine merge_spec (.inr rfl) (by rw [seg_length (by omega)]; omega) ?_ ?_
        · rw [← hseg]; simp; omega
        · simp only [View.sub_len]; omega
      · rintro _ zs hz hm
        exact h4.merge h2 (by omega) hm hz
      · rintro e zs hz ⟨q1, q2, q3⟩
        exact ⟨q1, q2, (perm_part q3).trans h4.1⟩
    · rintro _ zs _ hq
      rw [hrs]
      refine TriS.pure ⟨⟨rchain_append.mpr ⟨m, c1, ?_, by show 0 < a.len + b.len; omega, c6⟩, hq⟩, by simp⟩
      show a.start + (a.len + b.len) = m
      omega

theorem parMergeSortBody_spec {xs ys : List α} {e : Nat} {rs : List TimRun} (hx : xs.length = v.len) (hy : ys.length = v.len)
    (hb : v.len / 2 ≤ buf.len) (h : PStackOk C v.len e xs ys rs) (h0 : e = 0 → rs.length ≤ 1) (h1 : e = v.len → ys = xs)
    (hbr : e ≠ v.len → Broken C xs) :
    TriS C.R v.region buf.region (parMergeSortBody cfg C.less v buf (e, rs)) ys
      (fun o zs => match o with
        | .inl x => PStackOk C v.len x.1 xs zs x.2 ∧ (x.1 = 0 → x.2.length ≤ 1) ∧ (x.1 = v.len → zs = xs) ∧ x.1 < e ∧ Broken C xs
        | .inr (.inl res) => ResOk C xs res zs ∧ (res = .sorted → Broken C xs) ∧ 2 ≤ v.len
        | .inr (.inr rs') => PStackOk C v.len 0 xs zs rs' ∧ rs'.length ≤ 1 ∧ (0 < v.len → Broken C xs)) (EP C xs) := by
  have hle := h.chain.le
  unfold parMergeSortBody
  by_cases he : e > 0
  · simp only [he, if_true]
    refine TriS.bind (TriS.of_tri (Tri.mono (parNextRun_spec hy he hle) (fun _ _ _ h => h) (fun _ _ _ hE => EP.of_perm h.runs.1 hE))) ?_
    rintro (res | start) zs hzl hq
    · simp only at hq
      obtain ⟨q1, q2, q3, q4⟩ := hq
      obtain rfl := h1 q1
      exact TriS.pure ⟨q2, fun h => absurd h q3, by omega⟩
    · simp only at hq
      obtain ⟨q1, q2, q3⟩ := hq
      have hbk : Broken C xs := by
        by_cases hev : e = v.len
        · exact h1 hev ▸ q3 hev
        · exact hbr hev
      refine TriS.bind (Q' := fun rs' us => PStackOk C v.len start xs us rs' ∧ (start = 0 → rs'.length ≤ 1)) ?_ ?_
      · refine TriS.loop (Inv := fun rs us => PStackOk C v.len start xs us rs) (μ := fun rs => rs.length)
          ⟨rchain_append.mpr ⟨e, h.chain, by show start + (e - start) = e; omega, by show 0 < e - start; omega, rfl⟩,
            h.runs.push h.chain (by omega) q2⟩ (by simp) ?_
        rintro rs us hus hs
        refine TriS.mono (parCollapseBody_spec (by omega) hb hs) ?_ (fun _ _ _ h => h)
        rintro (x | x) zs _ h <;> exact h
      · rintro rs' us _ ⟨hs, hf⟩
        exact TriS.pure ⟨hs, hf, fun h => by show us = xs; change start = v.len at h; omega, q1, hbk⟩
  · simp only [he, if_false]
    obtain rfl : e = 0 := by omega
    exact TriS.pure ⟨h, h0 rfl, fun h => hbr (by omega)⟩

theorem parMergeSortSeq_spec {xs : List α} (hx : xs.length = v.len) (h1 : 0 < v.len) (hb : v.len / 2 ≤ buf.len) :
    TriS C.R v.region buf.region (parMergeSortSeq cfg C.less v buf) xs (fun res ys => (ResOk C xs res ys ∧ (res = .sorted → Broken C xs)) ∧
      (xs.length = 1 → res = .sorted))
      (EP C xs) := by
  unfold parMergeSortSeq
  refine TriS.bind (Q' := fun o zs => match o with
        | .inl res => ResOk C xs res zs ∧ (res = .sorted → Broken C xs) ∧ 2 ≤ v.len
        | .inr rs' => PStackOk C v.len 0 xs zs rs' ∧ rs'.length ≤ 1 ∧ (0 < v.len → Broken C xs)) ?_ ?_
  · refine TriS.loop (Inv := fun (x : Nat × List TimRun) zs =>
      PStackOk C v.len x.1 xs zs x.2 ∧ (x.1 = 0 → x.2.length ≤ 1) ∧ (x.1 = v.len → zs = xs) ∧ (x.1 ≠ v.len → Broken C xs))
      (μ := fun x => x.1) ⟨⟨rfl, .refl _, fun _ _ => ⟨.refl _, by simp⟩⟩, by simp, fun _ => rfl, fun h => absurd rfl h⟩ (by simp) ?_
    rintro ⟨e, rs⟩ ys hl ⟨i1, i2, i3, i4⟩
    refine TriS.mono (parMergeSortBody_spec hx (by omega) hb i1 i2 i3 i4) ?_ (fun _ _ _ h => h)
    rintro (x | x | x) zs _ h
    · exact ⟨⟨h.1, h.2.1, h.2.2.1, fun _ => h.2.2.2.2⟩, h.2.2.2.1⟩
    · exact h
    · exact h
  · rintro (res | rs) ys hyl h
    · exact TriS.pure ⟨⟨h.1, h.2.1⟩, fun h1 => by have := h.2.2; omega⟩
    · obtain ⟨⟨hc, hr⟩, hlen, hbk⟩ := h
      match rs, hc, hlen with
      | [], hc, _ => simp [RChain] at hc; omega
      | [r], hc, _ =>
        obtain ⟨c1, c2, c3⟩ := hc
        simp only [RChain] at c3
        have hfinal : ResOk C xs .sorted ys ∧ (MergesortResult.sorted = .sorted → Broken C xs) := by
          refine ⟨⟨hr.1, fun lt hg => ?_⟩, fun _ => hbk h1⟩
          obtain ⟨s1, s2⟩ := hr.2 lt hg
          have := s2 r (by simp)
          rw [c3, show 0 + r.len = ys.length by omega, seg_full] at this
          exact ⟨this, s1⟩
        cases hd : cfg.dbg with
        | false => exact TriS.pure ⟨hfinal, fun _ => rfl⟩
        | true =>
          simp only [if_true]
          rw [runAt_eq (i := 0) rfl]
          refine TriS.pureB (TriS.debugAssert ?_ (TriS.pure ⟨hfinal, fun _ => rfl⟩))
          simp [c3]
          omega

end NdSlice
