import Verif.Proof.Merge
import Verif.Proof.Sequences
import Verif.Proof.RunVec

/-
The stable sort: `merge_sort` of /repo/src/merge_sort.rs.
-/

namespace NdSlice

variable {α ι ω : Type} {C : Cmp α ι ω} {cfg : Cfg} {v buf : View}

/-! ### Runs -/

/-- Strictly descending. -/
def StrictDesc (lt : α → α → Bool) (xs : List α) : Prop := xs.Pairwise (fun a b => lt b a = true)

theorem strict_snoc {lt : α → α → Bool} (so : SWO lt) {xs : List α} {i : Nat} {x y : α} (hi : 1 ≤ i)
    (hx : xs[i]? = some x) (hy : xs[i - 1]? = some y) (h : lt x y = true) (hs : StrictDesc lt (xs.take i)) :
    StrictDesc lt (xs.take (i + 1)) := by
  unfold StrictDesc at *
  rw [List.take_add_one, hx, Option.toList_some, List.pairwise_append]
  refine ⟨hs, List.pairwise_singleton _ _, ?_⟩
  intro a ha b hb
  rw [List.mem_singleton.mp hb]
  obtain ⟨j, rfl⟩ : ∃ j, i = j + 1 := ⟨i - 1, by omega⟩
  simp only [Nat.add_sub_cancel] at hy
  rw [List.take_add_one, hy, Option.toList_some] at hs ha
  rcases List.mem_append.mp ha with ha | ha
  · exact so.trans _ _ _ h ((List.pairwise_append.mp hs).2.2 a ha y (by simp))
  · rw [List.mem_singleton.mp ha]; exact h

theorem StrictDesc.reverse {lt : α → α → Bool} (so : SWO lt) {xs : List α} (h : StrictDesc lt xs) :
    Sorted lt xs.reverse ∧ StableArr lt xs xs.reverse := by
  constructor
  · unfold Sorted
    rw [List.pairwise_reverse]
    exact h.imp (fun hab => so.asymm hab)
  · induction xs with
    | nil => exact .refl _
    | cons x xs ih =>
      obtain ⟨h1, h2⟩ := List.pairwise_cons.mp h
      rw [List.reverse_cons]
      refine (StableArr.move so (A := xs) (g := x) ?_).trans ((ih h2).append (.refl _))
      intro a ha
      simp [eqv, h1 a ha]

/-- What `find_streak` promises about the first elements. -/
def Streak (C : Cmp α ι ω) (rev : Bool) (xs : List α) : Prop :=
  ∀ lt, C.Good lt → if rev then StrictDesc lt xs else Sorted lt xs

theorem Streak.snoc {rev : Bool} {xs : List α} {i : Nat} {x y : α} (hi : 1 ≤ i) (hx : xs[i]? = some x) (hy : xs[i - 1]? = some y)
    (h : C.ans x y rev) (hs : Streak C rev (xs.take i)) : Streak C rev (xs.take (i + 1)) := by
  intro lt hg
  have h1 := hs lt hg
  have h2 := hg.2 _ _ _ h
  cases rev with
  | true => exact strict_snoc hg.1 hi hx hy h2.symm h1
  | false => exact sorted_snoc hg.1 hi hx hy h2.symm h1

theorem streakLoop_spec {xs : List α} {rev : Bool} {e n : Nat} (he : 1 ≤ e) (hen : e + n = v.len)
    (hs : Streak C rev (xs.take e)) :
    Tri C.R v.region (streakLoop C.less v rev e n) xs
      (fun e' ys => ys = xs ∧ e ≤ e' ∧ e' ≤ v.len ∧ Streak C rev (xs.take e') ∧
        (e' = v.len ∨ ∃ x y, xs[e']? = some x ∧ xs[e' - 1]? = some y ∧ C.ans x y (!rev))) (EP C xs) := by
  induction n generalizing e with
  | zero => exact Tri.pure ⟨rfl, Nat.le_refl _, by omega, hs, .inl (by omega)⟩
  | succ n ih =>
    unfold streakLoop
    refine Tri.vget (by omega) fun x hx => Tri.vget (by omega) fun y hy => ?_
    refine Tri.lessB C (fun b hb => ?_) (fun hp => ⟨rfl, hp, .refl _⟩)
    split
    · rename_i hbr
      have hbr := eq_of_beq hbr
      subst hbr
      refine Tri.mono (ih (by omega) (by omega) (hs.snoc he hx hy hb)) ?_ (fun _ _ _ h => h)
      rintro e' ys _ ⟨rfl, h1, h2, h3⟩
      exact ⟨rfl, by omega, h2, h3⟩
    · rename_i hbr
      refine Tri.pure ⟨rfl, Nat.le_refl _, by omega, hs, .inr ⟨x, y, hx, hy, ?_⟩⟩
      rwa [show (!rev) = b by cases b <;> cases rev <;> simp_all]

theorem findStreak_spec {xs : List α} (hx : xs.length = v.len) (hv : 1 ≤ v.len) :
    Tri C.R v.region (findStreak C.less v) xs
      (fun r ys => ys = xs ∧ 1 ≤ r.1 ∧ r.1 ≤ v.len ∧ Streak C r.2 (xs.take r.1) ∧
        ∀ lt, C.Good lt → ∀ k, Sequences lt (k + 1) xs → Sequences lt k (xs.drop r.1)) (EP C xs) := by
  have one : ∀ rev, Streak C rev (xs.take 1) := by
    intro rev lt _
    obtain ⟨x, xs', rfl⟩ := List.exists_cons_of_length_pos (l := xs) (by omega)
    cases rev
    · exact Sorted.single _
    · exact List.pairwise_singleton _ _
  unfold findStreak
  split
  · refine Tri.pure ⟨rfl, hv, Nat.le_refl _, by rw [show v.len = 1 by omega]; exact one false, fun lt _ k _ => ?_⟩
    rw [List.drop_of_length_le (by dsimp only; omega)]
    exact .nil
  · refine Tri.vget (by omega) fun x hx => Tri.vget (by omega) fun y hy => ?_
    refine Tri.lessB C (fun b hb => ?_) (fun hp => ⟨rfl, hp, .refl _⟩)
    refine Tri.bind (streakLoop_spec (by omega) (by omega) ((one b).snoc (by omega) hx hy hb)) ?_
    rintro e ys _ ⟨rfl, h1, h2, h3, h4⟩
    refine Tri.pure ⟨rfl, by show 1 ≤ e; omega, h2, h3, fun lt hg k hk => ?_⟩
    refine hk.streak (rev := b) (by dsimp only; omega) (fun _ => h1) (h3 lt hg) ?_
    rcases h4 with h4 | ⟨p, q, h4, h5, h6⟩
    · exact .inl (by dsimp only; omega)
    · exact .inr ⟨p, q, h4, h5, (hg.2 _ _ _ h6).symm⟩

/-- Of the array `xs` only what is from `start` to `e` was rearranged, to `ys`, and `ys[start..e]` is a run. -/
def RunOk (C : Cmp α ι ω) (start e : Nat) (xs ys : List α) : Prop :=
  ys.Perm xs ∧ ys.take start = xs.take start ∧ ys.drop e = xs.drop e ∧
    ∀ lt, C.Good lt → StableArr lt xs ys ∧ Sorted lt ((ys.drop start).take (e - start))

theorem drop_beyond {xs ys : List α} {a n e : Nat} (ha : a ≤ xs.length) (hy : ys.length = n) (he : a + n ≤ e) :
    (xs.take a ++ ys ++ xs.drop (a + n)).drop e = xs.drop e := by
  obtain ⟨k, rfl⟩ : ∃ k, e = a + n + k := ⟨e - (a + n), by omega⟩
  rw [← List.drop_drop, List.drop_left' (by simp; omega), List.drop_drop]

theorem drop_part {xs ys : List α} {a n : Nat} (ha : a ≤ xs.length) (hy : ys.length = n) :
    ((xs.take a ++ ys ++ xs.drop (a + n)).drop a).take n = ys := by
  rw [List.append_assoc, List.drop_left' (by simp; omega), List.take_left' hy]

theorem take_part {xs ys : List α} {a n : Nat} (ha : a ≤ xs.length) :
    (xs.take a ++ ys ++ xs.drop (a + n)).take a = xs.take a := by
  rw [List.append_assoc, List.take_left' (by simp; omega)]

theorem provideSortedBatch_spec {xs : List α} {start e : Nat} (hx : xs.length = v.len) (hs : start < e) (he : e ≤ v.len) :
    Tri C.R v.region (provideSortedBatch cfg C.less v start e) xs
      (fun e' ys => start < e' ∧ e' ≤ v.len ∧ (start + 10 ≤ e' ∨ e' = v.len) ∧ e ≤ e' ∧ ys.Perm xs ∧ ys.take start = xs.take start ∧
        ys.drop e' = xs.drop e' ∧ ∀ lt, C.Good lt → Sorted lt ((xs.drop start).take (e - start)) →
          StableArr lt xs ys ∧ Sorted lt ((ys.drop start).take (e' - start))) (EP C xs) := by
  unfold provideSortedBatch
  refine Tri.assertP (by simp; omega) (Tri.usub (by omega) ?_)
  split
  · rename_i hc
    simp only [Bool.and_eq_true, decide_eq_true_eq] at hc
    have hmax : max (e - start) 1 = e - start := by omega
    have hw : start + (min (start + 10) v.len - start) ≤ v.len := by omega
    show Tri _ _ (v.slice start (min (start + 10) v.len) >>= _) _ _ _
    refine Tri.slice (by omega) (by omega) ?_
    refine Tri.bind (Q' := fun _ ys => ys.Perm xs ∧ ys.take start = xs.take start ∧
        ys.drop (min (start + 10) v.len) = xs.drop (min (start + 10) v.len) ∧ ∀ lt, C.Good lt → Sorted lt ((xs.drop start).take (e - start)) →
          StableArr lt xs ys ∧ Sorted lt ((ys.drop start).take (min (start + 10) v.len - start))) ?_ ?_
    · refine Tri.subMono hw (insertionSortShiftLeft_spec C (by omega) (by simp; omega) (by simp; omega)) ?_ ?_
      · rintro _ ys hl ⟨h1, h2⟩
        refine ⟨perm_part h1, take_part (by omega), drop_beyond (by omega) hl (by omega), fun lt hg hso => ?_⟩
        have := h2 lt hg (by rw [hmax, List.take_take, Nat.min_eq_left (by omega)]; exact hso)
        refine ⟨stable_part this.2, ?_⟩
        rw [drop_part (by omega) hl]
        exact this.1
      · rintro e ys _ ⟨h1, h2, h3⟩
        exact ⟨h1, h2, perm_part h3⟩
    · rintro _ ys _ h
      exact Tri.pure ⟨by omega, by omega, by omega, by omega, h⟩
  · rename_i hc
    simp only [Bool.and_eq_true, decide_eq_true_eq, not_and] at hc
    exact Tri.pure ⟨hs, he, by omega, Nat.le_refl _, .refl _, rfl, rfl, fun lt _ h => ⟨.refl _, h⟩⟩

theorem nextRun_spec {xs : List α} {start : Nat} (hx : xs.length = v.len) (hs : start < v.len) :
    Tri C.R v.region (nextRun cfg C.less v start) xs
      (fun e ys => start < e ∧ e ≤ v.len ∧ (start + 10 ≤ e ∨ e = v.len) ∧ RunOk C start e xs ys ∧
        ∀ lt, C.Good lt → ∀ k, Sequences lt (k + 1) (xs.drop start) → Sequences lt k (xs.drop e)) (EP C xs) := by
  unfold nextRun
  refine Tri.slice (by omega) (Nat.le_refl _) ?_
  refine Tri.bind (Q' := fun r ys => ys = xs ∧ 1 ≤ r.1 ∧ start + r.1 ≤ v.len ∧ Streak C r.2 ((xs.drop start).take r.1) ∧
    ∀ lt, C.Good lt → ∀ k, Sequences lt (k + 1) (xs.drop start) → Sequences lt k (xs.drop (start + r.1))) ?_ ?_
  · refine Tri.subMono (by omega) (findStreak_spec (by simp; omega) (by simp; omega)) ?_ ?_
    · rintro ⟨r, b⟩ ys hl ⟨rfl, h1, h2, h3, h4⟩
      simp only [View.sub_len] at h1 h2 h3 h4
      refine ⟨take_mid_drop _ _, h1, by show start + r ≤ _; omega, ?_, ?_⟩
      · rwa [List.take_take, Nat.min_eq_left (by omega)] at h3
      · rwa [List.take_of_length_le (by simp; omega), List.drop_drop] at h4
    · rintro e ys _ ⟨h1, h2, h3⟩
      exact ⟨h1, h2, perm_part h3⟩
  · rintro ⟨streak, rev⟩ xs' _ ⟨rfl, h1, h2, h3, h4⟩
    simp only at h1 h2 h3 h4 ⊢
    have seq : ∀ e, start + streak ≤ e → ∀ lt, C.Good lt → ∀ k, Sequences lt (k + 1) (xs'.drop start) → Sequences lt k (xs'.drop e) := by
      intro e he lt hg k hk
      have := (h4 lt hg k hk).drop (e - (start + streak))
      rwa [List.drop_drop, show start + streak + (e - (start + streak)) = e by omega] at this
    cases rev with
    | false =>
      refine Tri.mono (provideSortedBatch_spec hx (by omega) h2) ?_ (fun _ _ _ h => h)
      rintro e ys _ ⟨g1, g2, g3, g, g4, g5, g5', g6⟩
      refine ⟨g1, g2, g3, ⟨g4, g5, g5', fun lt hg => g6 lt hg ?_⟩, seq e g⟩
      rw [Nat.add_sub_cancel_left]
      exact h3 lt hg
    | true =>
      refine Tri.slice (by omega) h2 ?_
      rw [Nat.add_sub_cancel_left]
      refine Tri.bind (Q' := fun _ ys => ys.Perm xs' ∧ ys.take start = xs'.take start ∧ ys.drop (start + streak) = xs'.drop (start + streak) ∧
        ∀ lt, C.Good lt → StableArr lt xs' ys ∧ Sorted lt ((ys.drop start).take streak)) ?_ ?_
      · refine Tri.subMono (E' := fun _ _ => False) h2 (reverse_spec (by simp; omega)) ?_ (fun _ _ _ h => h.elim)
        rintro _ ys hl rfl
        refine ⟨perm_part (List.reverse_perm _), take_part (by omega), drop_beyond (by omega) hl (Nat.le_refl _), fun lt hg => ?_⟩
        have := StrictDesc.reverse hg.1 (h3 lt hg)
        refine ⟨stable_part this.2, ?_⟩
        rw [drop_part (by omega) hl]
        exact this.1
      · rintro _ ys _ ⟨p1, p2, p2', p3⟩
        refine Tri.mono (provideSortedBatch_spec (by omega) (by omega) h2) ?_ ?_
        · rintro e zs _ ⟨g1, g2, g3, g, g4, g5, g5', g6⟩
          have hd : ys.drop e = xs'.drop e := by
            have := congrArg (List.drop (e - (start + streak))) p2'
            rwa [List.drop_drop, List.drop_drop, show start + streak + (e - (start + streak)) = e by omega] at this
          refine ⟨g1, g2, g3, ⟨g4.trans p1, g5.trans p2, g5'.trans hd, fun lt hg => ?_⟩, seq e g⟩
          have q := p3 lt hg
          have := g6 lt hg (by rw [Nat.add_sub_cancel_left]; exact q.2)
          exact ⟨q.1.trans this.1, this.2⟩
        · exact fun _ _ _ h => EP.of_perm p1 h

/-! ### The main loop -/

/-- The runs `rs` of the array, which now is `ys`. -/
def RunsOk (C : Cmp α ι ω) (rs : List TimRun) (xs ys : List α) : Prop :=
  ys.Perm xs ∧ ∀ lt, C.Good lt → StableArr lt xs ys ∧ ∀ r ∈ rs, Sorted lt ((ys.drop r.start).take r.len)

theorem RunOk.push {rs : List TimRun} {xs ys zs : List α} {start e : Nat} (h : RunsOk C rs xs ys) (hc : Chain 0 rs start)
    (hr : RunOk C start e ys zs) : RunsOk C (rs ++ [⟨e - start, start⟩]) xs zs := by
  refine ⟨hr.1.trans h.1, fun lt hg => ⟨(h.2 lt hg).1.trans (hr.2.2.2 lt hg).1, ?_⟩⟩
  intro r hr'
  rcases List.mem_append.mp hr' with hr' | hr'
  · have hm := hc.mem hr'
    have := (h.2 lt hg).2 r hr'
    have hseg : ∀ us : List α, (us.drop r.start).take r.len = ((us.take start).drop r.start).take r.len := by
      intro us
      rw [List.drop_take, List.take_take, Nat.min_eq_left (by omega)]
    rw [hseg, hr.2.1, ← hseg]
    exact this
  · rw [List.mem_singleton.mp hr']
    exact (hr.2.2.2 lt hg).2

theorem RunsOk.merge {pre post : List TimRun} {a b : TimRun} {xs ys zs : List α} {e : Nat}
    (h : RunsOk C (pre ++ a :: b :: post) xs ys) (hc : Chain 0 (pre ++ a :: b :: post) e) (he : e ≤ ys.length)
    (hm : MergeOk C ((ys.drop a.start).take a.len) ((ys.drop b.start).take b.len) zs)
    (hz : zs.length = a.len + b.len) :
    RunsOk C (pre ++ ⟨a.len + b.len, a.start⟩ :: post) xs (ys.take a.start ++ zs ++ ys.drop (a.start + (a.len + b.len))) := by
  obtain ⟨m, c1, c2, c3, c4, c5, c6⟩ := chain_append.mp hc
  have hle := c6.le
  have hseg : (ys.drop a.start).take (a.len + b.len) = (ys.drop a.start).take a.len ++ (ys.drop b.start).take b.len := by
    rw [List.take_add, List.drop_drop]
    congr 3; omega
  obtain ⟨hm1, hm2⟩ := hm
  rw [← hseg] at hm1
  refine ⟨(perm_part hm1).trans h.1, fun lt hg => ?_⟩
  obtain ⟨s1, s2⟩ := h.2 lt hg
  have hmm := hm2 lt hg (s2 a (by simp)) (s2 b (by simp))
  rw [← hseg] at hmm
  refine ⟨s1.trans (stable_part hmm.2), ?_⟩
  intro r hr
  rcases List.mem_append.mp hr with hr | hr
  · have hk := c1.mem hr
    have := s2 r (by simp [hr])
    have hsg : ∀ us : List α, (us.drop r.start).take r.len = ((us.take a.start).drop r.start).take r.len := by
      intro us
      rw [List.drop_take, List.take_take, Nat.min_eq_left (by omega)]
    rw [hsg, take_part (by omega), ← hsg]
    exact this
  rcases List.mem_cons.mp hr with rfl | hr
  · show Sorted lt ((List.drop a.start _).take (a.len + b.len))
    rw [drop_part (by omega) hz]
    exact hmm.1
  · have hk := c6.mem hr
    have := s2 r (by simp [hr])
    have hd : (ys.take a.start ++ zs ++ ys.drop (a.start + (a.len + b.len))).drop r.start = ys.drop r.start := by
      obtain ⟨k, hk'⟩ : ∃ k, r.start = a.start + (a.len + b.len) + k := ⟨r.start - (a.start + (a.len + b.len)), by omega⟩
      rw [hk', ← List.drop_drop, List.drop_left' (by simp; omega), List.drop_drop]
    rw [hd]
    exact this

theorem split_two {rs : List TimRun} {r : Nat} (h : r + 1 < rs.length) :
    ∃ pre a b post, rs = pre ++ a :: b :: post ∧ pre.length = r ∧ rs[r]? = some a ∧ rs[r + 1]? = some b ∧
      post.length = rs.length - (r + 2) := by
  refine ⟨rs.take r, rs[r], rs[r + 1], rs.drop (r + 2), ?_, by simp; omega, by simp, by simp, by simp⟩
  rw [← List.drop_eq_getElem_cons, ← List.drop_eq_getElem_cons, List.take_append_drop]

/-- The stack of runs in between two merges. -/
structure StackOk (C : Cmp α ι ω) (e : Nat) (xs : List α) (rv : RunVec) (ys : List α) (rs : List TimRun) : Prop where
  holds : rv.Holds rs
  chain : Chain 0 rs e
  weak : WeakInv rs
  runs : RunsOk C rs xs ys
  long : e ≠ xs.length → ∀ r ∈ rs, 10 ≤ r.len
  rest : ys.drop e = xs.drop e

theorem collapseBody_spec {xs ys : List α} {e : Nat} {rv : RunVec} {rs : List TimRun} (hy : ys.length = v.len)
    (he : e ≤ v.len) (hb : v.len / 2 ≤ buf.len) (h : StackOk C e xs rv ys rs) :
    TriS C.R v.region buf.region (collapseBody cfg C.less v buf rv) ys
      (fun o zs => match o with
        | .inl rv' => (∃ rs', StackOk C e xs rv' zs rs') ∧ rv'.len < rv.len
        | .inr rv' => ∃ rs', StackOk C e xs rv' zs rs' ∧ TimInv rs' ∧ (e = v.len → rs'.length ≤ 1)) (EP C xs) := by
  obtain ⟨h1, h2, h3, h4, h5, h6⟩ := h
  unfold collapseBody
  rw [h1.asSlice]
  refine TriS.pureB ?_
  cases hc : collapse rs v.len with
  | none =>
    have hcn := collapse_none hc h3 (fun r hr => (h2.mem hr).2.2)
    refine TriS.pure ⟨rs, ⟨h1, h2, h3, h4, h5, h6⟩, hcn.1, ?_⟩
    intro hev
    rcases hcn.2 with h | h
    · exact h
    · exfalso
      by_cases hn : rs = []
      · subst hn; simp [Chain] at h2; have := hcn.2; subst h2
        simp [collapse] at hc; simp [runStart, runLen] at h; omega
      · exact h (by rw [h2.last hn, hev])
  | some r =>
    obtain ⟨hr1, hr2⟩ := collapse_lt hc
    obtain ⟨pre, a, b, post, rfl, hpre, ha, hb', hpost⟩ := split_two hr1
    obtain ⟨m, c1, c2, c3, c4, c5, c6⟩ := chain_append.mp h2
    have hle := c6.le
    obtain ⟨rv1, e1, g1⟩ := h1.setIdx (α := α) (ι := ι) (ω := ω) hr1 ⟨a.len + b.len, a.start⟩
    obtain ⟨rv2, e2, g2⟩ := g1.remove (α := α) (ι := ι) (ω := ω) (i := r) (by simp at hr1 ⊢; omega)
    have hrs : ((pre ++ a :: b :: post).set (r + 1) ⟨a.len + b.len, a.start⟩).eraseIdx r =
        pre ++ ⟨a.len + b.len, a.start⟩ :: post := by
      subst hpre
      simp [List.set_append_right, List.eraseIdx_append_of_length_le]
    rw [hrs] at g2
    refine TriS.bind (Q' := fun rv' zs => rv' = rv2 ∧
      RunsOk C (pre ++ ⟨a.len + b.len, a.start⟩ :: post) xs zs ∧ zs.drop e = ys.drop e) ?_ ?_
    · refine TriS.onPanic (E' := EP C xs) ?_ ?_
      · rw [h1.idx ha]
        refine TriS.pureB ?_
        rw [h1.idx hb']
        refine TriS.pureB (TriS.slice (by omega) (by omega) ?_)
        rw [show b.start + b.len - a.start = a.len + b.len by omega]
        refine TriS.bind (Q' := fun _ zs => RunsOk C (pre ++ ⟨a.len + b.len, a.start⟩ :: post) xs zs ∧ zs.drop e = ys.drop e) ?_ ?_
        · have hseg : (ys.drop a.start).take (a.len + b.len) = (ys.drop a.start).take a.len ++ (ys.drop b.start).take b.len := by
            rw [List.take_add, List.drop_drop]
            congr 3; omega
          refine TriS.subMono (a := a.start) (n := a.len + b.len) (by omega) (E' := EP C ((ys.drop a.start).take (a.len + b.len)))
            (Q' := fun _ zs => MergeOk C ((ys.drop a.start).take a.len) ((ys.drop b.start).take b.len) zs) ?_ ?_ ?_
          · rw [hseg]
            refine merge_spec (.inl rfl) (by simp; omega) ?_ ?_
            · rw [← hseg]; simp; omega
            · simp only [View.sub_len]; omega
          · rintro _ zs hz hm
            exact ⟨h4.merge h2 (by omega) hm hz, drop_beyond (by omega) hz (by omega)⟩
          · rintro e zs hz ⟨q1, q2, q3⟩
            exact ⟨q1, q2, (perm_part q3).trans h4.1⟩
        · rintro _ zs hz hm
          rw [e1]
          refine TriS.pureB ?_
          rw [e2]
          exact TriS.pure ⟨rfl, hm⟩
      · rintro e zs _ hE
        rw [h1.drop]
        exact TriS.pure hE
    · rintro rv' zs _ ⟨rfl, hq, hd⟩
      refine TriS.pure ⟨⟨_, g2, ?_, h3.merge (by omega), hq, ?_, hd.trans h6⟩, ?_⟩
      · refine chain_append.mpr ⟨m, c1, c2, by show 0 < a.len + b.len; omega, ?_⟩
        show Chain (m + (a.len + b.len)) post e
        rwa [← Nat.add_assoc]
      · intro hne q hq
        rcases List.mem_append.mp hq with hq | hq
        · exact h5 hne q (by simp [hq])
        rcases List.mem_cons.mp hq with rfl | hq
        · have := h5 hne a (by simp)
          show 10 ≤ a.len + b.len
          omega
        · exact h5 hne q (by simp [hq])
      · have l1 := h1.len
        have l2 := g2.len
        simp at l1 l2
        omega

/-- The stack of runs at the beginning of an iteration of the main loop. -/
structure LoopOk (C : Cmp α ι ω) (e : Nat) (xs : List α) (rv : RunVec) (ys : List α) (rs : List TimRun) : Prop where
  stack : StackOk C e xs rv ys rs
  tim : TimInv rs
  le : e ≤ xs.length
  final : e = xs.length → rs.length ≤ 1

/-- The allocator never fails to give more memory for runs where this is asked for. -/
def Alloc.Grows (al : Alloc) (len : Nat) : Prop :=
  ∀ i, cover (16 * 2 ^ i) < len → al.run (16 * 2 ^ (i + 1)) = true

/-- After a panic: of the comparator, or, with the array untouched, since memory was not available. -/
def EA (C : Cmp α ι ω) (al : Alloc) (xs : List α) : Panic → List α → Prop :=
  fun e ys => EP C xs e ys ∨ (e = .alloc ∧ 20 < xs.length ∧ (al.elem = false ∨ al.run 16 = false) ∧ ys = xs)

theorem mergeSortBody_spec {xs ys : List α} {e : Nat} {rv : RunVec} {rs : List TimRun} {al : Alloc}
    {watch : RunVec → Prog α ι ω Unit} (hal : al.Grows v.len) (hx : xs.length = v.len) (hy : ys.length = v.len)
    (hb : v.len / 2 ≤ buf.len) (h20 : 20 < v.len) (h : LoopOk C e xs rv ys rs)
    (hw : ∀ rv rs e, rv.Holds rs → TimInv rs → Chain 0 rs e → e ≤ v.len →
      10 * (Nat.fib (rs.length + 2) - 1) ≤ v.len → watch rv = pure ()) :
    TriS C.R v.region buf.region (mergeSortBody cfg C.less watch al v buf (e, rv)) ys
      (fun o zs => match o with
        | .inl x => (∃ rs', LoopOk C x.1 xs x.2 zs rs') ∧ v.len - x.1 < v.len - e ∧
            ∀ lt, C.Good lt → ∀ k, Sequences lt (k + 1) (xs.drop e) → Sequences lt k (xs.drop x.1)
        | .inr rv' => ∃ rs', LoopOk C v.len xs rv' zs rs') (EP C xs) := by
  obtain ⟨⟨h1, h2, h3, h4, h5, h6⟩, ht, hle, hfin⟩ := h
  unfold mergeSortBody
  by_cases hlt : e < v.len
  · simp only [hlt, if_true]
    refine TriS.bind (Q' := fun e' zs => e < e' ∧ e' ≤ v.len ∧ (e + 10 ≤ e' ∨ e' = v.len) ∧ RunOk C e e' ys zs ∧
        ∀ lt, C.Good lt → ∀ k, Sequences lt (k + 1) (ys.drop e) → Sequences lt k (ys.drop e')) ?_ ?_
    · refine TriS.onPanic (E' := EP C ys) (TriS.of_tri (nextRun_spec hy hlt)) ?_
      intro q zs _ hE
      rw [h1.drop]
      exact TriS.pure (EP.of_perm h4.1 hE)
    rintro e' zs hz ⟨p1, p2, p3, p4, p5⟩
    have hd : ys.drop e' = xs.drop e' := by
      have := congrArg (List.drop (e' - e)) h6
      rwa [List.drop_drop, List.drop_drop, show e + (e' - e) = e' by omega] at this
    rw [h6, hd] at p5
    refine TriS.usub (by omega) ?_
    have hgrow : rv.len < rv.cap ∨ al.run (rv.cap * 2) = true := by
      rcases Nat.lt_or_ge rv.len rv.cap with h | h
      · exact .inl h
      · obtain ⟨i, hi⟩ := h1.cap
        have hf := h1.fits
        have := ht.cover h2 (h5 (by omega))
        rw [h1.len, show rv.len = 16 * 2 ^ i by omega] at this
        rw [hi, Nat.mul_assoc, ← Nat.pow_succ]
        exact .inr (hal i (by omega))
    obtain ⟨rv1, e1, g1⟩ := h1.push (α := α) (ι := ι) (ω := ω) hgrow ⟨e' - e, e⟩
    rw [e1]
    refine TriS.pureB ?_
    have hstack : StackOk C e' xs rv1 zs (rs ++ [⟨e' - e, e⟩]) := by
      refine ⟨g1, chain_append.mpr ⟨e, h2, rfl, by show 0 < e' - e; omega, by show e + (e' - e) = e'; omega⟩, ht.push _,
        RunOk.push h4 h2 p4, ?_, p4.2.2.1.trans hd⟩
      intro hne r hr
      rcases List.mem_append.mp hr with hr | hr
      · exact h5 (by omega) r hr
      · rw [List.mem_singleton.mp hr]
        show 10 ≤ e' - e
        omega
    refine TriS.bind (Q' := fun rv' us => ∃ rs', StackOk C e' xs rv' us rs' ∧ TimInv rs' ∧ (e' = v.len → rs'.length ≤ 1)) ?_ ?_
    · refine TriS.loop (Inv := fun rv us => ∃ rs, StackOk C e' xs rv us rs) (μ := fun rv => rv.len) ⟨_, hstack⟩ (by omega) ?_
      rintro rv us hus ⟨rs, hs⟩
      refine TriS.mono (collapseBody_spec (by omega) p2 hb hs) ?_ (fun _ _ _ h => h)
      rintro (x | x) zs _ h <;> exact h
    · rintro rv' us _ ⟨rs', hs, ht', hf⟩
      have hh : 10 * (Nat.fib (rs'.length + 2) - 1) ≤ v.len := by
        by_cases hev : e' = v.len
        · have := hf hev
          have h3 : Nat.fib (rs'.length + 2) ≤ Nat.fib 3 := Nat.fib_mono (by omega)
          have : Nat.fib 3 = 2 := rfl
          omega
        · have := ht'.height hs.chain (hs.long (by omega))
          omega
      rw [hw rv' rs' e' hs.holds ht' hs.chain p2 hh]
      refine TriS.pureB (TriS.pure ⟨⟨rs', hs, ht', by omega, fun h => hf (by omega)⟩, by dsimp only; omega, p5⟩)
  · simp only [hlt, if_false]
    refine TriS.pure ⟨rs, ?_⟩
    rw [show v.len = e by omega]
    exact ⟨⟨h1, h2, h3, h4, h5, h6⟩, ht, hle, hfin⟩

theorem mergeSortWatch_spec {xs : List α} {al : Alloc} {watch : RunVec → Prog α ι ω Unit} (hal : al.Grows v.len) (hz : cfg.zst = false)
    (hx : xs.length = v.len) (hb : v.len / 2 ≤ buf.len)
    (hw : ∀ rv rs e, rv.Holds rs → TimInv rs → Chain 0 rs e → e ≤ v.len →
      10 * (Nat.fib (rs.length + 2) - 1) ≤ v.len → watch rv = pure ()) :
    TriS C.R v.region buf.region (mergeSortWatch cfg C.less watch al v buf) xs
      (fun _ ys => ys.Perm xs ∧ ∀ lt, C.Good lt → Sorted lt ys ∧ StableArr lt xs ys) (EA C al xs) := by
  unfold mergeSortWatch
  refine TriS.debugAssert (by simp [hz]) ?_
  split
  · split
    · refine TriS.of_tri (Tri.mono (insertionSortShiftLeft_spec C (by omega) (by omega) hx) ?_ (fun _ _ _ h => .inl h))
      rintro _ ys _ ⟨h1, h2⟩
      refine ⟨h1, fun lt hg => h2 lt hg ?_⟩
      obtain ⟨x, xs', rfl⟩ := List.exists_cons_of_length_pos (l := xs) (by omega)
      exact Sorted.single _
    · refine TriS.pure ⟨.refl _, fun lt _ => ⟨?_, .refl _⟩⟩
      match xs, hx with
      | [], _ => exact Sorted.nil
      | [x], _ => exact Sorted.single _
      | x :: y :: xs, hx => simp at hx; omega
  · rename_i h20
    cases he : al.elem with
    | false => exact TriS.throw (.inr ⟨rfl, by omega, .inl he, rfl⟩)
    | true =>
      cases hr : al.run 16 with
      | false => exact TriS.throw (.inr ⟨rfl, by omega, .inr hr, rfl⟩)
      | true =>
        simp only [Bool.not_true, Bool.false_eq_true, if_false]
        refine TriS.bind (Q' := fun rv ys => ∃ rs, LoopOk C v.len xs rv ys rs) ?_ ?_
        · refine TriS.mono (E := EP C xs) (TriS.loop (Inv := fun (x : Nat × RunVec) ys => ∃ rs, LoopOk C x.1 xs x.2 ys rs)
            (μ := fun x => v.len - x.1) ?_ (by show v.len - 0 < _; omega) ?_) (fun _ _ _ h => h) (fun _ _ _ h => .inl h)
          · exact ⟨[], ⟨RunVec.new_holds, rfl, fun i hi => by simp at hi, ⟨.refl _, fun _ _ => ⟨.refl _, by simp⟩⟩, by simp, rfl⟩,
              .nil, Nat.zero_le _, fun h => by simp⟩
          · rintro ⟨e, rv⟩ ys hl ⟨rs, h⟩
            refine TriS.mono (mergeSortBody_spec hal hx (by omega) hb (by omega) h hw) ?_ (fun _ _ _ h => h)
            rintro (x | x) zs _ h
            · exact ⟨h.1, h.2.1⟩
            · exact h
        · rintro rv ys hl ⟨rs, ⟨⟨h1, h2, -, h4, -, -⟩, -, -, hfin⟩⟩
          have hf := hfin hx.symm
          match rs, h2, hf with
          | [], h2, _ => simp [Chain] at h2; omega
          | [r], h2, _ =>
            obtain ⟨c1, c2, c3⟩ := h2
            simp only [Chain] at c3
            have hfinal : ys.Perm xs ∧ ∀ lt, C.Good lt → Sorted lt ys ∧ StableArr lt xs ys := by
              refine ⟨h4.1, fun lt hg => ?_⟩
              obtain ⟨s1, s2⟩ := h4.2 lt hg
              have := s2 r (by simp)
              rw [c1, List.drop_zero, List.take_of_length_le (by omega)] at this
              exact ⟨this, s1⟩
            rw [h1.drop]
            cases cfg.dbg with
            | false => exact TriS.pure hfinal
            | true =>
              simp only [if_true]
              rw [h1.idx (i := 0) rfl]
              refine TriS.pureB (TriS.debugAssert ?_ (TriS.pure hfinal))
              have := h1.len
              simp at this
              simp [← this, c1]
              omega

theorem sorted_of_subsingleton [Subsingleton α] {lt : α → α → Bool} (so : SWO lt) (xs : List α) : Sorted lt xs := by
  unfold Sorted
  refine List.Pairwise.imp (R := fun _ _ => True) ?_ (List.pairwise_of_forall (fun _ _ => trivial))
  intro a b _
  rw [Subsingleton.elim b a]
  exact so.irrefl a

theorem stableSort_spec {xs : List α} {al : Alloc} (hal : al.Grows v.len) (hz : cfg.zst = true → Subsingleton α)
    (hx : xs.length = v.len) (hb : v.len / 2 ≤ buf.len) :
    TriS C.R v.region buf.region (stableSort cfg C.less al v buf) xs
      (fun _ ys => ys.Perm xs ∧ ∀ lt, C.Good lt → Sorted lt ys ∧ StableArr lt xs ys) (EA C al xs) := by
  unfold stableSort
  cases h : cfg.zst with
  | true =>
    have := hz h
    exact TriS.pure ⟨.refl _, fun lt hg => ⟨sorted_of_subsingleton hg.1 _, .refl _⟩⟩
  | false => exact mergeSortWatch_spec hal h hx hb (fun _ _ _ _ _ _ _ _ => rfl)

end NdSlice
