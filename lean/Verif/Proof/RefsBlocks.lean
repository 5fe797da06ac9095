import Verif.Proof.Refs

/-
Continuation of `Verif.Proof.Refs`: `partition_in_blocks` and `partition`.
-/

namespace NdSlice.Refs

variable {α σ : Type} {K : RCtx α σ} {g : LiveSet} {v : View} {cfg : Cfg}

/-! ### Tracing -/

theorem traceL_refs {x : Addr} (hn : g.vt = some x) (hv : In g v) {l b : Nat} {n i : Nat} {acc : List Nat} (hi : i + n = b)
    (ha : ∀ o ∈ acc, o < b) :
    K.Keep g (traceL callAt K.t v l n i acc) (NdSlice.traceL ask v x l n i acc) (fun s t => s = t ∧ ∀ o ∈ t, o < b) := by
  induction n generalizing i acc with
  | zero => unfold traceL NdSlice.traceL; exact Keep.pure ⟨rfl, ha⟩
  | succ n ih =>
    unfold traceL NdSlice.traceL
    keep
    refine ih (by omega) ?_
    split
    · intro o ho
      rcases List.mem_append.mp ho with ho | ho
      · exact ha o ho
      · rw [List.mem_singleton.mp ho]
        exact Nat.lt_of_le_of_lt (Nat.mod_le _ _) (by omega)
    · exact ha

theorem traceR_refs {x : Addr} (hn : g.vt = some x) (hv : In g v) {b : Nat} {n e i : Nat} {acc : List Nat} (hi : i + n = b)
    (ha : ∀ o ∈ acc, o < b) :
    K.Keep g (traceR cfg callAt K.t v n e i acc) (NdSlice.traceR cfg ask v x n e i acc) (fun s t => s = t ∧ ∀ o ∈ t, o < b) := by
  induction n generalizing i e acc with
  | zero => unfold traceR NdSlice.traceR; exact Keep.pure ⟨rfl, ha⟩
  | succ n ih =>
    unfold traceR NdSlice.traceR
    keep
    refine ih (by omega) ?_
    split
    · intro o ho
      rcases List.mem_append.mp ho with ho | ho
      · exact ha o ho
      · rw [List.mem_singleton.mp ho]
        exact Nat.lt_of_le_of_lt (Nat.mod_le _ _) (by omega)
    · exact ha

/-! ### The cyclic permutation -/

/-- The element `x`, which is the object `i`, has been taken from the cell `h`. -/
def Out (K : RCtx α σ) (g : LiveSet) (h : Addr) (x : α) (i : Addr) : Asn α := fun mR mA L => K.Live g (upd mR h x) (upd mA h i) L

theorem copyIdx_refs (hv : In g v) {i j : Nat} (hi : i < v.len) (hj : j < v.len) (hne : i ≠ j) {x : α} {k : Addr} {exc : Asn α} :
    K.RT (Out K g (v.addr j) x k) (copyIdx v i j) (NdSlice.copyIdx v i j) (fun _ _ => Out K g (v.addr i) x k) exc := by
  unfold copyIdx NdSlice.copyIdx View.idx View.cset
  simp only [if_pos hi, if_pos hj, apart_eq (hv.apart hi hj hne)]
  refine RT.get fun y y' => RT.set (pre' := Out K g (v.addr i) x k) ?_ (RT.pure fun _ _ _ h => h)
  rintro mR mA L ⟨h, rfl, rfl⟩
  have hn : v.addr i ≠ v.addr j := fun e => hne (hv.inj _ _ hi hj e)
  have e : ∀ {τ : Type} (m : Mem τ) (z : τ), upd (upd (upd m (v.addr j) z) (v.addr j) (upd m (v.addr j) z (v.addr i))) (v.addr i)
      (upd m (v.addr j) z (v.addr j)) = upd (upd m (v.addr j) (m (v.addr i))) (v.addr i) z := by
    intro τ m z
    funext c
    unfold upd
    rw [if_neg hn, if_pos rfl]
    split
    · rfl
    · split <;> rfl
  have := RCtx.Live.swap h (hv.mem j hj) (hv.mem i hi)
  rw [e, e] at this
  exact this

/-- Offsets from `l` and to `r` of elements which are all distinct. -/
structure Offs (v : View) (l r : Nat) (ol or : List Nat) : Prop where
  ne : ∀ o ∈ ol, ∀ o' ∈ or, l + o + o' + 1 < r
  ltL : ∀ o ∈ ol, l + o < v.len
  ltR : ∀ o ∈ or, o + 1 ≤ r
  le : r ≤ v.len

theorem Offs.tails {l r : Nat} {ol or : List Nat} (h : Offs v l r ol or) : Offs v l r ol.tail or.tail :=
  ⟨fun o ho o' ho' => h.ne o (List.mem_of_mem_tail ho) o' (List.mem_of_mem_tail ho'), fun o ho => h.ltL o (List.mem_of_mem_tail ho),
    fun o ho => h.ltR o (List.mem_of_mem_tail ho), h.le⟩

theorem usub_eq {ι ω τ : Type} {a b : Nat} (h : b ≤ a) : (usub cfg a b : Prog τ ι ω Nat) = pure (a - b) := by
  unfold usub; rw [if_pos h]

theorem cycleLoop_refs (hv : In g v) {l r n : Nat} {ol or : List Nat} (ho : Offs v l r ol or) {x : α} {k : Addr} {exc : Asn α} :
    K.RT (fun mR mA L => ∀ o os, or = o :: os → Out K g (v.addr (r - (o + 1))) x k mR mA L) (cycleLoop cfg v l r n ol or) (NdSlice.cycleLoop cfg v l r n ol or)
      (fun b c mR mA L => b = c ∧ ((∀ o ∈ b.1, o ∈ ol) ∧ (∀ o ∈ b.2, o ∈ or) ∧ b.1.length = ol.length - n ∧ b.2.length = or.length - n) ∧ ∀ o os, b.2 = o :: os → Out K g (v.addr (r - (o + 1))) x k mR mA L) exc := by
  induction n generalizing ol or with
  | zero =>
    unfold cycleLoop NdSlice.cycleLoop
    exact RT.pure fun _ _ _ h => ⟨rfl, ⟨fun _ h => h, fun _ h => h, rfl, rfl⟩, fun o os e => h o os e⟩
  | succ n ih =>
    unfold cycleLoop NdSlice.cycleLoop
    have ho' := ho.tails
    have hi : ∀ o ∈ ol.tail, o ∈ ol := fun o h => List.mem_of_mem_tail h
    have hlen : ol.tail.length = ol.length - 1 := List.length_tail
    generalize ol.tail = ol' at hi ho' hlen
    rcases ol' with _ | ⟨a, ol'⟩
    · exact RT.ub
    rcases or with _ | ⟨b, or⟩
    · exact RT.ub
    have hb := ho.ltR b (List.mem_cons_self ..)
    have hab := ho.ne a (hi a (List.mem_cons_self ..)) b (List.mem_cons_self ..)
    have hl := ho.le
    dsimp only [List.tail_cons] at ho'
    simp only [leftIdx, rightIdx, usub_eq hb]
    change K.RT _ (copyIdx v (l + a) (r - (b + 1)) >>= _) (NdSlice.copyIdx v (l + a) (r - (b + 1)) >>= _) _ _
    refine RT.bind (RT.conseq (copyIdx_refs hv (by omega) (by omega) (by omega) (exc := exc)) (fun mR mA L h => h b or rfl) (fun _ _ _ _ _ h => h)
      (fun _ _ _ h => h)) fun _ _ => ?_
    dsimp only [List.tail_cons]
    rcases or with _ | ⟨c, or⟩
    · exact RT.ub
    have hc := ho'.ltR c (List.mem_cons_self ..)
    have hac := ho'.ne a (List.mem_cons_self ..) c (List.mem_cons_self ..)
    simp only [usub_eq hc]
    change K.RT _ (copyIdx v (r - (c + 1)) (l + a) >>= _) (NdSlice.copyIdx v (r - (c + 1)) (l + a) >>= _) _ _
    refine RT.bind (copyIdx_refs hv (by omega) (by omega) (by omega) (exc := exc)) fun _ _ => ?_
    refine RT.conseq (ih ho') ?_ ?_ (fun _ _ _ h => h)
    · intro mR mA L h o os e
      cases e
      exact h
    · rintro _ _ mR mA L ⟨rfl, ⟨h1, h2, h3, h4⟩, h5⟩
      simp only [List.length_cons] at h3 h4 hlen
      exact ⟨rfl, ⟨fun o h => hi o (h1 o h), fun o h => List.mem_cons_of_mem _ (h2 o h), by omega, by simp only [List.length_cons]; omega⟩, h5⟩

theorem cycle_refs (hv : In g v) {l r n : Nat} {ol or : List Nat} (ho : Offs v l r ol or) (h0 : 0 < n) :
    K.Keep g (cycle cfg v l r n ol or) (NdSlice.cycle cfg v l r n ol or)
      (fun a b => a = b ∧ (∀ o ∈ b.1, o ∈ ol) ∧ (∀ o ∈ b.2, o ∈ or) ∧ b.1.length = ol.length - n ∧ b.2.length = or.length - n) := by
  unfold cycle NdSlice.cycle
  rcases ol with _ | ⟨a, ol⟩
  · exact RT.ub
  have ha := ho.ltL a (List.mem_cons_self ..)
  rcases or with _ | ⟨b, or⟩
  · simp only [leftIdx, rightIdx, View.idx]
    change K.RT _ ((if l + a < v.len then _ else _) >>= _) ((if l + a < v.len then _ else _) >>= _) _ _
    simp only [if_pos ha]
    refine RT.getA fun _ => ?_
    exact RT.ub
  have hb := ho.ltR b (List.mem_cons_self ..)
  have hab := ho.ne a (List.mem_cons_self ..) b (List.mem_cons_self ..)
  have hl := ho.le
  have key : ∀ x k, K.RT (Out K g (v.addr (l + a)) x k)
      (copyIdx v (r - (b + 1)) (l + a) >>= fun _ => cycleLoop cfg v l r (n - 1) (a :: ol) (b :: or) >>= fun s =>
        rightIdx cfg r s.2 >>= fun j => v.cset j x >>= fun _ => pure (s.1.tail, s.2.tail))
      (NdSlice.copyIdx v (r - (b + 1)) (l + a) >>= fun _ => NdSlice.cycleLoop cfg v l r (n - 1) (a :: ol) (b :: or) >>= fun s =>
        rightIdx cfg r s.2 >>= fun j => v.cset j k >>= fun _ => pure (s.1.tail, s.2.tail))
      (fun s t mR mA L => (s = t ∧ (∀ o ∈ t.1, o ∈ a :: ol) ∧ (∀ o ∈ t.2, o ∈ b :: or) ∧ t.1.length = (a :: ol).length - n ∧
        t.2.length = (b :: or).length - n) ∧ K.Live g mR mA L) (K.Live g) := by
    intro x k
    refine RT.bind (copyIdx_refs hv (by omega) (by omega) (by omega) (exc := K.Live g)) fun _ _ => ?_
    refine RT.bind (RT.conseq (cycleLoop_refs hv ho (x := x) (k := k) (exc := K.Live g)) ?_ (fun _ _ _ _ _ h => h) (fun _ _ _ h => h)) ?_
    · intro mR mA L h o os e
      cases e
      exact h
    · rintro ⟨s1, s2⟩ t
      refine RT.intro (c := (s1, s2) = t ∧ (∀ o ∈ s1, o ∈ a :: ol) ∧ (∀ o ∈ s2, o ∈ b :: or) ∧ s1.length = (a :: ol).length - (n - 1) ∧
        s2.length = (b :: or).length - (n - 1)) (fun _ _ _ h => ⟨h.1, h.2.1⟩) ?_
      rintro ⟨rfl, h1, h2, h3, h4⟩
      dsimp only
      rcases s2 with _ | ⟨c, s2⟩
      · exact RT.ub
      have hc := ho.ltR c (h2 c (List.mem_cons_self ..))
      simp only [rightIdx, usub_eq hc]
      change K.RT _ (v.cset (r - (c + 1)) x >>= _) (v.cset (r - (c + 1)) k >>= _) _ _
      unfold View.cset
      rw [if_pos (by omega), if_pos (by omega)]
      refine RT.set (pre' := K.Live g) (fun mR mA L h => h.2.2 c s2 rfl) ?_
      exact RT.pure fun _ _ _ h => ⟨⟨rfl, fun o ho => h1 o (List.mem_of_mem_tail ho), fun o ho => h2 o (List.mem_of_mem_tail ho),
        by rw [List.length_tail]; omega, by rw [List.length_tail]; omega⟩, h⟩
  simp only [leftIdx, rightIdx, usub_eq hb, View.idx]
  change K.RT _ ((if l + a < v.len then _ else _) >>= _) ((if l + a < v.len then _ else _) >>= _) _ _
  simp only [if_pos ha]
  refine RT.get fun x k => ?_
  refine RT.conseq (key x k) ?_ (fun _ _ _ _ _ h => h) (fun _ _ _ h => h)
  rintro mR mA L ⟨h, rfl, rfl⟩
  have e : ∀ {τ : Type} (m : Mem τ), upd m (v.addr (l + a)) (m (v.addr (l + a))) = m := by
    intro τ m
    funext c
    unfold upd
    split
    · rename_i e; rw [e]
    · rfl
  unfold Out
  rw [e, e]
  exact h

/-! ### The main loop -/

/-- What is known about the blocks at the beginning of a round. -/
structure Bl (v : View) (s : BlockSt) : Prop where
  le : s.l ≤ s.r
  le' : s.r ≤ v.len
  bl : s.bl = BLOCK
  br : s.br = BLOCK
  ol : ∀ o ∈ s.ol, o < BLOCK
  or : ∀ o ∈ s.or, o < BLOCK
  one : s.ol = [] ∨ s.or = []
  wide : s.ol ≠ [] ∨ s.or ≠ [] → s.l + BLOCK ≤ s.r

/-- What is known about the blocks after their sizes have been adapted. -/
structure Sz (v : View) (s s' : BlockSt) : Prop where
  l : s'.l = s.l
  r : s'.r = s.r
  ol : s'.ol = s.ol
  or : s'.or = s.or
  bl : s'.bl ≤ BLOCK
  br : s'.br ≤ BLOCK
  sum : s.l + s'.bl + s'.br ≤ s.r
  olt : ∀ o ∈ s.ol, o < s'.bl
  ort : ∀ o ∈ s.or, o < s'.br
  big : ¬ s.r - s.l ≤ 2 * BLOCK → s'.bl = BLOCK ∧ s'.br = BLOCK

theorem not_ne {τ : Type} {a b : τ} (h : a = b) : ¬ a ≠ b := fun h' => h' h

theorem blockSizes_refs {s : BlockSt} (hs : Bl v s) : K.Keep g (blockSizes cfg s) (blockSizes cfg s) (fun a b => a = b ∧ Sz v s b) := by
  unfold blockSizes
  rw [usub_eq hs.le, usub_eq hs.le]
  change K.Keep g (if s.r - s.l ≤ 2 * BLOCK then _ else _) (if s.r - s.l ≤ 2 * BLOCK then _ else _) _
  have h1 := hs.le
  have h2 := hs.bl
  have h3 := hs.br
  refine Keep.ite (fun hw => ?_) (fun hw => Keep.pure ⟨rfl, rfl, rfl, rfl, rfl, by omega, by omega, by omega, fun o ho => h2 ▸ hs.ol o ho,
    fun o ho => h3 ▸ hs.or o ho, fun _ => ⟨h2, h3⟩⟩)
  have fin : ∀ s', Sz v s s' → K.Keep g (debugAssert cfg (decide (s'.bl ≤ BLOCK) && decide (s'.br ≤ BLOCK)) >>= fun _ =>
      debugAssert cfg (s.r - s.l == s'.bl + s'.br) >>= fun _ => pure s')
      (debugAssert cfg (decide (s'.bl ≤ BLOCK) && decide (s'.br ≤ BLOCK)) >>= fun _ =>
      debugAssert cfg (s.r - s.l == s'.bl + s'.br) >>= fun _ => pure s') (fun a b => a = b ∧ Sz v s b) := by
    intro s' h
    exact Keep.bind Keep.debugAssert fun _ _ _ => Keep.bind Keep.debugAssert fun _ _ _ => Keep.pure ⟨rfl, h⟩
  by_cases ho : s.ol ≠ [] ∨ s.or ≠ []
  · have hwd := hs.wide ho
    rw [if_pos ho, if_pos ho, usub_eq (by omega), usub_eq (by omega)]
    by_cases hl : s.ol ≠ []
    · have hr : s.or = [] := hs.one.resolve_left hl
      change K.Keep g ((if s.ol ≠ [] then _ else _) >>= _) ((if s.ol ≠ [] then _ else _) >>= _) _
      rw [if_pos hl, if_pos hl]
      exact fin { s with br := s.r - s.l - BLOCK } ⟨rfl, rfl, rfl, rfl, by dsimp only; omega, by dsimp only; omega, by dsimp only; omega,
        fun o ho => h2 ▸ hs.ol o ho, (by rw [hr]; intro o ho; cases ho), fun h => (h hw).elim⟩
    · have hr : s.or ≠ [] := ho.resolve_left hl
      change K.Keep g ((if s.ol ≠ [] then _ else if s.or ≠ [] then _ else _) >>= _) ((if s.ol ≠ [] then _ else if s.or ≠ [] then _ else _) >>= _) _
      rw [if_neg hl, if_neg hl, if_pos hr, if_pos hr]
      have hl : s.ol = [] := hs.one.resolve_right hr
      exact fin { s with bl := s.r - s.l - BLOCK } ⟨rfl, rfl, rfl, rfl, by dsimp only; omega, by dsimp only; omega, by dsimp only; omega,
        (by rw [hl]; intro o ho; cases ho), fun o ho => h3 ▸ hs.or o ho, fun h => (h hw).elim⟩
  · have hl : s.ol = [] := Classical.byContradiction fun h => ho (.inl h)
    have hr : s.or = [] := Classical.byContradiction fun h => ho (.inr h)
    rw [if_neg ho, if_neg ho]
    change K.Keep g ((if s.ol ≠ [] then _ else if s.or ≠ [] then _ else _) >>= _) ((if s.ol ≠ [] then _ else if s.or ≠ [] then _ else _) >>= _) _
    rw [if_neg (not_ne hl), if_neg (not_ne hl), if_neg (not_ne hr), if_neg (not_ne hr)]
    rw [usub_eq (by omega), usub_eq (by omega)]
    exact fin { s with bl := (s.r - s.l) / 2, br := (s.r - s.l) - (s.r - s.l) / 2 } ⟨rfl, rfl, rfl, rfl, by dsimp only; omega, by dsimp only; omega, by dsimp only; omega,
        (by rw [hl]; intro o ho; cases ho), (by rw [hr]; intro o ho; cases ho), fun h => (h hw).elim⟩

theorem blockStep_refs {x : Addr} (hn : g.vt = some x) (hv : In g v) {s : BlockSt} (hs : Bl v s) :
    K.Keep g (blockStep cfg callAt K.t v s) (NdSlice.blockStep cfg ask v x s) (Sim.SumR (fun a b => a = b ∧ Bl v b) Eq) := by
  unfold blockStep NdSlice.blockStep
  rw [usub_eq hs.le, usub_eq hs.le]
  change K.Keep g (blockSizes cfg s >>= _) (blockSizes cfg s >>= _) _
  refine Keep.bind (blockSizes_refs hs) ?_
  rintro s' _ ⟨rfl, hz⟩
  dsimp only
  refine Keep.bind (R := fun a b => a = b ∧ ∀ o ∈ b, o < s'.bl) ?_ ?_
  · exact Keep.ite (fun _ => traceL_refs hn hv (Nat.zero_add _) (fun o ho => by cases ho)) (fun _ => Keep.pure ⟨rfl, hz.ol ▸ hz.olt⟩)
  rintro ol _ ⟨rfl, hol⟩
  refine Keep.bind (R := fun a b => a = b ∧ ∀ o ∈ b, o < s'.br) ?_ ?_
  · exact Keep.ite (fun _ => traceR_refs hn hv (Nat.zero_add _) (fun o ho => by cases ho)) (fun _ => Keep.pure ⟨rfl, hz.or ▸ hz.ort⟩)
  rintro or _ ⟨rfl, hor⟩
  have hl := hz.l
  have hr := hz.r
  have hsum := hz.sum
  have hbl := hz.bl
  have hbr := hz.br
  have h1 := hs.le
  have h2 := hs.le'
  refine Keep.bind (R := fun a b => a = b ∧ (∀ o ∈ b.1, o < s'.bl) ∧ (∀ o ∈ b.2, o < s'.br) ∧ (b.1 = [] ∨ b.2 = [])) ?_ ?_
  · refine Keep.ite (fun hc => ?_) (fun hc => Keep.pure ⟨rfl, hol, hor, ?_⟩)
    · have hof : Offs v s'.l s'.r ol or := by
        refine ⟨fun o ho o' ho' => ?_, fun o ho => ?_, fun o ho => ?_, ?_⟩
        · have := hol o ho
          have := hor o' ho'
          omega
        · have := hol o ho
          omega
        · have := hor o ho
          omega
        · omega
      refine Keep.mono (cycle_refs hv hof hc) ?_
      rintro a _ ⟨rfl, e1, e2, e3, e4⟩
      refine ⟨rfl, fun o ho => hol o (e1 o ho), fun o ho => hor o (e2 o ho), ?_⟩
      rcases Nat.le_total ol.length or.length with h | h
      · rw [Nat.min_eq_left h] at e3
        exact .inl (List.length_eq_zero_iff.mp (by omega))
      · rw [Nat.min_eq_right h] at e4
        exact .inr (List.length_eq_zero_iff.mp (by omega))
    · rcases Nat.le_total ol.length or.length with h | h
      · rw [Nat.min_eq_left h] at hc
        exact .inl (List.length_eq_zero_iff.mp (Nat.eq_zero_of_not_pos hc))
      · rw [Nat.min_eq_right h] at hc
        exact .inr (List.length_eq_zero_iff.mp (Nat.eq_zero_of_not_pos hc))
  rintro ⟨ol', or'⟩ _ ⟨rfl, e1, e2, e3⟩
  dsimp only
  refine Keep.bind (R := fun a b => a = b ∧ b = (if or' = [] then s'.r - s'.br else s'.r)) ?_ ?_
  · rw [usub_eq (by omega), usub_eq (by omega)]
    exact Keep.ite (fun h => Keep.pure ⟨rfl, by rw [if_pos h]⟩) (fun h => Keep.pure ⟨rfl, by rw [if_neg h]⟩)
  rintro r' _ ⟨rfl, er⟩
  refine Keep.ite (fun _ => Keep.pureR rfl) (fun hd => Keep.pureL ⟨rfl, ?_⟩)
  have hw : ¬ s.r - s.l ≤ 2 * BLOCK := fun h => hd (decide_eq_true h)
  have hb := hz.big hw
  rw [er]
  refine ⟨?_, ?_, hb.1, hb.2, fun o ho => hb.1 ▸ e1 o ho, fun o ho => hb.2 ▸ e2 o ho, e3, ?_⟩
  · dsimp only
    split <;> split <;> omega
  · dsimp only
    split <;> omega
  · dsimp only
    rintro (h | h)
    · rw [if_neg h]
      split <;> omega
    · rw [if_neg h]
      split <;> omega

theorem moveRemL_refs (hv : In g v) {l n r : Nat} {ol : List Nat} : K.Keep g (moveRemL cfg v l n ol r) (moveRemL cfg v l n ol r) Eq := by
  induction n generalizing ol r with
  | zero => unfold moveRemL; keep
  | succ n ih => unfold moveRemL; keep; exact ih

theorem moveRemR_refs (hv : In g v) {l n r : Nat} {or : List Nat} : K.Keep g (moveRemR cfg v r n or l) (moveRemR cfg v r n or l) Eq := by
  induction n generalizing or l with
  | zero => unfold moveRemR; keep
  | succ n ih => unfold moveRemR; keep; exact ih

macro_rules | `(tactic| keep_lemma) => `(tactic| with_reducible first | exact moveRemL_refs ‹_› | exact moveRemR_refs ‹_›)

theorem partitionInBlocks_refs {x : Addr} (hn : g.vt = some x) (hv : In g v) :
    K.Keep g (partitionInBlocks cfg callAt K.t v) (NdSlice.partitionInBlocks cfg ask v x) Eq := by
  unfold partitionInBlocks NdSlice.partitionInBlocks
  refine Keep.ite (fun _ => Keep.pureEq) (fun _ => ?_)
  refine Keep.bind (R := Eq) (Keep.loop (R := fun a b => a = b ∧ Bl v b) ?_ ?_) ?_
  · rintro a _ ⟨rfl, h⟩
    exact blockStep_refs hn hv h
  · exact ⟨rfl, Nat.zero_le _, Nat.le_refl _, rfl, rfl, (fun o ho => by cases ho), (fun o ho => by cases ho), .inl rfl,
      fun h => (h.elim (fun h => h rfl) (fun h => h rfl)).elim⟩
  · rintro a _ rfl
    keep

macro_rules | `(tactic| keep_lemma) => `(tactic| with_reducible exact partitionInBlocks_refs ‹_› ‹_›)

theorem partition_refs (hn : g.vt = none) (hv : In g v) {p : Nat} :
    K.Keep g (partition cfg callAt K.t v p) (NdSlice.partition cfg ask v p) Eq := by
  unfold partition NdSlice.partition
  refine (Keep.bindEq (Keep.swap hv).weak fun _ => ?_).keep
  unfold View.splitAt
  by_cases h1 : 1 ≤ v.len
  · rw [if_pos h1, if_pos h1]
    refine pivot_refs (v := v.sub 0 1) (P := do
        let l ← scanUp (fun i => do
          let a ← uref (v.sub 1 (v.len - 1)) i
          callAt a K.t) (v.sub 1 (v.len - 1)).len 0
        let r ← scanDown (fun i => do
          let a ← uref (v.sub 1 (v.len - 1)) i
          let b ← callAt a K.t
          pure !b) ((v.sub 1 (v.len - 1)).len - l) (v.sub 1 (v.len - 1)).len
        let u ← (v.sub 1 (v.len - 1)).slice l r
        let k ← partitionInBlocks cfg callAt K.t u
        pure (l + k, decide (l ≥ r))) (Q := fun x => do
        let l ← scanUp (fun i => do
          let a ← (v.sub 1 (v.len - 1)).get i
          ask a x) (v.sub 1 (v.len - 1)).len 0
        let r ← scanDown (fun i => do
          let a ← (v.sub 1 (v.len - 1)).get i
          let b ← ask a x
          pure !b) ((v.sub 1 (v.len - 1)).len - l) (v.sub 1 (v.len - 1)).len
        let u ← (v.sub 1 (v.len - 1)).slice l r
        let k ← NdSlice.partitionInBlocks cfg ask u x
        pure (l + k, decide (l ≥ r))) hn (hv.sub h1) (by
          intro x
          have hw := hv.hole (n := v.len - 1) (Nat.le_refl _) (x := x)
          have hn' : (g.hole ((v.sub 0 1).addr 0) x).vt = some x := rfl
          keep) (fun _ => ?_)
    keep
  · rw [if_neg h1, if_neg h1]
    exact Keep.throw _

macro_rules | `(tactic| keep_lemma) => `(tactic| with_reducible exact partition_refs ‹_› ‹_›)

end NdSlice.Refs
