import Verif.Proof.RefsQuick

/-
Continuation of `Verif.Proof.RefsQuick`: merge sort.
-/

namespace NdSlice.Refs

variable {α σ : Type} {K : RCtx α σ} {g : LiveSet} {v buf : View} {cfg : Cfg}

/-! ### Merging -/

/-- The buffer may be changed and holds none of the elements. -/
structure Buf (K : RCtx α σ) (g : LiveSet) (buf : View) : Prop where
  mem : ∀ i, i < buf.len → K.T (buf.addr i) ∧ buf.addr i ≠ K.t
  out : ∀ i, i < buf.len → ¬ g.P (buf.addr i)
  inj : ∀ i j, i < buf.len → j < buf.len → buf.addr i = buf.addr j → i = j

theorem Buf.apart (hb : Buf K g buf) (hv : In g v) {i j : Nat} (hi : i < buf.len) (hj : j < v.len) : buf.addr i ≠ v.addr j :=
  fun e => hb.out i hi (e ▸ hv.mem j hj)

/-- While merging: the elements `buf[l..f]` belong to `v[o..r]`. -/
def gap (g : LiveSet) (v buf : View) (l f o r : Nat) : LiveSet :=
  ⟨fun c => (g.P c ∧ ∀ i, o ≤ i → i < r → c ≠ v.addr i) ∨ ∃ j, l ≤ j ∧ j < f ∧ c = buf.addr j, g.vt⟩

theorem gap_closed {mR : Mem α} {mA : Mem Addr} {L : Mem α} {l o : Nat} (h : K.Live (gap g v buf l l o o) mR mA L) : K.Live g mR mA L :=
  h.mono (fun a ha => .inl ⟨ha, fun i h1 h2 => by omega⟩) (fun _ h => h)

/-- Writing into a cell which is not live. -/
theorem Live.outside {mR : Mem α} {mA : Mem Addr} {L : Mem α} (h : K.Live g mR mA L) {d : Addr} (hd : ¬ g.P d) (hT : K.T d) (ht : d ≠ K.t) (x : α) (y : Addr) :
    K.Live g (upd mR d x) (upd mA d y) L := by
  have e : ∀ {τ : Type} (m : Mem τ) (z : τ) (c : Addr), g.P c → upd m d z c = m c := by
    intro τ m z c hc
    unfold upd
    rw [if_neg (fun e : c = d => hd (e ▸ hc))]
  refine ⟨fun c hc => ?_, fun i hi => ?_, fun a b ha hb => ?_, fun i a hi ha => ?_, h.sub, fun c hc hct => ?_⟩
  · rw [e _ _ _ hc, e _ _ _ hc]
    exact h.val c hc
  · unfold upd
    rw [if_neg (Ne.symm ht)]
    exact h.tv i hi
  · rw [e _ _ _ ha, e _ _ _ hb]
    exact h.inj a b ha hb
  · rw [e _ _ _ ha]
    exact h.tinj i a hi ha
  · unfold upd
    rw [if_neg (fun e : c = d => hc (e ▸ hT))]
    exact h.frame c hc hct

/-- The first `n` elements of the buffer are copies. -/
def Copied (v buf : View) (a n : Nat) : Asn α := fun mR mA _ =>
  ∀ i, i < n → mR (buf.addr i) = mR (v.addr (a + i)) ∧ mA (buf.addr i) = mA (v.addr (a + i))

theorem copyLoop_refs (hv : In g v) (hb : Buf K g buf) {a n i : Nat} (h1 : i ≤ buf.len) (h2 : i = 0 ∨ a + i ≤ v.len) :
    K.RT (fun mR mA L => K.Live g mR mA L ∧ Copied v buf a i mR mA L)
      (Prog.forUp (fun i => do
        let x ← v.idx (a + i)
        apart (v.addr (a + i)) (buf.addr i)
        buf.set i x) i n)
      (Prog.forUp (fun i => do
        let x ← v.idx (a + i)
        buf.set i x) i n)
      (fun _ _ mR mA L => (i + n ≤ buf.len ∧ (i + n = 0 ∨ a + (i + n) ≤ v.len)) ∧ K.Live g mR mA L ∧ Copied v buf a (i + n) mR mA L) (K.Live g) := by
  induction n generalizing i with
  | zero => exact RT.pure fun _ _ _ h => ⟨⟨h1, h2⟩, h⟩
  | succ n ih =>
    unfold Prog.forUp
    by_cases hi : a + i < v.len
    · by_cases hi' : i < buf.len
      · refine RT.bind (mid := fun _ _ mR mA L => K.Live g mR mA L ∧ Copied v buf a (i + 1) mR mA L) ?_ fun _ _ => ?_
        · unfold View.idx View.set
          simp only [if_pos hi, if_pos hi', apart_eq (fun e => hb.out i hi' (e ▸ hv.mem _ hi) : v.addr (a + i) ≠ buf.addr i)]
          refine RT.get fun x y => RT.set (pre' := fun mR mA L => K.Live g mR mA L ∧ Copied v buf a (i + 1) mR mA L) ?_ (RT.pure fun _ _ _ h => h)
          rintro mR mA L ⟨⟨h, hc⟩, rfl, rfl⟩
          refine ⟨Live.outside h (hb.out i hi') (hb.mem i hi').1 (hb.mem i hi').2 _ _, ?_⟩
          have hne : ∀ j, a + j < v.len → v.addr (a + j) ≠ buf.addr i := fun j hj e => hb.out i hi' (e ▸ hv.mem _ hj)
          intro j hj
          unfold upd
          by_cases hji : j = i
          · subst hji
            rw [if_pos rfl, if_pos rfl, if_neg (hne _ hi), if_neg (hne _ hi)]
            exact ⟨rfl, rfl⟩
          · have hb' : buf.addr j ≠ buf.addr i := fun e => hji (hb.inj _ _ (by omega) hi' e)
            rw [if_neg hb', if_neg hb', if_neg (hne _ (by omega)), if_neg (hne _ (by omega))]
            exact hc j (by omega)
        · have := ih (i := i + 1) (by omega) (.inr (by omega))
          rw [show i + 1 + n = i + (n + 1) from by omega] at this
          exact this
      · unfold View.idx View.set
        simp only [if_pos hi, if_neg hi']
        exact RT.getA fun _ => RT.ub
    · unfold View.idx
      simp only [if_neg hi]
      exact RT.throw fun _ _ _ h => h.1

/-- The copies in the buffer take the place of the elements. -/
theorem Live.dup {mR : Mem α} {mA : Mem Addr} {L : Mem α} (hv : In g v) (hb : Buf K g buf) {a n : Nat} (h : K.Live g mR mA L) (hc : Copied v buf a n mR mA L)
    (h1 : n ≤ buf.len) (h2 : a + n ≤ v.len) (hn : g.vt = none) : K.Live (gap g v buf 0 n a (a + n)) mR mA L := by
  refine ⟨?_, ?_, ?_, ?_, ?_, h.frame⟩
  · rintro c (⟨hc', _⟩ | ⟨j, _, hj, rfl⟩)
    · exact h.val c hc'
    · rw [(hc j hj).1, (hc j hj).2]
      exact h.val _ (hv.mem _ (by omega))
  · intro i hi
    exact h.tv i hi
  · rintro c c' (⟨hc1, hc2⟩ | ⟨j, _, hj, rfl⟩) (⟨hd1, hd2⟩ | ⟨k, _, hk, rfl⟩) e
    · exact h.inj _ _ hc1 hd1 e
    · rw [(hc k hk).2] at e
      exact (hc2 _ (Nat.le_add_right _ _) (by omega) (h.inj _ _ hc1 (hv.mem _ (by omega)) e)).elim
    · rw [(hc j hj).2] at e
      exact (hd2 _ (Nat.le_add_right _ _) (by omega) (h.inj _ _ (hv.mem _ (by omega)) hd1 e).symm).elim
    · rw [(hc j hj).2, (hc k hk).2] at e
      have := hv.inj _ _ (by omega) (by omega) (h.inj _ _ (hv.mem _ (by omega)) (hv.mem _ (by omega)) e)
      rw [show j = k from by omega]
  · intro i c hi
    rw [show (gap g v buf 0 n a (a + n)).vt = g.vt from rfl, hn] at hi
    cases hi
  · rintro c (⟨hc', _⟩ | ⟨j, _, hj, rfl⟩)
    · exact h.sub c hc'
    · exact hb.mem j (by omega)

/-- Moving an element of the buffer to the front of the gap. -/
theorem Live.fromBuf {mR : Mem α} {mA : Mem Addr} {L : Mem α} (hv : In g v) (hb : Buf K g buf) {l f o r : Nat} (h : K.Live (gap g v buf l f o r) mR mA L)
    (hs : ∀ a, g.P a → K.T a ∧ a ≠ K.t) (hl : l < f) (hf : f ≤ buf.len) (ho : o < v.len) :
    K.Live (gap g v buf (l + 1) f (o + 1) r) (upd mR (v.addr o) (mR (buf.addr l))) (upd mA (v.addr o) (mA (buf.addr l))) L := by
  have ht := hs _ (hv.mem o ho)
  refine (h.move (a := buf.addr l) (.inr ⟨l, Nat.le_refl _, hl, rfl⟩) ht.1 ht.2).mono ?_ (fun _ h => h)
  rintro c (⟨hc, hc'⟩ | ⟨j, hj, hj', rfl⟩)
  · by_cases hco : c = v.addr o
    · exact .inr hco
    · refine .inl ⟨.inl ⟨hc, fun i h1 h2 e => ?_⟩, fun e => hb.out l (by omega) (e ▸ hc)⟩
      by_cases hio : i = o
      · exact hco (hio ▸ e)
      · exact hc' i (by omega) h2 e
  · refine .inl ⟨.inr ⟨j, by omega, hj', rfl⟩, fun e => ?_⟩
    have := hb.inj _ _ (by omega) (by omega) e
    omega

/-- Moving an element of the buffer to the back of the gap. -/
theorem Live.fromBufBack {mR : Mem α} {mA : Mem Addr} {L : Mem α} (hv : In g v) (hb : Buf K g buf) {l f o r : Nat} (h : K.Live (gap g v buf l (f + 1) o (r + 1)) mR mA L)
    (hs : ∀ a, g.P a → K.T a ∧ a ≠ K.t) (hl : l ≤ f) (hf : f < buf.len) (hr : r < v.len) :
    K.Live (gap g v buf l f o r) (upd mR (v.addr r) (mR (buf.addr f))) (upd mA (v.addr r) (mA (buf.addr f))) L := by
  have ht := hs _ (hv.mem r hr)
  refine (h.move (a := buf.addr f) (.inr ⟨f, hl, Nat.lt_succ_self _, rfl⟩) ht.1 ht.2).mono ?_ (fun _ h => h)
  rintro c (⟨hc, hc'⟩ | ⟨j, hj, hj', rfl⟩)
  · by_cases hco : c = v.addr r
    · exact .inr hco
    · refine .inl ⟨.inl ⟨hc, fun i h1 h2 e => ?_⟩, fun e => hb.out f hf (e ▸ hc)⟩
      by_cases hio : i = r
      · exact hco (hio ▸ e)
      · exact hc' i h1 (by omega) e
  · refine .inl ⟨.inr ⟨j, hj, by omega, rfl⟩, fun e => ?_⟩
    have := hb.inj _ _ (by omega) (by omega) e
    omega

/-- Moving an element from behind the gap to its front. -/
theorem Live.fromRight {mR : Mem α} {mA : Mem Addr} {L : Mem α} (hv : In g v) (hb : Buf K g buf) {l f o r : Nat} (h : K.Live (gap g v buf l f o r) mR mA L)
    (hs : ∀ a, g.P a → K.T a ∧ a ≠ K.t) (hf : f ≤ buf.len) (ho : o < r) (hr : r < v.len) :
    K.Live (gap g v buf l f (o + 1) (r + 1)) (upd mR (v.addr o) (mR (v.addr r))) (upd mA (v.addr o) (mA (v.addr r))) L := by
  have ht := hs _ (hv.mem o (by omega))
  refine (h.move (a := v.addr r) (.inl ⟨hv.mem r hr, fun i h1 h2 e => ?_⟩) ht.1 ht.2).mono ?_ (fun _ h => h)
  · have := hv.inj _ _ hr (by omega) e
    omega
  rintro c (⟨hc, hc'⟩ | ⟨j, hj, hj', rfl⟩)
  · by_cases hco : c = v.addr o
    · exact .inr hco
    · refine .inl ⟨.inl ⟨hc, fun i h1 h2 e => ?_⟩, fun e => hc' r (by omega) (Nat.lt_succ_self _) e⟩
      by_cases hio : i = o
      · exact hco (hio ▸ e)
      · exact hc' i (by omega) (by omega) e
  · exact .inl ⟨.inr ⟨j, hj, hj', rfl⟩, fun e => hb.out j (by omega) (e ▸ hv.mem r hr)⟩

/-- Moving an element from before the gap to its back. -/
theorem Live.fromLeft {mR : Mem α} {mA : Mem Addr} {L : Mem α} (hv : In g v) (hb : Buf K g buf) {l f o r : Nat} (h : K.Live (gap g v buf l f (o + 1) (r + 1)) mR mA L)
    (hs : ∀ a, g.P a → K.T a ∧ a ≠ K.t) (hf : f ≤ buf.len) (ho : o < r) (hr : r < v.len) :
    K.Live (gap g v buf l f o r) (upd mR (v.addr r) (mR (v.addr o))) (upd mA (v.addr r) (mA (v.addr o))) L := by
  have ht := hs _ (hv.mem r hr)
  refine (h.move (a := v.addr o) (.inl ⟨hv.mem o (by omega), fun i h1 h2 e => ?_⟩) ht.1 ht.2).mono ?_ (fun _ h => h)
  · have := hv.inj _ _ (by omega) (by omega) e
    omega
  rintro c (⟨hc, hc'⟩ | ⟨j, hj, hj', rfl⟩)
  · by_cases hco : c = v.addr r
    · exact .inr hco
    · refine .inl ⟨.inl ⟨hc, fun i h1 h2 e => ?_⟩, fun e => hc' o (Nat.le_refl _) (by omega) e⟩
      by_cases hio : i = r
      · exact hco (hio ▸ e)
      · exact hc' i (by omega) (by omega) e
  · exact .inl ⟨.inr ⟨j, hj, hj', rfl⟩, fun e => hb.out j (by omega) (e ▸ hv.mem o (by omega))⟩

theorem dropLoop_refs (hs : ∀ a, g.P a → K.T a ∧ a ≠ K.t) (hv : In g v) (hb : Buf K g buf) {s d i n : Nat} (h1 : s + i + n ≤ buf.len) (h2 : d + i + n ≤ v.len) :
    K.RT (K.Live (gap g v buf (s + i) (s + i + n) (d + i) (d + i + n)))
      (Prog.forUp (fun i => do
        let x ← buf.get (s + i)
        apart (buf.addr (s + i)) (v.addr (d + i))
        v.cset (d + i) x) i n)
      (Prog.forUp (fun i => do
        let x ← buf.get (s + i)
        v.cset (d + i) x) i n)
      (fun _ _ => K.Live g) (K.Live g) := by
  induction n generalizing i with
  | zero => exact RT.pure fun _ _ _ h => gap_closed h
  | succ n ih =>
    unfold Prog.forUp
    refine RT.bind (mid := fun _ _ => K.Live (gap g v buf (s + (i + 1)) (s + (i + 1) + n) (d + (i + 1)) (d + (i + 1) + n))) ?_ (fun _ _ => ih (by omega) (by omega))
    unfold View.get View.cset
    simp only [if_pos (show s + i < buf.len by omega), if_pos (show d + i < v.len by omega), apart_eq (hb.apart hv (show s + i < buf.len by omega) (show d + i < v.len by omega))]
    refine RT.get fun x y => RT.set (pre' := K.Live (gap g v buf (s + (i + 1)) (s + (i + 1) + n) (d + (i + 1)) (d + (i + 1) + n))) ?_ (RT.pure fun _ _ _ h => h)
    rintro mR mA L ⟨h, rfl, rfl⟩
    have := Live.fromBuf hv hb h hs (by omega) (by omega) (by omega)
    rw [show s + i + (n + 1) = s + (i + 1) + n by omega, show d + i + (n + 1) = d + (i + 1) + n by omega] at this
    exact this

theorem mergeHoleDrop_refs (hs : ∀ a, g.P a → K.T a ∧ a ≠ K.t) (hv : In g v) (hb : Buf K g buf) {l f o r : Nat} (hl : l ≤ f) (hr : r = o + (f - l))
    (h1 : f ≤ buf.len) (h2 : r ≤ v.len) :
    K.RT (K.Live (gap g v buf l f o r)) (mergeHoleDrop cfg v buf l f o) (NdSlice.mergeHoleDrop cfg v buf l f o) (fun _ _ => K.Live g) (K.Live g) := by
  unfold mergeHoleDrop NdSlice.mergeHoleDrop
  rw [usub_eq hl, usub_eq hl]
  have := dropLoop_refs (K := K) hs hv hb (s := l) (d := o) (i := 0) (n := f - l) (by omega) (by omega)
  rw [show l + 0 + (f - l) = f by omega, show o + 0 + (f - l) = r by omega] at this
  exact this

/-- Both programs go on, or both stop. -/
def SumA {β γ δ ε : Type} (R : β → γ → Asn α) (S : δ → ε → Asn α) : β ⊕ δ → γ ⊕ ε → Asn α
  | .inl x, .inl y => R x y
  | .inr x, .inr y => S x y
  | _, _ => fun _ _ _ => False

/-- A way to read elements. -/
def Reads {τ ι ω : Type} (rd : View → Nat → Prog τ ι ω τ) : Prop := ∀ v i, i < v.len → rd v i = .get (v.addr i) .ret

theorem reads_get {τ ι ω : Type} : Reads (View.get : View → Nat → Prog τ ι ω τ) := fun v i h => by unfold View.get; exact if_pos h
theorem reads_idx {τ ι ω : Type} : Reads (View.idx : View → Nat → Prog τ ι ω τ) := fun v i h => by unfold View.idx; exact if_pos h

variable {rd : View → Nat → Prog α (α × α) (α × α × Option Bool) α} {rd' : View → Nat → Prog Addr (Addr × Addr) Bool Addr}

/-- The state of the forward loop. -/
def Fwd (K : RCtx α σ) (g : LiveSet) (v buf : View) (fin : Nat) (s s' : Nat × Nat × Nat) : Asn α := fun mR mA L =>
  (s = s' ∧ s.1 ≤ fin ∧ s.2.1 = s.2.2 + (fin - s.1) ∧ s.2.1 ≤ v.len) ∧ K.Live (gap g v buf s.1 fin s.2.2 s.2.1) mR mA L

theorem mergeFwdBody_refs (hrd : Reads rd) (hrd' : Reads rd') (hs : ∀ a, g.P a → K.T a ∧ a ≠ K.t) (hv : In g v) (hb : Buf K g buf) {fin : Nat} (hf : fin ≤ buf.len) {s s' : Nat × Nat × Nat} :
    K.RT (Fwd K g v buf fin s s') (mergeFwdBody cfg callAt rd v buf fin s) (NdSlice.mergeFwdBody cfg ask rd' v buf fin s')
      (SumA (Fwd K g v buf fin) (Fwd K g v buf fin)) (K.Live g) := by
  refine RT.intro (fun _ _ _ h => h.1) ?_
  obtain ⟨l, r, o⟩ := s
  rintro ⟨rfl, h1, h2, h3⟩
  dsimp only at h1 h2 h3
  unfold mergeFwdBody NdSlice.mergeFwdBody
  dsimp only
  refine RT.ite (fun hc => ?_) (fun _ => RT.pure fun _ _ _ h => h)
  rw [Bool.and_eq_true, decide_eq_true_eq, decide_eq_true_eq] at hc
  obtain ⟨hl, hr⟩ := hc
  refine RT.readU fun _ x => RT.readU fun _ y => ?_
  refine RT.bind (mid := fun b c mR mA L => b = c ∧ K.Live (gap g v buf l fin o r) mR mA L) ?_ fun b c => ?_
  · refine RT.conseq (post := fun b c mR mA L => b = c ∧ K.Live (gap g v buf l fin o r) mR mA L ∧ mA (v.addr r) = x ∧ mA (buf.addr l) = y)
      (RT.onPanic (RT.call (g := gap g v buf l fin o r) (F := fun m => m (v.addr r) = x ∧ m (buf.addr l) = y)
      (.inl ⟨.inl ⟨hv.mem r hr, fun i hi1 hi2 e => by have := hv.inj _ _ hr (by omega) e; omega⟩, fun _ h => h.1⟩)
      (.inl ⟨.inr ⟨l, Nat.le_refl _, hl, rfl⟩, fun _ h => h.2⟩))
      (RT.conseq (mergeHoleDrop_refs hs hv hb h1 h2 hf h3) (fun _ _ _ h => h.1) (fun _ _ _ _ _ h => h) (fun _ _ _ h => h)))
      (fun _ _ _ h => ⟨h.1.1.2, h.1.2, h.2⟩) (fun _ _ _ _ _ h => ⟨h.1, h.2.1⟩) (fun _ _ _ h => h)
  refine RT.intro (fun _ _ _ h => h.1) ?_
  rintro rfl
  unfold pick
  cases b
  · simp only [Bool.false_eq_true, if_false]
    unfold View.get View.cset
    simp only [if_pos (show l < buf.len by omega), if_pos (show o < v.len by omega), apart_eq (hb.apart hv (show l < buf.len by omega) (show o < v.len by omega))]
    refine RT.get fun z z' => RT.set (pre' := K.Live (gap g v buf (l + 1) fin (o + 1) r)) ?_ (RT.pure fun _ _ _ h => ?_)
    · rintro mR mA L ⟨⟨_, h⟩, rfl, rfl⟩
      exact Live.fromBuf hv hb h hs hl hf (by omega)
    · exact ⟨⟨rfl, hl, by dsimp only; omega, h3⟩, h⟩
  · simp only [if_true]
    rw [hrd _ _ hr, hrd' _ _ hr]
    unfold View.cset
    simp only [if_pos (show o < v.len by omega), apart_eq (hv.apart hr (show o < v.len by omega) (by omega))]
    refine RT.get fun z z' => RT.set (pre' := K.Live (gap g v buf l fin (o + 1) (r + 1))) ?_ (RT.pure fun _ _ _ h => ?_)
    · rintro mR mA L ⟨⟨_, h⟩, rfl, rfl⟩
      exact Live.fromRight hv hb h hs hf (by omega) hr
    · exact ⟨⟨rfl, h1, by dsimp only; omega, hr⟩, h⟩

/-- The state of the backward loop. -/
def Bwd (K : RCtx α σ) (g : LiveSet) (v buf : View) (s s' : Nat × Nat × Nat) : Asn α := fun mR mA L =>
  (s = s' ∧ s.2.2 = s.1 + s.2.1 ∧ s.2.2 ≤ v.len ∧ s.2.1 ≤ buf.len) ∧ K.Live (gap g v buf 0 s.2.1 s.1 s.2.2) mR mA L

theorem mergeBwdBody_refs (hrd : Reads rd) (hrd' : Reads rd') (hs : ∀ a, g.P a → K.T a ∧ a ≠ K.t) (hv : In g v) (hb : Buf K g buf) {s s' : Nat × Nat × Nat} :
    K.RT (Bwd K g v buf s s') (mergeBwdBody cfg callAt rd v buf s) (NdSlice.mergeBwdBody cfg ask rd' v buf s')
      (SumA (Bwd K g v buf) (Bwd K g v buf)) (K.Live g) := by
  refine RT.intro (fun _ _ _ h => h.1) ?_
  obtain ⟨l, r, o⟩ := s
  rintro ⟨rfl, h1, h2, h3⟩
  dsimp only at h1 h2 h3
  unfold mergeBwdBody NdSlice.mergeBwdBody
  dsimp only
  refine RT.ite (fun hc => ?_) (fun _ => RT.pure fun _ _ _ h => h)
  rw [Bool.and_eq_true, decide_eq_true_eq, decide_eq_true_eq] at hc
  obtain ⟨hl, hr⟩ := hc
  obtain ⟨l, rfl⟩ : ∃ l', l = l' + 1 := ⟨l - 1, by omega⟩
  obtain ⟨r, rfl⟩ : ∃ r', r = r' + 1 := ⟨r - 1, by omega⟩
  obtain ⟨o, rfl⟩ : ∃ o', o = o' + 1 := ⟨o - 1, by omega⟩
  rw [Nat.add_sub_cancel, Nat.add_sub_cancel]
  refine RT.readU fun _ y => RT.readU fun _ x => ?_
  refine RT.bind (mid := fun b c mR mA L => b = c ∧ K.Live (gap g v buf 0 (r + 1) (l + 1) (o + 1)) mR mA L) ?_ fun b c => ?_
  · refine RT.conseq (post := fun b c mR mA L => b = c ∧ K.Live (gap g v buf 0 (r + 1) (l + 1) (o + 1)) mR mA L ∧ mA (buf.addr r) = y ∧ mA (v.addr l) = x)
      (RT.onPanic (RT.call (g := gap g v buf 0 (r + 1) (l + 1) (o + 1)) (F := fun m => m (buf.addr r) = y ∧ m (v.addr l) = x)
      (.inl ⟨.inr ⟨r, Nat.zero_le _, Nat.lt_succ_self _, rfl⟩, fun _ h => h.1⟩)
      (.inl ⟨.inl ⟨hv.mem l (by omega), fun i hi1 hi2 e => by have := hv.inj _ _ (by omega) (by omega) e; omega⟩, fun _ h => h.2⟩))
      (RT.conseq (mergeHoleDrop_refs hs hv hb (Nat.zero_le _) (by omega) h3 h2) (fun _ _ _ h => h.1) (fun _ _ _ _ _ h => h) (fun _ _ _ h => h)))
      (fun _ _ _ h => ⟨h.1.1.2, h.1.2, h.2⟩) (fun _ _ _ _ _ h => ⟨h.1, h.2.1⟩) (fun _ _ _ h => h)
  refine RT.intro (fun _ _ _ h => h.1) ?_
  rintro rfl
  unfold pick
  rw [usub_eq (Nat.le_add_left 1 o), usub_eq (Nat.le_add_left 1 o), Nat.add_sub_cancel]
  cases b
  · simp only [Bool.false_eq_true, if_false]
    unfold View.get View.cset
    simp only [if_pos (show r < buf.len by omega)]
    refine RT.get fun z z' => ?_
    change K.RT _ (apart (buf.addr r) (v.addr o) >>= fun _ => (if o < v.len then _ else _) >>= _) ((if o < v.len then _ else _) >>= _) _ _
    simp only [if_pos (show o < v.len by omega), apart_eq (hb.apart hv (show r < buf.len by omega) (show o < v.len by omega))]
    refine RT.set (pre' := K.Live (gap g v buf 0 r (l + 1) o)) ?_ (RT.pure fun _ _ _ h => ?_)
    · rintro mR mA L ⟨⟨_, h⟩, rfl, rfl⟩
      exact Live.fromBufBack hv hb h hs (Nat.zero_le _) (by omega) (by omega)
    · exact ⟨⟨rfl, by dsimp only; omega, by dsimp only; omega, by dsimp only; omega⟩, h⟩
  · simp only [if_true]
    rw [hrd _ _ (show l < v.len by omega), hrd' _ _ (show l < v.len by omega)]
    unfold View.cset
    refine RT.get fun z z' => ?_
    change K.RT _ (apart (v.addr l) (v.addr o) >>= fun _ => (if o < v.len then _ else _) >>= _) ((if o < v.len then _ else _) >>= _) _ _
    simp only [if_pos (show o < v.len by omega), apart_eq (hv.apart (show l < v.len by omega) (show o < v.len by omega) (by omega))]
    refine RT.set (pre' := K.Live (gap g v buf 0 (r + 1) l o)) ?_ (RT.pure fun _ _ _ h => ?_)
    · rintro mR mA L ⟨⟨_, h⟩, rfl, rfl⟩
      exact Live.fromLeft hv hb h hs h3 (by omega) (by omega)
    · exact ⟨⟨rfl, by dsimp only; omega, by dsimp only; omega, h3⟩, h⟩

theorem RT.loop {β γ δ ε : Type} {R : β → γ → Asn α} {S : δ → ε → Asn α} {exc : Asn α}
    {body : β → Prog α (α × α) (α × α × Option Bool) (β ⊕ δ)} {body' : γ → Prog Addr (Addr × Addr) Bool (γ ⊕ ε)}
    (h : ∀ x y, K.RT (R x y) (body x) (body' y) (SumA R S) exc) {n : Nat} {x : β} {y : γ} :
    K.RT (R x y) (Prog.loop body n x) (Prog.loop body' n y) S exc := by
  induction n generalizing x y with
  | zero => exact RT.diverge
  | succ n ih =>
    unfold Prog.loop
    refine RT.bind (h x y) ?_
    rintro (a | a) (b | b)
    · exact ih
    · exact RT.ofFalse fun _ _ _ h => h
    · exact RT.ofFalse fun _ _ _ h => h
    · exact RT.pure fun _ _ _ h => h

theorem merge_refs (hrd : Reads rd) (hrd' : Reads rd') (hn : g.vt = none) (hv : In g v) (hb : Buf K g buf) {mid : Nat} :
    K.Keep g (merge cfg callAt rd v mid buf) (NdSlice.merge cfg ask rd' v mid buf) Eq := by
  refine RT.intro (fun _ _ _ h => h.sub) fun hs => ?_
  unfold merge NdSlice.merge
  refine RT.bind (mid := fun a b mR mA L => a = b ∧ K.Live g mR mA L ∧ (mid ≤ v.len → a = v.len - mid)) ?_ fun rest _ => ?_
  · unfold usub
    refine RT.ite (fun h => RT.pure fun _ _ _ h => ⟨rfl, h, fun _ => rfl⟩) (fun hm => RT.ite (fun _ => RT.throw fun _ _ _ h => h) (fun _ =>
      RT.pure fun _ _ _ h => ⟨rfl, h, fun h => (hm h).elim⟩))
  refine RT.intro (fun _ _ _ h => And.intro h.1 h.2.2) ?_
  rintro ⟨rfl, hrest⟩
  refine RT.conseq (pre := K.Live g) ?_ (fun _ _ _ h => h.2.1) (fun _ _ _ _ _ h => h) (fun _ _ _ h => h)
  refine RT.ite (fun hm => ?_) (fun hm => ?_)
  · refine RT.bind (RT.conseq (copyLoop_refs hv hb (a := 0) (n := mid) (i := 0) (Nat.zero_le _) (.inl rfl)) (fun _ _ _ h => ⟨h, fun i hi => by omega⟩)
      (fun _ _ _ _ _ h => h) (fun _ _ _ h => h)) fun _ _ => ?_
    refine RT.intro (fun _ _ _ h => h.1) ?_
    rintro ⟨h1, h2⟩
    have hlen : mid ≤ v.len := by omega
    refine RT.bind (RT.conseq (RT.loop (R := Fwd K g v buf mid) (S := Fwd K g v buf mid) (fun x y => mergeFwdBody_refs hrd hrd' hs hv hb (fin := mid) (by omega))) ?_ (fun _ _ _ _ _ h => h) (fun _ _ _ h => h)) ?_
    · rintro mR mA L ⟨_, h, hc⟩
      rw [Nat.zero_add] at hc
      have := Live.dup hv hb h hc (by omega) (by omega) hn
      rw [Nat.zero_add] at this
      exact ⟨⟨rfl, Nat.zero_le _, by dsimp only; omega, hlen⟩, this⟩
    · rintro ⟨l, r, o⟩ s
      refine RT.intro (fun _ _ _ h => h.1) ?_
      rintro ⟨rfl, e1, e2, e3⟩
      exact RT.conseq (mergeHoleDrop_refs hs hv hb e1 e2 (by omega) e3) (fun _ _ _ h => h.2) (fun _ _ _ _ _ h => ⟨rfl, h⟩) (fun _ _ _ h => h)
  · refine RT.bind (RT.conseq (copyLoop_refs hv hb (a := mid) (n := rest) (i := 0) (Nat.zero_le _) (.inl rfl)) (fun _ _ _ h => ⟨h, fun i hi => by omega⟩)
      (fun _ _ _ _ _ h => h) (fun _ _ _ h => h)) fun _ _ => ?_
    refine RT.intro (fun _ _ _ h => h.1) ?_
    rintro ⟨h1, h2⟩
    by_cases hlen : mid ≤ v.len
    · have hrest := hrest hlen
      refine RT.bind (RT.conseq (RT.loop (R := Bwd K g v buf) (S := Bwd K g v buf) (fun x y => mergeBwdBody_refs hrd hrd' hs hv hb)) ?_ (fun _ _ _ _ _ h => h) (fun _ _ _ h => h)) ?_
      · rintro mR mA L ⟨_, h, hc⟩
        rw [Nat.zero_add] at hc
        have := Live.dup hv hb h hc (by omega) (by omega) hn
        rw [show mid + rest = v.len by omega] at this
        exact ⟨⟨rfl, by dsimp only; omega, Nat.le_refl _, by dsimp only; omega⟩, this⟩
      · rintro ⟨l, r, o⟩ s
        refine RT.intro (fun _ _ _ h => h.1) ?_
        rintro ⟨rfl, e1, e2, e3⟩
        dsimp only at e1 e2 e3
        exact RT.conseq (mergeHoleDrop_refs hs hv hb (Nat.zero_le _) (by omega) e3 e2) (fun _ _ _ h => h.2) (fun _ _ _ _ _ h => ⟨rfl, h⟩) (fun _ _ _ h => h)
    · have h0 : rest = 0 := by omega
      subst h0
      unfold Prog.loop
      simp only [mergeBwdBody, NdSlice.mergeBwdBody, Nat.lt_irrefl, decide_false, Bool.and_false, Bool.false_eq_true, if_false]
      change K.RT _ (mergeHoleDrop cfg v buf 0 0 mid) (NdSlice.mergeHoleDrop cfg v buf 0 0 mid) _ _
      unfold mergeHoleDrop NdSlice.mergeHoleDrop
      rw [usub_eq (Nat.le_refl _), usub_eq (Nat.le_refl _)]
      exact RT.pure fun _ _ _ h => ⟨trivial, h.2.1⟩

/-! ### Merge sort -/

theorem streakLoop_refs (hv : In g v) {rev : Bool} {e n : Nat} : K.Keep g (streakLoop callAt v rev e n) (NdSlice.streakLoop ask v rev e n) Eq := by
  induction n generalizing e with
  | zero => exact Keep.pureEq
  | succ n ih => unfold streakLoop NdSlice.streakLoop; keep; exact ih

macro_rules | `(tactic| keep_lemma) => `(tactic| with_reducible exact streakLoop_refs ‹_›)

theorem findStreak_refs (hv : In g v) : K.Keep g (findStreak callAt v) (NdSlice.findStreak ask v) Eq := by
  unfold findStreak NdSlice.findStreak; keep

theorem provideSortedBatch_refs (hn : g.vt = none) (hv : In g v) {s e : Nat} :
    K.Keep g (provideSortedBatch cfg callAt K.t v s e) (NdSlice.provideSortedBatch cfg ask v s e) Eq := by
  unfold provideSortedBatch NdSlice.provideSortedBatch; keep

macro_rules | `(tactic| keep_lemma) => `(tactic| with_reducible first | exact findStreak_refs ‹_› | exact provideSortedBatch_refs ‹_› ‹_›)

theorem nextRun_refs (hn : g.vt = none) (hv : In g v) {s : Nat} :
    K.Keep g (nextRun cfg callAt K.t v s) (NdSlice.nextRun cfg ask v s) Eq := by
  unfold nextRun NdSlice.nextRun; keep

theorem rv_drop {rv : RunVec} : K.Keep g rv.drop rv.drop Eq := by
  unfold RunVec.drop
  split
  · exact Keep.pureEq
  · exact Keep.ub

theorem rv_push {al : Alloc} {rv : RunVec} {r : TimRun} : K.Keep g (rv.push al r) (rv.push al r) Eq := by
  unfold RunVec.push
  refine Keep.ite (fun _ => Keep.ite (fun _ => ?_) (fun _ => ?_)) (fun _ => ?_)
  · rcases rv.grow with _ | rv
    · exact Keep.ub
    · dsimp only
      split
      · exact Keep.pureEq
      · exact Keep.ub
  · exact Keep.bind rv_drop fun _ _ _ => Keep.throw _
  · split
    · exact Keep.pureEq
    · exact Keep.ub

theorem rv_idx {rv : RunVec} {i : Nat} : K.Keep g (rv.idx i) (rv.idx i) Eq := by
  unfold RunVec.idx
  refine Keep.ite (fun _ => ?_) (fun _ => Keep.throw _)
  split
  · exact Keep.pureEq
  · exact Keep.ub

theorem rv_setIdx {rv : RunVec} {i : Nat} {r : TimRun} : K.Keep g (rv.setIdx i r) (rv.setIdx i r) Eq := by
  unfold RunVec.setIdx
  refine Keep.ite (fun _ => ?_) (fun _ => Keep.throw _)
  split
  · exact Keep.ite (fun _ => Keep.pureEq) (fun _ => Keep.ub)
  · exact Keep.ub

theorem rv_remove {rv : RunVec} {i : Nat} : K.Keep g (rv.remove i) (rv.remove i) Eq := by
  unfold RunVec.remove
  refine Keep.ite (fun _ => Keep.throw _) (fun _ => ?_)
  split
  · exact Keep.ite (fun _ => Keep.pureEq) (fun _ => Keep.ub)
  · exact Keep.ub

theorem rv_asSlice {rv : RunVec} : K.Keep g rv.asSlice rv.asSlice Eq := by
  unfold RunVec.asSlice
  split
  · exact Keep.pureEq
  · exact Keep.ub

macro_rules | `(tactic| keep_lemma) => `(tactic| with_reducible first
  | exact nextRun_refs ‹_› ‹_›
  | exact rv_drop
  | exact rv_push
  | exact rv_idx
  | exact rv_setIdx
  | exact rv_remove
  | exact rv_asSlice
  | exact merge_refs reads_get reads_get ‹_› ‹_› ‹_›)

theorem collapseBody_refs (hn : g.vt = none) (hv : In g v) (hb : Buf K g buf) {rv : RunVec} :
    K.Keep g (collapseBody cfg callAt v buf rv) (NdSlice.collapseBody cfg ask v buf rv) (Sim.SumR Eq Eq) := by
  unfold collapseBody NdSlice.collapseBody
  refine (Keep.bindEq rv_asSlice.weak fun rs => ?_).keep
  rcases collapse rs v.len with _ | r
  · exact Keep.pureR rfl
  · dsimp only
    keep

macro_rules | `(tactic| keep_lemma) => `(tactic| with_reducible exact collapseBody_refs ‹_› ‹_› ‹_›)

theorem mergeSortBody_refs (hn : g.vt = none) (hv : In g v) (hb : Buf K g buf) {al : Alloc} {s : Nat × RunVec} :
    K.Keep g (mergeSortBody cfg callAt K.t al v buf s) (NdSlice.mergeSortBody cfg ask (fun _ => pure ()) al v buf s) (Sim.SumR Eq Eq) := by
  obtain ⟨start, rv⟩ := s
  unfold mergeSortBody NdSlice.mergeSortBody
  keep
  exact Keep.pureL rfl

macro_rules | `(tactic| keep_lemma) => `(tactic| with_reducible exact mergeSortBody_refs ‹_› ‹_› ‹_›)

theorem stableSort_refs (hn : g.vt = none) (hv : In g v) (hb : Buf K g buf) {al : Alloc} :
    K.Keep g (stableSort cfg callAt K.t al v buf) (NdSlice.stableSort cfg ask al v buf) Eq := by
  unfold stableSort NdSlice.stableSort mergeSort NdSlice.mergeSort mergeSortWatch
  keep

end NdSlice.Refs
