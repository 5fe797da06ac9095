import Verif.Core.Sim
import Verif.Model.Refs

/-
Relational reasoning about user code which is given references: the model on places (`Verif.Model.Refs`) against the model on objects, that
is, the model of the other files run on the names of the objects, where the state of each object is kept aside and changed by user code.
-/

namespace NdSlice

/-- What user code saw and did, told by objects: `ids` are the objects each call was about, `d` is what was seen by and came from user code,
and the states of the objects go from `L` to the last argument.  In each call user code saw the current states of the two objects. -/
inductive Replay {α : Type} : Mem α → List (Addr × Addr) → List ((α × α) × Option (α × α × Option Bool)) → Mem α → Prop where
  | nil (L : Mem α) : Replay L [] [] L
  | panic {L L' : Mem α} {ids d} (i j : Addr) : Replay L ids d L' → Replay L ((i, j) :: ids) (((L i, L j), none) :: d) L'
  | call {L L' : Mem α} {ids d} (i j : Addr) (x y : α) (r : Option Bool) : Replay (upd (upd L i x) j y) ids d L' →
      Replay L ((i, j) :: ids) (((L i, L j), some (x, y, r)) :: d) L'

namespace Refs

variable {α σ β γ δ ε : Type}

theorem Replay.append {L L' L'' : Mem α} {ids ids' d d'} (h : Replay L ids d L') (h' : Replay L' ids' d' L'') :
    Replay L (ids ++ ids') (d ++ d') L'' := by
  induction h with
  | nil => exact h'
  | panic i j _ ih => exact .panic i j (ih h')
  | call i j x y r _ ih => exact .call i j x y r (ih h')

/-- User code of the model on objects: it is asked about two objects by name; their states are part of its own state. -/
def objOracle (o : Oracle σ (α × α) (α × α × Option Bool)) : Oracle (σ × Mem α) (Addr × Addr) Bool where
  ask := fun s q => match (o.ask s.1 (s.2 q.1, s.2 q.2)).1 with
    | none => (none, (o.ask s.1 (s.2 q.1, s.2 q.2)).2, s.2)
    | some r => (r.2.2, (o.ask s.1 (s.2 q.1, s.2 q.2)).2, upd (upd s.2 q.1 r.1) q.2 r.2.1)
  flip := fun s => ((o.flip s.1).1, (o.flip s.1).2, s.2)

/-- The comparison of the model on objects. -/
def ask (i j : Addr) : Prog Addr (Addr × Addr) Bool Bool := .call (i, j) fun
  | none => .throw .user
  | some b => .ret b

/-- What is fixed: user code, the cell for copies on the stack, the cells which may be changed, and the memory and the history at the start. -/
structure RCtx (α σ : Type) where
  o : Oracle σ (α × α) (α × α × Option Bool)
  t : Addr
  T : Addr → Prop
  m₀ : Mem α
  lg₀ : List ((α × α) × Option (α × α × Option Bool))

/-- The cells which hold an object, and the object on the stack. -/
structure LiveSet where
  P : Addr → Prop
  vt : Option Addr

/-- Without the cell `a`, the object `i` being on the stack. -/
def LiveSet.hole (g : LiveSet) (a i : Addr) : LiveSet := ⟨fun b => g.P b ∧ b ≠ a, some i⟩

/-- Assertions about the memory on places, the memory on objects and the states of the objects. -/
abbrev Asn (α : Type) := Mem α → Mem Addr → Mem α → Prop

variable (K : RCtx α σ)

/-- Each live cell holds the current state of its object; no object is in two live cells. -/
structure RCtx.Live (g : LiveSet) (mR : Mem α) (mA : Mem Addr) (L : Mem α) : Prop where
  val : ∀ a, g.P a → mR a = L (mA a)
  tv : ∀ i, g.vt = some i → mR K.t = L i
  inj : ∀ a b, g.P a → g.P b → mA a = mA b → a = b
  tinj : ∀ i a, g.vt = some i → g.P a → mA a ≠ i
  sub : ∀ a, g.P a → K.T a ∧ a ≠ K.t
  frame : ∀ a, ¬ K.T a → a ≠ K.t → mR a = K.m₀ a

/-- The same user code state and the same history. -/
def RCtx.Link (sR : St α (α × α) (α × α × Option Bool) σ) (sA : St Addr (Addr × Addr) Bool (σ × Mem α)) : Prop :=
  sA.env.1 = sR.env ∧ ∃ d, sR.log = K.lg₀ ++ d ∧ Replay K.m₀ (sA.log.map Prod.fst) d sA.env.2

/-- From linked states with `pre`: if the program on objects ends so does the one on places, in the same way, with `post` or `exc`. -/
def RCtx.RT (pre : Asn α) (p : Prog α (α × α) (α × α × Option Bool) β) (q : Prog Addr (Addr × Addr) Bool γ)
    (post : β → γ → Asn α) (exc : Asn α) : Prop :=
  ∀ sR sA, K.Link sR sA → pre sR.mem sA.mem sA.env.2 →
    match run (objOracle K.o) q sA with
    | (.ok c, sA') => ∃ b sR', run K.o p sR = (.ok b, sR') ∧ K.Link sR' sA' ∧ post b c sR'.mem sA'.mem sA'.env.2
    | (.panic e, sA') => ∃ sR', run K.o p sR = (.panic e, sR') ∧ K.Link sR' sA' ∧ exc sR'.mem sA'.mem sA'.env.2
    | _ => True

variable {K} {pre pre' : Asn α} {exc exc' : Asn α} {p : Prog α (α × α) (α × α × Option Bool) β} {q : Prog Addr (Addr × Addr) Bool γ}
  {post post' : β → γ → Asn α}

namespace RT

theorem conseq (h : K.RT pre p q post exc) (h1 : ∀ mR mA L, pre' mR mA L → pre mR mA L)
    (h2 : ∀ b c mR mA L, post b c mR mA L → post' b c mR mA L) (h3 : ∀ mR mA L, exc mR mA L → exc' mR mA L) :
    K.RT pre' p q post' exc' := by
  intro sR sA hl hp
  have := h sR sA hl (h1 _ _ _ hp)
  revert this
  rcases run (objOracle K.o) q sA with ⟨_ | _ | _ | _, sA'⟩ <;> dsimp only
  · rintro ⟨b, sR', e, hl, hq⟩
    exact ⟨b, sR', e, hl, h2 _ _ _ _ _ hq⟩
  · rintro ⟨sR', e, hl, hq⟩
    exact ⟨sR', e, hl, h3 _ _ _ hq⟩
  · exact id
  · exact id

theorem bind {f : β → Prog α (α × α) (α × α × Option Bool) δ} {g : γ → Prog Addr (Addr × Addr) Bool ε} {mid : β → γ → Asn α}
    {post : δ → ε → Asn α} (h : K.RT pre p q mid exc) (hf : ∀ b c, K.RT (mid b c) (f b) (g c) post exc) :
    K.RT pre (p >>= f) (q >>= g) post exc := by
  intro sR sA hl hp
  have := h sR sA hl hp
  rw [run_bind, run_bind]
  revert this
  rcases run (objOracle K.o) q sA with ⟨_ | _ | _ | _, sA'⟩ <;> dsimp only
  · rintro ⟨b, sR', e, hl, hq⟩
    rw [e]
    exact hf _ _ sR' sA' hl hq
  · rintro ⟨sR', e, hl, hq⟩
    rw [e]
    exact ⟨sR', rfl, hl, hq⟩
  · exact id
  · exact id

theorem onPanic {h : Prog α (α × α) (α × α × Option Bool) Unit} {k : Prog Addr (Addr × Addr) Bool Unit}
    (hp : K.RT pre p q post exc) (hh : K.RT exc h k (fun _ _ => exc') exc') : K.RT pre (p.onPanic h) (q.onPanic k) post exc' := by
  intro sR sA hl hpre
  have := hp sR sA hl hpre
  rw [run_onPanic, run_onPanic]
  revert this
  rcases run (objOracle K.o) q sA with ⟨_ | e | _ | _, sA'⟩ <;> dsimp only
  · rintro ⟨b, sR', e, hl, hq⟩
    rw [e]
    exact ⟨b, sR', rfl, hl, hq⟩
  · rintro ⟨sR', e', hl, hq⟩
    rw [e']
    dsimp only
    have := hh sR' sA' hl hq
    change (match run (objOracle K.o) (k >>= fun _ => Prog.throw e) sA' with
      | (.ok c, sA') => ∃ b sR'', run K.o (h >>= fun _ => Prog.throw e) sR' = (.ok b, sR'') ∧ K.Link sR'' sA' ∧ post b c sR''.mem sA'.mem sA'.env.2
      | (.panic e₁, sA') => ∃ sR'', run K.o (h >>= fun _ => Prog.throw e) sR' = (.panic e₁, sR'') ∧ K.Link sR'' sA' ∧ exc' sR''.mem sA'.mem sA'.env.2
      | _ => True)
    rw [run_bind, run_bind]
    revert this
    rcases run (objOracle K.o) k sA' with ⟨_ | _ | _ | _, sA''⟩ <;> dsimp only
    · rintro ⟨b, sR'', e'', hl, hq⟩
      rw [e'']
      exact ⟨sR'', rfl, hl, hq⟩
    · rintro ⟨sR'', e'', hl, hq⟩
      rw [e'']
      exact ⟨sR'', rfl, hl, hq⟩
    · exact id
    · exact id
  · exact id
  · exact id

theorem pure {b : β} {c : γ} (h : ∀ mR mA L, pre mR mA L → post b c mR mA L) : K.RT pre (Pure.pure b) (Pure.pure c) post exc :=
  fun sR _ hl hp => ⟨b, sR, rfl, hl, h _ _ _ hp⟩

theorem throw {e : Panic} (h : ∀ mR mA L, pre mR mA L → exc mR mA L) : K.RT pre (.throw e) (.throw e) post exc :=
  fun sR _ hl hp => ⟨sR, rfl, hl, h _ _ _ hp⟩

theorem ub {p : Prog α (α × α) (α × α × Option Bool) β} : K.RT pre p .ub post exc := fun _ _ _ _ => trivial

theorem diverge {p : Prog α (α × α) (α × α × Option Bool) β} : K.RT pre p .diverge post exc := fun _ _ _ _ => trivial

theorem ite {c : Prop} [i₁ : Decidable c] [i₂ : Decidable c] {p' : Prog α (α × α) (α × α × Option Bool) β} {q' : Prog Addr (Addr × Addr) Bool γ}
    (h : c → K.RT pre p q post exc) (h' : ¬ c → K.RT pre p' q' post exc) :
    K.RT pre (@_root_.ite _ c i₁ p p') (@_root_.ite _ c i₂ q q') post exc := by
  by_cases hc : c
  · rw [if_pos hc, if_pos hc]; exact h hc
  · rw [if_neg hc, if_neg hc]; exact h' hc

/-- Reading a cell on both sides. -/
theorem get {a : Addr} {k : α → Prog α (α × α) (α × α × Option Bool) β} {k' : Addr → Prog Addr (Addr × Addr) Bool γ}
    (h : ∀ x y, K.RT (fun mR mA L => pre mR mA L ∧ mR a = x ∧ mA a = y) (k x) (k' y) post exc) :
    K.RT pre (.get a k) (.get a k') post exc :=
  fun sR sA hl hp => h (sR.mem a) (sA.mem a) sR sA hl ⟨hp, rfl, rfl⟩

/-- Reading a cell on the side of the objects only. -/
theorem getA {a : Addr} {k' : Addr → Prog Addr (Addr × Addr) Bool γ}
    (h : ∀ y, K.RT (fun mR mA L => pre mR mA L ∧ mA a = y) p (k' y) post exc) :
    K.RT pre p (.get a k') post exc :=
  fun sR sA hl hp => h (sA.mem a) sR sA hl ⟨hp, rfl⟩

/-- Reading a cell on the side of the places only. -/
theorem getR {a : Addr} {k : α → Prog α (α × α) (α × α × Option Bool) β}
    (h : ∀ x, K.RT (fun mR mA L => pre mR mA L ∧ mR a = x) (k x) q post exc) :
    K.RT pre (.get a k) q post exc :=
  fun sR sA hl hp => h (sR.mem a) sR sA hl ⟨hp, rfl⟩

/-- Writing a cell on both sides. -/
theorem set {a : Addr} {x : α} {y : Addr} (hs : ∀ mR mA L, pre mR mA L → pre' (upd mR a x) (upd mA a y) L) (h : K.RT pre' p q post exc) :
    K.RT pre (.set a x p) (.set a y q) post exc :=
  fun sR sA hl hp => h { sR with mem := upd sR.mem a x } { sA with mem := upd sA.mem a y } hl (hs _ _ _ hp)

/-- Writing a cell on the side of the places only. -/
theorem setR {a : Addr} {x : α} (hs : ∀ mR mA L, pre mR mA L → pre' (upd mR a x) mA L) (h : K.RT pre' p q post exc) :
    K.RT pre (.set a x p) q post exc :=
  fun sR sA hl hp => h { sR with mem := upd sR.mem a x } sA hl (hs _ _ _ hp)

/-- A reference on the side of the places, the element on that of the objects. -/
theorem readU {v : View} {i : Nat} {k : Addr → Prog α (α × α) (α × α × Option Bool) β} {k' : Addr → Prog Addr (Addr × Addr) Bool γ}
    (h : i < v.len → ∀ x, K.RT (fun mR mA L => pre mR mA L ∧ mA (v.addr i) = x) (k (v.addr i)) (k' x) post exc) :
    K.RT pre (uref v i >>= k) (v.get i >>= k') post exc := by
  unfold uref View.get
  by_cases hi : i < v.len
  · rw [if_pos hi, if_pos hi]
    exact getA (h hi)
  · rw [if_neg hi, if_neg hi]
    exact ub

/-- An end in advance. -/
theorem ofFalse (h : ∀ mR mA L, ¬ pre mR mA L) : K.RT pre p q post exc := fun _ _ _ hp => (h _ _ _ hp).elim

/-- Facts from the assertion. -/
theorem intro {c : Prop} (h : ∀ mR mA L, pre mR mA L → c) (h' : c → K.RT pre p q post exc) : K.RT pre p q post exc :=
  fun sR sA hl hp => h' (h _ _ _ hp) sR sA hl hp

end RT

/-! ### Live cells -/

variable {g g' : LiveSet} {mR : Mem α} {mA : Mem Addr} {L : Mem α} {a b : Addr}

namespace RCtx.Live

/-- An object is moved to the cell `d`. -/
theorem move (h : K.Live g mR mA L) (ha : g.P a) {d : Addr} (hd : K.T d) (ht : d ≠ K.t) :
    K.Live ⟨fun c => (g.P c ∧ c ≠ a) ∨ c = d, g.vt⟩ (upd mR d (mR a)) (upd mA d (mA a)) L := by
  refine ⟨?_, ?_, ?_, ?_, ?_, ?_⟩
  · intro c hc
    unfold upd
    by_cases hcd : c = d
    · rw [if_pos hcd, if_pos hcd]
      exact h.val a ha
    · rw [if_neg hcd, if_neg hcd]
      exact h.val c (hc.resolve_right hcd).1
  · intro i hi
    unfold upd
    rw [if_neg (Ne.symm ht)]
    exact h.tv i hi
  · intro c e hc he
    unfold upd
    by_cases hcd : c = d <;> by_cases hed : e = d
    · intro _
      rw [hcd, hed]
    · rw [if_pos hcd, if_neg hed]
      intro h'
      exact ((he.resolve_right hed).2 (h.inj a e ha (he.resolve_right hed).1 h').symm).elim
    · rw [if_neg hcd, if_pos hed]
      intro h'
      exact ((hc.resolve_right hcd).2 (h.inj c a (hc.resolve_right hcd).1 ha h')).elim
    · rw [if_neg hcd, if_neg hed]
      exact h.inj c e (hc.resolve_right hcd).1 (he.resolve_right hed).1
  · intro i c hi hc
    unfold upd
    by_cases hcd : c = d
    · rw [if_pos hcd]
      exact h.tinj i a hi ha
    · rw [if_neg hcd]
      exact h.tinj i c hi (hc.resolve_right hcd).1
  · rintro c (hc | hc)
    · exact h.sub c hc.1
    · exact ⟨hc ▸ hd, hc ▸ ht⟩
  · intro c hc hct
    unfold upd
    rw [if_neg (fun e : c = d => hc (e ▸ hd))]
    exact h.frame c hc hct

theorem mono (h : K.Live g mR mA L) (hP : ∀ a, g'.P a → g.P a) (ht : ∀ i, g'.vt = some i → g.vt = some i) : K.Live g' mR mA L :=
  ⟨fun a ha => h.val a (hP a ha), fun i hi => h.tv i (ht i hi), fun a b ha hb => h.inj a b (hP a ha) (hP b hb),
    fun i a hi ha => h.tinj i a (ht i hi) (hP a ha), fun a ha => h.sub a (hP a ha), h.frame⟩

/-- An object is moved to the stack. -/
theorem toHole (h : K.Live g mR mA L) (ha : g.P a) : K.Live (g.hole a (mA a)) (upd mR K.t (mR a)) mA L := by
  refine ⟨?_, ?_, ?_, ?_, ?_, ?_⟩
  · intro c hc
    unfold upd
    rw [if_neg (h.sub c hc.1).2]
    exact h.val c hc.1
  · intro i hi
    cases hi
    unfold upd
    rw [if_pos rfl]
    exact h.val a ha
  · intro c e hc he
    exact h.inj c e hc.1 he.1
  · intro i c hi hc e
    cases hi
    exact hc.2 (h.inj c a hc.1 ha e)
  · intro c hc
    exact h.sub c hc.1
  · intro c hc hct
    unfold upd
    rw [if_neg hct]
    exact h.frame c hc hct

/-- The object on the stack is moved back to the hole. -/
theorem fill {i : Addr} (h : K.Live (g.hole a i) mR mA L) (ha : K.T a) (ht : a ≠ K.t) (hn : g.vt = none) :
    K.Live g (upd mR a (mR K.t)) (upd mA a i) L := by
  refine ⟨?_, ?_, ?_, ?_, ?_, ?_⟩
  · intro c hc
    unfold upd
    by_cases hca : c = a
    · rw [if_pos hca, if_pos hca]
      exact h.tv i rfl
    · rw [if_neg hca, if_neg hca]
      exact h.val c ⟨hc, hca⟩
  · intro j hj
    rw [hn] at hj
    cases hj
  · intro c e hc he
    unfold upd
    by_cases hca : c = a <;> by_cases hea : e = a
    · intro _
      rw [hca, hea]
    · rw [if_pos hca, if_neg hea]
      intro h'
      exact (h.tinj i e rfl ⟨he, hea⟩ h'.symm).elim
    · rw [if_neg hca, if_pos hea]
      intro h'
      exact (h.tinj i c rfl ⟨hc, hca⟩ h').elim
    · rw [if_neg hca, if_neg hea]
      exact h.inj c e ⟨hc, hca⟩ ⟨he, hea⟩
  · intro j c hj
    rw [hn] at hj
    cases hj
  · intro c hc
    by_cases hca : c = a
    · exact ⟨hca ▸ ha, hca ▸ ht⟩
    · exact h.sub c ⟨hc, hca⟩
  · intro c hc hct
    unfold upd
    rw [if_neg (fun e : c = a => hc (e ▸ ha))]
    exact h.frame c hc hct

/-- The hole moves from `a` to `b`. -/
theorem shift {i : Addr} (h : K.Live (g.hole a i) mR mA L) (ha : K.T a) (ht : a ≠ K.t) (hb : g.P b) :
    K.Live (g.hole b i) (upd mR a (mR b)) (upd mA a (mA b)) L := by
  by_cases hab : b = a
  · have e : ∀ {τ : Type} (m : Mem τ), upd m a (m b) = m := by
      intro τ m
      funext c
      unfold upd
      split
      · rw [hab]; rename_i e; rw [e]
      · rfl
    rw [e, e, hab]
    exact h
  · exact (h.move (a := b) ⟨hb, hab⟩ ha ht).mono
      (fun c hc => by
        by_cases hca : c = a
        · exact .inr hca
        · exact .inl ⟨⟨hc.1, hca⟩, hc.2⟩)
      (fun _ h => h)

/-- Two objects change places. -/
theorem swap (h : K.Live g mR mA L) (ha : g.P a) (hb : g.P b) :
    K.Live g (upd (upd mR a (mR b)) b (mR a)) (upd (upd mA a (mA b)) b (mA a)) L := by
  have key : ∀ c, g.P c → ∃ c', g.P c' ∧ upd (upd mR a (mR b)) b (mR a) c = mR c' ∧ upd (upd mA a (mA b)) b (mA a) c = mA c' ∧
      (c' = if c = b then a else if c = a then b else c) := by
    intro c hc
    unfold upd
    by_cases h1 : c = b
    · exact ⟨a, ha, by rw [if_pos h1], by rw [if_pos h1], by rw [if_pos h1]⟩
    · by_cases h2 : c = a
      · exact ⟨b, hb, by rw [if_neg h1, if_pos h2], by rw [if_neg h1, if_pos h2], by rw [if_neg h1, if_pos h2]⟩
      · exact ⟨c, hc, by rw [if_neg h1, if_neg h2], by rw [if_neg h1, if_neg h2], by rw [if_neg h1, if_neg h2]⟩
  refine ⟨?_, ?_, ?_, ?_, h.sub, ?_⟩
  · intro c hc
    obtain ⟨c', hc', e1, e2, -⟩ := key c hc
    rw [e1, e2]
    exact h.val c' hc'
  · intro i hi
    unfold upd
    rw [if_neg (Ne.symm (h.sub b hb).2), if_neg (Ne.symm (h.sub a ha).2)]
    exact h.tv i hi
  · intro c e hc he
    obtain ⟨c', hc', -, e2, e3⟩ := key c hc
    obtain ⟨e', he', -, e5, e6⟩ := key e he
    rw [e2, e5]
    intro h'
    have := h.inj c' e' hc' he' h'
    rw [e3, e6] at this
    split at this <;> split at this <;> (try split at this) <;> (try split at this) <;> simp_all
  · intro i c hi hc
    obtain ⟨c', hc', -, e2, -⟩ := key c hc
    rw [e2]
    exact h.tinj i c' hi hc'
  · intro c hc hct
    unfold upd
    rw [if_neg (fun e : c = b => hc (e ▸ (h.sub b hb).1)), if_neg (fun e : c = a => hc (e ▸ (h.sub a ha).1))]
    exact h.frame c hc hct

end RCtx.Live

/-- The cell `a` holds the object `i`, knowing `F` about the memory on objects. -/
def RCtx.Has (K : RCtx α σ) (g : LiveSet) (F : Mem Addr → Prop) (a i : Addr) : Prop :=
  (g.P a ∧ ∀ m, F m → m a = i) ∨ (a = K.t ∧ g.vt = some i)

theorem RCtx.Live.has {F : Mem Addr → Prop} {i : Addr} (h : K.Live g mR mA L) (hF : F mA) (ha : K.Has g F a i) :
    mR a = L i := by
  rcases ha with ⟨hP, hi⟩ | ⟨ht, hi⟩
  · rw [h.val a hP, hi mA hF]
  · rw [ht, h.tv i hi]

/-- User code changes an object. -/
theorem RCtx.Live.change {F : Mem Addr → Prop} {i : Addr} (h : K.Live g mR mA L) (hF : F mA) (ha : K.Has g F a i) (x : α) :
    K.Live g (upd mR a x) mA (upd L i x) := by
  have hd : ∀ c, g.P c → (c = a ↔ mA c = i) := by
    intro c hc
    rcases ha with ⟨hP, hi⟩ | ⟨ht, hi⟩
    · constructor
      · rintro rfl; exact hi mA hF
      · intro e
        exact h.inj c a hc hP (e.trans (hi mA hF).symm)
    · constructor
      · rintro rfl; exact ((h.sub c hc).2 ht).elim
      · intro e
        exact (h.tinj i c hi hc e).elim
  refine ⟨?_, ?_, h.inj, h.tinj, h.sub, ?_⟩
  · intro c hc
    unfold upd
    by_cases hca : c = a
    · rw [if_pos hca, if_pos ((hd c hc).mp hca)]
    · rw [if_neg hca, if_neg (fun e => hca ((hd c hc).mpr e))]
      exact h.val c hc
  · intro j hj
    unfold upd
    rcases ha with ⟨hP, hi⟩ | ⟨ht, hi⟩
    · rw [if_neg (Ne.symm (h.sub a hP).2), if_neg (fun e => h.tinj j a hj hP ((hi mA hF).trans e.symm))]
      exact h.tv j hj
    · rw [hi] at hj
      cases hj
      rw [if_pos ht.symm, if_pos rfl]
  · intro c hc hct
    unfold upd
    rw [if_neg]
    · exact h.frame c hc hct
    · rintro rfl
      rcases ha with ⟨hP, -⟩ | ⟨ht, -⟩
      · exact hc (h.sub c hP).1
      · exact hct ht

/-- User code called with references to two live cells. -/
theorem RT.call {F : Mem Addr → Prop} {i j : Addr} (ha : K.Has g F a i) (hb : K.Has g F b j) :
    K.RT (fun mR mA L => K.Live g mR mA L ∧ F mA) (callAt a b) (ask i j)
      (fun b c mR mA L => b = c ∧ K.Live g mR mA L ∧ F mA) (fun mR mA L => K.Live g mR mA L ∧ F mA) := by
  rintro sR sA ⟨he, d, hd, hr⟩ ⟨hL, hF⟩
  have ea := hL.has hF ha
  have eb := hL.has hF hb
  unfold ask callAt
  simp only [run]
  rw [ea, eb]
  have h0 : (objOracle K.o).ask sA.env (i, j) = match (K.o.ask sR.env (sA.env.2 i, sA.env.2 j)).1 with
      | none => (none, (K.o.ask sR.env (sA.env.2 i, sA.env.2 j)).2, sA.env.2)
      | some r => (r.2.2, (K.o.ask sR.env (sA.env.2 i, sA.env.2 j)).2, upd (upd sA.env.2 i r.1) j r.2.1) := by
    rw [← he]; rfl
  rw [h0]
  rcases hk : (K.o.ask sR.env (sA.env.2 i, sA.env.2 j)).1 with _ | ⟨x, y, r⟩
  · dsimp only [run]
    refine ⟨_, rfl, ⟨rfl, d ++ [_], by dsimp only; rw [hd, List.append_assoc], ?_⟩, hL, hF⟩
    dsimp only
    rw [List.map_append]
    exact Replay.append hr (.panic i j (.nil _))
  · have hL' := (hL.change hF ha x).change hF hb y
    have hr' : Replay K.m₀ ((sA.log ++ [((i, j), r)]).map Prod.fst) (d ++ [((sA.env.2 i, sA.env.2 j), some (x, y, r))])
        (upd (upd sA.env.2 i x) j y) := by
      rw [List.map_append]
      exact Replay.append hr (.call i j x y r (.nil _))
    rcases r with _ | r
    · dsimp only [run]
      exact ⟨_, rfl, ⟨rfl, d ++ [_], by dsimp only; rw [hd, List.append_assoc], hr'⟩, hL', hF⟩
    · dsimp only [run]
      exact ⟨_, _, rfl, ⟨rfl, d ++ [_], by dsimp only; rw [hd, List.append_assoc], hr'⟩, rfl, hL', hF⟩

/-! ### Programs which keep the live cells live -/

/-- As `Keep`, knowing `F` about the memory on objects at the start. -/
def RCtx.KeepF (K : RCtx α σ) (g : LiveSet) (F : Mem Addr → Prop) (p : Prog α (α × α) (α × α × Option Bool) β) (q : Prog Addr (Addr × Addr) Bool γ)
    (R : β → γ → Prop) : Prop :=
  K.RT (fun mR mA L => K.Live g mR mA L ∧ F mA) p q (fun b c mR mA L => R b c ∧ K.Live g mR mA L) (K.Live g)

/-- Started with these live cells both programs end with these live cells, also if they panic, and with related results. -/
def RCtx.Keep (K : RCtx α σ) (g : LiveSet) (p : Prog α (α × α) (α × α × Option Bool) β) (q : Prog Addr (Addr × Addr) Bool γ)
    (R : β → γ → Prop) : Prop :=
  K.RT (K.Live g) p q (fun b c mR mA L => R b c ∧ K.Live g mR mA L) (K.Live g)

/-- The elements of the view are live. -/
structure In (g : LiveSet) (v : View) : Prop where
  mem : ∀ i, i < v.len → g.P (v.addr i)
  inj : ∀ i j, i < v.len → j < v.len → v.addr i = v.addr j → i = j

theorem addr_sub {v : View} {a n j : Nat} : (v.sub a n).addr j = v.addr (a + j) := by
  unfold View.sub View.addr
  push_cast
  rw [Int.mul_add, Int.add_assoc]

theorem In.sub {v : View} (h : In g v) {a n : Nat} (hn : a + n ≤ v.len) : In g (v.sub a n) := by
  refine ⟨fun i hi => ?_, fun i j hi hj => ?_⟩
  · have hi : i < n := hi
    rw [addr_sub]
    exact h.mem _ (by omega)
  · have hi : i < n := hi
    have hj : j < n := hj
    rw [addr_sub, addr_sub]
    intro e
    have := h.inj _ _ (by omega) (by omega) e
    omega

variable {R : β → γ → Prop} {S : δ → ε → Prop} {F : Mem Addr → Prop} {v : View} {i j : Nat} {cfg : Cfg}

theorem RCtx.Keep.weak (h : K.Keep g p q R) : K.KeepF g F p q R := RT.conseq h (fun _ _ _ h => h.1) (fun _ _ _ _ _ h => h) (fun _ _ _ h => h)

theorem RCtx.KeepF.keep (h : K.KeepF g (fun _ => True) p q R) : K.Keep g p q R :=
  RT.conseq h (fun _ _ _ h => ⟨h, trivial⟩) (fun _ _ _ _ _ h => h) (fun _ _ _ h => h)

namespace Keep

theorem mono {R' : β → γ → Prop} (h : K.Keep g p q R) (hR : ∀ b c, R b c → R' b c) : K.Keep g p q R' :=
  RT.conseq h (fun _ _ _ h => h) (fun _ _ _ _ _ h => ⟨hR _ _ h.1, h.2⟩) (fun _ _ _ h => h)

theorem bindF {f : β → Prog α (α × α) (α × α × Option Bool) δ} {f' : γ → Prog Addr (Addr × Addr) Bool ε} (h : K.KeepF g F p q R)
    (hf : ∀ b c, R b c → K.Keep g (f b) (f' c) S) : K.KeepF g F (p >>= f) (q >>= f') S :=
  RT.bind h fun b c => RT.intro (c := R b c) (fun _ _ _ h => h.1)
    (fun hR => RT.conseq (hf b c hR) (fun _ _ _ h => h.2) (fun _ _ _ _ _ h => h) (fun _ _ _ h => h))

theorem bind {f : β → Prog α (α × α) (α × α × Option Bool) δ} {f' : γ → Prog Addr (Addr × Addr) Bool ε} (h : K.Keep g p q R)
    (hf : ∀ b c, R b c → K.Keep g (f b) (f' c) S) : K.Keep g (p >>= f) (q >>= f') S := (bindF h.weak hf).keep

theorem pure {b : β} {c : γ} (h : R b c) : K.Keep g (Pure.pure b) (Pure.pure c) R := RT.pure fun _ _ _ h' => ⟨h, h'⟩
theorem pureEq {b : β} : K.Keep g (Pure.pure b) (Pure.pure b) Eq := pure rfl
theorem pureL {b : β} {c : γ} (h : R b c) : K.Keep g (Pure.pure (Sum.inl b)) (Pure.pure (Sum.inl c)) (Sim.SumR R S) := pure h
theorem pureR {b : δ} {c : ε} (h : S b c) : K.Keep g (Pure.pure (Sum.inr b)) (Pure.pure (Sum.inr c)) (Sim.SumR R S) := pure h
theorem pureP {b : β} {c : γ} {d : δ} {e : ε} (h : R b c) (h' : S d e) : K.Keep g (Pure.pure (b, d)) (Pure.pure (c, e)) (Sim.ProdR R S) := pure ⟨h, h'⟩
theorem throw (e : Panic) : K.Keep g (.throw e) (.throw e) R := RT.throw fun _ _ _ h => h
theorem ub {p : Prog α (α × α) (α × α × Option Bool) β} : K.Keep g p (.ub (β := γ)) R := RT.ub
theorem diverge {p : Prog α (α × α) (α × α × Option Bool) β} : K.Keep g p (.diverge (β := γ)) R := RT.diverge

theorem ite {c : Prop} [i₁ : Decidable c] [i₂ : Decidable c] {p' : Prog α (α × α) (α × α × Option Bool) β} {q' : Prog Addr (Addr × Addr) Bool γ}
    (h : c → K.Keep g p q R) (h' : ¬ c → K.Keep g p' q' R) : K.Keep g (@_root_.ite _ c i₁ p p') (@_root_.ite _ c i₂ q q') R :=
  RT.ite (i₁ := i₁) (i₂ := i₂) h h'

theorem onPanic {h : Prog α (α × α) (α × α × Option Bool) Unit} {k : Prog Addr (Addr × Addr) Bool Unit} (hp : K.Keep g p q R)
    (hh : K.Keep g h k Eq) : K.Keep g (p.onPanic h) (q.onPanic k) R :=
  RT.onPanic hp (RT.conseq hh (fun _ _ _ h => h) (fun _ _ _ _ _ h => h.2) (fun _ _ _ h => h))

theorem loop {body : β → Prog α (α × α) (α × α × Option Bool) (β ⊕ δ)} {body' : γ → Prog Addr (Addr × Addr) Bool (γ ⊕ ε)}
    (h : ∀ x y, R x y → K.Keep g (body x) (body' y) (Sim.SumR R S)) {n : Nat} {x : β} {y : γ} (hx : R x y) :
    K.Keep g (Prog.loop body n x) (Prog.loop body' n y) S := by
  induction n generalizing x y with
  | zero => exact diverge
  | succ n ih =>
    unfold Prog.loop
    refine bind (h x y hx) ?_
    rintro (a | a) (b | b) hab
    · exact ih hab
    · exact hab.elim
    · exact hab.elim
    · exact pure hab

theorem loopEq {body : β → Prog α (α × α) (α × α × Option Bool) (β ⊕ δ)} {body' : β → Prog Addr (Addr × Addr) Bool (β ⊕ δ)}
    (h : ∀ x, K.Keep g (body x) (body' x) (Sim.SumR Eq Eq)) {n : Nat} {x : β} : K.Keep g (Prog.loop body n x) (Prog.loop body' n x) Eq :=
  loop (R := Eq) (fun x y hxy => by cases hxy; exact h x) rfl

theorem forUp {body : Nat → Prog α (α × α) (α × α × Option Bool) Unit} {body' : Nat → Prog Addr (Addr × Addr) Bool Unit} {n i : Nat}
    (h : ∀ j, K.Keep g (body j) (body' j) Eq) : K.Keep g (Prog.forUp body i n) (Prog.forUp body' i n) Eq := by
  induction n generalizing i with
  | zero => exact pure rfl
  | succ n ih =>
    unfold Prog.forUp
    exact bind (h i) fun _ _ _ => ih

theorem forDown {body : Nat → Prog α (α × α) (α × α × Option Bool) Unit} {body' : Nat → Prog Addr (Addr × Addr) Bool Unit} {n i : Nat}
    (h : ∀ j, K.Keep g (body j) (body' j) Eq) : K.Keep g (Prog.forDown body i n) (Prog.forDown body' i n) Eq := by
  induction n with
  | zero => exact pure rfl
  | succ n ih =>
    unfold Prog.forDown
    exact bind (h (i + n)) fun _ _ _ => ih

theorem call {i j : Addr} (ha : K.Has g F a i) (hb : K.Has g F b j) : K.KeepF g F (callAt a b) (ask i j) Eq :=
  RT.conseq (RT.call ha hb) (fun _ _ _ h => h) (fun _ _ _ _ _ h => ⟨h.1, h.2.1⟩) (fun _ _ _ h => h.1)

/-! #### Reading elements to compare them -/

theorem readU {k : Addr → Prog α (α × α) (α × α × Option Bool) β} {k' : Addr → Prog Addr (Addr × Addr) Bool γ} (hv : In g v)
    (h : ∀ x, i < v.len → g.P (v.addr i) → K.KeepF g (fun m => F m ∧ m (v.addr i) = x) (k (v.addr i)) (k' x) R) :
    K.KeepF g F (uref v i >>= k) (v.get i >>= k') R := by
  unfold uref View.get
  by_cases hi : i < v.len
  · rw [if_pos hi, if_pos hi]
    exact RT.getA fun y => RT.conseq (h y hi (hv.mem i hi)) (fun _ _ _ h => ⟨h.1.1, h.1.2, h.2⟩) (fun _ _ _ _ _ h => h) (fun _ _ _ h => h)
  · rw [if_neg hi, if_neg hi]
    exact RT.ub

theorem readR {k : Addr → Prog α (α × α) (α × α × Option Bool) β} {k' : Addr → Prog Addr (Addr × Addr) Bool γ} (hv : In g v)
    (h : ∀ x, i < v.len → g.P (v.addr i) → K.KeepF g (fun m => F m ∧ m (v.addr i) = x) (k (v.addr i)) (k' x) R) :
    K.KeepF g F (v.ref i >>= k) (v.idx i >>= k') R := by
  unfold View.ref View.idx
  by_cases hi : i < v.len
  · rw [if_pos hi, if_pos hi]
    exact RT.getA fun y => RT.conseq (h y hi (hv.mem i hi)) (fun _ _ _ h => ⟨h.1.1, h.1.2, h.2⟩) (fun _ _ _ _ _ h => h) (fun _ _ _ h => h)
  · rw [if_neg hi, if_neg hi]
    exact RT.throw fun _ _ _ h => h.1

theorem readD {k' : Addr → Prog Addr (Addr × Addr) Bool γ} (h : ∀ x, K.KeepF g (fun m => F m ∧ m a = x) p (k' x) R) :
    K.KeepF g F p (deref a >>= k') R :=
  RT.getA fun y => RT.conseq (h y) (fun _ _ _ h => ⟨h.1.1, h.1.2, h.2⟩) (fun _ _ _ _ _ h => h) (fun _ _ _ h => h)

/-! #### Views -/

theorem ref (hv : In g v) : K.Keep g (v.ref i) (v.ref i) (fun a b => a = b ∧ g.P b) := by
  unfold View.ref
  exact ite (fun h => pure ⟨rfl, hv.mem i h⟩) (fun _ => throw _)

theorem slice (hv : In g v) : K.Keep g (v.slice i j) (v.slice i j) (fun a b => a = b ∧ In g b) := by
  unfold View.slice
  refine ite (fun h => pure ⟨rfl, hv.sub ?_⟩) (fun _ => throw _)
  split at h <;> split <;> omega

theorem splitAt (hv : In g v) : K.Keep g (v.splitAt i) (v.splitAt i) (fun a b => a = b ∧ In g b.1 ∧ In g b.2) := by
  unfold View.splitAt
  exact ite (fun h => pure ⟨rfl, hv.sub (by omega), hv.sub (by omega)⟩) (fun _ => throw _)

theorem swapA (ha : g.P a) (hb : g.P b) :
    K.Keep g (Prog.get a fun x => .get b fun y => .set a y (.set b x (.ret ()))) (Prog.get a fun x => .get b fun y => .set a y (.set b x (.ret ()))) Eq := by
  refine RT.get fun x x' => RT.get fun y y' => ?_
  refine RT.set (pre' := fun mR mA L => ∃ m m', mR = upd m a y ∧ mA = upd m' a y' ∧ K.Live g m m' L ∧ m a = x ∧ m b = y ∧ m' a = x' ∧ m' b = y')
    (fun mR mA L h => ⟨mR, mA, rfl, rfl, h.1.1, h.1.2.1, h.2.1, h.1.2.2, h.2.2⟩) ?_
  refine RT.set (pre' := K.Live g) ?_ (RT.pure fun _ _ _ h => ⟨rfl, h⟩)
  rintro mR mA L ⟨m, m', rfl, rfl, h, rfl, rfl, rfl, rfl⟩
  exact h.swap ha hb

theorem swap (hv : In g v) : K.Keep g (v.swap i j) (v.swap i j) Eq := by
  unfold View.swap View.idx View.set
  by_cases hi : i < v.len
  · by_cases hj : j < v.len
    · rw [if_pos hi, if_pos hi, if_pos hj, if_pos hj]
      simp only [if_pos hi, if_pos hj]
      exact swapA (hv.mem i hi) (hv.mem j hj)
    · rw [if_pos hi, if_pos hi, if_neg hj, if_neg hj]
      exact RT.get fun _ _ => RT.throw fun _ _ _ h => h.1
  · rw [if_neg hi, if_neg hi]
    exact throw _

theorem uswap (hv : In g v) : K.Keep g (v.uswap i j) (v.uswap i j) Eq := by
  unfold View.uswap View.get View.set
  by_cases hi : i < v.len
  · by_cases hj : j < v.len
    · rw [if_pos hi, if_pos hi, if_pos hj, if_pos hj]
      simp only [if_pos hi, if_pos hj]
      exact swapA (hv.mem i hi) (hv.mem j hj)
    · rw [if_pos hi, if_pos hi, if_neg hj, if_neg hj]
      exact RT.get fun _ _ => RT.ub
  · rw [if_neg hi, if_neg hi]
    exact ub

theorem debugAssert {c : Bool} : K.Keep g (NdSlice.debugAssert cfg c) (NdSlice.debugAssert cfg c) Eq := by
  unfold NdSlice.debugAssert
  exact ite (fun _ => throw _) (fun _ => pure rfl)

theorem assertP {c : Bool} : K.Keep g (NdSlice.assertP c) (NdSlice.assertP c) Eq := by
  unfold NdSlice.assertP
  exact ite (fun _ => pure rfl) (fun _ => throw _)

theorem usub {i j : Nat} : K.Keep g (NdSlice.usub cfg i j) (NdSlice.usub cfg i j) Eq := by
  unfold NdSlice.usub
  exact ite (fun _ => pure rfl) (fun _ => ite (fun _ => throw _) (fun _ => pure rfl))

/-! #### Rules for `keep`, by the type of the result of the first part -/

theorem bindEq {p : Prog α (α × α) (α × α × Option Bool) β} {q : Prog Addr (Addr × Addr) Bool β}
    {f : β → Prog α (α × α) (α × α × Option Bool) δ} {f' : β → Prog Addr (Addr × Addr) Bool ε} (h : K.KeepF g F p q Eq)
    (hf : ∀ b, K.Keep g (f b) (f' b) S) : K.KeepF g F (p >>= f) (q >>= f') S :=
  bindF h fun a b h => by cases h; exact hf a

theorem bindEq2 {β' : Type} {p : Prog α (α × α) (α × α × Option Bool) (β × β')} {q : Prog Addr (Addr × Addr) Bool (β × β')}
    {f : β × β' → Prog α (α × α) (α × α × Option Bool) δ} {f' : β × β' → Prog Addr (Addr × Addr) Bool ε} (h : K.KeepF g F p q Eq)
    (hf : ∀ a b, K.Keep g (f (a, b)) (f' (a, b)) S) : K.KeepF g F (p >>= f) (q >>= f') S :=
  bindEq h fun ⟨a, b⟩ => hf a b

theorem bindEq3 {β' β'' : Type} {p : Prog α (α × α) (α × α × Option Bool) (β × β' × β'')} {q : Prog Addr (Addr × Addr) Bool (β × β' × β'')}
    {f : β × β' × β'' → Prog α (α × α) (α × α × Option Bool) δ} {f' : β × β' × β'' → Prog Addr (Addr × Addr) Bool ε} (h : K.KeepF g F p q Eq)
    (hf : ∀ a b c, K.Keep g (f (a, b, c)) (f' (a, b, c)) S) : K.KeepF g F (p >>= f) (q >>= f') S :=
  bindEq h fun ⟨a, b, c⟩ => hf a b c

theorem bindEq4 {β' β'' β''' : Type} {p : Prog α (α × α) (α × α × Option Bool) (β × β' × β'' × β''')}
    {q : Prog Addr (Addr × Addr) Bool (β × β' × β'' × β''')}
    {f : β × β' × β'' × β''' → Prog α (α × α) (α × α × Option Bool) δ} {f' : β × β' × β'' × β''' → Prog Addr (Addr × Addr) Bool ε} (h : K.KeepF g F p q Eq)
    (hf : ∀ a b c d, K.Keep g (f (a, b, c, d)) (f' (a, b, c, d)) S) : K.KeepF g F (p >>= f) (q >>= f') S :=
  bindEq h fun ⟨a, b, c, d⟩ => hf a b c d

theorem bindA {p : Prog α (α × α) (α × α × Option Bool) Addr} {q : Prog Addr (Addr × Addr) Bool Addr}
    {f : Addr → Prog α (α × α) (α × α × Option Bool) δ} {f' : Addr → Prog Addr (Addr × Addr) Bool ε} (h : K.KeepF g F p q fun a b => a = b ∧ g.P b)
    (hf : ∀ b, g.P b → K.Keep g (f b) (f' b) S) : K.KeepF g F (p >>= f) (q >>= f') S :=
  bindF h fun a b h => by obtain ⟨rfl, h⟩ := h; exact hf a h

theorem bindVw {p : Prog α (α × α) (α × α × Option Bool) View} {q : Prog Addr (Addr × Addr) Bool View}
    {f : View → Prog α (α × α) (α × α × Option Bool) δ} {f' : View → Prog Addr (Addr × Addr) Bool ε} (h : K.KeepF g F p q fun a b => a = b ∧ In g b)
    (hf : ∀ b, In g b → K.Keep g (f b) (f' b) S) : K.KeepF g F (p >>= f) (q >>= f') S :=
  bindF h fun a b h => by obtain ⟨rfl, h⟩ := h; exact hf a h

theorem bindVw2 {p : Prog α (α × α) (α × α × Option Bool) (View × View)} {q : Prog Addr (Addr × Addr) Bool (View × View)}
    {f : View × View → Prog α (α × α) (α × α × Option Bool) δ} {f' : View × View → Prog Addr (Addr × Addr) Bool ε}
    (h : K.KeepF g F p q fun a b => a = b ∧ In g b.1 ∧ In g b.2)
    (hf : ∀ a b, In g a → In g b → K.Keep g (f (a, b)) (f' (a, b)) S) : K.KeepF g F (p >>= f) (q >>= f') S :=
  bindF h fun x y h => by
    obtain ⟨h, h1, h2⟩ := h
    obtain ⟨a, b⟩ := y
    cases h
    exact hf a b h1 h2

end Keep
end Refs

/-- The rules for the functions of the model: to be extended. -/
syntax "keep_lemma" : tactic

open Refs in
macro_rules | `(tactic| keep_lemma) => `(tactic| with_reducible first
  | exact Keep.ub | exact Keep.diverge | exact Keep.throw _ | exact Keep.pureEq
  | exact Keep.swap ‹_› | exact Keep.uswap ‹_› | exact Keep.ref ‹_› | exact Keep.slice ‹_› | exact Keep.splitAt ‹_›
  | exact Keep.debugAssert | exact Keep.assertP | exact Keep.usub)

/-- Finds an object in a live cell. -/
macro "keep_has" : tactic => `(tactic| first
  | exact .inr ⟨rfl, ‹_›⟩
  | exact .inl ⟨‹_›, fun _ h => h.2⟩
  | exact .inl ⟨‹_›, fun _ h => h.1.2⟩)

open Refs in
/-- One step of `keep` into a sequence. -/
macro "keep_seq" : tactic => `(tactic| first
  | with_reducible refine Keep.readU ‹_› (fun _ _ _ => ?_)
  | with_reducible refine Keep.readR ‹_› (fun _ _ _ => ?_)
  | with_reducible refine Keep.readD (fun _ => ?_)
  | ((with_reducible refine Keep.call ?_ ?_) <;> keep_has)
  | with_reducible refine Keep.bindVw2 ?_ (fun _ _ _ _ => ?_)
  | with_reducible refine Keep.bindVw ?_ (fun _ _ => ?_)
  | with_reducible refine Keep.bindA ?_ (fun _ _ => ?_)
  | with_reducible refine Keep.bindEq4 ?_ (fun _ _ _ _ => ?_)
  | with_reducible refine Keep.bindEq3 ?_ (fun _ _ _ => ?_)
  | with_reducible refine Keep.bindEq2 ?_ (fun _ _ => ?_)
  | with_reducible refine Keep.bindEq ?_ (fun _ => ?_))

open Refs in
/-- One step of `keep`. -/
macro "keep1" : tactic => `(tactic| first
  | keep_lemma
  | with_reducible refine Keep.onPanic ?_ ?_
  | with_reducible refine Keep.ite (fun _ => ?_) (fun _ => ?_)
  | with_reducible refine Keep.forUp (fun _ => ?_)
  | with_reducible refine Keep.forDown (fun _ => ?_)
  | with_reducible refine Keep.loopEq (fun _ => ?_)
  | with_reducible refine Keep.pureL ?_
  | with_reducible refine Keep.pureR ?_
  | with_reducible refine Keep.pureP ?_ ?_
  | with_reducible exact rfl
  | with_reducible assumption
  | keep_seq
  | ((with_reducible refine RCtx.KeepF.keep ?_); keep_seq)
  | with_reducible refine RCtx.Keep.weak ?_
  | dsimp only)

/-- Steps as far as possible. -/
macro "keep" : tactic => `(tactic| repeat' keep1)

end NdSlice
