import Verif.Core.Sem
import Verif.Core.View

/-
Which cells a program reads and what it shows to user code.  `Init p Q E I` says that, whatever the memory holds, whatever user code answers and
under every schedule, `p` started with the cells in `I` initialised only reads cells which are initialised (in `I` or written before), only
writes values in `X` provided all values it reads are in `X`, and only asks questions in `ok`.  `Q` and `E` see the set of initialised cells
at the end.
-/

namespace NdSlice

variable {α ι ω σ : Type} {β γ δ : Type}

/-- Fewer cells. -/
def Sub (I J : Addr → Prop) : Prop := ∀ a, I a → J a

theorem Sub.refl (I : Addr → Prop) : Sub I I := fun _ h => h
theorem Sub.trans {I J K : Addr → Prop} (h : Sub I J) (h' : Sub J K) : Sub I K := fun a ha => h' a (h a ha)

/-- `I` and one more cell. -/
def Plus (I : Addr → Prop) (a : Addr) : Addr → Prop := fun b => I b ∨ b = a

theorem Sub.plus (I : Addr → Prop) (a : Addr) : Sub I (Plus I a) := fun _ h => .inl h

/-- How a task ended, with the initialised cells. -/
def ResInit (Q : β → (Addr → Prop) → Prop) (E : (Addr → Prop) → Prop) : Res β → (Addr → Prop) → Prop
  | .ok b, I => Q b I
  | .panic _, I => E I

/-- See above. -/
def Init (X : α → Prop) (ok : ι → Prop) {β : Type} : Prog α ι ω β → (β → (Addr → Prop) → Prop) → ((Addr → Prop) → Prop) → (Addr → Prop) → Prop
  | .ret b, Q, _, I => Q b I
  | .get a k, Q, E, I => I a ∧ ∀ x, X x → Init X ok (k x) Q E I
  | .set a x k, Q, E, I => X x ∧ Init X ok k Q E (Plus I a)
  | .call q k, Q, E, I => ok q ∧ ∀ r, Init X ok (k r) Q E I
  | .choose k, Q, E, I => ∀ b, Init X ok (k b) Q E I
  | .throw _, _, E, I => E I
  | .ub, _, _, _ => True
  | .diverge, _, _, _ => True
  | .join (β := β) (γ := γ) p q k, Q, E, I =>
    ∃ (Q1 : β → (Addr → Prop) → Prop) (E1 : (Addr → Prop) → Prop) (Q2 : γ → (Addr → Prop) → Prop) (E2 : (Addr → Prop) → Prop),
      Init X ok p Q1 E1 I ∧ Init X ok q Q2 E2 I ∧
      ∀ r t J J1 J2, Sub I J → Sub J1 J → Sub J2 J → ResInit Q1 E1 r J1 → ResInit Q2 E2 t J2 → Init X ok (k r t) Q E J

variable {X : α → Prop} {ok : ι → Prop} {Q Q' : β → (Addr → Prop) → Prop} {E E' : (Addr → Prop) → Prop} {I J : Addr → Prop}

/-- Consequence, with the cells initialised before still being so. -/
theorem Init.conseq {p : Prog α ι ω β} (h : Init X ok p Q E I) (hQ : ∀ b J, Sub I J → Q b J → Q' b J) (hE : ∀ J, Sub I J → E J → E' J) :
    Init X ok p Q' E' I := by
  induction p generalizing I with
  | ret b => exact hQ b I (Sub.refl I) h
  | get a k ih => exact ⟨h.1, fun x hx => ih x (h.2 x hx) hQ hE⟩
  | set a x k ih =>
    exact ⟨h.1, ih h.2 (fun b J hJ => hQ b J ((Sub.plus I a).trans hJ)) (fun J hJ => hE J ((Sub.plus I a).trans hJ))⟩
  | call q k ih => exact ⟨h.1, fun r => ih r (h.2 r) hQ hE⟩
  | choose k ih => exact fun b => ih b (h b) hQ hE
  | throw e => exact hE I (Sub.refl I) h
  | ub => trivial
  | diverge => trivial
  | join p q k _ _ ih =>
    obtain ⟨Q1, E1, Q2, E2, h1, h2, h3⟩ := h
    refine ⟨Q1, E1, Q2, E2, h1, h2, fun r t J J1 J2 hJ hJ1 hJ2 hr ht => ?_⟩
    exact ih r t (h3 r t J J1 J2 hJ hJ1 hJ2 hr ht) (fun b K hK => hQ b K (hJ.trans hK)) (fun K hK => hE K (hJ.trans hK))

/-- More cells initialised. -/
theorem Init.weak {p : Prog α ι ω β} (h : Init X ok p Q E I) (hI : Sub I J) :
    Init X ok p (fun b K => ∃ K', Sub K' K ∧ Q b K') (fun K => ∃ K', Sub K' K ∧ E K') J := by
  induction p generalizing I J E with
  | ret b => exact ⟨I, hI, h⟩
  | get a k ih => exact ⟨hI a h.1, fun x hx => ih x (h.2 x hx) hI⟩
  | set a x k ih => exact ⟨h.1, ih h.2 (fun b hb => hb.imp (hI b) id)⟩
  | call q k ih => exact ⟨h.1, fun r => ih r (h.2 r) hI⟩
  | choose k ih => exact fun b => ih b (h b) hI
  | throw e => exact ⟨I, hI, h⟩
  | ub => trivial
  | diverge => trivial
  | join p q k ihp ihq ih =>
    obtain ⟨Q1, E1, Q2, E2, h1, h2, h3⟩ := h
    refine ⟨_, _, _, _, ihp h1 hI, ihq h2 hI, fun r t K K1 K2 hK hK1 hK2 hr ht => ?_⟩
    have e1 : ∃ L, Sub L K1 ∧ ResInit Q1 E1 r L := by cases r <;> exact hr
    have e2 : ∃ L, Sub L K2 ∧ ResInit Q2 E2 t L := by cases t <;> exact ht
    obtain ⟨L1, hL1, hr⟩ := e1
    obtain ⟨L2, hL2, ht⟩ := e2
    exact ih r t (h3 r t K L1 L2 (hI.trans hK) (hL1.trans hK1) (hL2.trans hK2) hr ht) (Sub.refl K)

theorem Init.bind {p : Prog α ι ω β} {f : β → Prog α ι ω γ} {T : γ → (Addr → Prop) → Prop}
    (h : Init X ok p (fun b J => Init X ok (f b) T E J) E I) : Init X ok (p >>= f) T E I := by
  show Init X ok (p.bind f) T E I
  induction p generalizing I with
  | ret b => exact h
  | get a k ih => exact ⟨h.1, fun x hx => ih x (h.2 x hx)⟩
  | set a x k ih => exact ⟨h.1, ih h.2⟩
  | call q k ih => exact ⟨h.1, fun r => ih r (h.2 r)⟩
  | choose k ih => exact fun b => ih b (h b)
  | throw e => exact h
  | ub => trivial
  | diverge => trivial
  | join p q k _ _ ih =>
    obtain ⟨Q1, E1, Q2, E2, h1, h2, h3⟩ := h
    exact ⟨Q1, E1, Q2, E2, h1, h2, fun r t J J1 J2 hJ hJ1 hJ2 hr ht => ih r t (h3 r t J J1 J2 hJ hJ1 hJ2 hr ht)⟩

/-- Sequencing, with the cells initialised before still being so. -/
theorem Init.seq {p : Prog α ι ω β} {f : β → Prog α ι ω γ} {T : γ → (Addr → Prop) → Prop} (h : Init X ok p Q E I)
    (hf : ∀ b J, Sub I J → Q b J → Init X ok (f b) T E J) : Init X ok (p >>= f) T E I :=
  Init.bind (h.conseq hf fun _ _ h => h)

theorem Init.onPanic {p : Prog α ι ω β} {g : Prog α ι ω Unit} (h : Init X ok p Q E' I)
    (hg : ∀ J, Sub I J → E' J → Init X ok g (fun _ J => E J) E J) : Init X ok (p.onPanic g) Q E I := by
  induction p generalizing I with
  | ret b => exact h
  | get a k ih => exact ⟨h.1, fun x hx => ih x (h.2 x hx) hg⟩
  | set a x k ih => exact ⟨h.1, ih h.2 fun J hJ => hg J ((Sub.plus I a).trans hJ)⟩
  | call q k ih => exact ⟨h.1, fun r => ih r (h.2 r) hg⟩
  | choose k ih => exact fun b => ih b (h b) hg
  | throw e => exact Init.bind (f := fun _ => .throw e) (hg I (Sub.refl I) h)
  | ub => trivial
  | diverge => trivial
  | join p q k _ _ ih =>
    obtain ⟨Q1, E1, Q2, E2, h1, h2, h3⟩ := h
    exact ⟨Q1, E1, Q2, E2, h1, h2, fun r t J J1 J2 hJ hJ1 hJ2 hr ht => ih r t (h3 r t J J1 J2 hJ hJ1 hJ2 hr ht) fun K hK => hg K (hJ.trans hK)⟩

theorem Init.rayonJoin {p : Prog α ι ω β} {q : Prog α ι ω γ} {T : γ → (Addr → Prop) → Prop} {E1 E2 : (Addr → Prop) → Prop}
    {U : β × γ → (Addr → Prop) → Prop} (h : Init X ok p Q E1 I) (h' : Init X ok q T E2 I)
    (hU : ∀ b c J J1 J2, Sub I J → Sub J1 J → Sub J2 J → Q b J1 → T c J2 → U (b, c) J)
    (hE : ∀ J J1 J2, Sub I J → Sub J1 J → Sub J2 J → (E1 J1 ∨ ∃ b, Q b J1) → (E2 J2 ∨ ∃ c, T c J2) → E J) :
    Init X ok (Prog.rayonJoin p q) U E I := by
  refine ⟨Q, E1, T, E2, h, h', fun r t J J1 J2 hJ hJ1 hJ2 hr ht => ?_⟩
  cases r with
  | ok b =>
    cases t with
    | ok c => exact hU b c J J1 J2 hJ hJ1 hJ2 hr ht
    | panic e => exact hE J J1 J2 hJ hJ1 hJ2 (.inr ⟨b, hr⟩) (.inl ht)
  | panic e =>
    cases t with
    | ok c => exact hE J J1 J2 hJ hJ1 hJ2 (.inl hr) (.inr ⟨c, ht⟩)
    | panic e' => exact hE J J1 J2 hJ hJ1 hJ2 (.inl hr) (.inl ht)

theorem Init.loop {body : β → Prog α ι ω (β ⊕ γ)} {Inv : β → (Addr → Prop) → Prop} {T : γ → (Addr → Prop) → Prop}
    (h : ∀ x J, Sub I J → Inv x J → Init X ok (body x) (fun y K => Sum.elim (fun x => Inv x K) (fun y => T y K) y) E J) {n : Nat} {x : β}
    (hI : Sub I J) (hx : Inv x J) : Init X ok (Prog.loop body n x) T E J := by
  induction n generalizing x J with
  | zero => trivial
  | succ n ih =>
    unfold Prog.loop
    refine Init.seq (h x J hI hx) fun y K hK hy => ?_
    cases y with
    | inl x => exact ih (hI.trans hK) hy
    | inr y => exact hy

theorem Init.forUp {body : Nat → Prog α ι ω Unit} {Inv : Nat → (Addr → Prop) → Prop} {n i : Nat}
    (h : ∀ j J, Sub I J → i ≤ j → j < i + n → Inv j J → Init X ok (body j) (fun _ K => Inv (j + 1) K) E J) (hI : Sub I J) (hx : Inv i J) :
    Init X ok (Prog.forUp body i n) (fun _ K => Inv (i + n) K) E J := by
  induction n generalizing i J with
  | zero => exact hx
  | succ n ih =>
    unfold Prog.forUp
    refine Init.seq (h i J hI (by omega) (by omega) hx) fun _ K hK hi => ?_
    have := ih (i := i + 1) (J := K) (fun j J hJ h1 h2 => h j J hJ (by omega) (by omega)) (hI.trans hK) hi
    rwa [show i + 1 + n = i + (n + 1) by omega] at this

/-! ### Soundness -/

/-- Two states that differ at most outside of `I`, with values in `X` in `I`. -/
def Agree (X : α → Prop) (I : Addr → Prop) (s t : St α ι ω σ) : Prop :=
  (∀ a, I a → t.mem a = s.mem a ∧ X (s.mem a)) ∧ t.env = s.env ∧ t.log = s.log

theorem Agree.upd {s t : St α ι ω σ} (h : Agree X I s t) {a : Addr} {x : α} (hx : X x) :
    Agree X (Plus I a) { s with mem := upd s.mem a x } { t with mem := upd t.mem a x } := by
  refine ⟨fun b hb => ?_, h.2⟩
  show NdSlice.upd t.mem a x b = NdSlice.upd s.mem a x b ∧ X (NdSlice.upd s.mem a x b)
  unfold NdSlice.upd
  by_cases hc : b = a
  · rw [if_pos hc, if_pos hc]
    exact ⟨rfl, hx⟩
  · rw [if_neg hc, if_neg hc]
    exact h.1 b (hb.resolve_right hc)

/-- Every step can be done from a state which differs outside of `I` as well. -/
theorem Init.step {o : Oracle σ ι ω} {p p' : Prog α ι ω β} {s s' t : St α ι ω σ} (h : Init X ok p Q E I) (ht : Agree X I s t)
    (hs : Step o p s p' s') : ∃ t' J Q' E', Step o p t p' t' ∧ Sub I J ∧ Agree X J s' t' ∧ Init X ok p' Q' E' J ∧
      (∃ d, s'.log = s.log ++ d ∧ ∀ e ∈ d, ok e.1) ∧ (∀ b J, Q' b J → ∃ K, Sub K J ∧ Q b K) ∧ (∀ J, E' J → ∃ K, Sub K J ∧ E K) := by
  induction hs generalizing I t E with
  | get a k s =>
    refine ⟨t, I, Q, E, ?_, Sub.refl I, ht, h.2 _ (ht.1 a h.1).2, ⟨[], by simp, by simp⟩, fun b J h => ⟨J, Sub.refl J, h⟩, fun J h => ⟨J, Sub.refl J, h⟩⟩
    rw [← (ht.1 a h.1).1]
    exact Step.get a k t
  | set a x k s =>
    exact ⟨_, _, Q, E, Step.set a x k t, Sub.plus I a, ht.upd h.1, h.2, ⟨[], by simp, by simp⟩, fun b J h => ⟨J, Sub.refl J, h⟩, fun J h => ⟨J, Sub.refl J, h⟩⟩
  | call q k s =>
    refine ⟨{ t with env := (o.ask s.env q).2, log := s.log ++ [(q, (o.ask s.env q).1)] }, I, Q, E, ?_, Sub.refl I, ⟨ht.1, rfl, rfl⟩, h.2 _,
      ⟨_, rfl, by simp [h.1]⟩, fun b J h => ⟨J, Sub.refl J, h⟩, fun J h => ⟨J, Sub.refl J, h⟩⟩
    rw [← ht.2.1, ← ht.2.2]
    exact Step.call q k t
  | choose k s =>
    refine ⟨{ t with env := (o.flip s.env).2 }, I, Q, E, ?_, Sub.refl I, ⟨ht.1, rfl, ht.2.2⟩, h _, ⟨[], by simp, by simp⟩, fun b J h => ⟨J, Sub.refl J, h⟩, fun J h => ⟨J, Sub.refl J, h⟩⟩
    rw [← ht.2.1]
    exact Step.choose k t
  | joinL p p' q k s s' hs ih =>
    obtain ⟨Q1, E1, Q2, E2, h1, h2, h3⟩ := h
    obtain ⟨t', J, Q1', E1', e1, e2, e3, e4, e5, e6, e7⟩ := ih h1 ht
    refine ⟨t', J, Q, E, Step.joinL p p' q k t t' e1, e2, e3, ⟨Q1', E1', _, _, e4, h2.weak e2, ?_⟩, e5, fun b J h => ⟨J, Sub.refl J, h⟩, fun J h => ⟨J, Sub.refl J, h⟩⟩
    intro r u K K1 K2 hK hK1 hK2 hr hu
    have f1 : ∃ L, Sub L K1 ∧ ResInit Q1 E1 r L := by
      cases r with
      | ok b => exact e6 b K1 hr
      | panic e => exact e7 K1 hr
    have f2 : ∃ L, Sub L K2 ∧ ResInit Q2 E2 u L := by cases u <;> exact hu
    obtain ⟨L1, hL1, hr⟩ := f1
    obtain ⟨L2, hL2, hu⟩ := f2
    exact h3 r u K L1 L2 (e2.trans hK) (hL1.trans hK1) (hL2.trans hK2) hr hu
  | joinR p q q' k s s' hs ih =>
    obtain ⟨Q1, E1, Q2, E2, h1, h2, h3⟩ := h
    obtain ⟨t', J, Q2', E2', e1, e2, e3, e4, e5, e6, e7⟩ := ih h2 ht
    refine ⟨t', J, Q, E, Step.joinR p q q' k t t' e1, e2, e3, ⟨_, _, Q2', E2', h1.weak e2, e4, ?_⟩, e5, fun b J h => ⟨J, Sub.refl J, h⟩, fun J h => ⟨J, Sub.refl J, h⟩⟩
    intro r u K K1 K2 hK hK1 hK2 hr hu
    have f1 : ∃ L, Sub L K1 ∧ ResInit Q1 E1 r L := by cases r <;> exact hr
    have f2 : ∃ L, Sub L K2 ∧ ResInit Q2 E2 u L := by
      cases u with
      | ok b => exact e6 b K2 hu
      | panic e => exact e7 K2 hu
    obtain ⟨L1, hL1, hr⟩ := f1
    obtain ⟨L2, hL2, hu⟩ := f2
    exact h3 r u K L1 L2 (e2.trans hK) (hL1.trans hK1) (hL2.trans hK2) hr hu
  | joinEnd p q k s r u hp hq =>
    obtain ⟨Q1, E1, Q2, E2, h1, h2, h3⟩ := h
    refine ⟨t, I, Q, E, Step.joinEnd p q k t r u hp hq, Sub.refl I, ht, ?_, ⟨[], by simp, by simp⟩, fun b J h => ⟨J, Sub.refl J, h⟩, fun J h => ⟨J, Sub.refl J, h⟩⟩
    refine h3 r u I I I (Sub.refl I) (Sub.refl I) (Sub.refl I) ?_ ?_
    · cases hp <;> exact h1
    · cases hq <;> exact h2

/-- Every execution can be done from a state which differs outside of `I` as well, and asks questions in `ok` only. -/
theorem Init.steps {o : Oracle σ ι ω} {p p' : Prog α ι ω β} {s s' t : St α ι ω σ} (h : Init X ok p Q E I) (ht : Agree X I s t)
    (hs : Steps o p s p' s') : ∃ t' J Q' E', Steps o p t p' t' ∧ Sub I J ∧ Agree X J s' t' ∧ Init X ok p' Q' E' J ∧
      (∃ d, s'.log = s.log ++ d ∧ ∀ e ∈ d, ok e.1) ∧ (∀ b J, Q' b J → ∃ K, Sub K J ∧ Q b K) ∧ (∀ J, E' J → ∃ K, Sub K J ∧ E K) := by
  induction hs with
  | refl => exact ⟨t, I, Q, E, Steps.refl _ t, Sub.refl I, ht, h, ⟨[], by simp, by simp⟩, fun b J h => ⟨J, Sub.refl J, h⟩, fun J h => ⟨J, Sub.refl J, h⟩⟩
  | tail hs hstep ih =>
    obtain ⟨t', J, Q', E', e1, e2, e3, e4, ⟨d, e5, e5'⟩, e6, e7⟩ := ih
    obtain ⟨t'', K, Q'', E'', f1, f2, f3, f4, ⟨d', f5, f5'⟩, f6, f7⟩ := e4.step e3 hstep
    refine ⟨t'', K, Q'', E'', Steps.tail e1 f1, e2.trans f2, f3, f4, ⟨d ++ d', by rw [f5, e5, List.append_assoc], ?_⟩, ?_, ?_⟩
    · intro e he
      rcases List.mem_append.mp he with he | he
      · exact e5' e he
      · exact f5' e he
    · intro b L hL
      obtain ⟨M, hM, hM'⟩ := f6 b L hL
      obtain ⟨N, hN, hN'⟩ := e6 b M hM'
      exact ⟨N, hN.trans hM, hN'⟩
    · intro L hL
      obtain ⟨M, hM, hM'⟩ := f7 L hL
      obtain ⟨N, hN, hN'⟩ := e7 M hM'
      exact ⟨N, hN.trans hM, hN'⟩

end NdSlice
