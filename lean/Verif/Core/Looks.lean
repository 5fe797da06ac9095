import Verif.Core.Path
import Verif.Core.Adequacy

/-
Programs which only look at the memory, any number of them at the same time: `Looks R m p Q E` says that with memory `m` the program `p` writes
nothing and returns `b` with `Q b` or panics with `E e`, on every schedule, whatever is answered (as long as `R` allows it) and whatever the environment
chooses.  Unlike in `wp` the tasks of a `join` may read the same cells.
-/

namespace NdSlice

variable {α ι ω σ β γ : Type} {R : ι → Option ω → Prop} {m : Mem α}

/-- See the top of this file. -/
def Looks (R : ι → Option ω → Prop) (m : Mem α) {β : Type} : Prog α ι ω β → (β → Prop) → (Panic → Prop) → Prop
  | .ret b, Q, _ => Q b
  | .get a k, Q, E => Looks R m (k (m a)) Q E
  | .set _ _ _, _, _ => False
  | .call q k, Q, E => ∀ r, R q r → Looks R m (k r) Q E
  | .choose k, Q, E => ∀ b, Looks R m (k b) Q E
  | .throw e, _, E => E e
  | .ub, _, _ => False
  | .diverge, _, _ => False
  | .join (β := β) (γ := γ) p q k, Q, E =>
    ∃ (P1 : Res β → Prop) (P2 : Res γ → Prop), Looks R m p (fun b => P1 (.ok b)) (fun e => P1 (.panic e)) ∧
      Looks R m q (fun b => P2 (.ok b)) (fun e => P2 (.panic e)) ∧ ∀ r t, P1 r → P2 t → Looks R m (k r t) Q E

/-- The program contains neither a write nor a task. -/
def NoWrite {β : Type} : Prog α ι ω β → Prop
  | .get _ k => ∀ x, NoWrite (k x)
  | .set _ _ _ => False
  | .call _ k => ∀ r, NoWrite (k r)
  | .choose k => ∀ b, NoWrite (k b)
  | .join _ _ _ => False
  | _ => True

theorem NoWrite.bind {p : Prog α ι ω β} {f : β → Prog α ι ω γ} (hp : NoWrite p) (hf : ∀ b, NoWrite (f b)) : NoWrite (p >>= f) := by
  show NoWrite (p.bind f)
  induction p with
  | ret b => exact hf b
  | get a k ih => exact fun x => ih x (hp x) hf
  | set => exact hp.elim
  | call q k ih => exact fun r => ih r (hp r) hf
  | choose k ih => exact fun b => ih b (hp b) hf
  | throw => trivial
  | ub => trivial
  | diverge => trivial
  | join => exact hp.elim

theorem NoWrite.loop {S T : Type} {body : S → Prog α ι ω (S ⊕ T)} (h : ∀ x, NoWrite (body x)) (n : Nat) (x : S) : NoWrite (Prog.loop body n x) := by
  induction n generalizing x with
  | zero => trivial
  | succ n ih =>
    refine (h x).bind fun r => ?_
    cases r with
    | inl y => exact ih y
    | inr y => trivial

namespace Looks

theorem mono {p : Prog α ι ω β} {Q Q' : β → Prop} {E E' : Panic → Prop} (h : Looks R m p Q E) (hQ : ∀ b, Q b → Q' b) (hE : ∀ e, E e → E' e) :
    Looks R m p Q' E' := by
  induction p with
  | ret b => exact hQ _ h
  | get a k ih => exact ih _ h hQ
  | set => exact h.elim
  | call q k ih => exact fun r hr => ih r (h r hr) hQ
  | choose k ih => exact fun b => ih b (h b) hQ
  | throw e => exact hE _ h
  | ub => exact h.elim
  | diverge => exact h.elim
  | join p q k _ _ ih =>
    obtain ⟨P1, P2, h1, h2, h3⟩ := h
    exact ⟨P1, P2, h1, h2, fun r t hr ht => ih r t (h3 r t hr ht) hQ⟩

theorem bind {p : Prog α ι ω β} {f : β → Prog α ι ω γ} {Q : β → Prop} {Q' : γ → Prop} {E : Panic → Prop} (h : Looks R m p Q E)
    (hf : ∀ b, Q b → Looks R m (f b) Q' E) : Looks R m (p >>= f) Q' E := by
  show Looks R m (p.bind f) Q' E
  induction p with
  | ret b => exact hf _ h
  | get a k ih => exact ih _ h hf
  | set => exact h.elim
  | call q k ih => exact fun r hr => ih r (h r hr) hf
  | choose k ih => exact fun b => ih b (h b) hf
  | throw e => exact h
  | ub => exact h.elim
  | diverge => exact h.elim
  | join p q k _ _ ih =>
    obtain ⟨P1, P2, h1, h2, h3⟩ := h
    exact ⟨P1, P2, h1, h2, fun r t hr ht => ih r t (h3 r t hr ht) hf⟩

theorem rayonJoin {p : Prog α ι ω β} {q : Prog α ι ω γ} {Q1 : β → Prop} {Q2 : γ → Prop} {E1 E2 : Panic → Prop} (hp : Looks R m p Q1 E1)
    (hq : Looks R m q Q2 E2) : Looks R m (p.rayonJoin q) (fun x => Q1 x.1 ∧ Q2 x.2) (fun e => E1 e ∨ E2 e) := by
  refine ⟨fun | .ok b => Q1 b | .panic e => E1 e, fun | .ok b => Q2 b | .panic e => E2 e, hp, hq, fun r t hr ht => ?_⟩
  cases r with
  | panic e => exact .inl hr
  | ok b =>
    cases t with
    | panic e => exact .inr ht
    | ok c => exact ⟨hr, ht⟩

theorem of_path {p : Prog α ι ω β} {b : β} {n : Nat} (h : Path R m p b n) : Looks R m p (· = b) (fun _ => False) := by
  induction p generalizing n with
  | ret b' => exact h.1
  | get a k ih => exact ih _ h
  | call q k ih =>
    obtain ⟨n', rfl, h⟩ := h
    exact fun r hr => ih r (h r hr)
  | set => exact h.elim
  | choose => exact h.elim
  | throw => exact h.elim
  | ub => exact h.elim
  | diverge => exact h.elim
  | join => exact h.elim

theorem of_wp {p : Prog α ι ω β} (np : NoWrite p) {F : Addr → Prop} {Q : β → Mem α → List (ι × Option ω) → Prop}
    {E : Panic → Mem α → List (ι × Option ω) → Prop} {lg : List (ι × Option ω)} (h : wp R p F Q E m lg) :
    Looks R m p (fun b => ∃ lg', Q b m lg') (fun e => ∃ lg', E e m lg') := by
  induction p generalizing lg with
  | ret b => exact ⟨lg, h⟩
  | get a k ih => exact ih _ (np _) h.2
  | set => exact np.elim
  | call q k ih => exact fun r hr => ih r (np r) (h r hr)
  | choose k ih => exact fun b => ih b (np b) (h b)
  | throw e => exact ⟨lg, h⟩
  | ub => exact h.elim
  | diverge => exact h.elim
  | join => exact np.elim

/-- No cell is about to be written. -/
theorem not_written {p : Prog α ι ω β} {Q : β → Prop} {E : Panic → Prop} (h : Looks R m p Q E) {a : Addr} {w : Bool} (ha : Access p a w) : w = false := by
  induction ha generalizing E with
  | get => rfl
  | set => exact h.elim
  | joinL p q k a w _ ih => obtain ⟨P1, P2, h1, h2, h3⟩ := h; exact ih h1
  | joinR p q k a w _ ih => obtain ⟨P1, P2, h1, h2, h3⟩ := h; exact ih h2

theorem no_race {p : Prog α ι ω β} {Q : β → Prop} {E : Panic → Prop} (h : Looks R m p Q E) : ¬ Race p := by
  intro hr
  induction hr generalizing E with
  | here p q k a w w' ha hb hw =>
    obtain ⟨P1, P2, h1, h2, h3⟩ := h
    rw [not_written h1 ha, not_written h2 hb] at hw
    cases hw
  | left p q k _ ih => obtain ⟨P1, P2, h1, h2, h3⟩ := h; exact ih h1
  | right p q k _ ih => obtain ⟨P1, P2, h1, h2, h3⟩ := h; exact ih h2

theorem not_bad {p : Prog α ι ω β} {Q : β → Prop} {E : Panic → Prop} (h : Looks R m p Q E) : ¬ Bad p := by
  intro hr
  induction hr generalizing E with
  | ub => exact h.elim
  | diverge => exact h.elim
  | left p q k _ ih => obtain ⟨P1, P2, h1, h2, h3⟩ := h; exact ih h1
  | right p q k _ ih => obtain ⟨P1, P2, h1, h2, h3⟩ := h; exact ih h2

theorem progress (o : Oracle σ ι ω) {p : Prog α ι ω β} {Q : β → Prop} {E : Panic → Prop} (h : Looks R m p Q E) (s : St α ι ω σ) :
    (∃ r, Ended p r) ∨ ∃ p' s', Step o p s p' s' := by
  induction p generalizing E with
  | ret b => exact .inl ⟨_, .ret b⟩
  | get a k => exact .inr ⟨_, _, .get a k s⟩
  | set => exact h.elim
  | call q k => exact .inr ⟨_, _, .call q k s⟩
  | choose k => exact .inr ⟨_, _, .choose k s⟩
  | throw e => exact .inl ⟨_, .throw e⟩
  | ub => exact h.elim
  | diverge => exact h.elim
  | join p q k ihp ihq _ =>
    obtain ⟨P1, P2, h1, h2, h3⟩ := h
    rcases ihp h1 with ⟨r, hr⟩ | ⟨p', s', hs⟩
    · rcases ihq h2 with ⟨t, ht⟩ | ⟨q', s', hs⟩
      · exact .inr ⟨_, _, .joinEnd p q k s r t hr ht⟩
      · exact .inr ⟨_, _, .joinR p q q' k s s' hs⟩
    · exact .inr ⟨_, _, .joinL p p' q k s s' hs⟩

/-- One step of any schedule. -/
theorem step {o : Oracle σ ι ω} (ho : o.Sat R) {p p' : Prog α ι ω β} {s s' : St α ι ω σ} (hs : Step o p s p' s') {Q : β → Prop} {E : Panic → Prop}
    (h : Looks R s.mem p Q E) : s'.mem = s.mem ∧ Looks R s.mem p' Q E := by
  induction hs generalizing E with
  | get a k s => exact ⟨rfl, h⟩
  | set a x k s => exact h.elim
  | call q k s => exact ⟨rfl, h _ (ho _ _)⟩
  | choose k s => exact ⟨rfl, h _⟩
  | joinL p p' q k s s' _ ih =>
    obtain ⟨P1, P2, h1, h2, h3⟩ := h
    exact ⟨(ih h1).1, P1, P2, (ih h1).2, h2, h3⟩
  | joinR p q q' k s s' _ ih =>
    obtain ⟨P1, P2, h1, h2, h3⟩ := h
    exact ⟨(ih h2).1, P1, P2, h1, (ih h2).2, h3⟩
  | joinEnd p q k s r t hr ht =>
    obtain ⟨P1, P2, h1, h2, h3⟩ := h
    refine ⟨rfl, h3 r t ?_ ?_⟩
    · cases hr <;> exact h1
    · cases ht <;> exact h2

/-- Every schedule. -/
theorem steps {o : Oracle σ ι ω} (ho : o.Sat R) {p p' : Prog α ι ω β} {s s' : St α ι ω σ} (hs : Steps o p s p' s') {Q : β → Prop} {E : Panic → Prop}
    (h : Looks R s.mem p Q E) : s'.mem = s.mem ∧ Looks R s.mem p' Q E := by
  induction hs with
  | refl => exact ⟨rfl, h⟩
  | tail _ hs ih =>
    obtain ⟨h1, h2⟩ := ih
    rw [← h1] at h2
    obtain ⟨h3, h4⟩ := step ho hs h2
    exact ⟨h3.trans h1, h1 ▸ h4⟩

end Looks

end NdSlice
