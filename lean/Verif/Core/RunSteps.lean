import Verif.Core.Sem

/-
The sequential run is one of the schedules; and user code with part of its state forgotten.
-/

namespace NdSlice

variable {α ι ω σ σ' β γ δ : Type}

theorem Steps.head {o : Oracle σ ι ω} {p p' p'' : Prog α ι ω β} {s s' s'' : St α ι ω σ} (h : Step o p s p' s') (h' : Steps o p' s' p'' s'') :
    Steps o p s p'' s'' := by
  induction h' with
  | refl => exact .tail (.refl _ _) h
  | tail _ hs ih => exact .tail ih hs

theorem Steps.trans {o : Oracle σ ι ω} {p p' p'' : Prog α ι ω β} {s s' s'' : St α ι ω σ} (h : Steps o p s p' s') (h' : Steps o p' s' p'' s'') :
    Steps o p s p'' s'' := by
  induction h' with
  | refl => exact h
  | tail _ hs ih => exact .tail ih hs

theorem Steps.inL {o : Oracle σ ι ω} {p p' : Prog α ι ω β} {q : Prog α ι ω γ} {k : Res β → Res γ → Prog α ι ω δ} {s s' : St α ι ω σ}
    (h : Steps o p s p' s') : Steps o (.join p q k) s (.join p' q k) s' := by
  induction h with
  | refl => exact .refl _ _
  | tail _ hs ih => exact .tail ih (.joinL _ _ _ _ _ _ hs)

theorem Steps.inR {o : Oracle σ ι ω} {p : Prog α ι ω β} {q q' : Prog α ι ω γ} {k : Res β → Res γ → Prog α ι ω δ} {s s' : St α ι ω σ}
    (h : Steps o q s q' s') : Steps o (.join p q k) s (.join p q' k) s' := by
  induction h with
  | refl => exact .refl _ _
  | tail _ hs ih => exact .tail ih (.joinR _ _ _ _ _ _ hs)

/-- The end of a run as the end of a schedule. -/
def Reaches (o : Oracle σ ι ω) (p : Prog α ι ω β) (s : St α ι ω σ) : Out β × St α ι ω σ → Prop
  | (.ok b, s') => Steps o p s (.ret b) s'
  | (.panic e, s') => Steps o p s (.throw e) s'
  | _ => True

theorem run_reaches {o : Oracle σ ι ω} {p : Prog α ι ω β} {s : St α ι ω σ} : Reaches o p s (run o p s) := by
  have cons : ∀ {β : Type} {p p' : Prog α ι ω β} {s s' : St α ι ω σ} {r}, Steps o p s p' s' → Reaches o p' s' r → Reaches o p s r := by
    intro β p p' s s' r h h'
    obtain ⟨_ | _ | _ | _, _⟩ := r
    · exact h.trans h'
    · exact h.trans h'
    · trivial
    · trivial
  have one : ∀ {β : Type} {p p' : Prog α ι ω β} {s s' : St α ι ω σ}, Step o p s p' s' → Steps o p s p' s' := fun h => .tail (.refl _ _) h
  induction p generalizing s with
  | ret b => exact .refl _ _
  | get a k ih => exact cons (one (.get a k s)) (ih _)
  | set a x k ih => exact cons (one (.set a x k s)) ih
  | call q k ih => exact cons (one (.call q k s)) (ih _)
  | choose k ih => exact cons (one (.choose k s)) (ih _)
  | throw e => exact .refl _ _
  | ub => trivial
  | diverge => trivial
  | join p q k ihp ihq ihk =>
    unfold run
    have h := ihp (s := s)
    generalize run o p s = r at h
    rcases r with ⟨b | e | _ | _, s1⟩
    · have h' := ihq (s := s1)
      dsimp only
      generalize run o q s1 = r at h'
      rcases r with ⟨c | e' | _ | _, s2⟩
      · exact cons ((Steps.inL h).trans (Steps.inR h')) (cons (one (.joinEnd _ _ _ _ _ _ (.ret _) (.ret _))) (ihk _ _))
      · exact cons ((Steps.inL h).trans (Steps.inR h')) (cons (one (.joinEnd _ _ _ _ _ _ (.ret _) (.throw _))) (ihk _ _))
      · trivial
      · trivial
    · have h' := ihq (s := s1)
      dsimp only
      generalize run o q s1 = r at h'
      rcases r with ⟨c | e' | _ | _, s2⟩
      · exact cons ((Steps.inL h).trans (Steps.inR h')) (cons (one (.joinEnd _ _ _ _ _ _ (.throw _) (.ret _))) (ihk _ _))
      · exact cons ((Steps.inL h).trans (Steps.inR h')) (cons (one (.joinEnd _ _ _ _ _ _ (.throw _) (.throw _))) (ihk _ _))
      · trivial
      · trivial
    · trivial
    · trivial

/-- The state with less known about user code. -/
def St.mapEnv (f : σ' → σ) (s : St α ι ω σ') : St α ι ω σ := ⟨s.mem, f s.env, s.log⟩

theorem run_mapEnv {o : Oracle σ ι ω} {o' : Oracle σ' ι ω} {f : σ' → σ} (ha : ∀ e q, o.ask (f e) q = ((o'.ask e q).1, f (o'.ask e q).2))
    (hf : ∀ e, o.flip (f e) = ((o'.flip e).1, f (o'.flip e).2)) (p : Prog α ι ω β) (s : St α ι ω σ') :
    run o p (s.mapEnv f) = ((run o' p s).1, (run o' p s).2.mapEnv f) := by
  induction p generalizing s with
  | ret b => rfl
  | get a k ih => exact ih _ s
  | set a x k ih => exact ih { s with mem := upd s.mem a x }
  | call q k ih =>
    have := ih (o'.ask s.env q).1 { s with env := (o'.ask s.env q).2, log := s.log ++ [(q, (o'.ask s.env q).1)] }
    dsimp only [run]
    rw [← this]
    show run o (k (o.ask (f s.env) q).1) ⟨s.mem, (o.ask (f s.env) q).2, s.log ++ [(q, (o.ask (f s.env) q).1)]⟩ = _
    rw [ha]
    rfl
  | choose k ih =>
    have := ih (o'.flip s.env).1 { s with env := (o'.flip s.env).2 }
    dsimp only [run]
    rw [← this]
    show run o (k (o.flip (f s.env)).1) ⟨s.mem, (o.flip (f s.env)).2, s.log⟩ = _
    rw [hf]
    rfl
  | throw e => rfl
  | ub => rfl
  | diverge => rfl
  | join p q k ihp ihq ihk =>
    unfold run
    rw [ihp s]
    rcases run o' p s with ⟨b | e | _ | _, s1⟩
    · dsimp only
      rw [ihq s1]
      rcases run o' q s1 with ⟨c | e' | _ | _, s2⟩
      · exact ihk _ _ s2
      · exact ihk _ _ s2
      · rfl
      · rfl
    · dsimp only
      rw [ihq s1]
      rcases run o' q s1 with ⟨c | e' | _ | _, s2⟩
      · exact ihk _ _ s2
      · exact ihk _ _ s2
      · rfl
      · rfl
    · rfl
    · rfl

end NdSlice
