import Verif.Core.Prog

/-
What programs do: a sequential executable semantics (`run`), a concurrent small-step semantics
covering every schedule (`Step`), and the demonic weakest precondition (`wp`) the proofs use.
`Verif.Core.Adequacy` connects the three.
-/

namespace NdSlice

variable {α ι ω σ : Type}

/-- How a whole program ended. -/
inductive Out (β : Type) where
  | ok (b : β)
  | panic (e : Panic)
  | ub
  | diverge
  deriving DecidableEq, Repr

/-- The environment: user code with a private state `σ` it may read and change at every call
(so it need not be a function of its arguments), which may panic (`none`), and a source of the
allocator's and scheduler's choices. -/
structure Oracle (σ ι ω : Type) where
  ask : σ → ι → Option ω × σ
  flip : σ → Bool × σ

/-- Memory update. -/
def upd (m : Mem α) (a : Addr) (x : α) : Mem α := fun b => if b = a then x else m b

/-- The whole state of a run: memory, state of the user code, and all questions asked to the
user code so far with its answers, in order (an answer `none` is a panic). -/
structure St (α ι ω σ : Type) where
  mem : Mem α
  env : σ
  log : List (ι × Option ω)

/-- Sequential execution (`rayon::join` on one thread runs the left program first). -/
def run (o : Oracle σ ι ω) {β : Type} : Prog α ι ω β → St α ι ω σ → Out β × St α ι ω σ
  | .ret b, s => (.ok b, s)
  | .get a k, s => run o (k (s.mem a)) s
  | .set a x k, s => run o k { s with mem := upd s.mem a x }
  | .call q k, s => run o (k (o.ask s.env q).1) { s with env := (o.ask s.env q).2, log := s.log ++ [(q, (o.ask s.env q).1)] }
  | .choose k, s => run o (k (o.flip s.env).1) { s with env := (o.flip s.env).2 }
  | .throw e, s => (.panic e, s)
  | .ub, s => (.ub, s)
  | .diverge, s => (.diverge, s)
  | .join p q k, s =>
    match run o p s with
    | (.ub, s1) => (.ub, s1)
    | (.diverge, s1) => (.diverge, s1)
    | (.ok b, s1) =>
      match run o q s1 with
      | (.ub, s2) => (.ub, s2)
      | (.diverge, s2) => (.diverge, s2)
      | (.ok c, s2) => run o (k (.ok b) (.ok c)) s2
      | (.panic e, s2) => run o (k (.ok b) (.panic e)) s2
    | (.panic e, s1) =>
      match run o q s1 with
      | (.ub, s2) => (.ub, s2)
      | (.diverge, s2) => (.diverge, s2)
      | (.ok c, s2) => run o (k (.panic e) (.ok c)) s2
      | (.panic e', s2) => run o (k (.panic e) (.panic e')) s2

/-- `p` has ended with result `r`. -/
inductive Ended {β : Type} : Prog α ι ω β → Res β → Prop where
  | ret (b : β) : Ended (.ret b) (.ok b)
  | throw (e : Panic) : Ended (.throw e) (.panic e)

/-- One atomic step of some thread. -/
inductive Step (o : Oracle σ ι ω) : {β : Type} → Prog α ι ω β → St α ι ω σ → Prog α ι ω β → St α ι ω σ → Prop where
  | get {β : Type} (a : Addr) (k : α → Prog α ι ω β) (s : St α ι ω σ) :
      Step o (.get a k) s (k (s.mem a)) s
  | set {β : Type} (a : Addr) (x : α) (k : Prog α ι ω β) (s : St α ι ω σ) :
      Step o (.set a x k) s k { s with mem := upd s.mem a x }
  | call {β : Type} (q : ι) (k : Option ω → Prog α ι ω β) (s : St α ι ω σ) :
      Step o (.call q k) s (k (o.ask s.env q).1) { s with env := (o.ask s.env q).2, log := s.log ++ [(q, (o.ask s.env q).1)] }
  | choose {β : Type} (k : Bool → Prog α ι ω β) (s : St α ι ω σ) :
      Step o (.choose k) s (k (o.flip s.env).1) { s with env := (o.flip s.env).2 }
  | joinL {β γ δ : Type} (p p' : Prog α ι ω β) (q : Prog α ι ω γ)
      (k : Res β → Res γ → Prog α ι ω δ) (s s' : St α ι ω σ) :
      Step o p s p' s' → Step o (.join p q k) s (.join p' q k) s'
  | joinR {β γ δ : Type} (p : Prog α ι ω β) (q q' : Prog α ι ω γ)
      (k : Res β → Res γ → Prog α ι ω δ) (s s' : St α ι ω σ) :
      Step o q s q' s' → Step o (.join p q k) s (.join p q' k) s'
  | joinEnd {β γ δ : Type} (p : Prog α ι ω β) (q : Prog α ι ω γ)
      (k : Res β → Res γ → Prog α ι ω δ) (s : St α ι ω σ) (r : Res β) (t : Res γ) :
      Ended p r → Ended q t → Step o (.join p q k) s (k r t) s

/-- Any finite number of steps, under any schedule. -/
inductive Steps (o : Oracle σ ι ω) {β : Type} : Prog α ι ω β → St α ι ω σ → Prog α ι ω β → St α ι ω σ → Prop where
  | refl (p : Prog α ι ω β) (s : St α ι ω σ) : Steps o p s p s
  | tail {p s p' s' p'' s''} : Steps o p s p' s' → Step o p' s' p'' s'' → Steps o p s p'' s''

/-- Demonic weakest precondition with a footprint `F`: whatever the user code answers (as long as
`R` allows the answer), whatever the environment chooses, and under every schedule, `p` only
touches cells in `F`, has no undefined behaviour, ends, and ends in `Q` or panics in `E`. -/
def wp (R : ι → Option ω → Prop) {β : Type} : Prog α ι ω β → (Addr → Prop) →
    (β → Mem α → List (ι × Option ω) → Prop) → (Panic → Mem α → List (ι × Option ω) → Prop) → Mem α → List (ι × Option ω) → Prop
  | .ret b, _, Q, _, m, lg => Q b m lg
  | .get a k, F, Q, E, m, lg => F a ∧ wp R (k (m a)) F Q E m lg
  | .set a x k, F, Q, E, m, lg => F a ∧ wp R k F Q E (upd m a x) lg
  | .call q k, F, Q, E, m, lg => ∀ r, R q r → wp R (k r) F Q E m (lg ++ [(q, r)])
  | .choose k, F, Q, E, m, lg => ∀ b, wp R (k b) F Q E m lg
  | .throw e, _, _, E, m, lg => E e m lg
  | .ub, _, _, _, _, _ => False
  | .diverge, _, _, _, _, _ => False
  | .join (β := β) (γ := γ) p q k, F, Q, E, m, lg =>
    ∃ F1 F2 : Addr → Prop, (∀ a, F1 a → F a) ∧ (∀ a, F2 a → F a) ∧ (∀ a, F1 a → ¬ F2 a) ∧
    ∃ (P1 : Res β → Mem α → List (ι × Option ω) → Prop) (P2 : Res γ → Mem α → List (ι × Option ω) → Prop),
      wp R p F1 (fun b => P1 (.ok b)) (fun e => P1 (.panic e)) m [] ∧
      wp R q F2 (fun b => P2 (.ok b)) (fun e => P2 (.panic e)) m [] ∧
      ∀ r t m1 m2 l1 l2, P1 r m1 l1 → P2 t m2 l2 →
        ∀ m' d, (∀ a, F1 a → m' a = m1 a) → (∀ a, F2 a → m' a = m2 a) →
          (∀ a, ¬ F1 a → ¬ F2 a → m' a = m a) → d.Perm (l1 ++ l2) →
          wp R (k r t) F Q E m' (lg ++ d)

end NdSlice
