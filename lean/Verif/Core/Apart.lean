import Verif.Core.Adequacy

/-
What the two sides of a fork touch while they run side by side: never the same cell, not even for reading.
-/

namespace NdSlice

variable {α ι ω σ : Type}

/-- `Step`, with the cells that are read or written. -/
inductive Touch (o : Oracle σ ι ω) : {β : Type} → Prog α ι ω β → St α ι ω σ → Prog α ι ω β → St α ι ω σ → List Addr → Prop where
  | get {β : Type} (a : Addr) (k : α → Prog α ι ω β) (s : St α ι ω σ) :
      Touch o (.get a k) s (k (s.mem a)) s [a]
  | set {β : Type} (a : Addr) (x : α) (k : Prog α ι ω β) (s : St α ι ω σ) :
      Touch o (.set a x k) s k { s with mem := upd s.mem a x } [a]
  | call {β : Type} (q : ι) (k : Option ω → Prog α ι ω β) (s : St α ι ω σ) :
      Touch o (.call q k) s (k (o.ask s.env q).1) { s with env := (o.ask s.env q).2, log := s.log ++ [(q, (o.ask s.env q).1)] } []
  | choose {β : Type} (k : Bool → Prog α ι ω β) (s : St α ι ω σ) :
      Touch o (.choose k) s (k (o.flip s.env).1) { s with env := (o.flip s.env).2 } []
  | joinL {β γ δ : Type} (p p' : Prog α ι ω β) (q : Prog α ι ω γ)
      (k : Res β → Res γ → Prog α ι ω δ) (s s' : St α ι ω σ) (l : List Addr) :
      Touch o p s p' s' l → Touch o (.join p q k) s (.join p' q k) s' l
  | joinR {β γ δ : Type} (p : Prog α ι ω β) (q q' : Prog α ι ω γ)
      (k : Res β → Res γ → Prog α ι ω δ) (s s' : St α ι ω σ) (l : List Addr) :
      Touch o q s q' s' l → Touch o (.join p q k) s (.join p q' k) s' l
  | joinEnd {β γ δ : Type} (p : Prog α ι ω β) (q : Prog α ι ω γ)
      (k : Res β → Res γ → Prog α ι ω δ) (s : St α ι ω σ) (r : Res β) (t : Res γ) :
      Ended p r → Ended q t → Touch o (.join p q k) s (k r t) s []

/-- The same steps. -/
theorem touch_iff {o : Oracle σ ι ω} {β : Type} {p p' : Prog α ι ω β} {s s' : St α ι ω σ} : (∃ l, Touch o p s p' s' l) ↔ Step o p s p' s' := by
  constructor
  · rintro ⟨l, h⟩
    induction h with
    | get a k s => exact .get a k s
    | set a x k s => exact .set a x k s
    | call q k s => exact .call q k s
    | choose k s => exact .choose k s
    | joinL p p' q k s s' l _ ih => exact .joinL _ _ _ _ _ _ ih
    | joinR p q q' k s s' l _ ih => exact .joinR _ _ _ _ _ _ ih
    | joinEnd p q k s r t h1 h2 => exact .joinEnd _ _ _ _ _ _ h1 h2
  · intro h
    induction h with
    | get a k s => exact ⟨_, .get a k s⟩
    | set a x k s => exact ⟨_, .set a x k s⟩
    | call q k s => exact ⟨_, .call q k s⟩
    | choose k s => exact ⟨_, .choose k s⟩
    | joinL p p' q k s s' _ ih => exact ⟨_, .joinL _ _ _ _ _ _ _ ih.choose_spec⟩
    | joinR p q q' k s s' _ ih => exact ⟨_, .joinR _ _ _ _ _ _ _ ih.choose_spec⟩
    | joinEnd p q k s r t h1 h2 => exact ⟨_, .joinEnd _ _ _ _ _ _ h1 h2⟩

/-- A step which does not end the fork at a position (from the outermost fork, `true` for its left side) in the program.  `l` and `r` are the cells
its left and its right side have touched in this step. -/
inductive Fork (o : Oracle σ ι ω) : List Bool → {β : Type} → Prog α ι ω β → St α ι ω σ → Prog α ι ω β → St α ι ω σ → List Addr → List Addr → Prop where
  | left {β γ δ : Type} {p p' : Prog α ι ω β} {q : Prog α ι ω γ} {k : Res β → Res γ → Prog α ι ω δ} {s s' : St α ι ω σ} {l : List Addr} :
      Touch o p s p' s' l → Fork o [] (.join p q k) s (.join p' q k) s' l []
  | right {β γ δ : Type} {p : Prog α ι ω β} {q q' : Prog α ι ω γ} {k : Res β → Res γ → Prog α ι ω δ} {s s' : St α ι ω σ} {r : List Addr} :
      Touch o q s q' s' r → Fork o [] (.join p q k) s (.join p q' k) s' [] r
  | inL {β γ δ : Type} {π : List Bool} {p p' : Prog α ι ω β} {q : Prog α ι ω γ} {k : Res β → Res γ → Prog α ι ω δ} {s s' : St α ι ω σ} {l r : List Addr} :
      Fork o π p s p' s' l r → Fork o (true :: π) (.join p q k) s (.join p' q k) s' l r
  | offL {β γ δ : Type} {π : List Bool} {p : Prog α ι ω β} {q q' : Prog α ι ω γ} {k : Res β → Res γ → Prog α ι ω δ} {s s' : St α ι ω σ} :
      Step o q s q' s' → Fork o (true :: π) (.join p q k) s (.join p q' k) s' [] []
  | inR {β γ δ : Type} {π : List Bool} {p : Prog α ι ω β} {q q' : Prog α ι ω γ} {k : Res β → Res γ → Prog α ι ω δ} {s s' : St α ι ω σ} {l r : List Addr} :
      Fork o π q s q' s' l r → Fork o (false :: π) (.join p q k) s (.join p q' k) s' l r
  | offR {β γ δ : Type} {π : List Bool} {p p' : Prog α ι ω β} {q : Prog α ι ω γ} {k : Res β → Res γ → Prog α ι ω δ} {s s' : St α ι ω σ} :
      Step o p s p' s' → Fork o (false :: π) (.join p q k) s (.join p' q k) s' [] []

/-- Any number of steps during which a fork lasts, with all the cells its two sides have touched. -/
inductive Forks (o : Oracle σ ι ω) (π : List Bool) {β : Type} :
    Prog α ι ω β → St α ι ω σ → Prog α ι ω β → St α ι ω σ → List Addr → List Addr → Prop where
  | refl (p : Prog α ι ω β) (s : St α ι ω σ) : Forks o π p s p s [] []
  | tail {p s p' s' p'' s'' l r l' r'} : Forks o π p s p' s' l r → Fork o π p' s' p'' s'' l' r' → Forks o π p s p'' s'' (l ++ l') (r ++ r')

/-- Is this a fork? -/
def Prog.isFork {β : Type} : Prog α ι ω β → Bool
  | .join .. => true
  | _ => false

/-- There is a fork at this position. -/
inductive HasFork : List Bool → {β : Type} → Prog α ι ω β → Prop where
  | here {β γ δ : Type} (p : Prog α ι ω β) (q : Prog α ι ω γ) (k : Res β → Res γ → Prog α ι ω δ) : HasFork [] (.join p q k)
  | inL {β γ δ : Type} {π : List Bool} (p : Prog α ι ω β) (q : Prog α ι ω γ) (k : Res β → Res γ → Prog α ι ω δ) : HasFork π p → HasFork (true :: π) (.join p q k)
  | inR {β γ δ : Type} {π : List Bool} (p : Prog α ι ω β) (q : Prog α ι ω γ) (k : Res β → Res γ → Prog α ι ω δ) : HasFork π q → HasFork (false :: π) (.join p q k)

/-- Both sides of the fork at this position have ended. -/
inductive ForkEnded : List Bool → {β : Type} → Prog α ι ω β → Prop where
  | here {β γ δ : Type} (p : Prog α ι ω β) (q : Prog α ι ω γ) (k : Res β → Res γ → Prog α ι ω δ) {r : Res β} {t : Res γ} :
      Ended p r → Ended q t → ForkEnded [] (.join p q k)
  | inL {β γ δ : Type} {π : List Bool} (p : Prog α ι ω β) (q : Prog α ι ω γ) (k : Res β → Res γ → Prog α ι ω δ) :
      ForkEnded π p → ForkEnded (true :: π) (.join p q k)
  | inR {β γ δ : Type} {π : List Bool} (p : Prog α ι ω β) (q : Prog α ι ω γ) (k : Res β → Res γ → Prog α ι ω δ) :
      ForkEnded π q → ForkEnded (false :: π) (.join p q k)

/-- `Fork` covers all steps while there is a fork whose sides have not both ended. -/
theorem step_fork {o : Oracle σ ι ω} {π : List Bool} {β : Type} {p p' : Prog α ι ω β} {s s' : St α ι ω σ} (h : HasFork π p)
    (hs : Step o p s p' s') : (∃ l r, Fork o π p s p' s' l r) ∨ ForkEnded π p := by
  induction h with
  | here p q k =>
    cases hs with
    | joinL _ p' _ _ _ _ h => exact .inl ⟨_, _, .left (touch_iff.2 h).choose_spec⟩
    | joinR _ _ q' _ _ _ h => exact .inl ⟨_, _, .right (touch_iff.2 h).choose_spec⟩
    | joinEnd _ _ _ _ r t h1 h2 => exact .inr (.here _ _ _ h1 h2)
  | inL p q k hf ih =>
    cases hs with
    | joinL _ p' _ _ _ _ h =>
      rcases ih h with ⟨l, r, h⟩ | h
      · exact .inl ⟨l, r, .inL h⟩
      · exact .inr (.inL _ _ _ h)
    | joinR _ _ q' _ _ _ h => exact .inl ⟨_, _, .offL h⟩
    | joinEnd _ _ _ _ r t h1 h2 => cases h1 <;> cases hf
  | inR p q k hf ih =>
    cases hs with
    | joinR _ _ q' _ _ _ h =>
      rcases ih h with ⟨l, r, h⟩ | h
      · exact .inl ⟨l, r, .inR h⟩
      · exact .inr (.inR _ _ _ h)
    | joinL _ p' _ _ _ _ h => exact .inl ⟨_, _, .offR h⟩
    | joinEnd _ _ _ _ r t h1 h2 => cases h2 <;> cases hf

/-- `p` keeps to the cells of `F`. -/
def Keeps (R : ι → Option ω → Prop) {β : Type} (p : Prog α ι ω β) (F : Addr → Prop) (m : Mem α) : Prop := ∃ Q E lg, wp R p F Q E m lg

theorem Keeps.frame {R : ι → Option ω → Prop} {β : Type} {p : Prog α ι ω β} {F : Addr → Prop} {m m' : Mem α} (h : Keeps R p F m)
    (hm : ∀ a, F a → m' a = m a) : Keeps R p F m' := by
  obtain ⟨Q, E, lg, h⟩ := h
  exact ⟨_, _, _, wp_frame h (m' := m') (m0 := m) (m0' := m') hm (fun _ _ => rfl) (fun _ _ => rfl)⟩

theorem touch_access {o : Oracle σ ι ω} {β : Type} {p p' : Prog α ι ω β} {s s' : St α ι ω σ} {l : List Addr} (h : Touch o p s p' s' l) :
    ∀ a ∈ l, ∃ w, Access p a w := by
  induction h with
  | get a k s => intro b hb; rw [List.mem_singleton] at hb; subst hb; exact ⟨_, .get _ _⟩
  | set a x k s => intro b hb; rw [List.mem_singleton] at hb; subst hb; exact ⟨_, .set _ _ _⟩
  | call q k s => exact fun _ h => by cases h
  | choose k s => exact fun _ h => by cases h
  | joinL p p' q k s s' l _ ih => exact fun a ha => ⟨_, .joinL _ _ _ _ _ (ih a ha).choose_spec⟩
  | joinR p q q' k s s' l _ ih => exact fun a ha => ⟨_, .joinR _ _ _ _ _ (ih a ha).choose_spec⟩
  | joinEnd p q k s r t h1 h2 => exact fun _ h => by cases h

theorem Keeps.step {R : ι → Option ω → Prop} {o : Oracle σ ι ω} (ho : o.Sat R) {β : Type} {p p' : Prog α ι ω β} {F : Addr → Prop} {s s' : St α ι ω σ}
    (h : Keeps R p F s.mem) (hs : Step o p s p' s') : Keeps R p' F s'.mem ∧ ∀ a, ¬ F a → s'.mem a = s.mem a := by
  obtain ⟨Q, E, lg, h⟩ := h
  obtain ⟨m', d, d', w, a1, a2, a3, a4, a5⟩ := step_wp ho hs h (fun _ _ => rfl)
  have : m' = s'.mem := funext fun a => (open Classical in if ha : F a then (a1 a ha).symm else (a2 a ha).trans (a3 a ha).symm)
  rw [this] at w
  exact ⟨⟨_, _, _, w⟩, a3⟩

theorem Keeps.touch {R : ι → Option ω → Prop} {o : Oracle σ ι ω} (ho : o.Sat R) {β : Type} {p p' : Prog α ι ω β} {F : Addr → Prop} {s s' : St α ι ω σ}
    {l : List Addr} (h : Keeps R p F s.mem) (hs : Touch o p s p' s' l) :
    Keeps R p' F s'.mem ∧ (∀ a, ¬ F a → s'.mem a = s.mem a) ∧ ∀ a ∈ l, F a := by
  obtain ⟨h1, h2⟩ := h.step ho (touch_iff.1 ⟨_, hs⟩)
  refine ⟨h1, h2, fun a ha => ?_⟩
  obtain ⟨w, hw⟩ := touch_access hs a ha
  obtain ⟨Q, E, lg, h⟩ := h
  exact access_footprint hw h

/-- The two sides of the fork at a position (if there is one) keep to `F1` and to `F2`, everything else to other cells. -/
inductive Inv (R : ι → Option ω → Prop) (F1 F2 : Addr → Prop) : List Bool → {β : Type} → Prog α ι ω β → (Addr → Prop) → Mem α → Prop where
  | none {β : Type} {π : List Bool} {p : Prog α ι ω β} {G : Addr → Prop} {m : Mem α} : p.isFork = false → Inv R F1 F2 π p G m
  | here {β γ δ : Type} {p : Prog α ι ω β} {q : Prog α ι ω γ} {k : Res β → Res γ → Prog α ι ω δ} {G : Addr → Prop} {m : Mem α} :
      (∀ a, F1 a → G a) → (∀ a, F2 a → G a) → (∀ a, F1 a → ¬ F2 a) → Keeps R p F1 m → Keeps R q F2 m → Inv R F1 F2 [] (.join p q k) G m
  | inL {β γ δ : Type} {π : List Bool} {p : Prog α ι ω β} {q : Prog α ι ω γ} {k : Res β → Res γ → Prog α ι ω δ} {G G1 G2 : Addr → Prop} {m : Mem α} :
      (∀ a, G1 a → G a) → (∀ a, G2 a → G a) → (∀ a, G1 a → ¬ G2 a) → Inv R F1 F2 π p G1 m → Keeps R q G2 m → Inv R F1 F2 (true :: π) (.join p q k) G m
  | inR {β γ δ : Type} {π : List Bool} {p : Prog α ι ω β} {q : Prog α ι ω γ} {k : Res β → Res γ → Prog α ι ω δ} {G G1 G2 : Addr → Prop} {m : Mem α} :
      (∀ a, G1 a → G a) → (∀ a, G2 a → G a) → (∀ a, G1 a → ¬ G2 a) → Keeps R p G1 m → Inv R F1 F2 π q G2 m → Inv R F1 F2 (false :: π) (.join p q k) G m

theorem inv_start {R : ι → Option ω → Prop} (π : List Bool) {β : Type} {p : Prog α ι ω β} {G : Addr → Prop} {m : Mem α} (h : Keeps R p G m) :
    ∃ F1 F2 : Addr → Prop, (∀ a, F1 a → ¬ F2 a) ∧ Inv R F1 F2 π p G m := by
  have h0 : ∀ {γ : Type} {π : List Bool} {p : Prog α ι ω γ} {G : Addr → Prop}, p.isFork = false →
      ∃ F1 F2 : Addr → Prop, (∀ a, F1 a → ¬ F2 a) ∧ Inv R F1 F2 π p G m := fun h => ⟨fun _ => False, fun _ => False, fun _ h => h.elim, .none h⟩
  induction p generalizing π G with
  | join p q k ihp ihq _ =>
    obtain ⟨Q, E, lg, F1, F2, h1, h2, hd, P1, P2, wp1, wp2, hk⟩ := h
    rcases π with _ | ⟨_ | _, π⟩
    · exact ⟨F1, F2, hd, .here h1 h2 hd ⟨_, _, _, wp1⟩ ⟨_, _, _, wp2⟩⟩
    · obtain ⟨A, B, hd', h⟩ := ihq π ⟨_, _, _, wp2⟩
      exact ⟨A, B, hd', .inR h1 h2 hd ⟨_, _, _, wp1⟩ h⟩
    · obtain ⟨A, B, hd', h⟩ := ihp π ⟨_, _, _, wp1⟩
      exact ⟨A, B, hd', .inL h1 h2 hd h ⟨_, _, _, wp2⟩⟩
  | ret b => exact h0 rfl
  | throw e => exact h0 rfl
  | ub => exact h0 rfl
  | diverge => exact h0 rfl
  | get a k => exact h0 rfl
  | set a x k => exact h0 rfl
  | call q k => exact h0 rfl
  | choose k => exact h0 rfl

theorem Inv.frame {R : ι → Option ω → Prop} {F1 F2 : Addr → Prop} {π : List Bool} {β : Type} {p : Prog α ι ω β} {G : Addr → Prop} {m m' : Mem α}
    (h : Inv R F1 F2 π p G m) (hm : ∀ a, G a → m' a = m a) : Inv R F1 F2 π p G m' := by
  induction h with
  | none h => exact .none h
  | here h1 h2 hd hp hq => exact .here h1 h2 hd (hp.frame fun a ha => hm a (h1 a ha)) (hq.frame fun a ha => hm a (h2 a ha))
  | inL h1 h2 hd hp hq ih => exact .inL h1 h2 hd (ih fun a ha => hm a (h1 a ha)) (hq.frame fun a ha => hm a (h2 a ha))
  | inR h1 h2 hd hp hq ih => exact .inR h1 h2 hd (hp.frame fun a ha => hm a (h1 a ha)) (ih fun a ha => hm a (h2 a ha))

theorem Inv.fork {R : ι → Option ω → Prop} {o : Oracle σ ι ω} (ho : o.Sat R) {F1 F2 : Addr → Prop} {π : List Bool} {β : Type} {p p' : Prog α ι ω β}
    {s s' : St α ι ω σ} {l r : List Addr} (hs : Fork o π p s p' s' l r) {G : Addr → Prop} (h : Inv R F1 F2 π p G s.mem) :
    Inv R F1 F2 π p' G s'.mem ∧ (∀ a, ¬ G a → s'.mem a = s.mem a) ∧ (∀ a ∈ l, F1 a) ∧ ∀ a ∈ r, F2 a := by
  induction hs generalizing G with
  | left ht =>
    cases h with
    | none h => cases h
    | here h1 h2 hd hp hq =>
      obtain ⟨a1, a2, a3⟩ := hp.touch ho ht
      exact ⟨.here h1 h2 hd a1 (hq.frame fun a ha => a2 a fun h => hd a h ha), fun a ha => a2 a fun h => ha (h1 a h), a3, fun _ h => by cases h⟩
  | right ht =>
    cases h with
    | none h => cases h
    | here h1 h2 hd hp hq =>
      obtain ⟨a1, a2, a3⟩ := hq.touch ho ht
      exact ⟨.here h1 h2 hd (hp.frame fun a ha => a2 a fun h => hd a ha h) a1, fun a ha => a2 a fun h => ha (h2 a h), fun _ h => (by cases h), a3⟩
  | inL _ ih =>
    cases h with
    | none h => cases h
    | inL h1 h2 hd hp hq =>
      obtain ⟨a1, a2, a3⟩ := ih hp
      exact ⟨.inL h1 h2 hd a1 (hq.frame fun a ha => a2 a fun h => hd a h ha), fun a ha => a2 a fun h => ha (h1 a h), a3⟩
  | offL hs =>
    cases h with
    | none h => cases h
    | inL h1 h2 hd hp hq =>
      obtain ⟨a1, a2⟩ := hq.step ho hs
      exact ⟨.inL h1 h2 hd (hp.frame fun a ha => a2 a fun h => hd a ha h) a1, fun a ha => a2 a fun h => ha (h2 a h), fun _ h => (by cases h), fun _ h => (by cases h)⟩
  | inR _ ih =>
    cases h with
    | none h => cases h
    | inR h1 h2 hd hp hq =>
      obtain ⟨a1, a2, a3⟩ := ih hq
      exact ⟨.inR h1 h2 hd (hp.frame fun a ha => a2 a fun h => hd a ha h) a1, fun a ha => a2 a fun h => ha (h2 a h), a3⟩
  | offR hs =>
    cases h with
    | none h => cases h
    | inR h1 h2 hd hp hq =>
      obtain ⟨a1, a2⟩ := hp.step ho hs
      exact ⟨.inR h1 h2 hd a1 (hq.frame fun a ha => a2 a fun h => hd a h ha), fun a ha => a2 a fun h => ha (h1 a h), fun _ h => (by cases h), fun _ h => (by cases h)⟩

theorem Inv.forks {R : ι → Option ω → Prop} {o : Oracle σ ι ω} (ho : o.Sat R) {F1 F2 : Addr → Prop} {π : List Bool} {β : Type} {p p' : Prog α ι ω β}
    {s s' : St α ι ω σ} {l r : List Addr} (hs : Forks o π p s p' s' l r) {G : Addr → Prop} (h : Inv R F1 F2 π p G s.mem) :
    Inv R F1 F2 π p' G s'.mem ∧ (∀ a ∈ l, F1 a) ∧ ∀ a ∈ r, F2 a := by
  induction hs with
  | refl => exact ⟨h, fun _ h => (by cases h), fun _ h => (by cases h)⟩
  | tail _ hf ih =>
    obtain ⟨i1, i2, i3⟩ := ih
    obtain ⟨j1, _, j2, j3⟩ := i1.fork ho hf
    exact ⟨j1, fun a ha => (List.mem_append.1 ha).elim (i2 a) (j2 a), fun a ha => (List.mem_append.1 ha).elim (i3 a) (j3 a)⟩

/-- Under every schedule, the two sides of every fork touch different cells as long as the fork lasts. -/
def NeverShare (o : Oracle σ ι ω) {β : Type} (p : Prog α ι ω β) (s : St α ι ω σ) : Prop :=
  ∀ p1 s1, Steps o p s p1 s1 → ∀ π p2 s2 l r, Forks o π p1 s1 p2 s2 l r → ∀ a ∈ l, a ∉ r

theorem wp_apart {R : ι → Option ω → Prop} {o : Oracle σ ι ω} (ho : o.Sat R) {β : Type} {p : Prog α ι ω β} {F : Addr → Prop}
    {Q : β → Mem α → List (ι × Option ω) → Prop} {E : Panic → Mem α → List (ι × Option ω) → Prop} {s : St α ι ω σ} (h : wp R p F Q E s.mem s.log) :
    NeverShare o p s := by
  intro p1 s1 hs π p2 s2 l r hf a ha hb
  obtain ⟨lg, w, _⟩ := steps_wp ho hs h
  obtain ⟨F1, F2, hd, i⟩ := inv_start π ⟨_, _, _, w⟩
  obtain ⟨_, h1, h2⟩ := i.forks ho hf
  exact hd a (h1 a ha) (h2 a hb)

end NdSlice
