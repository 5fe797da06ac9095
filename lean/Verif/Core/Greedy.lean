import Verif.Core.Span

/-
Running a parallel program on `P` processors.  A call of user code takes one unit of time, all other steps take none.  At each moment up to `P` calls
can be going on, and none is put off unless `P` calls are going on or there is nothing else to do.  The theorem of Graham and Brent: the time is at most
the number of calls divided by `P` plus the length of the critical path.
-/

namespace NdSlice

variable {α ι ω σ β γ : Type}

/-- One step (see `Step`) at time `t`, with the number of calls of user code made by it.  The clock of a part is the time it can go on; after a call
this is the next moment. -/
inductive Work (o : Oracle σ ι ω) (t : Nat) :
    {β : Type} → Prog α ι ω β → Clock → St α ι ω σ → Prog α ι ω β → Clock → St α ι ω σ → Nat → Prop where
  | get {β : Type} (a : Addr) (k : α → Prog α ι ω β) (c : Clock) (s : St α ι ω σ) :
      c.now ≤ t → Work o t (.get a k) c s (k (s.mem a)) (.at c.now) s 0
  | set {β : Type} (a : Addr) (x : α) (k : Prog α ι ω β) (c : Clock) (s : St α ι ω σ) :
      c.now ≤ t → Work o t (.set a x k) c s k (.at c.now) { s with mem := upd s.mem a x } 0
  | call {β : Type} (q : ι) (k : Option ω → Prog α ι ω β) (c : Clock) (s : St α ι ω σ) :
      c.now ≤ t → Work o t (.call q k) c s (k (o.ask s.env q).1) (.at (t + 1))
        { s with env := (o.ask s.env q).2, log := s.log ++ [(q, (o.ask s.env q).1)] } 1
  | choose {β : Type} (k : Bool → Prog α ι ω β) (c : Clock) (s : St α ι ω σ) :
      c.now ≤ t → Work o t (.choose k) c s (k (o.flip s.env).1) (.at c.now) { s with env := (o.flip s.env).2 } 0
  | joinL {β γ δ : Type} (p p' : Prog α ι ω β) (q : Prog α ι ω γ)
      (k : Res β → Res γ → Prog α ι ω δ) (c c' : Clock) (s s' : St α ι ω σ) (n : Nat) :
      Work o t p c.left s p' c' s' n → Work o t (.join p q k) c s (.join p' q k) (.both c' c.right) s' n
  | joinR {β γ δ : Type} (p : Prog α ι ω β) (q q' : Prog α ι ω γ)
      (k : Res β → Res γ → Prog α ι ω δ) (c c' : Clock) (s s' : St α ι ω σ) (n : Nat) :
      Work o t q c.right s q' c' s' n → Work o t (.join p q k) c s (.join p q' k) (.both c.left c') s' n
  | joinEnd {β γ δ : Type} (p : Prog α ι ω β) (q : Prog α ι ω γ)
      (k : Res β → Res γ → Prog α ι ω δ) (c : Clock) (s : St α ι ω σ) (r : Res β) (u : Res γ) :
      c.now ≤ t → Ended p r → Ended q u → Work o t (.join p q k) c s (k r u) (.at c.now) s 0

/-- What `P` processors can have got to at time `t`, starting with `p₀` in `s₀` at time 0, with `b` processors busy till the next moment. -/
inductive Greedy (o : Oracle σ ι ω) (P : Nat) (p₀ : Prog α ι ω β) (s₀ : St α ι ω σ) : Prog α ι ω β → Clock → St α ι ω σ → Nat → Nat → Prop where
  | start : Greedy o P p₀ s₀ p₀ (.at 0) s₀ 0 0
  | work {p c s t b p' c' s' n} : Greedy o P p₀ s₀ p c s t b → Work o t p c s p' c' s' n → b + n ≤ P → Greedy o P p₀ s₀ p' c' s' t (b + n)
  | wait {p c s t b} : Greedy o P p₀ s₀ p c s t b → 0 < b → (b = P ∨ ∀ p' c' s' n, ¬ Work o t p c s p' c' s' n) → Greedy o P p₀ s₀ p c s (t + 1) 0

theorem Clock.left_right (c : Clock) : max c.left.now c.right.now = c.now := by
  cases c with
  | «at» n => exact Nat.max_self n
  | both l r => rfl

theorem Work.step {o : Oracle σ ι ω} {t n : Nat} {p p' : Prog α ι ω β} {c c' : Clock} {s s' : St α ι ω σ} (h : Work o t p c s p' c' s' n) :
    Step o p s p' s' := by
  induction h with
  | get a k c s => exact .get a k s
  | set a x k c s => exact .set a x k s
  | call q k c s => exact .call q k s
  | choose k c s => exact .choose k s
  | joinL p p' q k c c' s s' n _ ih => exact .joinL p p' q k s s' ih
  | joinR p q q' k c c' s s' n _ ih => exact .joinR p q q' k s s' ih
  | joinEnd p q k c s r u _ h1 h2 => exact .joinEnd p q k s r u h1 h2

theorem Greedy.steps {o : Oracle σ ι ω} {P t b : Nat} {p₀ p : Prog α ι ω β} {c : Clock} {s₀ s : St α ι ω σ} (h : Greedy o P p₀ s₀ p c s t b) :
    Steps o p₀ s₀ p s := by
  induction h with
  | start => exact .refl _ _
  | work _ h _ ih => exact ih.tail h.step
  | wait _ _ _ ih => exact ih

theorem Work.calls {o : Oracle σ ι ω} {t n : Nat} {p p' : Prog α ι ω β} {c c' : Clock} {s s' : St α ι ω σ} (h : Work o t p c s p' c' s' n) :
    s'.log.length = s.log.length + n := by
  induction h with
  | call q k c s =>
    show (s.log ++ [_]).length = _
    rw [List.length_append]
    rfl
  | joinL _ _ _ _ _ _ _ _ _ _ ih => exact ih
  | joinR _ _ _ _ _ _ _ _ _ _ ih => exact ih
  | _ => rfl

theorem Work.now {o : Oracle σ ι ω} {t n : Nat} {p p' : Prog α ι ω β} {c c' : Clock} {s s' : St α ι ω σ} (h : Work o t p c s p' c' s' n)
    (hc : c.now ≤ t + 1) : (n = 0 ∧ c'.now = c.now) ∨ (n = 1 ∧ c'.now = t + 1) := by
  induction h with
  | call q k c s => exact .inr ⟨rfl, rfl⟩
  | joinL p p' q k c c' s s' n _ ih =>
    have := c.left_right
    show _ ∨ _ ∧ max c'.now c.right.now = _
    rcases ih (by omega) with h | h
    · exact .inl ⟨h.1, by show max c'.now c.right.now = _; rw [h.2]; exact this⟩
    · exact .inr ⟨h.1, by omega⟩
  | joinR p q q' k c c' s s' n _ ih =>
    have := c.left_right
    show _ ∨ _ ∧ max c.left.now c'.now = _
    rcases ih (by omega) with h | h
    · exact .inl ⟨h.1, by show max c.left.now c'.now = _; rw [h.2]; exact this⟩
    · exact .inr ⟨h.1, by omega⟩
  | _ => exact .inl ⟨rfl, rfl⟩

theorem Greedy.clock {o : Oracle σ ι ω} {P t b : Nat} {p₀ p : Prog α ι ω β} {c : Clock} {s₀ s : St α ι ω σ} (h : Greedy o P p₀ s₀ p c s t b) :
    b ≤ P ∧ ((b = 0 ∧ c.now ≤ t) ∨ (0 < b ∧ c.now = t + 1)) := by
  induction h with
  | start => exact ⟨Nat.zero_le _, .inl ⟨rfl, Nat.le_refl _⟩⟩
  | work _ h hb ih =>
    have := h.now (by omega)
    exact ⟨hb, by omega⟩
  | wait _ hb _ ih => exact ⟨Nat.zero_le _, .inl ⟨rfl, by omega⟩⟩

/-- A part that is not waiting for an answer can do every step there is. -/
theorem Step.work {o : Oracle σ ι ω} {t : Nat} {p p' : Prog α ι ω β} {s s' : St α ι ω σ} (h : Step o p s p' s') {c : Clock} (hc : c.now ≤ t) :
    ∃ c' n, Work o t p c s p' c' s' n := by
  induction h generalizing c with
  | get a k s => exact ⟨_, _, .get a k c s hc⟩
  | set a x k s => exact ⟨_, _, .set a x k c s hc⟩
  | call q k s => exact ⟨_, _, .call q k c s hc⟩
  | choose k s => exact ⟨_, _, .choose k c s hc⟩
  | joinL p p' q k s s' _ ih =>
    have := c.left_right
    obtain ⟨c', n, h⟩ := ih (c := c.left) (by omega)
    exact ⟨_, _, .joinL p p' q k c c' s s' n h⟩
  | joinR p q q' k s s' _ ih =>
    have := c.left_right
    obtain ⟨c', n, h⟩ := ih (c := c.right) (by omega)
    exact ⟨_, _, .joinR p q q' k c c' s s' n h⟩
  | joinEnd p q k s r u h1 h2 => exact ⟨_, _, .joinEnd p q k c s r u hc h1 h2⟩

/-- Work goes on, or time passes, as long as there is a step to do. -/
theorem Greedy.goes_on {o : Oracle σ ι ω} {P t b : Nat} (hP : 0 < P) {p₀ p p' : Prog α ι ω β} {c : Clock} {s₀ s s' : St α ι ω σ}
    (h : Greedy o P p₀ s₀ p c s t b) (hs : Step o p s p' s') :
    (∃ p' c' s' n, Work o t p c s p' c' s' n ∧ b + n ≤ P ∧ Greedy o P p₀ s₀ p' c' s' t (b + n)) ∨ Greedy o P p₀ s₀ p c s (t + 1) 0 := by
  have hc := h.clock
  rcases Classical.em (∃ p' c' s' n, Work o t p c s p' c' s' n) with ⟨p', c', s', n, hw⟩ | hn
  · by_cases hb : b + n ≤ P
    · exact .inl ⟨p', c', s', n, hw, hb, h.work hw hb⟩
    · have := hw.now (by omega)
      exact .inr (h.wait (by omega) (.inl (by omega)))
  · rcases hc.2 with ⟨-, hc⟩ | ⟨hb, -⟩
    · obtain ⟨c', n, hw⟩ := hs.work hc
      exact (hn ⟨_, _, _, _, hw⟩).elim
    · exact .inr (h.wait hb (.inr fun p' c' s' n hw => hn ⟨_, _, _, _, hw⟩))

/-! ### The bound -/

/-- A part of `p` has run into undefined behaviour or an endless loop, so `p` will never end. -/
def NeverEnds {β : Type} : Prog α ι ω β → Prop
  | .ub => True
  | .diverge => True
  | .join p q _ => NeverEnds p ∨ NeverEnds q
  | _ => False

theorem NeverEnds.work {o : Oracle σ ι ω} {t n : Nat} {p p' : Prog α ι ω β} {c c' : Clock} {s s' : St α ι ω σ} (hd : NeverEnds p)
    (h : Work o t p c s p' c' s' n) : NeverEnds p' := by
  induction h with
  | joinL _ _ _ _ _ _ _ _ _ _ ih => exact hd.imp ih id
  | joinR _ _ _ _ _ _ _ _ _ _ ih => exact hd.imp id ih
  | joinEnd p q k c s r u _ h1 h2 =>
    rcases hd with hd | hd
    · cases h1 <;> exact hd.elim
    · cases h2 <;> exact hd.elim
  | _ => exact hd.elim

theorem Span.weaken {p : Prog α ι ω β} {B B' : Nat} {Q : β → Prop} (h : Span p B (fun b _ => Q b)) (hB : B ≤ B') : Span p B' (fun b _ => Q b) := by
  obtain ⟨d, rfl⟩ := Nat.exists_eq_add_of_le hB
  exact (h.frame d).mono fun b _ ⟨_, _, h⟩ => h

/-- The critical path from time `t` on has at most the length `B`. -/
def Rem {β : Type} : Prog α ι ω β → Clock → Nat → Nat → (β → Prop) → Prop
  | .join (β := β) (γ := γ) p q k, c, t, B, Q => ∃ B1 B2, B = B1 + B2 ∧ ∃ (Q1 : β → Prop) (Q2 : γ → Prop),
    Rem p c.left t B1 Q1 ∧ Rem q c.right t B1 Q2 ∧
    ((NeverEnds p ∨ NeverEnds q) ∨ ∀ r u, (∀ b, r = .ok b → Q1 b) → (∀ b, u = .ok b → Q2 b) → Span (k r u) B2 (fun b _ => Q b))
  | p, c, t, B, Q => ∃ n, c = .at n ∧
    ((n ≤ t ∧ Span p B (fun b _ => Q b)) ∨ (n = t + 1 ∧ ∃ B', B = B' + 1 ∧ Span p B' (fun b _ => Q b)))

theorem Span.rem {p : Prog α ι ω β} {n t B : Nat} {Q : β → Prop} (hn : n ≤ t) (h : Span p B (fun b _ => Q b)) : Rem p (.at n) t B Q := by
  induction p generalizing B with
  | join p q k ihp ihq _ =>
    obtain ⟨B1, B2, hB, Q1, Q2, h1, h2, h3⟩ := h
    exact ⟨B1, B2, hB, Q1, Q2, ihp h1, ihq h2, .inr h3⟩
  | _ => exact ⟨n, rfl, .inl ⟨hn, h⟩⟩

theorem Span.rem_next {p : Prog α ι ω β} {t B : Nat} {Q : β → Prop} (h : Span p B (fun b _ => Q b)) : Rem p (.at (t + 1)) t (B + 1) Q := by
  induction p generalizing B with
  | join p q k ihp ihq _ =>
    obtain ⟨B1, B2, hB, Q1, Q2, h1, h2, h3⟩ := h
    exact ⟨B1 + 1, B2, by omega, Q1, Q2, ihp h1, ihq h2, .inr h3⟩
  | _ => exact ⟨t + 1, rfl, .inr ⟨rfl, B, rfl, h⟩⟩

theorem Rem.ended {p : Prog α ι ω β} {c : Clock} {t B : Nat} {Q : β → Prop} {r : Res β} (h : Rem p c t B Q) (he : Ended p r) :
    ∀ b, r = .ok b → Q b := by
  cases he with
  | ret b =>
    obtain ⟨n, rfl, ⟨_, h⟩ | ⟨_, _, _, h⟩⟩ := h
    · rintro _ ⟨⟩
      exact h
    · rintro _ ⟨⟩
      exact h
  | throw e => rintro _ ⟨⟩

/-- The part is not waiting. -/
theorem Rem.now {p : Prog α ι ω β} {c : Clock} {t B : Nat} {Q : β → Prop} (hc : c.now ≤ t)
    (h : ∃ n, c = .at n ∧ ((n ≤ t ∧ Span p B (fun b _ => Q b)) ∨ (n = t + 1 ∧ ∃ B', B = B' + 1 ∧ Span p B' (fun b _ => Q b)))) :
    Span p B (fun b _ => Q b) := by
  obtain ⟨n, rfl, h | h⟩ := h
  · exact h.2
  · have : n ≤ t := hc
    omega

theorem Rem.work {o : Oracle σ ι ω} (ho : ∀ e, (o.flip e).1 = false) {t n : Nat} {p p' : Prog α ι ω β} {c c' : Clock} {s s' : St α ι ω σ} {B : Nat}
    {Q : β → Prop} (h : Rem p c t B Q) (hw : Work o t p c s p' c' s' n) : Rem p' c' t B Q := by
  induction hw generalizing B with
  | get a k c s hc => exact Span.rem hc (Rem.now hc h _)
  | set a x k c s hc => exact Span.rem hc (Rem.now hc h)
  | call q k c s hc =>
    obtain ⟨B', rfl, hk⟩ := Rem.now hc h
    exact Span.rem_next (hk _)
  | choose k c s hc =>
    rw [ho]
    exact Span.rem hc (Rem.now hc h)
  | joinL p p' q k c c' s s' n hw ih =>
    obtain ⟨B1, B2, hB, Q1, Q2, h1, h2, h3⟩ := h
    exact ⟨B1, B2, hB, Q1, Q2, ih h1, h2, h3.imp (fun h => h.imp (fun h => h.work hw) id) id⟩
  | joinR p q q' k c c' s s' n hw ih =>
    obtain ⟨B1, B2, hB, Q1, Q2, h1, h2, h3⟩ := h
    exact ⟨B1, B2, hB, Q1, Q2, h1, ih h2, h3.imp (fun h => h.imp id (fun h => h.work hw)) id⟩
  | joinEnd p q k c s r u hc e1 e2 =>
    obtain ⟨B1, B2, rfl, Q1, Q2, h1, h2, h3⟩ := h
    rcases h3 with (h3 | h3) | h3
    · cases e1 <;> exact h3.elim
    · cases e2 <;> exact h3.elim
    · exact Span.rem hc ((h3 r u (h1.ended e1) (h2.ended e2)).weaken (by omega))

theorem Rem.wait {t : Nat} {p : Prog α ι ω β} {c : Clock} {B : Nat} {Q : β → Prop} (h : Rem p c t B Q) : Rem p c (t + 1) B Q := by
  induction p generalizing B c with
  | join p q k ihp ihq _ =>
    obtain ⟨B1, B2, hB, Q1, Q2, h1, h2, h3⟩ := h
    exact ⟨B1, B2, hB, Q1, Q2, ihp h1, ihq h2, h3⟩
  | _ =>
    obtain ⟨n, rfl, h | ⟨hn, B', rfl, h⟩⟩ := h
    · exact ⟨n, rfl, .inl ⟨by omega, h.2⟩⟩
    · exact ⟨n, rfl, .inl ⟨by omega, h.weaken (by omega)⟩⟩

theorem Rem.clock {t : Nat} {p : Prog α ι ω β} {c : Clock} {B : Nat} {Q : β → Prop} (h : Rem p c t B Q) : c.now ≤ t + 1 := by
  induction p generalizing B c with
  | join p q k ihp ihq _ =>
    obtain ⟨B1, B2, hB, Q1, Q2, h1, h2, h3⟩ := h
    have := ihp h1
    have := ihq h2
    have := c.left_right
    omega
  | _ =>
    obtain ⟨n, rfl, h | h⟩ := h
    · exact Nat.le_succ_of_le h.1
    · exact Nat.le_of_eq h.1

/-- If there is nothing to do at time `t`, the critical path gets shorter till the next moment, or everything has ended or is dead. -/
theorem Rem.idle {o : Oracle σ ι ω} {t : Nat} {p : Prog α ι ω β} {c : Clock} {s : St α ι ω σ} {B : Nat} {Q : β → Prop} (h : Rem p c t B Q)
    (hi : ∀ p' c' s' n, ¬ Work o t p c s p' c' s' n) :
    (∃ B', B = B' + 1 ∧ Rem p c (t + 1) B' Q) ∨ (c.now ≤ t ∧ (∀ B, Rem p c (t + 1) B Q) ∧ ((∃ r, Ended p r) ∨ NeverEnds p)) := by
  induction p generalizing B c with
  | join p q k ihp ihq _ =>
    obtain ⟨B1, B2, hB, Q1, Q2, h1, h2, h3⟩ := h
    have hc := c.left_right
    have g1 := ihp h1 fun p' c' s' n hw => hi _ _ _ _ (.joinL _ _ _ _ _ _ _ _ _ hw)
    have g2 := ihq h2 fun p' c' s' n hw => hi _ _ _ _ (.joinR _ _ _ _ _ _ _ _ _ hw)
    rcases g1 with ⟨B1', rfl, g1⟩ | ⟨n1, g1, e1⟩
    · rcases g2 with ⟨B2', hB', g2⟩ | ⟨n2, g2, e2⟩
      · obtain rfl : B1' = B2' := by omega
        exact .inl ⟨B1' + B2, by omega, B1', B2, rfl, Q1, Q2, g1, g2, h3⟩
      · exact .inl ⟨B1' + B2, by omega, B1', B2, rfl, Q1, Q2, g1, g2 _, h3⟩
    · rcases g2 with ⟨B2', rfl, g2⟩ | ⟨n2, g2, e2⟩
      · exact .inl ⟨B2' + B2, by omega, B2', B2, rfl, Q1, Q2, g1 _, g2, h3⟩
      · have hd : NeverEnds p ∨ NeverEnds q := by
          rcases e1 with ⟨r, e1⟩ | e1
          · rcases e2 with ⟨u, e2⟩ | e2
            · exact (hi _ _ _ _ (.joinEnd p q k c s r u (by omega) e1 e2)).elim
            · exact .inr e2
          · exact .inl e1
        exact .inr ⟨by omega, fun B => ⟨B, 0, rfl, Q1, Q2, g1 _, g2 _, .inl hd⟩, .inr hd⟩
  | ret b =>
    obtain ⟨n, rfl, h | ⟨hn, B', rfl, h⟩⟩ := h
    · exact .inr ⟨h.1, fun B => ⟨n, rfl, .inl ⟨Nat.le_succ_of_le h.1, h.2⟩⟩, .inl ⟨_, .ret b⟩⟩
    · exact .inl ⟨B', rfl, n, rfl, .inl ⟨Nat.le_of_eq hn, h⟩⟩
  | throw e =>
    obtain ⟨n, rfl, h | ⟨hn, B', rfl, h⟩⟩ := h
    · exact .inr ⟨h.1, fun B => ⟨n, rfl, .inl ⟨Nat.le_succ_of_le h.1, trivial⟩⟩, .inl ⟨_, .throw e⟩⟩
    · exact .inl ⟨B', rfl, n, rfl, .inl ⟨Nat.le_of_eq hn, h⟩⟩
  | ub =>
    obtain ⟨n, rfl, h | ⟨hn, B', rfl, h⟩⟩ := h
    · exact .inr ⟨h.1, fun B => ⟨n, rfl, .inl ⟨Nat.le_succ_of_le h.1, trivial⟩⟩, .inr trivial⟩
    · exact .inl ⟨B', rfl, n, rfl, .inl ⟨Nat.le_of_eq hn, h⟩⟩
  | diverge =>
    obtain ⟨n, rfl, h | ⟨hn, B', rfl, h⟩⟩ := h
    · exact .inr ⟨h.1, fun B => ⟨n, rfl, .inl ⟨Nat.le_succ_of_le h.1, trivial⟩⟩, .inr trivial⟩
    · exact .inl ⟨B', rfl, n, rfl, .inl ⟨Nat.le_of_eq hn, h⟩⟩
  | get a k =>
    obtain ⟨n, rfl, h | ⟨hn, B', rfl, h⟩⟩ := h
    · exact (hi _ _ _ _ (.get a k (.at n) s h.1)).elim
    · exact .inl ⟨B', rfl, n, rfl, .inl ⟨Nat.le_of_eq hn, h⟩⟩
  | set a x k =>
    obtain ⟨n, rfl, h | ⟨hn, B', rfl, h⟩⟩ := h
    · exact (hi _ _ _ _ (.set a x k (.at n) s h.1)).elim
    · exact .inl ⟨B', rfl, n, rfl, .inl ⟨Nat.le_of_eq hn, h⟩⟩
  | call q k =>
    obtain ⟨n, rfl, h | ⟨hn, B', rfl, h⟩⟩ := h
    · exact (hi _ _ _ _ (.call q k (.at n) s h.1)).elim
    · exact .inl ⟨B', rfl, n, rfl, .inl ⟨Nat.le_of_eq hn, h⟩⟩
  | choose k =>
    obtain ⟨n, rfl, h | ⟨hn, B', rfl, h⟩⟩ := h
    · exact (hi _ _ _ _ (.choose k (.at n) s h.1)).elim
    · exact .inl ⟨B', rfl, n, rfl, .inl ⟨Nat.le_of_eq hn, h⟩⟩

/-- Graham, Brent: `P` processors take at most the time of the critical path plus a `P`-th of the number of calls. -/
theorem Greedy.time {o : Oracle σ ι ω} (ho : ∀ e, (o.flip e).1 = false) {P t b : Nat} {p₀ p : Prog α ι ω β} {c : Clock} {s₀ s : St α ι ω σ}
    {B : Nat} {Q : β → Prop} (hs : Span p₀ B (fun b _ => Q b)) (h : Greedy o P p₀ s₀ p c s t b) :
    P * t + b + s₀.log.length ≤ P * B + s.log.length := by
  suffices H : ∃ B', Rem p c t B' Q ∧ P * t + P * B' + b + s₀.log.length ≤ P * B + s.log.length by
    obtain ⟨B', _, h⟩ := H
    omega
  induction h with
  | start => exact ⟨B, Span.rem (Nat.le_refl _) hs, by omega⟩
  | work _ hw _ ih =>
    obtain ⟨B', h, hB⟩ := ih
    have := hw.calls
    exact ⟨B', h.work ho hw, by omega⟩
  | wait hg hb hi ih =>
    obtain ⟨B', h, hB⟩ := ih
    rcases hi with rfl | hi
    · exact ⟨B', h.wait, by rw [Nat.mul_add]; omega⟩
    · have hc := hg.clock
      rcases h.idle hi with ⟨B'', rfl, h'⟩ | ⟨hc', -⟩
      · exact ⟨B'', h', by rw [Nat.mul_add] at *; omega⟩
      · omega

end NdSlice
