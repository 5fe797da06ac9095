import Verif.Core.Cost

/-
The critical path of a parallel program.  The steps are those of `Verif.Core.Sem`, with a clock that advances by one for each call of user code; the
two programs of a join start at the same time, and the program after it at the time the later one of them ends.  `Span p B Q` says that `p` ends
within `B` units of time, whatever is in memory and whatever is answered, if the environment never puts off a task.
-/

namespace NdSlice

variable {α ι ω σ β γ : Type}

/-- The time: that of a program without parts running in parallel, or the times of the two parts. -/
inductive Clock where
  | at (n : Nat)
  | both (l r : Clock)

namespace Clock

/-- The time the left part of a join has got to; it starts when the join does. -/
def left : Clock → Clock
  | .at n => .at n
  | .both l _ => l

/-- The same for the right part. -/
def right : Clock → Clock
  | .at n => .at n
  | .both _ r => r

/-- The time of the part that is furthest. -/
def now : Clock → Nat
  | .at n => n
  | .both l r => max l.now r.now

end Clock

/-- One step (see `Step`) and what it does to the time. -/
inductive Tick (o : Oracle σ ι ω) : {β : Type} → Prog α ι ω β → Clock → St α ι ω σ → Prog α ι ω β → Clock → St α ι ω σ → Prop where
  | get {β : Type} (a : Addr) (k : α → Prog α ι ω β) (c : Clock) (s : St α ι ω σ) :
      Tick o (.get a k) c s (k (s.mem a)) (.at c.now) s
  | set {β : Type} (a : Addr) (x : α) (k : Prog α ι ω β) (c : Clock) (s : St α ι ω σ) :
      Tick o (.set a x k) c s k (.at c.now) { s with mem := upd s.mem a x }
  | call {β : Type} (q : ι) (k : Option ω → Prog α ι ω β) (c : Clock) (s : St α ι ω σ) :
      Tick o (.call q k) c s (k (o.ask s.env q).1) (.at (c.now + 1)) { s with env := (o.ask s.env q).2, log := s.log ++ [(q, (o.ask s.env q).1)] }
  | choose {β : Type} (k : Bool → Prog α ι ω β) (c : Clock) (s : St α ι ω σ) :
      Tick o (.choose k) c s (k (o.flip s.env).1) (.at c.now) { s with env := (o.flip s.env).2 }
  | joinL {β γ δ : Type} (p p' : Prog α ι ω β) (q : Prog α ι ω γ)
      (k : Res β → Res γ → Prog α ι ω δ) (c c' : Clock) (s s' : St α ι ω σ) :
      Tick o p c.left s p' c' s' → Tick o (.join p q k) c s (.join p' q k) (.both c' c.right) s'
  | joinR {β γ δ : Type} (p : Prog α ι ω β) (q q' : Prog α ι ω γ)
      (k : Res β → Res γ → Prog α ι ω δ) (c c' : Clock) (s s' : St α ι ω σ) :
      Tick o q c.right s q' c' s' → Tick o (.join p q k) c s (.join p q' k) (.both c.left c') s'
  | joinEnd {β γ δ : Type} (p : Prog α ι ω β) (q : Prog α ι ω γ)
      (k : Res β → Res γ → Prog α ι ω δ) (c : Clock) (s : St α ι ω σ) (r : Res β) (t : Res γ) :
      Ended p r → Ended q t → Tick o (.join p q k) c s (k r t) (.at c.now) s

/-- Any finite number of steps, under any schedule. -/
inductive Ticks (o : Oracle σ ι ω) {β : Type} : Prog α ι ω β → Clock → St α ι ω σ → Prog α ι ω β → Clock → St α ι ω σ → Prop where
  | refl (p : Prog α ι ω β) (c : Clock) (s : St α ι ω σ) : Ticks o p c s p c s
  | tail {p c s p' c' s' p'' c'' s''} : Ticks o p c s p' c' s' → Tick o p' c' s' p'' c'' s'' → Ticks o p c s p'' c'' s''

/-- The clock does not get in the way: every step can be timed. -/
theorem Step.tick {o : Oracle σ ι ω} {p p' : Prog α ι ω β} {s s' : St α ι ω σ} (h : Step o p s p' s') (c : Clock) : ∃ c', Tick o p c s p' c' s' := by
  induction h generalizing c with
  | get a k s => exact ⟨_, .get a k c s⟩
  | set a x k s => exact ⟨_, .set a x k c s⟩
  | call q k s => exact ⟨_, .call q k c s⟩
  | choose k s => exact ⟨_, .choose k c s⟩
  | joinL p p' q k s s' _ ih => obtain ⟨c', h⟩ := ih c.left; exact ⟨_, .joinL p p' q k c c' s s' h⟩
  | joinR p q q' k s s' _ ih => obtain ⟨c', h⟩ := ih c.right; exact ⟨_, .joinR p q q' k c c' s s' h⟩
  | joinEnd p q k s r t h1 h2 => exact ⟨_, .joinEnd p q k c s r t h1 h2⟩

theorem Steps.ticks {o : Oracle σ ι ω} {p p' : Prog α ι ω β} {s s' : St α ι ω σ} (h : Steps o p s p' s') (c : Clock) : ∃ c', Ticks o p c s p' c' s' := by
  induction h with
  | refl => exact ⟨c, .refl _ c _⟩
  | tail _ h2 ih =>
    obtain ⟨c1, h1⟩ := ih
    obtain ⟨c2, h2⟩ := h2.tick c1
    exact ⟨c2, h1.tail h2⟩

theorem Tick.step {o : Oracle σ ι ω} {p p' : Prog α ι ω β} {c c' : Clock} {s s' : St α ι ω σ} (h : Tick o p c s p' c' s') : Step o p s p' s' := by
  induction h with
  | get a k c s => exact .get a k s
  | set a x k c s => exact .set a x k s
  | call q k c s => exact .call q k s
  | choose k c s => exact .choose k s
  | joinL p p' q k c c' s s' _ ih => exact .joinL p p' q k s s' ih
  | joinR p q q' k c c' s s' _ ih => exact .joinR p q q' k s s' ih
  | joinEnd p q k c s r t h1 h2 => exact .joinEnd p q k s r t h1 h2

theorem Ticks.steps {o : Oracle σ ι ω} {p p' : Prog α ι ω β} {c c' : Clock} {s s' : St α ι ω σ} (h : Ticks o p c s p' c' s') : Steps o p s p' s' := by
  induction h with
  | refl => exact .refl _ _
  | tail _ h2 ih => exact ih.tail h2.step

/-! ### Bounding the time -/

/-- See the top of this file. -/
def Span {β : Type} : Prog α ι ω β → Nat → (β → Nat → Prop) → Prop
  | .ret b, B, Q => Q b B
  | .get _ k, B, Q => ∀ x, Span (k x) B Q
  | .set _ _ k, B, Q => Span k B Q
  | .call _ k, B, Q => ∃ B', B = B' + 1 ∧ ∀ r, Span (k r) B' Q
  | .choose k, B, Q => Span (k false) B Q
  | .throw _, _, _ => True
  | .ub, _, _ => True
  | .diverge, _, _ => True
  | .join (β := β) (γ := γ) p q k, B, Q => ∃ B1 B2, B = B1 + B2 ∧ ∃ (Q1 : β → Prop) (Q2 : γ → Prop),
    Span p B1 (fun b _ => Q1 b) ∧ Span q B1 (fun b _ => Q2 b) ∧ ∀ r t, (∀ b, r = .ok b → Q1 b) → (∀ b, t = .ok b → Q2 b) → Span (k r t) B2 Q

namespace Span

theorem mono {p : Prog α ι ω β} {B : Nat} {Q Q' : β → Nat → Prop} (h : Span p B Q) (hQ : ∀ b r, Q b r → Q' b r) : Span p B Q' := by
  induction p generalizing B with
  | ret b => exact hQ _ _ h
  | get a k ih => exact fun x => ih x (h x) hQ
  | set a x k ih => exact ih h hQ
  | call q k ih =>
    obtain ⟨B', rfl, h⟩ := h
    exact ⟨B', rfl, fun r => ih r (h r) hQ⟩
  | choose k ih => exact ih false h hQ
  | throw => trivial
  | ub => trivial
  | diverge => trivial
  | join p q k _ _ ih =>
    obtain ⟨B1, B2, hB, Q1, Q2, h1, h2, h3⟩ := h
    exact ⟨B1, B2, hB, Q1, Q2, h1, h2, fun r t hx hy => ih r t (h3 r t hx hy) hQ⟩

theorem frame {p : Prog α ι ω β} {B : Nat} {Q : β → Nat → Prop} (h : Span p B Q) (F : Nat) : Span p (B + F) (fun b r => ∃ r', r = r' + F ∧ Q b r') := by
  induction p generalizing B with
  | ret b => exact ⟨B, rfl, h⟩
  | get a k ih => exact fun x => ih x (h x)
  | set a x k ih => exact ih h
  | call q k ih =>
    obtain ⟨B', rfl, h⟩ := h
    exact ⟨B' + F, by omega, fun r => ih r (h r)⟩
  | choose k ih => exact ih false h
  | throw => trivial
  | ub => trivial
  | diverge => trivial
  | join p q k _ _ ih =>
    obtain ⟨B1, B2, hB, Q1, Q2, h1, h2, h3⟩ := h
    exact ⟨B1, B2 + F, by omega, Q1, Q2, h1, h2, fun r t hx hy => ih r t (h3 r t hx hy)⟩

theorem bind {p : Prog α ι ω β} {f : β → Prog α ι ω γ} {B : Nat} {Q : γ → Nat → Prop} (h : Span p B (fun b r => Span (f b) r Q)) : Span (p.bind f) B Q := by
  induction p generalizing B with
  | ret b => exact h
  | get a k ih => exact fun x => ih x (h x)
  | set a x k ih => exact ih h
  | call q k ih =>
    obtain ⟨B', rfl, h⟩ := h
    exact ⟨B', rfl, fun r => ih r (h r)⟩
  | choose k ih => exact ih false h
  | throw => trivial
  | ub => trivial
  | diverge => trivial
  | join p q k _ _ ih =>
    obtain ⟨B1, B2, hB, Q1, Q2, h1, h2, h3⟩ := h
    exact ⟨B1, B2, hB, Q1, Q2, h1, h2, fun r t hx hy => ih r t (h3 r t hx hy)⟩

theorem onPanic {p : Prog α ι ω β} {g : Prog α ι ω Unit} {B : Nat} {Q : β → Nat → Prop} (h : Span p B Q) (hg : ∀ B, Span g B (fun _ _ => True)) :
    Span (p.onPanic g) B Q := by
  induction p generalizing B with
  | ret b => exact h
  | get a k ih => exact fun x => ih x (h x)
  | set a x k ih => exact ih h
  | call q k ih =>
    obtain ⟨B', rfl, h⟩ := h
    exact ⟨B', rfl, fun r => ih r (h r)⟩
  | choose k ih => exact ih false h
  | throw e => exact bind ((hg B).mono fun _ _ _ => trivial)
  | ub => trivial
  | diverge => trivial
  | join p q k _ _ ih =>
    obtain ⟨B1, B2, hB, Q1, Q2, h1, h2, h3⟩ := h
    exact ⟨B1, B2, hB, Q1, Q2, h1, h2, fun r t hx hy => ih r t (h3 r t hx hy)⟩

end Span

/-- What is left of the time limit `T` is enough for what is left of the program. -/
def InTime {β : Type} : Prog α ι ω β → Clock → Nat → (β → Prop) → Prop
  | .join (β := β) (γ := γ) p q k, c, T, Q => ∃ T1, T1 ≤ T ∧ ∃ (Q1 : β → Prop) (Q2 : γ → Prop),
    InTime p c.left T1 Q1 ∧ InTime q c.right T1 Q2 ∧
    ∀ r t, (∀ b, r = .ok b → Q1 b) → (∀ b, t = .ok b → Q2 b) → Span (k r t) (T - T1) (fun b _ => Q b)
  | p, c, T, Q => ∃ n, c = .at n ∧ n ≤ T ∧ Span p (T - n) (fun b _ => Q b)

theorem Span.inTime {p : Prog α ι ω β} {n T : Nat} {Q : β → Prop} (hn : n ≤ T) (h : Span p (T - n) (fun b _ => Q b)) : InTime p (.at n) T Q := by
  induction p generalizing T with
  | join p q k ihp ihq _ =>
    obtain ⟨B1, B2, hB, Q1, Q2, h1, h2, h3⟩ := h
    refine ⟨n + B1, by omega, Q1, Q2, ihp (by omega) ?_, ihq (by omega) ?_, fun r t hr ht => ?_⟩
    · rw [show n + B1 - n = B1 by omega]; exact h1
    · rw [show n + B1 - n = B1 by omega]; exact h2
    · rw [show T - (n + B1) = B2 by omega]; exact h3 r t hr ht
  | _ => exact ⟨n, rfl, hn, h⟩

theorem InTime.now_le {p : Prog α ι ω β} {c : Clock} {T : Nat} {Q : β → Prop} (h : InTime p c T Q) : c.now ≤ T := by
  induction p generalizing c T with
  | join p q k ihp ihq _ =>
    obtain ⟨T1, hT, Q1, Q2, h1, h2, _⟩ := h
    have g1 := ihp h1
    have g2 := ihq h2
    cases c with
    | «at» n => exact Nat.le_trans g1 hT
    | both l r => exact Nat.max_le.mpr ⟨Nat.le_trans g1 hT, Nat.le_trans g2 hT⟩
  | _ =>
    obtain ⟨n, rfl, hn, _⟩ := h
    exact hn

theorem InTime.ended {p : Prog α ι ω β} {c : Clock} {T : Nat} {Q : β → Prop} {r : Res β} (h : InTime p c T Q) (he : Ended p r) :
    ∀ b, r = .ok b → Q b := by
  cases he with
  | ret b =>
    obtain ⟨n, rfl, hn, h⟩ := h
    rintro _ ⟨⟩
    exact h
  | throw e => rintro _ ⟨⟩

theorem InTime.tick {o : Oracle σ ι ω} (ho : ∀ e, (o.flip e).1 = false) {p p' : Prog α ι ω β} {c c' : Clock} {s s' : St α ι ω σ} {T : Nat}
    {Q : β → Prop} (h : InTime p c T Q) (ht : Tick o p c s p' c' s') : InTime p' c' T Q := by
  induction ht generalizing T with
  | get a k c s =>
    obtain ⟨n, rfl, hn, h⟩ := h
    exact Span.inTime hn (h _)
  | set a x k c s =>
    obtain ⟨n, rfl, hn, h⟩ := h
    exact Span.inTime hn h
  | call q k c s =>
    obtain ⟨n, rfl, hn, B', hB, h⟩ := h
    refine Span.inTime (by show n + 1 ≤ T; omega) ?_
    rw [show T - ((Clock.at n).now + 1) = B' by show T - (n + 1) = B'; omega]
    exact h _
  | choose k c s =>
    obtain ⟨n, rfl, hn, h⟩ := h
    rw [ho]
    exact Span.inTime hn h
  | joinL p p' q k c c' s s' _ ih =>
    obtain ⟨T1, hT, Q1, Q2, h1, h2, h3⟩ := h
    exact ⟨T1, hT, Q1, Q2, ih h1, h2, h3⟩
  | joinR p q q' k c c' s s' _ ih =>
    obtain ⟨T1, hT, Q1, Q2, h1, h2, h3⟩ := h
    exact ⟨T1, hT, Q1, Q2, h1, ih h2, h3⟩
  | joinEnd p q k c s r t e1 e2 =>
    obtain ⟨T1, hT, Q1, Q2, h1, h2, h3⟩ := h
    have hc : c.now ≤ T1 := by
      have g1 := h1.now_le
      have g2 := h2.now_le
      cases c with
      | «at» n => exact g1
      | both l r => exact Nat.max_le.mpr ⟨g1, g2⟩
    refine Span.inTime (Nat.le_trans hc hT) ?_
    have := (h3 r t (h1.ended e1) (h2.ended e2)).frame (T1 - c.now)
    rw [show T - T1 + (T1 - c.now) = T - c.now by omega] at this
    exact this.mono fun b _ ⟨_, _, h⟩ => h

/-- A bound of the time holds at every moment of every schedule. -/
theorem Span.ticks {o : Oracle σ ι ω} (ho : ∀ e, (o.flip e).1 = false) {p p' : Prog α ι ω β} {c' : Clock} {s s' : St α ι ω σ} {B : Nat}
    {Q : β → Prop} (h : Span p B (fun b _ => Q b)) (ht : Ticks o p (.at 0) s p' c' s') : c'.now ≤ B := by
  have hi : InTime p (.at 0) B Q := Span.inTime (Nat.zero_le _) h
  suffices h' : InTime p' c' B Q from h'.now_le
  clear h
  induction ht with
  | refl => exact hi
  | tail _ h2 ih => exact ih.tick ho h2

/-! ### Programs without parallel parts -/

/-- Nothing in `p` runs in parallel. -/
def NoJoin {β : Type} : Prog α ι ω β → Prop
  | .ret _ => True
  | .get _ k => ∀ x, NoJoin (k x)
  | .set _ _ k => NoJoin k
  | .call _ k => ∀ r, NoJoin (k r)
  | .choose k => ∀ b, NoJoin (k b)
  | .throw _ => True
  | .ub => True
  | .diverge => True
  | .join _ _ _ => False

theorem Spend.span {p : Prog α ι ω β} (hn : NoJoin p) {B : Nat} {Q : β → Nat → Prop} (h : Spend p B Q) : Span p B Q := by
  induction p generalizing B with
  | ret b => exact h
  | get a k ih => exact fun x => ih x (hn x) (h x)
  | set a x k ih => exact ih hn h
  | call q k ih =>
    obtain ⟨B', rfl, h⟩ := h
    exact ⟨B', rfl, fun r => ih r (hn r) (h r)⟩
  | choose k ih => exact ih false (hn false) (h false)
  | throw => trivial
  | ub => trivial
  | diverge => trivial
  | join p q k _ _ ih => exact hn.elim

theorem NoJoin.tick {o : Oracle σ ι ω} {p p' : Prog α ι ω β} {c c' : Clock} {s s' : St α ι ω σ} (hn : NoJoin p) (h : Tick o p c s p' c' s') :
    NoJoin p' ∧ c'.now + s.log.length = c.now + s'.log.length := by
  cases h with
  | get a k => exact ⟨hn _, rfl⟩
  | set a x => exact ⟨hn, rfl⟩
  | call q k =>
    refine ⟨hn _, ?_⟩
    show c.now + 1 + s.log.length = c.now + (s.log ++ [_]).length
    rw [List.length_append]
    simp only [List.length_cons, List.length_nil]
    omega
  | choose k => exact ⟨hn _, rfl⟩
  | joinL => exact hn.elim
  | joinR => exact hn.elim
  | joinEnd => exact hn.elim

/-- If nothing runs in parallel, the clock counts the questions. -/
theorem Ticks.sequential {o : Oracle σ ι ω} {p p' : Prog α ι ω β} {c' : Clock} {s s' : St α ι ω σ} (hn : NoJoin p) (h : Ticks o p (.at 0) s p' c' s') :
    NoJoin p' ∧ c'.now + s.log.length = s'.log.length := by
  suffices h' : NoJoin p' ∧ c'.now + s.log.length = (Clock.at 0).now + s'.log.length from ⟨h'.1, h'.2.trans (Nat.zero_add _)⟩
  induction h with
  | refl => exact ⟨hn, rfl⟩
  | tail _ h2 ih =>
    have := ih.1.tick h2
    exact ⟨this.1, by omega⟩

namespace NoJoin

theorem pure {b : β} : NoJoin (Pure.pure b : Prog α ι ω β) := trivial
theorem throw {e : Panic} : NoJoin (Prog.throw e : Prog α ι ω β) := trivial
theorem ub : NoJoin (Prog.ub : Prog α ι ω β) := trivial
theorem diverge : NoJoin (Prog.diverge : Prog α ι ω β) := trivial

theorem bind' {p : Prog α ι ω β} {f : β → Prog α ι ω γ} (h : NoJoin p) (hf : ∀ b, NoJoin (f b)) : NoJoin (p.bind f) := by
  induction p with
  | ret b => exact hf b
  | get a k ih => exact fun x => ih x (h x) hf
  | set a x k ih => exact ih h hf
  | call q k ih => exact fun r => ih r (h r) hf
  | choose k ih => exact fun b => ih b (h b) hf
  | throw e => trivial
  | ub => trivial
  | diverge => trivial
  | join p q k ihp ihq ihk => exact h.elim

theorem bind {p : Prog α ι ω β} {f : β → Prog α ι ω γ} (h : NoJoin p) (hf : ∀ b, NoJoin (f b)) : NoJoin (p >>= f) :=
  bind' h hf

theorem onPanic {p : Prog α ι ω β} {g : Prog α ι ω Unit} (h : NoJoin p) (hg : NoJoin g) : NoJoin (p.onPanic g) := by
  induction p with
  | ret b => trivial
  | get a k ih => exact fun x => ih x (h x)
  | set a x k ih => exact ih h
  | call q k ih => exact fun r => ih r (h r)
  | choose k ih => exact fun b => ih b (h b)
  | throw e => exact bind' hg fun _ => trivial
  | ub => trivial
  | diverge => trivial
  | join p q k ihp ihq ihk => exact h.elim

theorem loop {s r : Type} {body : s → Prog α ι ω (s ⊕ r)} (h : ∀ x, NoJoin (body x)) {n : Nat} {x : s} : NoJoin (Prog.loop body n x) := by
  induction n generalizing x with
  | zero => trivial
  | succ n ih =>
    refine bind (h x) ?_
    rintro (x | y)
    · exact ih
    · trivial

theorem forUp {body : Nat → Prog α ι ω Unit} (h : ∀ i, NoJoin (body i)) {a n : Nat} : NoJoin (Prog.forUp body a n) := by
  induction n generalizing a with
  | zero => trivial
  | succ n ih => exact bind (h a) fun _ => ih

theorem forDown {body : Nat → Prog α ι ω Unit} (h : ∀ i, NoJoin (body i)) {a n : Nat} : NoJoin (Prog.forDown body a n) := by
  induction n with
  | zero => trivial
  | succ n ih => exact bind (h _) fun _ => ih

variable {v : View} {cfg : Cfg} {i j n : Nat} {x : α}

theorem vget : NoJoin (v.get i : Prog α ι ω α) := by unfold View.get; split <;> simp [NoJoin]
theorem vset : NoJoin (v.set i x : Prog α ι ω Unit) := by unfold View.set; split <;> simp [NoJoin]
theorem vidx : NoJoin (v.idx i : Prog α ι ω α) := by unfold View.idx; split <;> simp [NoJoin]
theorem vcset : NoJoin (v.cset i x : Prog α ι ω Unit) := by unfold View.cset; split <;> simp [NoJoin]
theorem vslice : NoJoin (v.slice i j : Prog α ι ω View) := by unfold View.slice; dsimp only; repeat (first | exact pure | exact throw | split)
theorem vsplitAt : NoJoin (v.splitAt i : Prog α ι ω (View × View)) := by unfold View.splitAt; split <;> trivial
theorem debugAssert {c : Bool} : NoJoin (NdSlice.debugAssert cfg c : Prog α ι ω Unit) := by unfold NdSlice.debugAssert; split <;> trivial
theorem usub {a b : Nat} : NoJoin (NdSlice.usub cfg a b : Prog α ι ω Nat) := by unfold NdSlice.usub; repeat (first | exact pure | exact throw | split)

end NoJoin

/-! ### Time counted in comparisons -/

/-- `p` ends within the time of `B` comparisons of `c` questions each, and if it returns `b` then `Q b`. -/
def Within (c : Nat) (p : Prog α ι ω β) (B : Nat) (Q : β → Prop) : Prop := Span p (c * B) fun b _ => Q b

namespace Within

variable {c B : Nat} {p : Prog α ι ω β} {Q : β → Prop}

theorem mono {Q' : β → Prop} (h : Within c p B Q) (hQ : ∀ b, Q b → Q' b) : Within c p B Q' := Span.mono h fun b _ => hQ b

theorem weaken {B' : Nat} (h : Within c p B Q) (hB : B ≤ B') : Within c p B' Q := by
  obtain ⟨d, rfl⟩ := Nat.exists_eq_add_of_le hB
  unfold Within
  rw [Nat.mul_add]
  exact (Span.frame h (c * d)).mono fun b _ ⟨_, _, h⟩ => h

theorem of_cost (hn : NoJoin p) (h : Cost c p B (fun b _ => Q b)) : Within c p B Q :=
  (Spend.span hn h).mono fun _ _ ⟨_, _, h⟩ => h

theorem bind {f : β → Prog α ι ω γ} {n B' : Nat} {Q' : β → Prop} {Q : γ → Prop} (h : Within c p n Q') (hB : n + B' ≤ B)
    (hf : ∀ b, Q' b → Within c (f b) B' Q) : Within c (p >>= f) B Q := by
  refine weaken (B := n + B') ?_ hB
  unfold Within
  rw [Nat.mul_add]
  refine Span.bind ((Span.frame h (c * B')).mono ?_)
  rintro b _ ⟨r, rfl, h⟩
  exact (Span.frame (hf b h) r |>.mono fun b _ ⟨_, _, h⟩ => h : Span (f b) (c * B' + r) fun b _ => Q b) |> fun h => by rwa [Nat.add_comm] at h

theorem pure {b : β} (h : Q b) : Within c (Pure.pure b : Prog α ι ω β) B Q := h

theorem pureB {b : β} {f : β → Prog α ι ω γ} {Q : γ → Prop} (h : Within c (f b) B Q) : Within c ((Pure.pure b : Prog α ι ω β) >>= f) B Q := h

theorem diverge : Within c (Prog.diverge : Prog α ι ω β) B Q := trivial

theorem silent (hn : NoJoin p) (h : Silent p) (hQ : ∀ b, Q b) : Within c p B Q := of_cost hn (Cost.silent h hQ)

theorem silentB {f : β → Prog α ι ω γ} {Q : γ → Prop} (hn : NoJoin p) (h : Silent p) (hf : ∀ b, Within c (f b) B Q) : Within c (p >>= f) B Q :=
  bind (n := 0) (Q' := fun _ => True) (silent hn h fun _ => trivial) (by omega) fun b _ => hf b

theorem onPanic {g : Prog α ι ω Unit} (h : Within c p B Q) (hn : NoJoin g) (hg : Silent g) : Within c (p.onPanic g) B Q :=
  Span.onPanic h fun B => (Spend.span hn (hg B)).mono fun _ _ _ => trivial

theorem rayonJoin {p : Prog α ι ω β} {q : Prog α ι ω γ} {Q1 : β → Prop} {Q2 : γ → Prop} (h1 : Within c p B Q1) (h2 : Within c q B Q2) :
    Within c (Prog.rayonJoin p q) B (fun x => Q1 x.1 ∧ Q2 x.2) := by
  refine ⟨c * B, 0, rfl, _, _, h1, h2, ?_⟩
  intro r t hr ht
  cases r with
  | ok b =>
    cases t with
    | ok d => exact ⟨hr b rfl, ht d rfl⟩
    | panic => trivial
  | panic => trivial

theorem choose {k : Bool → Prog α ι ω β} (h : Within c (k false) B Q) : Within c (.choose k) B Q := h

theorem usub {cfg : Cfg} {a b : Nat} {k : Nat → Prog α ι ω β} (hab : b ≤ a) (h : Within c (k (a - b)) B Q) : Within c (NdSlice.usub cfg a b >>= k) B Q := by
  unfold NdSlice.usub
  rw [if_pos hab]
  exact h

theorem slice {v : View} {a b : Nat} {k : View → Prog α ι ω β} (hab : a ≤ b) (h : b ≤ v.len → Within c (k (v.sub a (b - a))) B Q) :
    Within c (v.slice a b >>= k) B Q := by
  unfold View.slice
  rw [if_neg (Nat.not_lt.2 hab)]
  dsimp only
  split
  · rename_i ha; exact h ha.2
  · trivial

theorem debugAssert {cfg : Cfg} {b : Bool} {k : Unit → Prog α ι ω β} (h : Within c (k ()) B Q) : Within c (NdSlice.debugAssert cfg b >>= k) B Q := by
  unfold NdSlice.debugAssert
  split
  · trivial
  · exact h

end Within

end NdSlice
