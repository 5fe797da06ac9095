import Verif.Core.Sem
import Verif.Core.View

/-
Panics of user code: two properties of the text of programs, and what follows for their executions.

`P q r` says that the answer `r` to the question `q` is a panic.  `X e` says that a guard (code that runs while a panic unwinds) may panic with `e`.

* `Prompt P X p`: once user code has panicked, `p` asks nothing any more and passes the panic on (or a guard panics); and `p` does not pretend that user code has panicked.
* `Honest P p`, for programs with parallel tasks: once user code has panicked `p` does not return (but the other tasks go on); and `p` does not
  pretend that user code has panicked.
-/

namespace NdSlice

variable {α ι ω σ β γ δ : Type} {P : ι → Option ω → Prop} {X : Panic → Prop}

/-- No more questions, and no return: ends with the panic of user code, or with that of a guard. -/
def Dead (X : Panic → Prop) : Prog α ι ω β → Prop
  | .get _ k => ∀ x, Dead X (k x)
  | .set _ _ k => Dead X k
  | .throw e => e = .user ∨ X e
  | .ub => True
  | .diverge => True
  | _ => False

/-- No questions, no choices, no tasks, no pretended panic of user code. -/
def Quiet : Prog α ι ω β → Prop
  | .ret _ => True
  | .get _ k => ∀ x, Quiet (k x)
  | .set _ _ k => Quiet k
  | .throw e => e ≠ .user
  | .ub => True
  | .diverge => True
  | _ => False

/-- A guard: `Quiet` and panics only with `X`. -/
def Calm (X : Panic → Prop) : Prog α ι ω β → Prop
  | .ret _ => True
  | .get _ k => ∀ x, Calm X (k x)
  | .set _ _ k => Calm X k
  | .throw e => e ≠ .user ∧ X e
  | .ub => True
  | .diverge => True
  | _ => False

/-- See the top of this file. -/
def Prompt (P : ι → Option ω → Prop) (X : Panic → Prop) : Prog α ι ω β → Prop
  | .ret _ => True
  | .get _ k => ∀ x, Prompt P X (k x)
  | .set _ _ k => Prompt P X k
  | .call q k => ∀ r, (P q r → Dead X (k r)) ∧ (¬ P q r → Prompt P X (k r))
  | .choose k => ∀ b, Prompt P X (k b)
  | .throw e => e ≠ .user
  | .ub => True
  | .diverge => True
  | .join _ _ _ => False

/-- No return. -/
def Lost : {β : Type} → Prog α ι ω β → Prop
  | _, .ret _ => False
  | _, .get _ k => ∀ x, Lost (k x)
  | _, .set _ _ k => Lost k
  | _, .call _ k => ∀ r, Lost (k r)
  | _, .choose k => ∀ b, Lost (k b)
  | _, .throw _ => True
  | _, .ub => True
  | _, .diverge => True
  | _, .join p q k => (Lost p ∧ ∀ e t, Lost (k (.panic e) t)) ∨ (Lost q ∧ ∀ r e, Lost (k r (.panic e))) ∨ ∀ r t, Lost (k r t)

/-- See the top of this file. -/
def Honest (P : ι → Option ω → Prop) : {β : Type} → Prog α ι ω β → Prop
  | _, .ret _ => True
  | _, .get _ k => ∀ x, Honest P (k x)
  | _, .set _ _ k => Honest P k
  | _, .call q k => ∀ r, (P q r → Lost (k r)) ∧ (¬ P q r → Honest P (k r))
  | _, .choose k => ∀ b, Honest P (k b)
  | _, .throw e => e ≠ .user
  | _, .ub => True
  | _, .diverge => True
  | _, .join p q k => Honest P p ∧ Honest P q ∧ (∀ r t, r ≠ .panic .user → t ≠ .panic .user → Honest P (k r t)) ∧
      (∀ e t, Lost (k (.panic e) t)) ∧ ∀ r e, Lost (k r (.panic e))

/-! ### Composition -/

theorem Dead.bind {p : Prog α ι ω β} {f : β → Prog α ι ω γ} (h : Dead X p) : Dead X (p.bind f) := by
  induction p with
  | ret b => exact h.elim
  | get a k ih => exact fun x => ih x (h x)
  | set a x k ih => exact ih h
  | call q k ih => exact h.elim
  | choose k ih => exact h.elim
  | join p q k => exact h.elim
  | throw e => exact h
  | ub => trivial
  | diverge => trivial

theorem Calm.quiet {p : Prog α ι ω β} (h : Calm X p) : Quiet p := by
  induction p with
  | ret b => trivial
  | get a k ih => exact fun x => ih x (h x)
  | set a x k ih => exact ih h
  | call q k ih => exact h.elim
  | choose k ih => exact h.elim
  | join p q k => exact h.elim
  | throw e => exact h.1
  | ub => trivial
  | diverge => trivial

theorem Calm.dead {p : Prog α ι ω β} {f : β → Prog α ι ω γ} (h : Calm X p) (hf : ∀ b, Dead X (f b)) : Dead X (p.bind f) := by
  induction p with
  | ret b => exact hf b
  | get a k ih => exact fun x => ih x (h x) hf
  | set a x k ih => exact ih h hf
  | call q k ih => exact h.elim
  | choose k ih => exact h.elim
  | join p q k => exact h.elim
  | throw e => exact .inr h.2
  | ub => trivial
  | diverge => trivial

theorem Dead.onPanic {p : Prog α ι ω β} {g : Prog α ι ω Unit} (h : Dead X p) (hg : Calm X g) : Dead X (p.onPanic g) := by
  induction p with
  | ret b => exact h.elim
  | get a k ih => exact fun x => ih x (h x)
  | set a x k ih => exact ih h
  | call q k ih => exact h.elim
  | choose k ih => exact h.elim
  | join p q k => exact h.elim
  | throw e => exact hg.dead fun _ => h
  | ub => trivial
  | diverge => trivial

theorem Dead.run (o : Oracle σ ι ω) {p : Prog α ι ω β} {s : St α ι ω σ} (h : Dead X p) :
    (NdSlice.run o p s).2.log = s.log ∧ (∀ b, (NdSlice.run o p s).1 ≠ .ok b) ∧ ∀ e, (NdSlice.run o p s).1 = .panic e → e = .user ∨ X e := by
  induction p generalizing s with
  | ret b => exact h.elim
  | get a k ih => exact ih _ (h _)
  | set a x k ih => exact ih (s := { s with mem := upd s.mem a x }) h
  | call q k ih => exact h.elim
  | choose k ih => exact h.elim
  | join p q k => exact h.elim
  | throw e => exact ⟨rfl, fun b h => (by cases h), fun e' h' => (by cases h'; exact h)⟩
  | ub => exact ⟨rfl, fun b h => (by cases h), fun e h => (by cases h)⟩
  | diverge => exact ⟨rfl, fun b h => (by cases h), fun e h => (by cases h)⟩

namespace Quiet

theorem pure {b : β} : Quiet (Pure.pure b : Prog α ι ω β) := trivial

theorem bind {p : Prog α ι ω β} {f : β → Prog α ι ω γ} (h : Quiet p) (hf : ∀ b, Quiet (f b)) : Quiet (p >>= f) := by
  show Quiet (p.bind f)
  induction p with
  | ret b => exact hf b
  | get a k ih => exact fun x => ih x (h x) hf
  | set a x k ih => exact ih h hf
  | call q k ih => exact h.elim
  | choose k ih => exact h.elim
  | join p q k => exact h.elim
  | throw e => exact h
  | ub => trivial
  | diverge => trivial

theorem ite {c : Prop} [Decidable c] {p q : Prog α ι ω β} (h : c → Quiet p) (h' : ¬ c → Quiet q) : Quiet (if c then p else q) := by
  by_cases hc : c
  · rw [if_pos hc]; exact h hc
  · rw [if_neg hc]; exact h' hc

theorem prompt {p : Prog α ι ω β} (h : Quiet p) : Prompt P X p := by
  induction p with
  | ret b => trivial
  | get a k ih => exact fun x => ih x (h x)
  | set a x k ih => exact ih h
  | call q k ih => exact h.elim
  | choose k ih => exact h.elim
  | join p q k => exact h.elim
  | throw e => exact h
  | ub => trivial
  | diverge => trivial

theorem forUp {body : Nat → Prog α ι ω Unit} (h : ∀ j, Quiet (body j)) {i n : Nat} : Quiet (Prog.forUp body i n) := by
  induction n generalizing i with
  | zero => exact pure
  | succ n ih => exact bind (h i) fun _ => ih

variable {v : View} {cfg : Cfg} {i j : Nat} {x : α}

theorem vget : Quiet (v.get i : Prog α ι ω α) := ite (fun _ _ => trivial) fun _ => trivial
theorem vset : Quiet (v.set i x : Prog α ι ω Unit) := ite (fun _ => trivial) fun _ => trivial
theorem vidx : Quiet (v.idx i : Prog α ι ω α) := ite (fun _ _ => trivial) fun _ => by exact nofun
theorem vref : Quiet (v.ref i : Prog α ι ω Addr) := ite (fun _ => pure) fun _ => by exact nofun
theorem vcset : Quiet (v.cset i x : Prog α ι ω Unit) := ite (fun _ => trivial) fun _ => by exact nofun
theorem vswap : Quiet (v.swap i j : Prog α ι ω Unit) := bind vidx fun _ => bind vidx fun _ => bind vset fun _ => vset
theorem vuswap : Quiet (v.uswap i j : Prog α ι ω Unit) := bind vget fun _ => bind vget fun _ => bind vset fun _ => vset
theorem vslice : Quiet (v.slice i j : Prog α ι ω View) := ite (fun _ => pure) fun _ => by exact nofun
theorem vsplitAt : Quiet (v.splitAt i : Prog α ι ω (View × View)) := ite (fun _ => pure) fun _ => by exact nofun
theorem deref {a : Addr} : Quiet (NdSlice.deref a : Prog α ι ω α) := fun _ => trivial
theorem debugAssert {c : Bool} : Quiet (NdSlice.debugAssert cfg c : Prog α ι ω Unit) := ite (fun _ => by exact nofun) fun _ => pure
theorem assertP {c : Bool} : Quiet (NdSlice.assertP c : Prog α ι ω Unit) := ite (fun _ => pure) fun _ => by exact nofun
theorem usub {a b : Nat} : Quiet (NdSlice.usub cfg a b : Prog α ι ω Nat) :=
  ite (fun _ => pure) fun _ => ite (fun _ => by exact nofun) fun _ => pure

end Quiet

namespace Calm

theorem pure {b : β} : Calm X (Pure.pure b : Prog α ι ω β) := trivial

theorem bind {p : Prog α ι ω β} {f : β → Prog α ι ω γ} (h : Calm X p) (hf : ∀ b, Calm X (f b)) : Calm X (p >>= f) := by
  show Calm X (p.bind f)
  induction p with
  | ret b => exact hf b
  | get a k ih => exact fun x => ih x (h x) hf
  | set a x k ih => exact ih h hf
  | call q k ih => exact h.elim
  | choose k ih => exact h.elim
  | join p q k => exact h.elim
  | throw e => exact h
  | ub => trivial
  | diverge => trivial

theorem ite {c : Prop} [Decidable c] {p q : Prog α ι ω β} (h : c → Calm X p) (h' : ¬ c → Calm X q) : Calm X (if c then p else q) := by
  by_cases hc : c
  · rw [if_pos hc]; exact h hc
  · rw [if_neg hc]; exact h' hc

theorem forUp {body : Nat → Prog α ι ω Unit} (h : ∀ j, Calm X (body j)) {i n : Nat} : Calm X (Prog.forUp body i n) := by
  induction n generalizing i with
  | zero => exact pure
  | succ n ih => exact bind (h i) fun _ => ih

variable {v : View} {cfg : Cfg} {i j : Nat} {x : α}

theorem vget : Calm X (v.get i : Prog α ι ω α) := ite (fun _ _ => trivial) fun _ => trivial
theorem vset : Calm X (v.set i x : Prog α ι ω Unit) := ite (fun _ => trivial) fun _ => trivial
theorem vidx (h : X .check) : Calm X (v.idx i : Prog α ι ω α) := ite (fun _ _ => trivial) fun _ => ⟨nofun, h⟩
theorem vcset (h : X .check) : Calm X (v.cset i x : Prog α ι ω Unit) := ite (fun _ => trivial) fun _ => ⟨nofun, h⟩
theorem usub (h : X .overflow) {a b : Nat} : Calm X (NdSlice.usub cfg a b : Prog α ι ω Nat) :=
  ite (fun _ => pure) fun _ => ite (fun _ => ⟨nofun, h⟩) fun _ => pure

end Calm

namespace Prompt

variable {p : Prog α ι ω β}

theorem pure {b : β} : Prompt P X (Pure.pure b : Prog α ι ω β) := trivial
theorem ub : Prompt P X (.ub : Prog α ι ω β) := trivial
theorem diverge : Prompt P X (.diverge : Prog α ι ω β) := trivial
theorem throw {e : Panic} (h : e ≠ .user) : Prompt P X (.throw e : Prog α ι ω β) := h
theorem choose {k : Bool → Prog α ι ω β} (h : ∀ b, Prompt P X (k b)) : Prompt P X (.choose k) := h

theorem bind {f : β → Prog α ι ω γ} (h : Prompt P X p) (hf : ∀ b, Prompt P X (f b)) : Prompt P X (p >>= f) := by
  show Prompt P X (p.bind f)
  induction p with
  | ret b => exact hf b
  | get a k ih => exact fun x => ih x (h x) hf
  | set a x k ih => exact ih h hf
  | call q k ih => exact fun r => ⟨fun hr => ((h r).1 hr).bind, fun hr => ih r ((h r).2 hr) hf⟩
  | choose k ih => exact fun b => ih b (h b) hf
  | join p q k => exact h.elim
  | throw e => exact h
  | ub => trivial
  | diverge => trivial

theorem onPanic {g : Prog α ι ω Unit} (h : Prompt P X p) (hg : Calm X g) : Prompt P X (p.onPanic g) := by
  induction p with
  | ret b => trivial
  | get a k ih => exact fun x => ih x (h x)
  | set a x k ih => exact ih h
  | call q k ih => exact fun r => ⟨fun hr => ((h r).1 hr).onPanic hg, fun hr => ih r ((h r).2 hr)⟩
  | choose k ih => exact fun b => ih b (h b)
  | join p q k => exact h.elim
  | throw e => exact bind (p := g) (f := fun _ => .throw e) hg.quiet.prompt fun _ => h
  | ub => trivial
  | diverge => trivial

theorem ite {c : Prop} [Decidable c] {q : Prog α ι ω β} (h : c → Prompt P X p) (h' : ¬ c → Prompt P X q) : Prompt P X (if c then p else q) := by
  by_cases hc : c
  · rw [if_pos hc]; exact h hc
  · rw [if_neg hc]; exact h' hc

theorem loop {body : β → Prog α ι ω (β ⊕ γ)} (h : ∀ x, Prompt P X (body x)) {n : Nat} {x : β} : Prompt P X (Prog.loop body n x) := by
  induction n generalizing x with
  | zero => trivial
  | succ n ih =>
    unfold Prog.loop
    exact bind (h x) fun y => by cases y <;> first | exact ih | exact pure

theorem forUp {body : Nat → Prog α ι ω Unit} (h : ∀ j, Prompt P X (body j)) {i n : Nat} : Prompt P X (Prog.forUp body i n) := by
  induction n generalizing i with
  | zero => exact pure
  | succ n ih => exact bind (h i) fun _ => ih

theorem forDown {body : Nat → Prog α ι ω Unit} (h : ∀ j, Prompt P X (body j)) {i n : Nat} : Prompt P X (Prog.forDown body i n) := by
  induction n with
  | zero => exact pure
  | succ n ih => exact bind (h (i + n)) fun _ => ih

theorem whenP {c : Bool} {p : Prog α ι ω Unit} (h : Prompt P X p) : Prompt P X (NdSlice.whenP c p) := ite (fun _ => h) fun _ => pure

/-- What is known about a sequential run: user code has not panicked, or its last answer was a panic and the program has not returned. -/
theorem run (o : Oracle σ ι ω) (h : Prompt P X p) (s : St α ι ω σ) :
    ∃ d, (NdSlice.run o p s).2.log = s.log ++ d ∧
      (((∀ x ∈ d, ¬ P x.1 x.2) ∧ (NdSlice.run o p s).1 ≠ .panic .user) ∨
       (∃ d' x, d = d' ++ [x] ∧ P x.1 x.2 ∧ (∀ y ∈ d', ¬ P y.1 y.2) ∧ (∀ b, (NdSlice.run o p s).1 ≠ .ok b) ∧
          ∀ e, (NdSlice.run o p s).1 = .panic e → e = .user ∨ X e)) := by
  induction p generalizing s with
  | ret b => exact ⟨[], by simp [NdSlice.run], .inl ⟨by simp, fun h => by cases h⟩⟩
  | get a k ih => exact ih _ (h _) s
  | set a x k ih => exact ih h { s with mem := upd s.mem a x }
  | call q k ih =>
    by_cases hr : P q (o.ask s.env q).1
    · have := Dead.run o (s := { s with env := (o.ask s.env q).2, log := s.log ++ [(q, (o.ask s.env q).1)] }) ((h _).1 hr)
      exact ⟨[(q, (o.ask s.env q).1)], this.1, .inr ⟨[], _, rfl, hr, by simp, this.2⟩⟩
    · obtain ⟨d, h1, h2⟩ := ih _ ((h _).2 hr) { s with env := (o.ask s.env q).2, log := s.log ++ [(q, (o.ask s.env q).1)] }
      refine ⟨(q, (o.ask s.env q).1) :: d, ?_, ?_⟩
      · refine h1.trans ?_
        simp
      · rcases h2 with ⟨h2, h3⟩ | ⟨d', x, rfl, h3, h4, h5⟩
        · refine .inl ⟨fun x hx => ?_, h3⟩
          rcases List.mem_cons.mp hx with rfl | hx
          · exact hr
          · exact h2 x hx
        · refine .inr ⟨(q, (o.ask s.env q).1) :: d', x, rfl, h3, fun y hy => ?_, h5⟩
          rcases List.mem_cons.mp hy with rfl | hy
          · exact hr
          · exact h4 y hy
  | choose k ih => exact ih _ (h _) { s with env := (o.flip s.env).2 }
  | join p q k => exact h.elim
  | throw e =>
    refine ⟨[], by simp [NdSlice.run], .inl ⟨by simp, fun he => ?_⟩⟩
    cases he
    exact h rfl
  | ub => exact ⟨[], by simp [NdSlice.run], .inl ⟨by simp, fun h => by cases h⟩⟩
  | diverge => exact ⟨[], by simp [NdSlice.run], .inl ⟨by simp, fun h => by cases h⟩⟩

end Prompt

/-! ### Programs with tasks -/

theorem Dead.lost {p : Prog α ι ω β} (h : Dead X p) : Lost p := by
  induction p with
  | ret b => exact h.elim
  | get a k ih => exact fun x => ih x (h x)
  | set a x k ih => exact ih h
  | call q k ih => exact h.elim
  | choose k ih => exact h.elim
  | join p q k => exact h.elim
  | throw e => trivial
  | ub => trivial
  | diverge => trivial

theorem Lost.bind {p : Prog α ι ω β} {f : β → Prog α ι ω γ} (h : Lost p) : Lost (p.bind f) := by
  induction p with
  | ret b => exact h.elim
  | get a k ih => exact fun x => ih x (h x)
  | set a x k ih => exact ih h
  | call q k ih => exact fun r => ih r (h r)
  | choose k ih => exact fun b => ih b (h b)
  | join p q k _ _ ih =>
    rcases h with ⟨h, h'⟩ | ⟨h, h'⟩ | h
    · exact .inl ⟨h, fun e t => ih _ _ (h' e t)⟩
    · exact .inr (.inl ⟨h, fun r e => ih _ _ (h' r e)⟩)
    · exact .inr (.inr fun r t => ih _ _ (h r t))
  | throw e => trivial
  | ub => trivial
  | diverge => trivial

theorem Lost.after {p : Prog α ι ω β} {f : β → Prog α ι ω γ} (hf : ∀ b, Lost (f b)) : Lost (p.bind f) := by
  induction p with
  | ret b => exact hf b
  | get a k ih => exact fun x => ih x hf
  | set a x k ih => exact ih hf
  | call q k ih => exact fun r => ih r hf
  | choose k ih => exact fun b => ih b hf
  | join p q k _ _ ih => exact .inr (.inr fun r t => ih _ _ hf)
  | throw e => trivial
  | ub => trivial
  | diverge => trivial

theorem Lost.onPanic {p : Prog α ι ω β} {g : Prog α ι ω Unit} (h : Lost p) : Lost (p.onPanic g) := by
  induction p with
  | ret b => exact h.elim
  | get a k ih => exact fun x => ih x (h x)
  | set a x k ih => exact ih h
  | call q k ih => exact fun r => ih r (h r)
  | choose k ih => exact fun b => ih b (h b)
  | join p q k _ _ ih =>
    rcases h with ⟨h, h'⟩ | ⟨h, h'⟩ | h
    · exact .inl ⟨h, fun e t => ih _ _ (h' e t)⟩
    · exact .inr (.inl ⟨h, fun r e => ih _ _ (h' r e)⟩)
    · exact .inr (.inr fun r t => ih _ _ (h r t))
  | throw e => exact .after fun _ => trivial
  | ub => trivial
  | diverge => trivial

theorem Prompt.honest {p : Prog α ι ω β} (h : Prompt P X p) : Honest P p := by
  induction p with
  | ret b => trivial
  | get a k ih => exact fun x => ih x (h x)
  | set a x k ih => exact ih h
  | call q k ih => exact fun r => ⟨fun hr => ((h r).1 hr).lost, fun hr => ih r ((h r).2 hr)⟩
  | choose k ih => exact fun b => ih b (h b)
  | join p q k => exact h.elim
  | throw e => exact h
  | ub => trivial
  | diverge => trivial

namespace Honest

variable {p : Prog α ι ω β}

theorem pure {b : β} : Honest P (Pure.pure b : Prog α ι ω β) := trivial
theorem ub : Honest P (.ub : Prog α ι ω β) := trivial
theorem diverge : Honest P (.diverge : Prog α ι ω β) := trivial
theorem choose {k : Bool → Prog α ι ω β} (h : ∀ b, Honest P (k b)) : Honest P (.choose k) := h

theorem bind {f : β → Prog α ι ω γ} (h : Honest P p) (hf : ∀ b, Honest P (f b)) : Honest P (p >>= f) := by
  show Honest P (p.bind f)
  induction p with
  | ret b => exact hf b
  | get a k ih => exact fun x => ih x (h x) hf
  | set a x k ih => exact ih h hf
  | call q k ih => exact fun r => ⟨fun hr => ((h r).1 hr).bind, fun hr => ih r ((h r).2 hr) hf⟩
  | choose k ih => exact fun b => ih b (h b) hf
  | join p q k _ _ ih =>
    exact ⟨h.1, h.2.1, fun r t hr ht => ih r t (h.2.2.1 r t hr ht) hf, fun e t => (h.2.2.2.1 e t).bind, fun r e => (h.2.2.2.2 r e).bind⟩
  | throw e => exact h
  | ub => trivial
  | diverge => trivial

theorem onPanic {g : Prog α ι ω Unit} (h : Honest P p) (hg : Quiet g) : Honest P (p.onPanic g) := by
  induction p with
  | ret b => trivial
  | get a k ih => exact fun x => ih x (h x)
  | set a x k ih => exact ih h
  | call q k ih => exact fun r => ⟨fun hr => ((h r).1 hr).onPanic, fun hr => ih r ((h r).2 hr)⟩
  | choose k ih => exact fun b => ih b (h b)
  | join p q k _ _ ih =>
    exact ⟨h.1, h.2.1, fun r t hr ht => ih r t (h.2.2.1 r t hr ht), fun e t => (h.2.2.2.1 e t).onPanic, fun r e => (h.2.2.2.2 r e).onPanic⟩
  | throw e => exact bind (p := g) (f := fun _ => .throw e) (Prompt.honest (X := fun _ => True) hg.prompt) fun _ => h
  | ub => trivial
  | diverge => trivial

theorem ite {c : Prop} [Decidable c] {q : Prog α ι ω β} (h : c → Honest P p) (h' : ¬ c → Honest P q) : Honest P (if c then p else q) := by
  by_cases hc : c
  · rw [if_pos hc]; exact h hc
  · rw [if_neg hc]; exact h' hc

theorem rayonJoin {q : Prog α ι ω γ} (h : Honest P p) (h' : Honest P q) : Honest P (Prog.rayonJoin p q) := by
  refine ⟨h, h', ?_, ?_, ?_⟩
  · intro r t hr ht
    cases r with
    | ok b => cases t with
      | ok c => trivial
      | panic e => exact fun he => ht (by rw [he])
    | panic e => exact fun he => hr (by rw [he])
  · intro e t
    trivial
  · intro r e
    cases r <;> trivial

theorem loop {body : β → Prog α ι ω (β ⊕ γ)} (h : ∀ x, Honest P (body x)) {n : Nat} {x : β} : Honest P (Prog.loop body n x) := by
  induction n generalizing x with
  | zero => trivial
  | succ n ih =>
    unfold Prog.loop
    exact bind (h x) fun y => by cases y <;> first | exact ih | exact pure

/-- One step of any schedule. -/
theorem step {o : Oracle σ ι ω} {p p' : Prog α ι ω β} {s s' : St α ι ω σ} (hs : Step o p s p' s') (h : Honest P p) :
    ∃ d, s'.log = s.log ++ d ∧ ((Honest P p' ∧ ∀ x ∈ d, ¬ P x.1 x.2) ∨ (Lost p' ∧ ∃ x ∈ d, P x.1 x.2)) := by
  induction hs with
  | get a k s => exact ⟨[], by simp, .inl ⟨h _, by simp⟩⟩
  | set a x k s => exact ⟨[], by simp, .inl ⟨h, by simp⟩⟩
  | call q k s =>
    refine ⟨_, rfl, ?_⟩
    by_cases hr : P q (o.ask s.env q).1
    · exact .inr ⟨(h _).1 hr, _, List.mem_singleton.mpr rfl, hr⟩
    · exact .inl ⟨(h _).2 hr, by simpa using hr⟩
  | choose k s => exact ⟨[], by simp, .inl ⟨h _, by simp⟩⟩
  | joinL p p' q k s s' _ ih =>
    obtain ⟨d, h1, h2⟩ := ih h.1
    exact ⟨d, h1, h2.imp (fun h2 => ⟨⟨h2.1, h.2⟩, h2.2⟩) fun h2 => ⟨.inl ⟨h2.1, h.2.2.2.1⟩, h2.2⟩⟩
  | joinR p q q' k s s' _ ih =>
    obtain ⟨d, h1, h2⟩ := ih h.2.1
    exact ⟨d, h1, h2.imp (fun h2 => ⟨⟨h.1, h2.1, h.2.2⟩, h2.2⟩) fun h2 => ⟨.inr (.inl ⟨h2.1, h.2.2.2.2⟩), h2.2⟩⟩
  | joinEnd p q k s r t hr ht =>
    refine ⟨[], by simp, .inl ⟨h.2.2.1 r t ?_ ?_, by simp⟩⟩
    · rintro rfl
      cases hr
      exact h.1 rfl
    · rintro rfl
      cases ht
      exact h.2.1 rfl

theorem _root_.NdSlice.Lost.step {o : Oracle σ ι ω} {p p' : Prog α ι ω β} {s s' : St α ι ω σ} (hs : Step o p s p' s') (h : Lost p) : Lost p' := by
  induction hs with
  | get a k s => exact h _
  | set a x k s => exact h
  | call q k s => exact h _
  | choose k s => exact h _
  | joinL p p' q k s s' _ ih => exact h.imp (fun h => ⟨ih h.1, h.2⟩) id
  | joinR p q q' k s s' _ ih => exact h.imp id (Or.imp (fun h => ⟨ih h.1, h.2⟩) id)
  | joinEnd p q k s r t hr ht =>
    rcases h with ⟨h, h'⟩ | ⟨h, h'⟩ | h
    · cases hr with
      | ret => exact h.elim
      | throw e => exact h' e t
    · cases ht with
      | ret => exact h.elim
      | throw e => exact h' r e
    · exact h r t

theorem _root_.NdSlice.Step.log {o : Oracle σ ι ω} {p p' : Prog α ι ω β} {s s' : St α ι ω σ} (hs : Step o p s p' s') :
    ∃ d, s'.log = s.log ++ d := by
  induction hs with
  | call q k s => exact ⟨_, rfl⟩
  | joinL p p' q k s s' _ ih => exact ih
  | joinR p q q' k s s' _ ih => exact ih
  | _ => exact ⟨[], by simp⟩

/-- Every schedule: as long as user code has not panicked the program stays honest; afterwards it does not return. -/
theorem steps {o : Oracle σ ι ω} {p p' : Prog α ι ω β} {s s' : St α ι ω σ} (h : Honest P p) (hs : Steps o p s p' s') :
    ∃ d, s'.log = s.log ++ d ∧ ((Honest P p' ∧ ∀ x ∈ d, ¬ P x.1 x.2) ∨ (Lost p' ∧ ∃ x ∈ d, P x.1 x.2)) := by
  induction hs with
  | refl => exact ⟨[], by simp, .inl ⟨h, by simp⟩⟩
  | tail _ hs ih =>
    obtain ⟨d, h1, h2⟩ := ih
    rcases h2 with ⟨h2, h3⟩ | h2
    · obtain ⟨d', h4, h5⟩ := h2.step hs
      refine ⟨d ++ d', by rw [h4, h1, List.append_assoc], h5.imp (fun h5 => ⟨h5.1, fun x hx => ?_⟩) fun h5 => ⟨h5.1, ?_⟩⟩
      · rcases List.mem_append.mp hx with hx | hx
        · exact h3 x hx
        · exact h5.2 x hx
      · obtain ⟨x, hx, hp⟩ := h5.2
        exact ⟨x, List.mem_append_right _ hx, hp⟩
    · obtain ⟨d', h4⟩ := hs.log
      obtain ⟨x, hx, hp⟩ := h2.2
      exact ⟨d ++ d', by rw [h4, h1, List.append_assoc], .inr ⟨h2.1.step hs, x, List.mem_append_left _ hx, hp⟩⟩

end Honest

end NdSlice
