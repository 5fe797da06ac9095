import Verif.Core.Lag

/-
How many questions a program asks at least, those of both parts of a join together.  `Due p n Q` says: if `p` returns `b` and had to ask `n` questions,
then it still has to ask `r`, for an `r` with `Q b r`, whatever is in memory, whatever is answered and under every schedule.
-/

namespace NdSlice

variable {α ι ω σ β γ : Type}

/-- See the top of this file. -/
def Due {β : Type} : Prog α ι ω β → Nat → (β → Nat → Prop) → Prop
  | .ret b, n, Q => Q b n
  | .get _ k, n, Q => ∀ x, Due (k x) n Q
  | .set _ _ k, n, Q => Due k n Q
  | .call _ k, n, Q => ∀ r, Due (k r) (n - 1) Q
  | .choose k, n, Q => ∀ b, Due (k b) n Q
  | .throw _, _, _ => True
  | .ub, _, _ => True
  | .diverge, _, _ => True
  | .join (β := β) (γ := γ) p q k, n, Q => ∃ (n0 n1 n2 : Nat) (Q1 : β → Nat → Prop) (Q2 : γ → Nat → Prop),
    n = n0 + n1 + n2 ∧ Due p n1 Q1 ∧ Due q n2 Q2 ∧ ∀ r t r1 r2, r1 ≤ n1 → r2 ≤ n2 → (∀ b, r = .ok b → Q1 b r1) → (∀ b, t = .ok b → Q2 b r2) →
      Due (k r t) (n0 + r1 + r2) Q

namespace Due

theorem mono {p : Prog α ι ω β} {n : Nat} {Q Q' : β → Nat → Prop} (h : Due p n Q) (hQ : ∀ b r, Q b r → Q' b r) : Due p n Q' := by
  induction p generalizing n with
  | ret b => exact hQ _ _ h
  | get a k ih => exact fun x => ih x (h x) hQ
  | set a x k ih => exact ih h hQ
  | call q k ih => exact fun r => ih r (h r) hQ
  | choose k ih => exact fun x => ih x (h x) hQ
  | throw => trivial
  | ub => trivial
  | diverge => trivial
  | join p q k _ _ ih =>
    obtain ⟨n0, n1, n2, Q1, Q2, hn, h1, h2, h3⟩ := h
    exact ⟨n0, n1, n2, Q1, Q2, hn, h1, h2, fun r t r1 r2 a1 a2 hx hy => ih r t (h3 r t r1 r2 a1 a2 hx hy) hQ⟩

theorem bind {p : Prog α ι ω β} {f : β → Prog α ι ω γ} {n : Nat} {Q : γ → Nat → Prop} (h : Due p n fun b r => Due (f b) r Q) :
    Due (p.bind f) n Q := by
  induction p generalizing n with
  | ret b => exact h
  | get a k ih => exact fun x => ih x (h x)
  | set a x k ih => exact ih h
  | call q k ih => exact fun r => ih r (h r)
  | choose k ih => exact fun x => ih x (h x)
  | throw => trivial
  | ub => trivial
  | diverge => trivial
  | join p q k _ _ ih =>
    obtain ⟨n0, n1, n2, Q1, Q2, hn, h1, h2, h3⟩ := h
    exact ⟨n0, n1, n2, Q1, Q2, hn, h1, h2, fun r t r1 r2 a1 a2 hx hy => ih r t (h3 r t r1 r2 a1 a2 hx hy)⟩

/-- What has to be asked does not grow. -/
theorem le {p : Prog α ι ω β} {n : Nat} {Q : β → Nat → Prop} (h : Due p n Q) : Due p n (fun b r => Q b r ∧ r ≤ n) := by
  induction p generalizing n with
  | ret b => exact ⟨h, Nat.le_refl _⟩
  | get a k ih => exact fun x => ih x (h x)
  | set a x k ih => exact ih h
  | call q k ih => exact fun r => (ih r (h r)).mono fun _ _ h => ⟨h.1, by omega⟩
  | choose k ih => exact fun x => ih x (h x)
  | throw => trivial
  | ub => trivial
  | diverge => trivial
  | join p q k _ _ ih =>
    obtain ⟨n0, n1, n2, Q1, Q2, hn, h1, h2, h3⟩ := h
    exact ⟨n0, n1, n2, Q1, Q2, hn, h1, h2,
      fun r t r1 r2 a1 a2 hx hy => (ih r t (h3 r t r1 r2 a1 a2 hx hy)).mono fun _ _ h => ⟨h.1, by omega⟩⟩

/-- Having to ask less. -/
theorem less {p : Prog α ι ω β} {n n' : Nat} {Q : β → Nat → Prop} (h : Due p n Q) (hn : n' ≤ n) : Due p n' (fun b r => ∃ r', r ≤ r' ∧ Q b r') := by
  induction p generalizing n n' with
  | ret b => exact ⟨n, hn, h⟩
  | get a k ih => exact fun x => ih x (h x) hn
  | set a x k ih => exact ih h hn
  | call q k ih => exact fun r => ih r (h r) (by omega)
  | choose k ih => exact fun x => ih x (h x) hn
  | throw => trivial
  | ub => trivial
  | diverge => trivial
  | join p q k ihp ihq ih =>
    obtain ⟨n0, n1, n2, Q1, Q2, rfl, h1, h2, h3⟩ := h
    refine ⟨n' - min n' n1 - min (n' - min n' n1) n2, min n' n1, min (n' - min n' n1) n2, _, _, by omega, ihp h1.le (Nat.min_le_right _ _),
      ihq h2.le (Nat.min_le_right _ _), ?_⟩
    intro r t r1 r2 a1 a2 hx hy
    have hp : ∃ s1, r1 ≤ s1 ∧ s1 ≤ n1 ∧ ∀ b, r = .ok b → Q1 b s1 := by
      cases r with
      | panic e => exact ⟨n1, by omega, Nat.le_refl _, fun b e => by cases e⟩
      | ok b =>
        obtain ⟨s1, g1, g2, g3⟩ := hx b rfl
        exact ⟨s1, g1, g3, fun b e => by cases e; exact g2⟩
    have hq : ∃ s2, r2 ≤ s2 ∧ s2 ≤ n2 ∧ ∀ b, t = .ok b → Q2 b s2 := by
      cases t with
      | panic e => exact ⟨n2, by omega, Nat.le_refl _, fun b e => by cases e⟩
      | ok b =>
        obtain ⟨s1, g1, g2, g3⟩ := hy b rfl
        exact ⟨s1, g1, g3, fun b e => by cases e; exact g2⟩
    obtain ⟨s1, b1, b2, b3⟩ := hp
    obtain ⟨s2, c1, c2, c3⟩ := hq
    exact ih r t (h3 r t s1 s2 b2 c2 b3 c3) (by omega)

/-- A program which takes time asks questions. -/
theorem ofLag {p : Prog α ι ω β} {n : Nat} {Q : β → Nat → Prop} (h : Lag p n Q) : Due p n Q := by
  induction p generalizing n with
  | ret b => exact h
  | get a k ih => exact fun x => ih x (h x)
  | set a x k ih => exact ih h
  | call q k ih => exact fun r => ih r (h r)
  | choose k ih => exact fun x => ih x (h x)
  | throw => trivial
  | ub => trivial
  | diverge => trivial
  | join p q k ihp ihq ih =>
    obtain ⟨Q1, Q2, h1, h2, h3⟩ := h
    refine ⟨n, 0, 0, Q1, Q2, rfl, ihp h1, ihq h2, ?_⟩
    intro r t r1 r2 a1 a2 hx hy
    obtain rfl : r1 = 0 := by omega
    obtain rfl : r2 = 0 := by omega
    exact ih r t (h3 r t hx hy)

/-- A panic is not a return, whatever is done after it. -/
theorem onPanic {p : Prog α ι ω β} {g : Prog α ι ω Unit} {n : Nat} {Q : β → Nat → Prop} (h : Due p n Q) : Due (p.onPanic g) n Q := by
  induction p generalizing n with
  | ret b => exact h
  | get a k ih => exact fun x => ih x (h x)
  | set a x k ih => exact ih h
  | call q k ih => exact fun r => ih r (h r)
  | choose k ih => exact fun x => ih x (h x)
  | throw => exact bind ((ofLag (Lag.any _ _)).mono fun _ _ _ => trivial)
  | ub => trivial
  | diverge => trivial
  | join p q k _ _ ih =>
    obtain ⟨n0, n1, n2, Q1, Q2, hn, h1, h2, h3⟩ := h
    exact ⟨n0, n1, n2, Q1, Q2, hn, h1, h2, fun r t r1 r2 a1 a2 hx hy => ih r t (h3 r t r1 r2 a1 a2 hx hy)⟩

/-! ### Adequacy -/

theorem step {o : Oracle σ ι ω} {p p' : Prog α ι ω β} {s s' : St α ι ω σ} {n : Nat} {Q : β → Nat → Prop} (h : Due p n Q)
    (hs : Step o p s p' s') : ∃ n', Due p' n' Q ∧ n' ≤ n ∧ n + s.log.length ≤ n' + s'.log.length := by
  induction hs generalizing n with
  | get a k s => exact ⟨n, h _, Nat.le_refl _, Nat.le_refl _⟩
  | set a x k s => exact ⟨n, h, Nat.le_refl _, Nat.le_refl _⟩
  | call q k s =>
    refine ⟨n - 1, h _, Nat.sub_le _ _, ?_⟩
    show n + s.log.length ≤ n - 1 + (s.log ++ [_]).length
    rw [List.length_append]
    simp only [List.length_cons, List.length_nil]
    omega
  | choose k s => exact ⟨n, h _, Nat.le_refl _, Nat.le_refl _⟩
  | joinL p p' q k s s' hs ih =>
    obtain ⟨n0, n1, n2, Q1, Q2, rfl, h1, h2, h3⟩ := h
    obtain ⟨n', g1, g2, g3⟩ := ih h1
    exact ⟨n0 + n' + n2, ⟨n0, n', n2, Q1, Q2, rfl, g1, h2, fun r t r1 r2 a1 a2 => h3 r t r1 r2 (by omega) a2⟩, by omega, by omega⟩
  | joinR p q q' k s s' hs ih =>
    obtain ⟨n0, n1, n2, Q1, Q2, rfl, h1, h2, h3⟩ := h
    obtain ⟨n', g1, g2, g3⟩ := ih h2
    exact ⟨n0 + n1 + n', ⟨n0, n1, n', Q1, Q2, rfl, h1, g1, fun r t r1 r2 a1 a2 => h3 r t r1 r2 a1 (by omega)⟩, by omega, by omega⟩
  | joinEnd p q k s r t e1 e2 =>
    obtain ⟨n0, n1, n2, Q1, Q2, rfl, h1, h2, h3⟩ := h
    refine ⟨n0 + n1 + n2, h3 r t n1 n2 (Nat.le_refl _) (Nat.le_refl _) ?_ ?_, Nat.le_refl _, Nat.le_refl _⟩
    · rintro b rfl; cases e1; exact h1
    · rintro b rfl; cases e2; exact h2

/-- What a program has to ask it has asked when it returns, under every schedule. -/
theorem steps {o : Oracle σ ι ω} {p : Prog α ι ω β} {b : β} {s s' : St α ι ω σ} {n : Nat} (h : Due p n fun _ r => r = 0)
    (hs : Steps o p s (.ret b) s') : s.log.length + n ≤ s'.log.length := by
  suffices h' : ∀ (p' : Prog α ι ω β), Steps o p s p' s' → ∃ n', Due p' n' (fun _ r => r = 0) ∧ n + s.log.length ≤ n' + s'.log.length by
    obtain ⟨n', h1, h2⟩ := h' _ hs
    have : n' = 0 := h1
    omega
  clear hs
  intro p' hs
  induction hs with
  | refl => exact ⟨n, h, Nat.le_refl _⟩
  | tail _ hs ih =>
    obtain ⟨n1, g1, g2⟩ := ih
    obtain ⟨n2, g3, g4, g5⟩ := g1.step hs
    exact ⟨n2, g3, by omega⟩

end Due

/-! ### Questions counted in comparisons -/

/-- `Due` with the questions counted in comparisons of `c` questions each. -/
def Debt (c : Nat) (p : Prog α ι ω β) (m : Nat) (Q : β → Nat → Prop) : Prop := Due p (c * m) fun b r => ∃ m', r ≤ c * m' ∧ Q b m'

theorem Owe.debt {c m : Nat} {p : Prog α ι ω β} {Q : β → Nat → Prop} (h : Owe c p m Q) : Debt c p m Q := Due.ofLag h

namespace Debt

variable {c m : Nat} {p : Prog α ι ω β} {Q : β → Nat → Prop}

theorem mono {Q' : β → Nat → Prop} (h : Debt c p m Q) (hQ : ∀ b r, Q b r → Q' b r) : Debt c p m Q' :=
  Due.mono h fun b _ ⟨m', h1, h2⟩ => ⟨m', h1, hQ b m' h2⟩

theorem bind {f : β → Prog α ι ω γ} {Q' : β → Nat → Prop} {Q : γ → Nat → Prop} (h : Debt c p m Q') (hf : ∀ b r, Q' b r → Debt c (f b) r Q) :
    Debt c (p >>= f) m Q := by
  refine Due.bind (Due.mono h ?_)
  rintro b r ⟨m', h1, h2⟩
  refine ((hf b m' h2).less h1).mono ?_
  rintro g r' ⟨r'', h3, m'', h4, h5⟩
  exact ⟨m'', Nat.le_trans h3 h4, h5⟩

theorem pure {b : β} (h : Q b m) : Debt c (Pure.pure b : Prog α ι ω β) m Q := ⟨m, Nat.le_refl _, h⟩

theorem weaken {m' : Nat} (h : Debt c p m Q) (hm : m' ≤ m) : Debt c p m' Q :=
  (Due.less h (Nat.mul_le_mul_left c hm)).mono fun _ _ ⟨_, h1, m', h2, h3⟩ => ⟨m', Nat.le_trans h1 h2, h3⟩

theorem anyB {f : β → Prog α ι ω γ} {Q : γ → Nat → Prop} (hf : ∀ b, Debt c (f b) m Q) : Debt c (p >>= f) m Q :=
  bind (Q' := fun _ r => r = m) (Owe.debt (Owe.any fun _ => rfl)) (by rintro b _ rfl; exact hf b)

theorem onPanic {g : Prog α ι ω Unit} (h : Debt c p m Q) : Debt c (p.onPanic g) m Q := Due.onPanic h

theorem rayonJoin {p : Prog α ι ω β} {q : Prog α ι ω γ} {n0 n1 n2 : Nat} {Q1 : β → Nat → Prop} {Q2 : γ → Nat → Prop} {Q : β × γ → Nat → Prop}
    (hm : m = n0 + n1 + n2) (hp : Debt c p n1 Q1) (hq : Debt c q n2 Q2) (h : ∀ b d r1 r2, Q1 b r1 → Q2 d r2 → Q (b, d) (n0 + r1 + r2)) :
    Debt c (Prog.rayonJoin p q) m Q := by
  refine ⟨c * n0, c * n1, c * n2, _, _, by rw [hm, Nat.mul_add, Nat.mul_add], hp, hq, ?_⟩
  intro r t r1 r2 _ _ hx hy
  cases r with
  | panic e => trivial
  | ok b =>
    cases t with
    | panic e => trivial
    | ok d =>
      obtain ⟨m1, g1, g2⟩ := hx b rfl
      obtain ⟨m2, k1, k2⟩ := hy d rfl
      exact ⟨n0 + m1 + m2, by rw [Nat.mul_add, Nat.mul_add]; omega, h b d m1 m2 g2 k2⟩

theorem steps {o : Oracle σ ι ω} {b : β} {s s' : St α ι ω σ} (h : Debt c p m fun _ r => r = 0) (hs : Steps o p s (.ret b) s') :
    s.log.length + c * m ≤ s'.log.length := by
  refine Due.steps (Due.mono h ?_) hs
  rintro _ r ⟨m', h1, rfl⟩
  omega

end Debt

end NdSlice
