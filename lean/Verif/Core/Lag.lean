import Verif.Core.Span

/-
The time a program needs at least.  `Lag p n Q` says: if `p` returns `b` and had to take `n` units of time, then it still has to take `r`, for an `r`
with `Q b r`, whatever is in memory and whatever is answered.  Time is that of `Verif.Core.Span`; what the two parts of a join ask is not counted.
-/

namespace NdSlice

variable {α ι ω σ β γ : Type}

/-- See the top of this file. -/
def Lag {β : Type} : Prog α ι ω β → Nat → (β → Nat → Prop) → Prop
  | .ret b, n, Q => Q b n
  | .get _ k, n, Q => ∀ x, Lag (k x) n Q
  | .set _ _ k, n, Q => Lag k n Q
  | .call _ k, n, Q => ∀ r, Lag (k r) (n - 1) Q
  | .choose k, n, Q => ∀ b, Lag (k b) n Q
  | .throw _, _, _ => True
  | .ub, _, _ => True
  | .diverge, _, _ => True
  | .join (β := β) (γ := γ) p q k, n, Q => ∃ (Q1 : β → Nat → Prop) (Q2 : γ → Nat → Prop),
    Lag p 0 Q1 ∧ Lag q 0 Q2 ∧ ∀ r t, (∀ b, r = .ok b → Q1 b 0) → (∀ b, t = .ok b → Q2 b 0) → Lag (k r t) n Q

namespace Lag

theorem mono {p : Prog α ι ω β} {n : Nat} {Q Q' : β → Nat → Prop} (h : Lag p n Q) (hQ : ∀ b r, Q b r → Q' b r) : Lag p n Q' := by
  induction p generalizing n with
  | ret b => exact hQ _ _ h
  | get a k ih => exact fun x => ih x (h x) hQ
  | set a x k ih => exact ih h hQ
  | call q k ih => exact fun r => ih r (h r) hQ
  | choose k ih => exact fun x => ih x (h x) hQ
  | throw => trivial
  | ub => trivial
  | diverge => trivial
  | join p q k _ _ ih =>
    obtain ⟨Q1, Q2, h1, h2, h3⟩ := h
    exact ⟨Q1, Q2, h1, h2, fun r t hx hy => ih r t (h3 r t hx hy) hQ⟩

theorem bind {p : Prog α ι ω β} {f : β → Prog α ι ω γ} {n : Nat} {Q : γ → Nat → Prop} (h : Lag p n fun b r => Lag (f b) r Q) :
    Lag (p.bind f) n Q := by
  induction p generalizing n with
  | ret b => exact h
  | get a k ih => exact fun x => ih x (h x)
  | set a x k ih => exact ih h
  | call q k ih => exact fun r => ih r (h r)
  | choose k ih => exact fun x => ih x (h x)
  | throw => trivial
  | ub => trivial
  | diverge => trivial
  | join p q k _ _ ih =>
    obtain ⟨Q1, Q2, h1, h2, h3⟩ := h
    exact ⟨Q1, Q2, h1, h2, fun r t hx hy => ih r t (h3 r t hx hy)⟩

/-- Having to take less. -/
theorem less {p : Prog α ι ω β} {n n' : Nat} {Q : β → Nat → Prop} (h : Lag p n Q) (hn : n' ≤ n) : Lag p n' (fun b r => ∃ r', r ≤ r' ∧ Q b r') := by
  induction p generalizing n n' with
  | ret b => exact ⟨n, hn, h⟩
  | get a k ih => exact fun x => ih x (h x) hn
  | set a x k ih => exact ih h hn
  | call q k ih => exact fun r => ih r (h r) (by omega)
  | choose k ih => exact fun x => ih x (h x) hn
  | throw => trivial
  | ub => trivial
  | diverge => trivial
  | join p q k _ _ ih =>
    obtain ⟨Q1, Q2, h1, h2, h3⟩ := h
    exact ⟨Q1, Q2, h1, h2, fun r t hx hy => ih r t (h3 r t hx hy) hn⟩

/-- Nothing is known about an arbitrary program, except that time does not go back. -/
theorem any (p : Prog α ι ω β) (n : Nat) : Lag p n (fun _ r => r ≤ n) := by
  induction p generalizing n with
  | ret b => exact Nat.le_refl n
  | get a k ih => exact fun x => ih x n
  | set a x k ih => exact ih n
  | call q k ih => exact fun r => (ih r (n - 1)).mono fun _ _ h => by omega
  | choose k ih => exact fun x => ih x n
  | throw => trivial
  | ub => trivial
  | diverge => trivial
  | join p q k ihp ihq ih => exact ⟨_, _, ihp 0, ihq 0, fun r t _ _ => ih r t n⟩

/-- A panic is not a return, whatever is done after it. -/
theorem onPanic {p : Prog α ι ω β} {g : Prog α ι ω Unit} {n : Nat} {Q : β → Nat → Prop} (h : Lag p n Q) : Lag (p.onPanic g) n Q := by
  induction p generalizing n with
  | ret b => exact h
  | get a k ih => exact fun x => ih x (h x)
  | set a x k ih => exact ih h
  | call q k ih => exact fun r => ih r (h r)
  | choose k ih => exact fun x => ih x (h x)
  | throw => exact bind ((any _ _).mono fun _ _ _ => trivial)
  | ub => trivial
  | diverge => trivial
  | join p q k _ _ ih =>
    obtain ⟨Q1, Q2, h1, h2, h3⟩ := h
    exact ⟨Q1, Q2, h1, h2, fun r t hx hy => ih r t (h3 r t hx hy)⟩

end Lag

/-! ### Adequacy -/

theorem Clock.now_eq (c : Clock) : c.now = max c.left.now c.right.now := by
  cases c with
  | «at» n => exact (Nat.max_self n).symm
  | both l r => rfl

/-- Time does not go back. -/
theorem Tick.now_le {o : Oracle σ ι ω} {p p' : Prog α ι ω β} {c c' : Clock} {s s' : St α ι ω σ} (h : Tick o p c s p' c' s') : c.now ≤ c'.now := by
  induction h with
  | get a k c s => exact Nat.le_refl _
  | set a x k c s => exact Nat.le_refl _
  | call q k c s => exact Nat.le_succ _
  | choose k c s => exact Nat.le_refl _
  | joinL p p' q k c c' s s' _ ih =>
    rw [c.now_eq]
    exact Nat.max_le.2 ⟨Nat.le_trans ih (Nat.le_max_left _ _), Nat.le_max_right _ _⟩
  | joinR p q q' k c c' s s' _ ih =>
    rw [c.now_eq]
    exact Nat.max_le.2 ⟨Nat.le_max_left _ _, Nat.le_trans ih (Nat.le_max_right _ _)⟩
  | joinEnd p q k c s r t h1 h2 => exact Nat.le_refl _

theorem Lag.tick {o : Oracle σ ι ω} {p p' : Prog α ι ω β} {c c' : Clock} {s s' : St α ι ω σ} {n : Nat} {Q : β → Nat → Prop} (h : Lag p n Q)
    (ht : Tick o p c s p' c' s') : ∃ n', Lag p' n' Q ∧ n' ≤ n ∧ n + c.now ≤ n' + c'.now := by
  induction ht generalizing n with
  | get a k c s => exact ⟨n, h _, Nat.le_refl _, Nat.le_refl _⟩
  | set a x k c s => exact ⟨n, h, Nat.le_refl _, Nat.le_refl _⟩
  | call q k c s => exact ⟨n - 1, h _, Nat.sub_le _ _, by show n + c.now ≤ n - 1 + (c.now + 1); omega⟩
  | choose k c s => exact ⟨n, h _, Nat.le_refl _, Nat.le_refl _⟩
  | joinL p p' q k c c' s s' ht ih =>
    obtain ⟨Q1, Q2, h1, h2, h3⟩ := h
    obtain ⟨n', g1, g2, _⟩ := ih h1
    obtain rfl : n' = 0 := by omega
    exact ⟨n, ⟨Q1, Q2, g1, h2, h3⟩, Nat.le_refl _, Nat.add_le_add_left (Tick.joinL p p' q k c c' s s' ht).now_le n⟩
  | joinR p q q' k c c' s s' ht ih =>
    obtain ⟨Q1, Q2, h1, h2, h3⟩ := h
    obtain ⟨n', g1, g2, _⟩ := ih h2
    obtain rfl : n' = 0 := by omega
    exact ⟨n, ⟨Q1, Q2, h1, g1, h3⟩, Nat.le_refl _, Nat.add_le_add_left (Tick.joinR p q q' k c c' s s' ht).now_le n⟩
  | joinEnd p q k c s r t e1 e2 =>
    obtain ⟨Q1, Q2, h1, h2, h3⟩ := h
    refine ⟨n, h3 r t ?_ ?_, Nat.le_refl _, Nat.le_refl _⟩
    · rintro b rfl; cases e1; exact h1
    · rintro b rfl; cases e2; exact h2

/-- What a program has to take it has taken when it returns, under every schedule. -/
theorem Lag.ticks {o : Oracle σ ι ω} {p : Prog α ι ω β} {b : β} {c' : Clock} {s s' : St α ι ω σ} {n : Nat} (h : Lag p n fun _ r => r = 0)
    (ht : Ticks o p (.at 0) s (.ret b) c' s') : n ≤ c'.now := by
  suffices h' : ∀ (p' : Prog α ι ω β), Ticks o p (.at 0) s p' c' s' → ∃ n', Lag p' n' (fun _ r => r = 0) ∧ n ≤ n' + c'.now by
    obtain ⟨n', h1, h2⟩ := h' _ ht
    have : n' = 0 := h1
    omega
  clear ht
  intro p' ht
  induction ht with
  | refl => exact ⟨n, h, Nat.le_add_right _ _⟩
  | tail _ ht ih =>
    obtain ⟨n1, g1, g2⟩ := ih
    obtain ⟨n2, g3, g4, g5⟩ := g1.tick ht
    exact ⟨n2, g3, by omega⟩

/-- Not more time passes than questions are asked. -/
theorem Tick.now_log {o : Oracle σ ι ω} {p p' : Prog α ι ω β} {c c' : Clock} {s s' : St α ι ω σ} (h : Tick o p c s p' c' s') :
    c'.now + s.log.length ≤ c.now + s'.log.length := by
  induction h with
  | get a k c s => exact Nat.le_refl _
  | set a x k c s => exact Nat.le_refl _
  | call q k c s =>
    show c.now + 1 + s.log.length ≤ c.now + (s.log ++ [_]).length
    rw [List.length_append]
    simp only [List.length_cons, List.length_nil]
    omega
  | choose k c s => exact Nat.le_refl _
  | joinL p p' q k c c' s s' h ih =>
    have := h.now_le
    rw [c.now_eq]
    show max c'.now c.right.now + _ ≤ _
    omega
  | joinR p q q' k c c' s s' h ih =>
    have := h.now_le
    rw [c.now_eq]
    show max c.left.now c'.now + _ ≤ _
    omega
  | joinEnd p q k c s r t h1 h2 => exact Nat.le_refl _

theorem Ticks.now_log {o : Oracle σ ι ω} {p p' : Prog α ι ω β} {c c' : Clock} {s s' : St α ι ω σ} (h : Ticks o p c s p' c' s') :
    c'.now + s.log.length ≤ c.now + s'.log.length := by
  induction h with
  | refl => exact Nat.le_refl _
  | tail _ h2 ih =>
    have := h2.now_log
    omega

/-! ### Time counted in comparisons -/

/-- Comparing takes the time of `c` questions. -/
def Takes (c : Nat) (less : α → α → Prog α ι ω Bool) : Prop := ∀ x y n, Lag (less x y) n fun _ r => r ≤ n - c

/-- `Lag` with the time counted in comparisons of `c` questions each. -/
def Owe (c : Nat) (p : Prog α ι ω β) (m : Nat) (Q : β → Nat → Prop) : Prop := Lag p (c * m) fun b r => ∃ m', r ≤ c * m' ∧ Q b m'

namespace Owe

variable {c m : Nat} {p : Prog α ι ω β} {Q : β → Nat → Prop}

theorem mono {Q' : β → Nat → Prop} (h : Owe c p m Q) (hQ : ∀ b r, Q b r → Q' b r) : Owe c p m Q' :=
  Lag.mono h fun b _ ⟨m', h1, h2⟩ => ⟨m', h1, hQ b m' h2⟩

theorem bind {f : β → Prog α ι ω γ} {Q' : β → Nat → Prop} {Q : γ → Nat → Prop} (h : Owe c p m Q') (hf : ∀ b r, Q' b r → Owe c (f b) r Q) :
    Owe c (p >>= f) m Q := by
  refine Lag.bind (Lag.mono h ?_)
  rintro b r ⟨m', h1, h2⟩
  refine ((hf b m' h2).less h1).mono ?_
  rintro g r' ⟨r'', h3, m'', h4, h5⟩
  exact ⟨m'', Nat.le_trans h3 h4, h5⟩

theorem ticks {o : Oracle σ ι ω} {b : β} {c' : Clock} {s s' : St α ι ω σ} (h : Owe c p m fun _ r => r = 0)
    (ht : Ticks o p (.at 0) s (.ret b) c' s') : c * m ≤ c'.now :=
  Lag.ticks (Lag.mono h (by rintro b r ⟨_, h1, rfl⟩; omega)) ht

theorem pure {b : β} (h : Q b m) : Owe c (Pure.pure b : Prog α ι ω β) m Q := ⟨m, Nat.le_refl _, h⟩

theorem throw {e : Panic} : Owe c (Prog.throw e : Prog α ι ω β) m Q := trivial
theorem ub : Owe c (Prog.ub : Prog α ι ω β) m Q := trivial
theorem diverge : Owe c (Prog.diverge : Prog α ι ω β) m Q := trivial

/-- Whatever a program does, it does not take time back. -/
theorem any (hQ : ∀ b, Q b m) : Owe c p m Q := (Lag.any p _).mono fun b _ h => ⟨m, h, hQ b⟩

theorem anyB {f : β → Prog α ι ω γ} {Q : γ → Nat → Prop} (h : ∀ b, Owe c (f b) m Q) : Owe c (p >>= f) m Q :=
  bind (any (Q := fun _ r => r = m) fun _ => rfl) (by rintro b _ rfl; exact h b)

theorem weaken {m' : Nat} (h : Owe c p m Q) (hm : m' ≤ m) : Owe c p m' Q :=
  (Lag.less h (Nat.mul_le_mul_left c hm)).mono fun _ _ ⟨_, h1, m', h2, h3⟩ => ⟨m', Nat.le_trans h1 h2, h3⟩

theorem onPanic {g : Prog α ι ω Unit} (h : Owe c p m Q) : Owe c (p.onPanic g) m Q := Lag.onPanic h

theorem less {less : α → α → Prog α ι ω Bool} (hl : Takes c less) {x y : α} {Q : Bool → Nat → Prop} (h : ∀ b, Q b (m - 1)) : Owe c (less x y) m Q :=
  (hl x y _).mono fun b r hr => ⟨m - 1, by rw [Nat.mul_sub, Nat.mul_one]; exact hr, h b⟩

theorem lessB {less : α → α → Prog α ι ω Bool} (hl : Takes c less) {x y : α} {k : Bool → Prog α ι ω β} (h : ∀ b, Owe c (k b) (m - 1) Q) :
    Owe c (less x y >>= k) m Q :=
  bind (Owe.less (Q := fun _ r => r = m - 1) hl fun _ => rfl) (by rintro b _ rfl; exact h b)

theorem loop {s r : Type} {body : s → Prog α ι ω (s ⊕ r)} {Inv : s → Nat → Prop} {Q : r → Nat → Prop} {n : Nat} {x : s}
    (hI : Inv x m) (hb : ∀ x m, Inv x m → Owe c (body x) m (fun o r => match o with | .inl x' => Inv x' r | .inr y => Q y r)) :
    Owe c (Prog.loop body n x) m Q := by
  induction n generalizing x m with
  | zero => exact diverge
  | succ n ih =>
    refine bind (hb x m hI) ?_
    intro o r h
    cases o with
    | inl x' => exact ih h
    | inr y => exact pure h

theorem forUp {body : Nat → Prog α ι ω Unit} {n a : Nat} (hb : ∀ i m, a ≤ i → i < a + n → Owe c (body i) m (fun _ r => r = m - 1)) :
    Owe c (Prog.forUp body a n) m (fun _ r => r = m - n) := by
  induction n generalizing a m with
  | zero => exact pure rfl
  | succ n ih =>
    refine bind (hb a m (Nat.le_refl _) (by omega)) ?_
    rintro _ _ rfl
    refine (ih fun i m h1 h2 => hb i m (by omega) (by omega)).mono ?_
    rintro _ _ rfl
    omega

variable {v : View}

theorem usub {cfg : Cfg} {a b : Nat} {k : Nat → Prog α ι ω β} (hab : b ≤ a) (h : Owe c (k (a - b)) m Q) :
    Owe c (NdSlice.usub cfg a b >>= k) m Q := by
  unfold NdSlice.usub
  rw [if_pos hab]
  exact h

theorem splitAt {a : Nat} {k : View × View → Prog α ι ω β} (h : a ≤ v.len → Owe c (k (v.sub 0 a, v.sub a (v.len - a))) m Q) :
    Owe c (v.splitAt a >>= k) m Q := by
  unfold View.splitAt
  split
  · rename_i ha; exact h ha
  · trivial

theorem slice {a b : Nat} {k : View → Prog α ι ω β} (hab : a ≤ b) (h : b ≤ v.len → Owe c (k (v.sub a (b - a))) m Q) :
    Owe c (v.slice a b >>= k) m Q := by
  unfold View.slice
  rw [if_neg (Nat.not_lt.2 hab)]
  dsimp only
  split
  · rename_i ha; exact h ha.2
  · trivial

end Owe

end NdSlice
