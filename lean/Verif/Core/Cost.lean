import Verif.Core.Adequacy
import Verif.Core.View
import Verif.Core.TriL

/-
Counting questions: `Cost c p B Q` says that `p` can be run with a budget of `B` comparisons of `c` questions each, whatever is in
memory and whatever is answered, and if it returns `b` with a budget of `r` left then `Q b r`.  (Partial correctness: nothing is
said about runs which panic or have undefined behaviour, but these keep to the budget as well.)
-/

namespace NdSlice

variable {α ι ω σ β γ : Type}

/-- `Cost` with the budget counted in questions. -/
def Spend {β : Type} : Prog α ι ω β → Nat → (β → Nat → Prop) → Prop
  | .ret b, B, Q => Q b B
  | .get _ k, B, Q => ∀ x, Spend (k x) B Q
  | .set _ _ k, B, Q => Spend k B Q
  | .call _ k, B, Q => ∃ B', B = B' + 1 ∧ ∀ r, Spend (k r) B' Q
  | .choose k, B, Q => ∀ b, Spend (k b) B Q
  | .throw _, _, _ => True
  | .ub, _, _ => True
  | .diverge, _, _ => True
  | .join (β := β) (γ := γ) p q k, B, Q => ∃ B1 B2 B3, B = B1 + B2 + B3 ∧ ∃ (Q1 : β → Nat → Prop) (Q2 : γ → Nat → Prop),
    Spend p B1 Q1 ∧ Spend q B2 Q2 ∧ ∀ r t x y, (∀ b, r = .ok b → Q1 b x) → (∀ b, t = .ok b → Q2 b y) → Spend (k r t) (B3 + (x + y)) Q

theorem Spend.mono {p : Prog α ι ω β} {B : Nat} {Q Q' : β → Nat → Prop} (h : Spend p B Q) (hQ : ∀ b r, Q b r → Q' b r) : Spend p B Q' := by
  induction p generalizing B with
  | ret b => exact hQ _ _ h
  | get a k ih => exact fun x => ih x (h x) hQ
  | set a x k ih => exact ih h hQ
  | call q k ih =>
    obtain ⟨B', rfl, h⟩ := h
    exact ⟨B', rfl, fun r => ih r (h r) hQ⟩
  | choose k ih => exact fun x => ih x (h x) hQ
  | throw => trivial
  | ub => trivial
  | diverge => trivial
  | join p q k _ _ ih =>
    obtain ⟨B1, B2, B3, hB, Q1, Q2, h1, h2, h3⟩ := h
    exact ⟨B1, B2, B3, hB, Q1, Q2, h1, h2, fun r t x y hx hy => ih r t (h3 r t x y hx hy) hQ⟩

theorem Spend.bind {p : Prog α ι ω β} {f : β → Prog α ι ω γ} {B : Nat} {Q : γ → Nat → Prop} (h : Spend p B fun b r => Spend (f b) r Q) :
    Spend (p.bind f) B Q := by
  induction p generalizing B with
  | ret b => exact h
  | get a k ih => exact fun x => ih x (h x)
  | set a x k ih => exact ih h
  | call q k ih =>
    obtain ⟨B', rfl, h⟩ := h
    exact ⟨B', rfl, fun r => ih r (h r)⟩
  | choose k ih => exact fun x => ih x (h x)
  | throw => trivial
  | ub => trivial
  | diverge => trivial
  | join p q k _ _ ih =>
    obtain ⟨B1, B2, B3, hB, Q1, Q2, h1, h2, h3⟩ := h
    exact ⟨B1, B2, B3, hB, Q1, Q2, h1, h2, fun r t x y hx hy => ih r t (h3 r t x y hx hy)⟩

/-- What is not needed is left. -/
theorem Spend.frame {p : Prog α ι ω β} {B : Nat} {Q : β → Nat → Prop} (h : Spend p B Q) (F : Nat) :
    Spend p (B + F) (fun b r => ∃ r', r = r' + F ∧ Q b r') := by
  induction p generalizing B with
  | ret b => exact ⟨B, rfl, h⟩
  | get a k ih => exact fun x => ih x (h x)
  | set a x k ih => exact ih h
  | call q k ih =>
    obtain ⟨B', rfl, h⟩ := h
    exact ⟨B' + F, by omega, fun r => ih r (h r)⟩
  | choose k ih => exact fun x => ih x (h x)
  | throw => trivial
  | ub => trivial
  | diverge => trivial
  | join p q k _ _ ih =>
    obtain ⟨B1, B2, B3, hB, Q1, Q2, h1, h2, h3⟩ := h
    refine ⟨B1, B2, B3 + F, by omega, Q1, Q2, h1, h2, fun r t x y hx hy => ?_⟩
    have := ih r t (h3 r t x y hx hy)
    rwa [show B3 + F + (x + y) = B3 + (x + y) + F by omega]

/-- The cleanup after a panic is paid from what is left then; here it asks nothing. -/
theorem Spend.onPanic {p : Prog α ι ω β} {g : Prog α ι ω Unit} {B : Nat} {Q : β → Nat → Prop} (h : Spend p B Q)
    (hg : ∀ B, Spend g B fun _ _ => True) : Spend (p.onPanic g) B Q := by
  induction p generalizing B with
  | ret b => exact h
  | get a k ih => exact fun x => ih x (h x)
  | set a x k ih => exact ih h
  | call q k ih =>
    obtain ⟨B', rfl, h⟩ := h
    exact ⟨B', rfl, fun r => ih r (h r)⟩
  | choose k ih => exact fun x => ih x (h x)
  | throw => exact Spend.bind ((hg _).mono fun _ _ _ => trivial)
  | ub => trivial
  | diverge => trivial
  | join p q k _ _ ih =>
    obtain ⟨B1, B2, B3, hB, Q1, Q2, h1, h2, h3⟩ := h
    exact ⟨B1, B2, B3, hB, Q1, Q2, h1, h2, fun r t x y hx hy => ih r t (h3 r t x y hx hy)⟩

/-! ### Adequacy -/

/-- Every step of every schedule keeps to the budget. -/
theorem Spend.step {o : Oracle σ ι ω} {p p' : Prog α ι ω β} {s s' : St α ι ω σ} {B : Nat} {Q : β → Nat → Prop} (h : Spend p B Q)
    (hs : Step o p s p' s') : ∃ B', Spend p' B' Q ∧ s'.log.length + B' = s.log.length + B := by
  induction hs generalizing B with
  | get a k s => exact ⟨B, h _, rfl⟩
  | set a x k s => exact ⟨B, h, rfl⟩
  | call q k s =>
    obtain ⟨B', rfl, h⟩ := h
    refine ⟨B', h _, ?_⟩
    rw [List.length_append]
    simp only [List.length_cons, List.length_nil]
    omega
  | choose k s => exact ⟨B, h _, rfl⟩
  | joinL p p' q k s s' hs ih =>
    obtain ⟨B1, B2, B3, rfl, Q1, Q2, h1, h2, h3⟩ := h
    obtain ⟨B', h4, h5⟩ := ih h1
    exact ⟨B' + B2 + B3, ⟨B', B2, B3, rfl, Q1, Q2, h4, h2, h3⟩, by omega⟩
  | joinR p q q' k s s' hs ih =>
    obtain ⟨B1, B2, B3, rfl, Q1, Q2, h1, h2, h3⟩ := h
    obtain ⟨B', h4, h5⟩ := ih h2
    exact ⟨B1 + B' + B3, ⟨B1, B', B3, rfl, Q1, Q2, h1, h4, h3⟩, by omega⟩
  | joinEnd p q k s r t hp hq =>
    obtain ⟨B1, B2, B3, rfl, Q1, Q2, h1, h2, h3⟩ := h
    refine ⟨B3 + (B1 + B2), h3 r t B1 B2 ?_ ?_, by omega⟩
    · rintro b rfl; cases hp; exact h1
    · rintro b rfl; cases hq; exact h2

/-- Every schedule keeps to the budget, at every time. -/
theorem Spend.steps {o : Oracle σ ι ω} {p p' : Prog α ι ω β} {s s' : St α ι ω σ} {B : Nat} {Q : β → Nat → Prop} (h : Spend p B Q)
    (hs : Steps o p s p' s') : ∃ B', Spend p' B' Q ∧ s'.log.length + B' = s.log.length + B := by
  induction hs with
  | refl => exact ⟨B, h, rfl⟩
  | tail _ hs ih =>
    obtain ⟨B', h1, h2⟩ := ih
    obtain ⟨B'', h3, h4⟩ := h1.step hs
    exact ⟨B'', h3, by omega⟩

/-- The sequential run keeps to the budget. -/
theorem Spend.run {o : Oracle σ ι ω} {p : Prog α ι ω β} {s : St α ι ω σ} {B : Nat} {Q : β → Nat → Prop} (h : Spend p B Q) :
    ∃ B', (NdSlice.run o p s).2.log.length + B' = s.log.length + B ∧ ∀ b, (NdSlice.run o p s).1 = .ok b → Q b B' := by
  induction p generalizing B s with
  | ret b => exact ⟨B, rfl, fun _ h' => by cases h'; exact h⟩
  | get a k ih => exact ih _ (h _)
  | set a x k ih => exact ih (s := { s with mem := upd s.mem a x }) h
  | call q k ih =>
    obtain ⟨B', rfl, h⟩ := h
    obtain ⟨B'', h1, h2⟩ := ih (o.ask s.env q).1 (s := { s with env := (o.ask s.env q).2, log := s.log ++ [(q, (o.ask s.env q).1)] })
      (h (o.ask s.env q).1)
    refine ⟨B'', ?_, h2⟩
    rw [List.length_append] at h1
    simp only [List.length_cons, List.length_nil] at h1
    show (NdSlice.run o (k (o.ask s.env q).1) _).2.log.length + B'' = _
    omega
  | choose k ih => exact ih _ (s := { s with env := (o.flip s.env).2 }) (h _)
  | throw => exact ⟨B, rfl, fun _ h' => by cases h'⟩
  | ub => exact ⟨B, rfl, fun _ h' => by cases h'⟩
  | diverge => exact ⟨B, rfl, fun _ h' => by cases h'⟩
  | join p q k ihp ihq ih =>
    obtain ⟨B1, B2, B3, rfl, Q1, Q2, h1, h2, h3⟩ := h
    obtain ⟨B1', e1, f1⟩ := ihp (s := s) h1
    rw [NdSlice.run]
    have done : ∀ r t s2 B2', s2.log.length + (B1' + B2' + B3) = s.log.length + (B1 + B2 + B3) → (∀ b, r = .ok b → Q1 b B1') →
        (∀ b, t = .ok b → Q2 b B2') →
        ∃ B', (NdSlice.run o (k r t) s2).2.log.length + B' = s.log.length + (B1 + B2 + B3) ∧
          ∀ b, (NdSlice.run o (k r t) s2).1 = .ok b → Q b B' := by
      intro r t s2 B2' e hr ht
      obtain ⟨B', g1, g2⟩ := ih r t (s := s2) (h3 r t B1' B2' hr ht)
      exact ⟨B', by omega, g2⟩
    rcases hp : NdSlice.run o p s with ⟨res, s1⟩
    rw [hp] at e1 f1
    obtain ⟨B2', e2, f2⟩ := ihq (s := s1) h2
    rcases hq : NdSlice.run o q s1 with ⟨res2, s2⟩
    rw [hq] at e2 f2
    dsimp only at e1 e2 f1 f2
    cases res with
    | ub => exact ⟨B1' + B2 + B3, by dsimp only; omega, fun _ h' => by cases h'⟩
    | diverge => exact ⟨B1' + B2 + B3, by dsimp only; omega, fun _ h' => by cases h'⟩
    | ok b =>
      dsimp only
      rw [hq]
      cases res2 with
      | ub => exact ⟨B1' + B2' + B3, by dsimp only; omega, fun _ h' => by cases h'⟩
      | diverge => exact ⟨B1' + B2' + B3, by dsimp only; omega, fun _ h' => by cases h'⟩
      | ok c => exact done _ _ _ B2' (by omega) (fun _ h' => by cases h'; exact f1 _ rfl) (fun _ h' => by cases h'; exact f2 _ rfl)
      | panic e => exact done _ _ _ B2' (by omega) (fun _ h' => by cases h'; exact f1 _ rfl) (fun _ h' => by cases h')
    | panic e =>
      dsimp only
      rw [hq]
      cases res2 with
      | ub => exact ⟨B1' + B2' + B3, by dsimp only; omega, fun _ h' => by cases h'⟩
      | diverge => exact ⟨B1' + B2' + B3, by dsimp only; omega, fun _ h' => by cases h'⟩
      | ok c => exact done _ _ _ B2' (by omega) (fun _ h' => by cases h') (fun _ h' => by cases h'; exact f2 _ rfl)
      | panic e => exact done _ _ _ B2' (by omega) (fun _ h' => by cases h') (fun _ h' => by cases h')

/-- What is known about a program holds together with its budget. -/
theorem wp_spend {R : ι → Option ω → Prop} {p : Prog α ι ω β} {F : Addr → Prop} {Q : β → Mem α → List (ι × Option ω) → Prop}
    {E : Panic → Mem α → List (ι × Option ω) → Prop} {m : Mem α} {lg : List (ι × Option ω)} {B : Nat} {QC : β → Nat → Prop}
    (h : wp R p F Q E m lg) (hc : Spend p B QC) :
    wp R p F (fun b m' lg' => Q b m' lg' ∧ ∃ B', QC b B' ∧ lg'.length + B' = lg.length + B)
      (fun e m' lg' => E e m' lg' ∧ lg'.length ≤ lg.length + B) m lg := by
  induction p generalizing m lg B F E with
  | ret b => exact ⟨h, B, hc, rfl⟩
  | get a k ih => exact ⟨h.1, ih _ h.2 (hc _)⟩
  | set a x k ih => exact ⟨h.1, ih h.2 hc⟩
  | call q k ih =>
    obtain ⟨B', rfl, hc⟩ := hc
    intro r hr
    refine wp_mono (ih r (h r hr) (hc r)) (fun _ h => h) ?_ ?_
    · rintro b m' lg' ⟨h1, B'', h2, h3⟩
      rw [List.length_append] at h3
      simp only [List.length_cons, List.length_nil] at h3
      exact ⟨h1, B'', h2, by omega⟩
    · rintro b m' lg' ⟨h1, h3⟩
      rw [List.length_append] at h3
      simp only [List.length_cons, List.length_nil] at h3
      exact ⟨h1, by omega⟩
  | choose k ih => exact fun b => ih b (h b) (hc b)
  | throw => exact ⟨h, Nat.le_add_right _ _⟩
  | ub => exact h.elim
  | diverge => exact h.elim
  | join p q k ihp ihq ih =>
    obtain ⟨B1, B2, B3, rfl, Q1, Q2, c1, c2, c3⟩ := hc
    obtain ⟨F1, F2, hF1, hF2, hF, P1, P2, h1, h2, h3⟩ := h
    refine ⟨F1, F2, hF1, hF2, hF, fun r m l => P1 r m l ∧ ∃ x, l.length + x = B1 ∧ ∀ b, r = .ok b → Q1 b x,
      fun r m l => P2 r m l ∧ ∃ x, l.length + x = B2 ∧ ∀ b, r = .ok b → Q2 b x, ?_, ?_, ?_⟩
    · refine wp_mono (ihp h1 c1) (fun _ h => h) ?_ ?_
      · rintro b m' l ⟨g1, x, g2, g3⟩
        exact ⟨g1, x, by simpa using g3, fun _ h => by cases h; exact g2⟩
      · rintro e m' l ⟨g1, g3⟩
        exact ⟨g1, B1 - l.length, by simp at g3; omega, fun _ h => by cases h⟩
    · refine wp_mono (ihq h2 c2) (fun _ h => h) ?_ ?_
      · rintro b m' l ⟨g1, x, g2, g3⟩
        exact ⟨g1, x, by simpa using g3, fun _ h => by cases h; exact g2⟩
      · rintro e m' l ⟨g1, g3⟩
        exact ⟨g1, B2 - l.length, by simp at g3; omega, fun _ h => by cases h⟩
    · rintro r t m1 m2 l1 l2 ⟨g1, x, gx, hx⟩ ⟨g2, y, gy, hy⟩ m' d e1 e2 e3 hd
      refine wp_mono (ih r t (h3 r t m1 m2 l1 l2 g1 g2 m' d e1 e2 e3 hd) (c3 r t x y hx hy)) (fun _ h => h) ?_ ?_
      · rintro b m'' lg' ⟨k1, z, k2, k3⟩
        have := hd.length_eq
        rw [List.length_append] at this k3
        exact ⟨k1, z, k2, by omega⟩
      · rintro b m'' lg' ⟨k1, k3⟩
        have := hd.length_eq
        rw [List.length_append] at this k3
        exact ⟨k1, by omega⟩

/-! ### Budgets counted in comparisons -/

/-- See the top of this file. -/
def Cost (c : Nat) (p : Prog α ι ω β) (B : Nat) (Q : β → Nat → Prop) : Prop :=
  Spend p (c * B) fun b r => ∃ r', c * r' ≤ r ∧ Q b r'

/-- A comparison asks at most `c` questions. -/
def Asks (c : Nat) (less : α → α → Prog α ι ω Bool) : Prop := ∀ x y, Spend (less x y) c fun _ _ => True

/-- A program that asks nothing. -/
def Silent (p : Prog α ι ω β) : Prop := ∀ B, Spend p B fun _ r => r = B

namespace Cost

variable {c B : Nat} {p : Prog α ι ω β} {Q : β → Nat → Prop}

theorem mono {Q' : β → Nat → Prop} (h : Cost c p B Q) (hQ : ∀ b r, Q b r → Q' b r) : Cost c p B Q' :=
  Spend.mono h fun b _ ⟨r', h1, h2⟩ => ⟨r', h1, hQ b r' h2⟩

theorem frame (h : Cost c p B Q) (F : Nat) : Cost c p (B + F) (fun b r => ∃ r', r = r' + F ∧ Q b r') := by
  have := Spend.frame h (c * F)
  unfold Cost
  rw [Nat.mul_add]
  refine Spend.mono this ?_
  rintro b _ ⟨r1, rfl, r2, h1, h2⟩
  exact ⟨r2 + F, by rw [Nat.mul_add]; omega, r2, rfl, h2⟩

/-- A bigger budget, the rest of which is left. -/
theorem more {B' : Nat} {Q' : β → Nat → Prop} (h : Cost c p B Q) (hB : B ≤ B') (hQ : ∀ b r, Q b r → Q' b (r + (B' - B))) :
    Cost c p B' Q' := by
  have := h.frame (B' - B)
  rw [show B + (B' - B) = B' by omega] at this
  refine this.mono ?_
  rintro b _ ⟨r, rfl, h⟩
  exact hQ b r h

/-- A bigger budget, the rest of which is wasted. -/
theorem weaken {B' : Nat} (h : Cost c p B Q) (hB : B ≤ B') : Cost c p B' Q := by
  obtain ⟨d, rfl⟩ := Nat.exists_eq_add_of_le hB
  have := Spend.frame h (c * d)
  unfold Cost
  rw [Nat.mul_add]
  refine Spend.mono this ?_
  rintro b _ ⟨r1, rfl, r2, h1, h2⟩
  exact ⟨r2, by omega, h2⟩

theorem bind {f : β → Prog α ι ω γ} {Q' : β → Nat → Prop} {Q : γ → Nat → Prop} (h : Cost c p B Q')
    (hf : ∀ b r, Q' b r → Cost c (f b) r Q) : Cost c (p >>= f) B Q := by
  refine Spend.bind (Spend.mono h ?_)
  rintro b r ⟨r', h1, h2⟩
  have := Spend.frame (hf b r' h2) (r - c * r')
  rw [show c * r' + (r - c * r') = r by omega] at this
  refine Spend.mono this ?_
  rintro g _ ⟨r1, rfl, r2, h3, h4⟩
  exact ⟨r2, by omega, h4⟩

/-- Pay `n` for the first part and keep `B'`; what is left over of `n` is wasted. -/
theorem bindN {f : β → Prog α ι ω γ} {n B' : Nat} {Q' : β → Prop} {Q : γ → Nat → Prop} (h : Cost c p n (fun b _ => Q' b))
    (hB : n + B' ≤ B) (hf : ∀ b, Q' b → Cost c (f b) B' Q) : Cost c (p >>= f) B Q :=
  (bind (h.frame B') (by rintro b _ ⟨r, rfl, h⟩; exact (hf b h).weaken (by omega))).weaken hB

theorem pure {b : β} (h : Q b B) : Cost c (Pure.pure b : Prog α ι ω β) B Q := ⟨B, Nat.le_refl _, h⟩

theorem pureB {b : β} {f : β → Prog α ι ω γ} {Q : γ → Nat → Prop} (h : Cost c (f b) B Q) :
    Cost c ((Pure.pure b : Prog α ι ω β) >>= f) B Q := h

theorem throw {e : Panic} : Cost c (Prog.throw e : Prog α ι ω β) B Q := trivial
theorem ub : Cost c (Prog.ub : Prog α ι ω β) B Q := trivial
theorem diverge : Cost c (Prog.diverge : Prog α ι ω β) B Q := trivial

theorem silent (h : Silent p) (hQ : ∀ b, Q b B) : Cost c p B Q :=
  Spend.mono (h (c * B)) fun b _ e => ⟨B, Nat.le_of_eq e.symm, hQ b⟩

theorem silentB {f : β → Prog α ι ω γ} {Q : γ → Nat → Prop} (h : Silent p) (hf : ∀ b, Cost c (f b) B Q) : Cost c (p >>= f) B Q :=
  bind (silent (Q := fun _ r => r = B) h fun _ => rfl) (by rintro b _ rfl; exact hf b)

theorem less {less : α → α → Prog α ι ω Bool} (hl : Asks c less) {x y : α} {Q : Bool → Nat → Prop} (h : ∀ b, Q b B) :
    Cost c (less x y) (B + 1) Q := by
  have := Spend.frame (hl x y) (c * B)
  unfold Cost
  rw [Nat.mul_add, Nat.mul_one, Nat.add_comm]
  refine Spend.mono this ?_
  rintro b _ ⟨r, rfl, _⟩
  exact ⟨B, by omega, h b⟩

theorem lessB {less : α → α → Prog α ι ω Bool} (hl : Asks c less) {x y : α} {k : Bool → Prog α ι ω β} (h : ∀ b, Cost c (k b) B Q) :
    Cost c (less x y >>= k) (B + 1) Q :=
  bind (Cost.less (Q := fun _ r => r = B) hl fun _ => rfl) (by rintro b _ rfl; exact h b)

theorem onPanic {g : Prog α ι ω Unit} (h : Cost c p B Q) (hg : Silent g) : Cost c (p.onPanic g) B Q :=
  Spend.onPanic h fun B => (hg B).mono fun _ _ _ => trivial

theorem loop {s r : Type} {body : s → Prog α ι ω (s ⊕ r)} {Inv : s → Nat → Prop} {Q : r → Nat → Prop} {n : Nat} {x : s} {B : Nat}
    (hI : Inv x B)
    (hb : ∀ x B, Inv x B → Cost c (body x) B (fun o r => match o with | .inl x' => Inv x' r | .inr y => Q y r)) :
    Cost c (Prog.loop body n x) B Q := by
  induction n generalizing x B with
  | zero => exact diverge
  | succ n ih =>
    refine bind (hb x B hI) ?_
    intro o r h
    cases o with
    | inl x' => exact ih h
    | inr y => exact pure h

theorem forUp {body : Nat → Prog α ι ω Unit} {Inv : Nat → Nat → Prop} {n a B : Nat} (hI : Inv a B)
    (hb : ∀ i B, a ≤ i → i < a + n → Inv i B → Cost c (body i) B (fun _ r => Inv (i + 1) r)) :
    Cost c (Prog.forUp body a n) B (fun _ r => Inv (a + n) r) := by
  induction n generalizing a B with
  | zero => exact pure hI
  | succ n ih =>
    refine bind (hb a B (Nat.le_refl _) (by omega) hI) ?_
    intro _ r h
    have := ih h (fun i B h1 h2 => hb i B (by omega) (by omega))
    rwa [show a + 1 + n = a + (n + 1) by omega] at this

theorem forDown {body : Nat → Prog α ι ω Unit} {Inv : Nat → Nat → Prop} {n a B : Nat} (hI : Inv (a + n) B)
    (hb : ∀ i B, a ≤ i → i < a + n → Inv (i + 1) B → Cost c (body i) B (fun _ r => Inv i r)) :
    Cost c (Prog.forDown body a n) B (fun _ r => Inv a r) := by
  induction n generalizing B with
  | zero => exact pure hI
  | succ n ih =>
    refine bind (hb (a + n) B (by omega) (by omega) hI) ?_
    intro _ r h
    exact ih h (fun i B h1 h2 => hb i B (by omega) (by omega))

theorem rayonJoin {p : Prog α ι ω β} {q : Prog α ι ω γ} {Q : β × γ → Nat → Prop} {B1 B2 : Nat} {Q1 : β → Nat → Prop} {Q2 : γ → Nat → Prop}
    (hB : B = B1 + B2) (h1 : Cost c p B1 Q1) (h2 : Cost c q B2 Q2) (hQ : ∀ b d r t, Q1 b r → Q2 d t → Q (b, d) (r + t)) :
    Cost c (Prog.rayonJoin p q) B Q := by
  refine ⟨c * B1, c * B2, 0, by rw [hB, Nat.mul_add]; rfl, _, _, h1, h2, ?_⟩
  intro r t x y hx hy
  cases r with
  | ok b =>
    cases t with
    | ok d =>
      obtain ⟨x', hx1, hx2⟩ := hx b rfl
      obtain ⟨y', hy1, hy2⟩ := hy d rfl
      exact ⟨x' + y', by rw [Nat.mul_add]; omega, hQ _ _ _ _ hx2 hy2⟩
    | panic => trivial
  | panic => trivial

variable {v : View}

theorem vget {i : Nat} {k : α → Prog α ι ω β} (h : ∀ x, i < v.len → Cost c (k x) B Q) : Cost c (v.get i >>= k) B Q := by
  unfold View.get
  split
  · rename_i hi; exact fun x => h x hi
  · trivial

theorem vidx {i : Nat} {k : α → Prog α ι ω β} (h : ∀ x, i < v.len → Cost c (k x) B Q) : Cost c (v.idx i >>= k) B Q := by
  unfold View.idx
  split
  · rename_i hi; exact fun x => h x hi
  · trivial

theorem vset {i : Nat} {x : α} {k : Unit → Prog α ι ω β} (h : i < v.len → Cost c (k ()) B Q) : Cost c (v.set i x >>= k) B Q := by
  unfold View.set
  split
  · rename_i hi; exact h hi
  · trivial

theorem vcset {i : Nat} {x : α} {k : Unit → Prog α ι ω β} (h : i < v.len → Cost c (k ()) B Q) : Cost c (v.cset i x >>= k) B Q := by
  unfold View.cset
  split
  · rename_i hi; exact h hi
  · trivial

theorem vref {i : Nat} {k : Addr → Prog α ι ω β} (h : i < v.len → Cost c (k (v.addr i)) B Q) : Cost c (v.ref i >>= k) B Q := by
  unfold View.ref
  split
  · rename_i hi; exact h hi
  · trivial

theorem usub {cfg : Cfg} {a b : Nat} {k : Nat → Prog α ι ω β} (hab : b ≤ a) (h : Cost c (k (a - b)) B Q) :
    Cost c (NdSlice.usub cfg a b >>= k) B Q := by
  unfold NdSlice.usub
  rw [if_pos hab]
  exact h

theorem debugAssert {cfg : Cfg} {d : Bool} {k : Unit → Prog α ι ω β} (h : Cost c (k ()) B Q) :
    Cost c (NdSlice.debugAssert cfg d >>= k) B Q := by
  unfold NdSlice.debugAssert
  split
  · trivial
  · exact h

theorem assertP {d : Bool} {k : Unit → Prog α ι ω β} (h : d = true → Cost c (k ()) B Q) : Cost c (NdSlice.assertP d >>= k) B Q := by
  unfold NdSlice.assertP
  split
  · rename_i hd; exact h hd
  · trivial

theorem splitAt {a : Nat} {k : View × View → Prog α ι ω β} (h : a ≤ v.len → Cost c (k (v.sub 0 a, v.sub a (v.len - a))) B Q) :
    Cost c (v.splitAt a >>= k) B Q := by
  unfold View.splitAt
  split
  · rename_i ha; exact h ha
  · trivial

theorem slice {a b : Nat} {k : View → Prog α ι ω β} (hab : a ≤ b) (h : b ≤ v.len → Cost c (k (v.sub a (b - a))) B Q) :
    Cost c (v.slice a b >>= k) B Q := by
  unfold View.slice
  rw [if_neg (Nat.not_lt.2 hab)]
  dsimp only
  split
  · rename_i ha; exact h ha.2
  · trivial

end Cost

/-! ### Programs that ask nothing -/

namespace Silent

theorem pure {b : β} : Silent (Pure.pure b : Prog α ι ω β) := fun _ => rfl
theorem throw {e : Panic} : Silent (Prog.throw e : Prog α ι ω β) := fun _ => trivial
theorem ub : Silent (Prog.ub : Prog α ι ω β) := fun _ => trivial
theorem diverge : Silent (Prog.diverge : Prog α ι ω β) := fun _ => trivial

theorem bind {p : Prog α ι ω β} {f : β → Prog α ι ω γ} (h : Silent p) (hf : ∀ b, Silent (f b)) : Silent (p >>= f) :=
  fun B => Spend.bind ((h B).mono (by rintro b _ rfl; exact hf b _))

theorem ite {d : Prop} [Decidable d] {p q : Prog α ι ω β} (h1 : Silent p) (h2 : Silent q) : Silent (if d then p else q) := by
  split
  · exact h1
  · exact h2

theorem loop {s r : Type} {body : s → Prog α ι ω (s ⊕ r)} {n : Nat} {x : s} (h : ∀ x, Silent (body x)) : Silent (Prog.loop body n x) := by
  induction n generalizing x with
  | zero => exact diverge
  | succ n ih =>
    refine bind (h x) fun o => ?_
    cases o with
    | inl x' => exact ih
    | inr y => exact pure

theorem forUp {body : Nat → Prog α ι ω Unit} {a n : Nat} (h : ∀ i, Silent (body i)) : Silent (Prog.forUp body a n) := by
  induction n generalizing a with
  | zero => exact pure
  | succ n ih => exact bind (h a) fun _ => ih

variable {v : View} {i j : Nat} {x : α} {cfg : Cfg}

theorem vget : Silent (v.get i : Prog α ι ω α) := by
  unfold View.get
  exact ite (fun _ _ => rfl) ub

theorem vidx : Silent (v.idx i : Prog α ι ω α) := by
  unfold View.idx
  exact ite (fun _ _ => rfl) throw

theorem vset : Silent (v.set i x : Prog α ι ω Unit) := by
  unfold View.set
  exact ite (fun _ => rfl) ub

theorem vcset : Silent (v.cset i x : Prog α ι ω Unit) := by
  unfold View.cset
  exact ite (fun _ => rfl) throw

theorem vref : Silent (v.ref i : Prog α ι ω Addr) := by
  unfold View.ref
  exact ite (fun _ => rfl) throw

theorem deref {a : Addr} : Silent (NdSlice.deref a : Prog α ι ω α) := fun _ _ => rfl

theorem swap : Silent (v.swap i j : Prog α ι ω Unit) := by
  unfold View.swap
  exact bind vidx fun _ => bind vidx fun _ => bind vset fun _ => vset

theorem uswap : Silent (v.uswap i j : Prog α ι ω Unit) := by
  unfold View.uswap
  exact bind vget fun _ => bind vget fun _ => bind vset fun _ => vset

theorem usub {a b : Nat} : Silent (NdSlice.usub cfg a b : Prog α ι ω Nat) := by
  unfold NdSlice.usub
  exact ite pure (ite throw pure)

theorem debugAssert {d : Bool} : Silent (NdSlice.debugAssert cfg d : Prog α ι ω Unit) := by
  unfold NdSlice.debugAssert
  exact ite throw pure

theorem assertP {d : Bool} : Silent (NdSlice.assertP d : Prog α ι ω Unit) := by
  unfold NdSlice.assertP
  exact ite pure throw

theorem splitAt {a : Nat} : Silent (v.splitAt a : Prog α ι ω (View × View)) := by
  unfold View.splitAt
  exact ite pure throw

theorem slice {a b : Nat} : Silent (v.slice a b : Prog α ι ω View) := by
  unfold View.slice
  dsimp only
  exact ite pure throw

end Silent

end NdSlice
