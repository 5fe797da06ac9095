import Verif.Core.Sem

/-
User code which reveals as little as possible.  There is a list of things it could be (`f t` gives the answers of `t`), it does not decide until it has to,
and gives to each question the answer that leaves more of them.
-/

namespace NdSlice

variable {α ι ω γ τ β : Type}

open Classical in
/-- The answer given by at least half of `T`, if all answers are `A q` or `B q`. -/
noncomputable def Oracle.common (f : γ → ι → ω) (A B : ι → ω) (T : List γ) (q : ι) : ω :=
  if T.length ≤ 2 * (T.filter fun t => decide (f t q = A q)).length then A q else B q

open Classical in
/-- See the top of this file; `flip` are the choices of the scheduler. -/
noncomputable def Oracle.adversary (f : γ → ι → ω) (A B : ι → ω) (flip : τ → Bool × τ) : Oracle (List γ × τ) ι ω where
  ask e q := (some (common f A B e.1 q), (e.1.filter fun t => decide (f t q = common f A B e.1 q), e.2))
  flip e := ((flip e.2).1, (e.1, (flip e.2).2))

open Classical in
theorem Oracle.common_half {f : γ → ι → ω} {A B : ι → ω} {T : List γ} {q : ι} (h : ∀ t ∈ T, f t q = A q ∨ f t q = B q) :
    T.length ≤ 2 * (T.filter fun t => decide (f t q = common f A B T q)).length := by
  unfold common
  split
  · assumption
  · rename_i hn
    have h1 := List.length_eq_countP_add_countP (p := fun t => decide (f t q = A q)) (l := T)
    have h2 : T.countP (fun t => decide ¬ decide (f t q = A q) = true) ≤ T.countP (fun t => decide (f t q = B q)) := by
      refine List.countP_mono_left fun t ht hp => ?_
      rcases h t ht with h | h
      · exact absurd h (by simpa using hp)
      · simpa using h
    rw [← List.countP_eq_length_filter] at hn ⊢
    omega

open Classical in
theorem Oracle.common_all {f : γ → ι → ω} {A B : ι → ω} {T : List γ} {q : ι} (h : ∀ t ∈ T, f t q = A q ∨ f t q = B q) (he : A q = B q) :
    (T.filter fun t => decide (f t q = common f A B T q)) = T := by
  refine List.filter_eq_self.mpr fun t ht => decide_eq_true ?_
  unfold common
  rw [← he, ite_self]
  rcases h t ht with h | h
  · exact h
  · rw [h, he]

section

variable {f : γ → ι → ω} {A B : ι → ω} {flip : τ → Bool × τ} {S : List γ} {cost : ι → Bool} {l0 : List (ι × Option ω)}

/-- What is left of `S` agrees with all answers, and is much if few questions with more than one possible answer (`cost`) have been asked. -/
def Undecided (f : γ → ι → ω) (S : List γ) (cost : ι → Bool) (l0 : List (ι × Option ω)) (s : St α ι ω (List γ × τ)) : Prop :=
  ∃ d, s.log = l0 ++ d ∧ s.env.1.Sublist S ∧ (∀ t ∈ s.env.1, ∀ x ∈ d, x.2 = some (f t x.1)) ∧
    S.length ≤ s.env.1.length * 2 ^ d.countP fun x => cost x.1

open Classical in
theorem Undecided.step (hAB : ∀ t ∈ S, ∀ q, f t q = A q ∨ f t q = B q) (hc : ∀ q, cost q = false → A q = B q) {p p' : Prog α ι ω β}
    {s s' : St α ι ω (List γ × τ)} (hs : Step (.adversary f A B flip) p s p' s') (h : Undecided f S cost l0 s) : Undecided f S cost l0 s' := by
  induction hs with
  | get a k s => exact h
  | set a x k s => exact h
  | call q k s =>
    obtain ⟨d, h1, h2, h3, h4⟩ := h
    have hT : ∀ t ∈ s.env.1, f t q = A q ∨ f t q = B q := fun t ht => hAB t (h2.subset ht) q
    refine ⟨d ++ [(q, some (Oracle.common f A B s.env.1 q))], ?_, ?_, ?_, ?_⟩
    · show s.log ++ _ = _
      rw [h1, List.append_assoc]
      rfl
    · exact List.filter_sublist.trans h2
    · intro t ht x hx
      obtain ⟨g1, g2⟩ := List.mem_filter.mp ht
      rcases List.mem_append.mp hx with hx | hx
      · exact h3 t g1 x hx
      · rw [List.mem_singleton.mp hx]
        exact congrArg some (of_decide_eq_true g2).symm
    · show S.length ≤ (List.filter _ s.env.1).length * _
      rw [List.countP_append, List.countP_singleton]
      dsimp only
      cases hq : cost q with
      | true =>
        have := Oracle.common_half hT
        rw [if_pos rfl, Nat.pow_succ]
        refine Nat.le_trans h4 ?_
        rw [Nat.mul_comm (2 ^ _) 2, ← Nat.mul_assoc]
        exact Nat.mul_le_mul_right _ (by omega)
      | false =>
        rw [Oracle.common_all hT (hc q hq), if_neg (by decide), Nat.add_zero]
        exact h4
  | choose k s => exact h
  | joinL _ _ _ _ _ _ _ ih => exact ih h
  | joinR _ _ _ _ _ _ _ ih => exact ih h
  | joinEnd _ _ _ _ _ _ _ _ => exact h

theorem Undecided.steps (hAB : ∀ t ∈ S, ∀ q, f t q = A q ∨ f t q = B q) (hc : ∀ q, cost q = false → A q = B q) {p p' : Prog α ι ω β}
    {s s' : St α ι ω (List γ × τ)} (hs : Steps (.adversary f A B flip) p s p' s') (he : s.env.1 = S) : Undecided f S cost s.log s' := by
  induction hs with
  | refl => exact ⟨[], (List.append_nil _).symm, by rw [he]; exact List.Sublist.refl S, by simp, by rw [he]; simp⟩
  | tail _ h2 ih => exact ih.step hAB hc h2

end

end NdSlice
