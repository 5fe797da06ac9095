import Verif.Core.PathW

/-
Paths with tasks: `PathP R w p m Q` says that with memory `m` the program `p` returns `b` after exactly `n` questions with memory `m'` such that
`Q b n m'`, on every schedule, whatever is answered (as long as `R` allows it) and whatever the environment chooses.  Without `w` it writes
nothing; tasks never write.
-/

namespace NdSlice

variable {α ι ω σ β γ : Type} {R : ι → Option ω → Prop} {w : Bool} {m : Mem α}

/-- See the top of this file. -/
def PathP (R : ι → Option ω → Prop) {β : Type} : Prog α ι ω β → Bool → Mem α → (β → Nat → Mem α → Prop) → Prop
  | .ret b, _, m, Q => Q b 0 m
  | .get a k, w, m, Q => PathP R (k (m a)) w m Q
  | .set a x k, w, m, Q => w = true ∧ PathP R k w (upd m a x) Q
  | .call q k, w, m, Q => ∀ r, R q r → PathP R (k r) w m fun b n => Q b (n + 1)
  | .choose k, w, m, Q => ∀ b, PathP R (k b) w m Q
  | .throw _, _, _, _ => False
  | .ub, _, _, _ => False
  | .diverge, _, _, _ => False
  | .join (β := β) (γ := γ) p q k, w, m, Q =>
    ∃ (P1 : β → Nat → Prop) (P2 : γ → Nat → Prop), PathP R p false m (fun b n _ => P1 b n) ∧ PathP R q false m (fun b n _ => P2 b n) ∧
      ∀ r t n1 n2, P1 r n1 → P2 t n2 → PathP R (k (.ok r) (.ok t)) w m fun b n => Q b (n1 + n2 + n)

namespace PathP

theorem mono {p : Prog α ι ω β} {Q Q' : β → Nat → Mem α → Prop} (h : PathP R p w m Q) (hQ : ∀ b n m', Q b n m' → Q' b n m') :
    PathP R p w m Q' := by
  induction p generalizing m w with
  | ret b => exact hQ _ _ _ h
  | get a k ih => exact ih _ h hQ
  | set a x k ih => exact ⟨h.1, ih h.2 hQ⟩
  | call q k ih => exact fun r hr => ih r (h r hr) fun b n m' => hQ b (n + 1) m'
  | choose k ih => exact fun b => ih b (h b) hQ
  | throw => exact h.elim
  | ub => exact h.elim
  | diverge => exact h.elim
  | join p q k ihp ihq ihk =>
    obtain ⟨P1, P2, h1, h2, h3⟩ := h
    exact ⟨P1, P2, h1, h2, fun r t n1 n2 hr ht => ihk _ _ (h3 r t n1 n2 hr ht) fun b n m' => hQ b _ m'⟩

theorem bind {p : Prog α ι ω β} {f : β → Prog α ι ω γ} {Q : β → Nat → Mem α → Prop} {Q' : γ → Nat → Mem α → Prop}
    (h : PathP R p w m Q) (hf : ∀ b n m', Q b n m' → PathP R (f b) w m' fun c k => Q' c (n + k)) : PathP R (p >>= f) w m Q' := by
  show PathP R (p.bind f) w m Q'
  induction p generalizing m w Q' with
  | ret b => exact (hf _ _ _ h).mono fun b n m' h => by simpa using h
  | get a k ih => exact ih _ h hf
  | set a x k ih => exact ⟨h.1, ih h.2 hf⟩
  | call q k ih =>
    exact fun r hr => ih r (h r hr) fun b n m' hb => (hf _ _ _ hb).mono fun c k m' h => by
      rwa [show n + k + 1 = n + 1 + k by omega]
  | choose k ih => exact fun b => ih b (h b) hf
  | throw => exact h.elim
  | ub => exact h.elim
  | diverge => exact h.elim
  | join p q k ihp ihq ihk =>
    obtain ⟨P1, P2, h1, h2, h3⟩ := h
    exact ⟨P1, P2, h1, h2, fun r t n1 n2 hr ht => ihk _ _ (h3 r t n1 n2 hr ht) fun b n m' hb => (hf _ _ _ hb).mono fun c k m' h => by
      rwa [show n1 + n2 + (n + k) = n1 + n2 + n + k by omega]⟩

theorem pure {b : β} {Q : β → Nat → Mem α → Prop} (h : Q b 0 m) : PathP R (Pure.pure b : Prog α ι ω β) w m Q := h

theorem of_path {p : Prog α ι ω β} {b : β} {n : Nat} (h : Path R m p b n) : PathP R p w m fun b' n' m' => b' = b ∧ n' = n ∧ m' = m := by
  induction p generalizing n with
  | ret b' => exact ⟨h.1, h.2.symm, rfl⟩
  | get a k ih => exact ih _ h
  | call q k ih =>
    obtain ⟨n', rfl, h⟩ := h
    exact fun r hr => (ih r (h r hr)).mono fun b n m' h => ⟨h.1, by omega, h.2.2⟩
  | set => exact h.elim
  | choose => exact h.elim
  | throw => exact h.elim
  | ub => exact h.elim
  | diverge => exact h.elim
  | join => exact h.elim

theorem of_pathW {p : Prog α ι ω β} {b : β} {n : Nat} {m1 : Mem α} (h : PathW R m p b n m1) :
    PathP R p true m fun b' n' m' => b' = b ∧ n' = n ∧ m' = m1 := by
  induction p generalizing n m with
  | ret b' => exact ⟨h.1, h.2.1.symm, h.2.2.symm⟩
  | get a k ih => exact ih _ h
  | set a x k ih => exact ⟨rfl, ih h⟩
  | call q k ih =>
    obtain ⟨n', rfl, h⟩ := h
    exact fun r hr => (ih r (h r hr)).mono fun b n m' h => ⟨h.1, by omega, h.2.2⟩
  | choose => exact h.elim
  | throw => exact h.elim
  | ub => exact h.elim
  | diverge => exact h.elim
  | join => exact h.elim

/-- Without writes the memory stays the same. -/
theorem same {p : Prog α ι ω β} {Q : β → Nat → Mem α → Prop} (h : PathP R p false m Q) : PathP R p false m fun b n m' => Q b n m' ∧ m' = m := by
  induction p generalizing m with
  | ret b => exact ⟨h, rfl⟩
  | get a k ih => exact ih _ h
  | set a x k ih => exact absurd h.1 (by decide)
  | call q k ih => exact fun r hr => ih r (h r hr)
  | choose k ih => exact fun b => ih b (h b)
  | throw => exact h.elim
  | ub => exact h.elim
  | diverge => exact h.elim
  | join p q k ihp ihq ihk =>
    obtain ⟨P1, P2, h1, h2, h3⟩ := h
    exact ⟨P1, P2, h1, h2, fun r t n1 n2 hr ht => ihk _ _ (h3 r t n1 n2 hr ht)⟩

/-- A program which writes nothing, where writing is allowed. -/
theorem weaken {p : Prog α ι ω β} {Q : β → Nat → Mem α → Prop} (h : PathP R p false m Q) : PathP R p w m fun b n m' => Q b n m' ∧ m' = m := by
  induction p generalizing m with
  | ret b => exact ⟨h, rfl⟩
  | get a k ih => exact ih _ h
  | set a x k ih => exact absurd h.1 (by decide)
  | call q k ih => exact fun r hr => ih r (h r hr)
  | choose k ih => exact fun b => ih b (h b)
  | throw => exact h.elim
  | ub => exact h.elim
  | diverge => exact h.elim
  | join p q k ihp ihq ihk =>
    obtain ⟨P1, P2, h1, h2, h3⟩ := h
    exact ⟨P1, P2, h1, h2, fun r t n1 n2 hr ht => ihk _ _ (h3 r t n1 n2 hr ht)⟩

theorem rayonJoin {p : Prog α ι ω β} {q : Prog α ι ω γ} {P1 : β → Nat → Mem α → Prop} {P2 : γ → Nat → Mem α → Prop}
    {Q : β × γ → Nat → Mem α → Prop} (hp : PathP R p false m P1) (hq : PathP R q false m P2)
    (h : ∀ b c n1 n2, P1 b n1 m → P2 c n2 m → Q (b, c) (n1 + n2) m) : PathP R (p.rayonJoin q) w m Q := by
  refine ⟨fun b n => P1 b n m, fun c n => P2 c n m, hp.same.mono ?_, hq.same.mono ?_, fun r t n1 n2 hr ht => ?_⟩
  · rintro b n m' ⟨h, e⟩; exact e ▸ h
  · rintro b n m' ⟨h, e⟩; exact e ▸ h
  · exact h r t n1 n2 hr ht

/-- One step of any schedule; `k` is what has been asked before. -/
theorem step {o : Oracle σ ι ω} (ho : o.Sat R) {p p' : Prog α ι ω β} {s s' : St α ι ω σ} (hs : Step o p s p' s') {w : Bool}
    {Q : β → Nat → Mem α → Prop} (h : PathP R p w s.mem Q) :
    ∃ d, s'.log.length = s.log.length + d ∧ (PathP R p' w s'.mem fun b n => Q b (d + n)) ∧ (w = false → s'.mem = s.mem) := by
  induction hs generalizing w with
  | get a k s => exact ⟨0, rfl, PathP.mono (p := k (s.mem a)) h fun b n m' h => by simpa using h, fun _ => rfl⟩
  | set a x k s => exact ⟨0, rfl, by simpa using h.2, fun hw => absurd (h.1.symm.trans hw) (by decide)⟩
  | call q k s =>
    refine ⟨1, by simp, (h _ (ho _ _)).mono fun b n m' h => ?_, fun _ => rfl⟩
    rwa [Nat.add_comm]
  | choose k s => exact ⟨0, rfl, by simpa using h _, fun _ => rfl⟩
  | joinL p p' q k s s' _ ih =>
    obtain ⟨P1, P2, h1, h2, h3⟩ := h
    obtain ⟨d, e1, e2, e3⟩ := ih h1
    rw [e3 rfl] at e2
    refine ⟨d, e1, ?_, fun _ => e3 rfl⟩
    rw [e3 rfl]
    refine ⟨fun b n => P1 b (d + n), P2, e2, h2, fun r t n1 n2 hr ht => (h3 r t _ n2 hr ht).mono fun b n m' h => ?_⟩
    show Q b (d + (n1 + n2 + n)) m'
    rwa [show d + (n1 + n2 + n) = d + n1 + n2 + n by omega]
  | joinR p q q' k s s' _ ih =>
    obtain ⟨P1, P2, h1, h2, h3⟩ := h
    obtain ⟨d, e1, e2, e3⟩ := ih h2
    rw [e3 rfl] at e2
    refine ⟨d, e1, ?_, fun _ => e3 rfl⟩
    rw [e3 rfl]
    refine ⟨P1, fun b n => P2 b (d + n), h1, e2, fun r t n1 n2 hr ht => (h3 r t n1 _ hr ht).mono fun b n m' h => ?_⟩
    show Q b (d + (n1 + n2 + n)) m'
    rwa [show d + (n1 + n2 + n) = n1 + (d + n2) + n by omega]
  | joinEnd p q k s r t hr ht =>
    obtain ⟨P1, P2, h1, h2, h3⟩ := h
    cases hr with
    | throw => exact h1.elim
    | ret b =>
      cases ht with
      | throw => exact h2.elim
      | ret c => exact ⟨0, rfl, (h3 _ _ _ _ h1 h2).mono fun b n m' h => by simpa using h, fun _ => rfl⟩

/-- Every schedule. -/
theorem steps {o : Oracle σ ι ω} (ho : o.Sat R) {p p' : Prog α ι ω β} {s s' : St α ι ω σ} (hs : Steps o p s p' s') {w : Bool}
    {Q : β → Nat → Mem α → Prop} (h : PathP R p w s.mem Q) :
    ∃ d, s'.log.length = s.log.length + d ∧ (PathP R p' w s'.mem fun b n => Q b (d + n)) ∧ (w = false → s'.mem = s.mem) := by
  induction hs with
  | refl => exact ⟨0, rfl, by simpa using h, fun _ => rfl⟩
  | tail _ hs ih =>
    obtain ⟨d, e1, e2, e3⟩ := ih
    obtain ⟨d', f1, f2, f3⟩ := step ho hs e2
    exact ⟨d + d', by omega, f2.mono fun b n m' h => by rwa [Nat.add_assoc], fun hw => (f3 hw).trans (e3 hw)⟩

/-- The end of every schedule. -/
theorem ended {o : Oracle σ ι ω} (ho : o.Sat R) {p p' : Prog α ι ω β} {s s' : St α ι ω σ} (hs : Steps o p s p' s') {w : Bool}
    {Q : β → Nat → Mem α → Prop} (h : PathP R p w s.mem Q) {r : Res β} (hr : Ended p' r) :
    ∃ b d, r = .ok b ∧ s'.log.length = s.log.length + d ∧ Q b d s'.mem := by
  obtain ⟨d, e1, e2, -⟩ := steps ho hs h
  cases hr with
  | throw => exact e2.elim
  | ret b => exact ⟨b, d, rfl, e1, e2⟩

end PathP

end NdSlice
