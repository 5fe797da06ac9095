import Verif.Core.Sem

/-
Soundness of `wp` for the two operational semantics, race freedom, and termination of every
schedule.
-/

namespace NdSlice

variable {α ι ω σ : Type}

/-- Every answer of the oracle is allowed by `R`. -/
def Oracle.Sat (o : Oracle σ ι ω) (R : ι → Option ω → Prop) : Prop := ∀ s q, R q (o.ask s q).1

theorem wp_mono {R : ι → Option ω → Prop} {β : Type} {p : Prog α ι ω β} {F F' : Addr → Prop}
    {Q Q' : β → Mem α → List (ι × Option ω) → Prop} {E E' : Panic → Mem α → List (ι × Option ω) → Prop} {m : Mem α} {lg : List (ι × Option ω)}
    (h : wp R p F Q E m lg) (hF : ∀ a, F a → F' a) (hQ : ∀ b m lg, Q b m lg → Q' b m lg)
    (hE : ∀ e m lg, E e m lg → E' e m lg) : wp R p F' Q' E' m lg := by
  induction p generalizing m lg with
  | ret b => exact hQ _ _ _ h
  | get a k ih => exact ⟨hF _ h.1, ih _ h.2 hQ⟩
  | set a x k ih => exact ⟨hF _ h.1, ih h.2 hQ⟩
  | call q k ih => exact fun r hr => ih r (h r hr) hQ
  | choose k ih => exact fun b => ih b (h b) hQ
  | throw e => exact hE _ _ _ h
  | ub => exact h
  | diverge => exact h
  | join p q k ihp ihq ihk =>
    obtain ⟨F1, F2, h1, h2, hd, P1, P2, hp, hq, hk⟩ := h
    refine ⟨F1, F2, fun a ha => hF _ (h1 a ha), fun a ha => hF _ (h2 a ha), hd, P1, P2, hp, hq, ?_⟩
    intro r t m1 m2 l1 l2 hP1 hP2 m' d e1 e2 e3 e4
    exact ihk r t (hk r t m1 m2 l1 l2 hP1 hP2 m' d e1 e2 e3 e4) hQ

/-- Memory `x` on the footprint, `m` elsewhere. -/
noncomputable def patch (F : Addr → Prop) (x m : Mem α) : Mem α := fun a =>
  open Classical in if F a then x a else m a

theorem patch_in {F : Addr → Prop} {x m : Mem α} {a : Addr} (h : F a) : patch F x m a = x a := by
  simp [patch, h]
theorem patch_out {F : Addr → Prop} {x m : Mem α} {a : Addr} (h : ¬ F a) : patch F x m a = m a := by
  simp [patch, h]

theorem patch_eq {F : Addr → Prop} {m m' m0 : Mem α} (hm : ∀ a, F a → m' a = m a)
    (h0 : ∀ a, ¬ F a → m a = m0 a) : patch F m' m0 = m := by
  funext a
  by_cases ha : F a
  · rw [patch_in ha, hm a ha]
  · rw [patch_out ha, h0 a ha]

theorem upd_in {F : Addr → Prop} {m m' : Mem α} {a : Addr} {x : α}
    (hm : ∀ a, F a → m' a = m a) : ∀ b, F b → upd m' a x b = upd m a x b := by
  intro b hb; unfold upd; split
  · rfl
  · exact hm b hb

theorem upd_out {F : Addr → Prop} {m m0 : Mem α} {a : Addr} {x : α} (h : F a)
    (hm0 : ∀ a, ¬ F a → m a = m0 a) : ∀ b, ¬ F b → upd m a x b = m0 b := by
  intro b hb; unfold upd
  have hne : b ≠ a := fun e => hb (by rw [e]; exact h)
  rw [if_neg hne]; exact hm0 b hb

/-- The frame property: a program only sees its footprint; anything else in memory can be replaced. -/
theorem wp_frame {R : ι → Option ω → Prop} {β : Type} {p : Prog α ι ω β} {F : Addr → Prop}
    {Q : β → Mem α → List (ι × Option ω) → Prop} {E : Panic → Mem α → List (ι × Option ω) → Prop} {m m' m0 m0' : Mem α} {lg : List (ι × Option ω)}
    (h : wp R p F Q E m lg) (hm : ∀ a, F a → m' a = m a) (h0 : ∀ a, ¬ F a → m a = m0 a)
    (h0' : ∀ a, ¬ F a → m' a = m0' a) :
    wp R p F (fun b x lg => Q b (patch F x m0) lg ∧ ∀ a, ¬ F a → x a = m0' a)
      (fun e x lg => E e (patch F x m0) lg ∧ ∀ a, ¬ F a → x a = m0' a) m' lg := by
  induction p generalizing m m' m0 m0' lg F E with
  | ret b => exact ⟨by rw [patch_eq hm h0]; exact h, h0'⟩
  | get a k ih => exact ⟨h.1, by rw [hm a h.1]; exact ih _ h.2 hm h0 h0'⟩
  | set a x k ih =>
    exact ⟨h.1, ih h.2 (upd_in hm) (upd_out h.1 h0) (upd_out h.1 h0')⟩
  | call q k ih => exact fun r hr => ih r (h r hr) hm h0 h0'
  | choose k ih => exact fun b => ih b (h b) hm h0 h0'
  | throw e => exact ⟨by rw [patch_eq hm h0]; exact h, h0'⟩
  | ub => exact h
  | diverge => exact h
  | join p q k ihp ihq ihk =>
    obtain ⟨F1, F2, h1, h2, hd, P1, P2, hp, hq, hk⟩ := h
    have hp' := ihp hp (fun a ha => hm a (h1 a ha)) (m0 := m) (fun _ _ => rfl) (m0' := m') (fun _ _ => rfl)
    have hq' := ihq hq (fun a ha => hm a (h2 a ha)) (m0 := m) (fun _ _ => rfl) (m0' := m') (fun _ _ => rfl)
    refine ⟨F1, F2, h1, h2, hd, fun r x l => P1 r (patch F1 x m) l ∧ ∀ a, ¬ F1 a → x a = m' a,
      fun r x l => P2 r (patch F2 x m) l ∧ ∀ a, ¬ F2 a → x a = m' a, hp', hq', ?_⟩
    rintro r t x1 x2 l1 l2 ⟨hP1, _⟩ ⟨hP2, _⟩ M d e1 e2 e3 e4
    have hk' := hk r t _ _ l1 l2 hP1 hP2 (patch F M m0) d
      (fun a ha => by rw [patch_in (h1 a ha), patch_in ha, e1 a ha])
      (fun a ha => by rw [patch_in (h2 a ha), patch_in ha, e2 a ha])
      (fun a n1 n2 => by
        by_cases ha : F a
        · rw [patch_in ha, e3 a n1 n2, hm a ha]
        · rw [patch_out ha, h0 a ha]) e4
    refine ihk r t hk' (fun a ha => (patch_in ha).symm) (fun a ha => patch_out ha) ?_
    intro a ha
    rw [e3 a (fun h => ha (h1 a h)) (fun h => ha (h2 a h)), h0' a ha]

/-- Nothing outside the footprint changes. -/
theorem wp_unchanged {R : ι → Option ω → Prop} {β : Type} {p : Prog α ι ω β} {F : Addr → Prop}
    {Q : β → Mem α → List (ι × Option ω) → Prop} {E : Panic → Mem α → List (ι × Option ω) → Prop} {m : Mem α} {lg : List (ι × Option ω)}
    (h : wp R p F Q E m lg) :
    wp R p F (fun b x lg => Q b x lg ∧ ∀ a, ¬ F a → x a = m a)
      (fun e x lg => E e x lg ∧ ∀ a, ¬ F a → x a = m a) m lg := by
  refine wp_mono (wp_frame h (m' := m) (m0 := m) (m0' := m) (fun _ _ => rfl) (fun _ _ => rfl) (fun _ _ => rfl))
    (fun _ h => h) ?_ ?_
  · rintro b x l ⟨h1, h2⟩
    exact ⟨by rwa [patch_eq (fun _ _ => rfl) h2] at h1, h2⟩
  · rintro b x l ⟨h1, h2⟩
    exact ⟨by rwa [patch_eq (fun _ _ => rfl) h2] at h1, h2⟩

/-- The questions asked earlier do not matter for what happens next. -/
theorem wp_log {R : ι → Option ω → Prop} {β : Type} {p : Prog α ι ω β} {F : Addr → Prop}
    {Q : β → Mem α → List (ι × Option ω) → Prop} {E : Panic → Mem α → List (ι × Option ω) → Prop} {m : Mem α} {l0 l1 lg : List (ι × Option ω)}
    (h : wp R p F Q E m (l0 ++ lg)) :
    wp R p F (fun b x l => ∃ l', l = l1 ++ l' ∧ Q b x (l0 ++ l')) (fun e x l => ∃ l', l = l1 ++ l' ∧ E e x (l0 ++ l'))
      m (l1 ++ lg) := by
  induction p generalizing m lg F E with
  | ret b => exact ⟨lg, rfl, h⟩
  | get a k ih => exact ⟨h.1, ih _ h.2⟩
  | set a x k ih => exact ⟨h.1, ih h.2⟩
  | call q k ih =>
    intro r hr
    rw [List.append_assoc]
    exact ih r (by rw [← List.append_assoc]; exact h r hr)
  | choose k ih => exact fun b => ih b (h b)
  | throw e => exact ⟨lg, rfl, h⟩
  | ub => exact h
  | diverge => exact h
  | join p q k ihp ihq ihk =>
    obtain ⟨F1, F2, h1, h2, hd, P1, P2, hp, hq, hk⟩ := h
    refine ⟨F1, F2, h1, h2, hd, P1, P2, hp, hq, ?_⟩
    intro r t x1 x2 a1 a2 hP1 hP2 M d e1 e2 e3 e4
    have hk' := hk r t x1 x2 a1 a2 hP1 hP2 M d e1 e2 e3 e4
    rw [List.append_assoc] at hk' ⊢
    exact ihk r t hk'

/-- Sequential soundness: a run from a state satisfying `wp` ends normally in `Q` or panics in `E`. -/
theorem run_sound {R : ι → Option ω → Prop} {o : Oracle σ ι ω} (ho : o.Sat R) {β : Type} {p : Prog α ι ω β}
    {F : Addr → Prop} {Q : β → Mem α → List (ι × Option ω) → Prop} {E : Panic → Mem α → List (ι × Option ω) → Prop} {s : St α ι ω σ}
    (h : wp R p F Q E s.mem s.log) :
    (∃ b s', run o p s = (.ok b, s') ∧ Q b s'.mem s'.log) ∨
    (∃ e s', run o p s = (.panic e, s') ∧ E e s'.mem s'.log) := by
  induction p generalizing s F E with
  | ret b => exact .inl ⟨b, s, rfl, h⟩
  | get a k ih => exact ih _ h.2
  | set a x k ih => exact ih (s := { s with mem := upd s.mem a x }) h.2
  | call q k ih =>
    exact ih _ (s := { s with env := (o.ask s.env q).2, log := s.log ++ [(q, (o.ask s.env q).1)] }) (h _ (ho _ _))
  | choose k ih => exact ih _ (s := { s with env := (o.flip s.env).2 }) (h _)
  | throw e => exact .inr ⟨e, s, rfl, h⟩
  | ub => exact h.elim
  | diverge => exact h.elim
  | join p q k ihp ihq ihk =>
    obtain ⟨F1, F2, h1, h2, hd, P1, P2, hp, hq, hk⟩ := h
    -- run of `p`
    have hp := wp_log (l0 := []) (l1 := s.log) (wp_unchanged hp)
    rw [List.append_nil] at hp
    have key : ∀ (r : Res _) (s1 : St α ι ω σ) (l1 : List (ι × Option ω)), s1.log = s.log ++ l1 →
        (P1 r s1.mem l1) → (∀ a, ¬ F1 a → s1.mem a = s.mem a) →
        ((∃ c s2, run o q s1 = (.ok c, s2) ∧ wp R (k r (.ok c)) F Q E s2.mem s2.log) ∨
         (∃ e s2, run o q s1 = (.panic e, s2) ∧ wp R (k r (.panic e)) F Q E s2.mem s2.log)) := by
      intro r s1 l1 hl hP hu
      have hq' := wp_log (l0 := []) (l1 := s1.log) (wp_frame hq (m' := s1.mem) (m0 := s.mem) (m0' := s1.mem)
        (fun a ha => hu a (fun h => hd a h ha)) (fun _ _ => rfl) (fun _ _ => rfl))
      rw [List.append_nil] at hq'
      rcases ihq hq' with ⟨c, s2, hr, l2, hl2, hP2, hu2⟩ | ⟨c, s2, hr, l2, hl2, hP2, hu2⟩
      · refine .inl ⟨c, s2, hr, ?_⟩
        rw [hl2, hl, List.append_assoc]
        refine hk r (.ok c) _ _ l1 l2 hP hP2 _ _ ?_ ?_ ?_ (by simp)
        · exact fun a ha => hu2 a (hd a ha)
        · exact fun a ha => (patch_in ha).symm
        · exact fun a n1 n2 => (hu2 a n2).trans (hu a n1)
      · refine .inr ⟨c, s2, hr, ?_⟩
        rw [hl2, hl, List.append_assoc]
        refine hk r (.panic c) _ _ l1 l2 hP hP2 _ _ ?_ ?_ ?_ (by simp)
        · exact fun a ha => hu2 a (hd a ha)
        · exact fun a ha => (patch_in ha).symm
        · exact fun a n1 n2 => (hu2 a n2).trans (hu a n1)
    rcases ihp hp with ⟨b, s1, hr, l1, hl1, hP1, hu1⟩ | ⟨b, s1, hr, l1, hl1, hP1, hu1⟩ <;>
    rcases key _ s1 l1 hl1 hP1 hu1 with ⟨c, s2, hr2, hw⟩ | ⟨c, s2, hr2, hw⟩ <;>
    · simp only [run, hr, hr2]
      exact ihk _ _ hw

/-- One step keeps `wp`, on a memory which agrees on the footprint. -/
theorem step_wp {R : ι → Option ω → Prop} {o : Oracle σ ι ω} (ho : o.Sat R) {β : Type} {p p' : Prog α ι ω β}
    {s s' : St α ι ω σ} (hs : Step o p s p' s')
    {F : Addr → Prop} {Q : β → Mem α → List (ι × Option ω) → Prop} {E : Panic → Mem α → List (ι × Option ω) → Prop}
    {m : Mem α} {lg : List (ι × Option ω)} (h : wp R p F Q E m lg) (hm : ∀ a, F a → s.mem a = m a) :
    ∃ m' d d', wp R p' F Q E m' (lg ++ d) ∧ (∀ a, F a → s'.mem a = m' a) ∧ (∀ a, ¬ F a → m' a = m a) ∧
      (∀ a, ¬ F a → s'.mem a = s.mem a) ∧ s'.log = s.log ++ d' ∧ d.Perm d' := by
  induction hs generalizing F E m lg with
  | get a k s =>
    refine ⟨m, [], [], ?_, hm, fun _ _ => rfl, fun _ _ => rfl, by simp, .refl _⟩
    rw [List.append_nil, hm a h.1]; exact h.2
  | set a x k s =>
    refine ⟨upd m a x, [], [], ?_, upd_in hm, upd_out h.1 (fun _ _ => rfl), upd_out h.1 (fun _ _ => rfl), by simp, .refl _⟩
    rw [List.append_nil]; exact h.2
  | call q k s => exact ⟨m, [(q, (o.ask s.env q).1)], [(q, (o.ask s.env q).1)], h _ (ho _ _), hm, fun _ _ => rfl, fun _ _ => rfl, rfl, .refl _⟩
  | choose k s =>
    refine ⟨m, [], [], ?_, hm, fun _ _ => rfl, fun _ _ => rfl, by simp, .refl _⟩
    rw [List.append_nil]; exact h _
  | joinL p p' q k s s' _ ih =>
    obtain ⟨F1, F2, h1, h2, hd, P1, P2, hp, hq, hk⟩ := h
    obtain ⟨m', d, d', w, a1, a2, a3, a4, a5⟩ := ih hp (fun a ha => hm a (h1 a ha))
    have hp' := wp_log (l0 := d) (l1 := []) (lg := []) (by simpa using w)
    have hq' := wp_frame hq (m' := m') (m0 := m) (m0' := m')
      (fun a ha => a2 a (fun h => hd a h ha)) (fun _ _ => rfl) (fun _ _ => rfl)
    refine ⟨m', d, d', ⟨F1, F2, h1, h2, hd, fun r x l => P1 r x (d ++ l),
      fun r x l => P2 r (patch F2 x m) l ∧ ∀ a, ¬ F2 a → x a = m' a, ?_, hq', ?_⟩, ?_, ?_, ?_, a4, a5⟩
    · refine wp_mono hp' (fun _ h => h) ?_ ?_
      · rintro b x l ⟨l', rfl, h⟩; exact h
      · rintro b x l ⟨l', rfl, h⟩; exact h
    · rintro r t x1 x2 l1 l2 hP1 ⟨hP2, _⟩ M e e1 e2 e3 e4
      rw [List.append_assoc]
      refine hk r t x1 _ (d ++ l1) l2 hP1 hP2 M (d ++ e) e1 ?_ ?_ ?_
      · intro a ha; rw [e2 a ha, patch_in ha]
      · intro a n1 n2; rw [e3 a n1 n2, a2 a n1]
      · rw [List.append_assoc]; exact e4.append_left d
    · intro a ha
      by_cases hf : F1 a
      · exact a1 a hf
      · rw [a3 a hf, a2 a hf, hm a ha]
    · exact fun a ha => a2 a (fun h => ha (h1 a h))
    · exact fun a ha => a3 a (fun h => ha (h1 a h))
  | joinR p q q' k s s' _ ih =>
    obtain ⟨F1, F2, h1, h2, hd, P1, P2, hp, hq, hk⟩ := h
    obtain ⟨m', d, d', w, a1, a2, a3, a4, a5⟩ := ih hq (fun a ha => hm a (h2 a ha))
    have hq' := wp_log (l0 := d) (l1 := []) (lg := []) (by simpa using w)
    have hp' := wp_frame hp (m' := m') (m0 := m) (m0' := m')
      (fun a ha => a2 a (fun h => hd a ha h)) (fun _ _ => rfl) (fun _ _ => rfl)
    refine ⟨m', d, d', ⟨F1, F2, h1, h2, hd, fun r x l => P1 r (patch F1 x m) l ∧ ∀ a, ¬ F1 a → x a = m' a,
      fun r x l => P2 r x (d ++ l), hp', ?_, ?_⟩, ?_, ?_, ?_, a4, a5⟩
    · refine wp_mono hq' (fun _ h => h) ?_ ?_
      · rintro b x l ⟨l', rfl, h⟩; exact h
      · rintro b x l ⟨l', rfl, h⟩; exact h
    · rintro r t x1 x2 l1 l2 ⟨hP1, _⟩ hP2 M e e1 e2 e3 e4
      rw [List.append_assoc]
      refine hk r t _ x2 l1 (d ++ l2) hP1 hP2 M (d ++ e) ?_ e2 ?_ ?_
      · intro a ha; rw [e1 a ha, patch_in ha]
      · intro a n1 n2; rw [e3 a n1 n2, a2 a n2]
      · refine (e4.append_left d).trans ?_
        rw [← List.append_assoc, ← List.append_assoc]
        exact (List.perm_append_comm).append_right _
    · intro a ha
      by_cases hf : F2 a
      · exact a1 a hf
      · rw [a3 a hf, a2 a hf, hm a ha]
    · exact fun a ha => a2 a (fun h => ha (h2 a h))
    · exact fun a ha => a3 a (fun h => ha (h2 a h))
  | joinEnd p q k s r t hp hq =>
    obtain ⟨F1, F2, h1, h2, hd, P1, P2, wp1, wp2, hk⟩ := h
    refine ⟨m, [], [], ?_, hm, fun _ _ => rfl, fun _ _ => rfl, by simp, .refl _⟩
    have t1 : P1 r m [] := by cases hp <;> exact wp1
    have t2 : P2 t m [] := by cases hq <;> exact wp2
    exact hk r t m m [] [] t1 t2 m [] (fun _ _ => rfl) (fun _ _ => rfl) (fun _ _ _ => rfl) (.refl _)

/-- A program satisfying `wp` has ended or can make a step. -/
theorem progress {R : ι → Option ω → Prop} (o : Oracle σ ι ω) {β : Type} {p : Prog α ι ω β}
    {F : Addr → Prop} {Q : β → Mem α → List (ι × Option ω) → Prop} {E : Panic → Mem α → List (ι × Option ω) → Prop}
    {m : Mem α} {lg : List (ι × Option ω)} (h : wp R p F Q E m lg) (s : St α ι ω σ) :
    (∃ r, Ended p r) ∨ ∃ p' s', Step o p s p' s' := by
  induction p generalizing F E m lg with
  | ret b => exact .inl ⟨_, .ret b⟩
  | get a k => exact .inr ⟨_, _, .get a k s⟩
  | set a x k => exact .inr ⟨_, _, .set a x k s⟩
  | call q k => exact .inr ⟨_, _, .call q k s⟩
  | choose k => exact .inr ⟨_, _, .choose k s⟩
  | throw e => exact .inl ⟨_, .throw e⟩
  | ub => exact h.elim
  | diverge => exact h.elim
  | join p q k ihp ihq _ =>
    obtain ⟨F1, F2, h1, h2, hd, P1, P2, wp1, wp2, hk⟩ := h
    rcases ihp wp1 with ⟨r, hr⟩ | ⟨p', s', hs⟩
    · rcases ihq wp2 with ⟨t, ht⟩ | ⟨q', s', hs⟩
      · exact .inr ⟨_, _, .joinEnd p q k s r t hr ht⟩
      · exact .inr ⟨_, _, .joinR _ _ _ _ _ _ hs⟩
    · exact .inr ⟨_, _, .joinL _ _ _ _ _ _ hs⟩

/-- `p` is about to access cell `a` in some thread (`w`: for writing). -/
inductive Access : {β : Type} → Prog α ι ω β → Addr → Bool → Prop where
  | get {β : Type} (a : Addr) (k : α → Prog α ι ω β) : Access (.get a k) a false
  | set {β : Type} (a : Addr) (x : α) (k : Prog α ι ω β) : Access (.set a x k) a true
  | joinL {β γ δ : Type} (p : Prog α ι ω β) (q : Prog α ι ω γ) (k : Res β → Res γ → Prog α ι ω δ)
      (a : Addr) (w : Bool) : Access p a w → Access (.join p q k) a w
  | joinR {β γ δ : Type} (p : Prog α ι ω β) (q : Prog α ι ω γ) (k : Res β → Res γ → Prog α ι ω δ)
      (a : Addr) (w : Bool) : Access q a w → Access (.join p q k) a w

/-- Two different threads of `p` are both about to access the same cell, one of them writing. -/
inductive Race : {β : Type} → Prog α ι ω β → Prop where
  | here {β γ δ : Type} (p : Prog α ι ω β) (q : Prog α ι ω γ) (k : Res β → Res γ → Prog α ι ω δ)
      (a : Addr) (w w' : Bool) : Access p a w → Access q a w' → (w || w') = true → Race (.join p q k)
  | left {β γ δ : Type} (p : Prog α ι ω β) (q : Prog α ι ω γ) (k : Res β → Res γ → Prog α ι ω δ) :
      Race p → Race (.join p q k)
  | right {β γ δ : Type} (p : Prog α ι ω β) (q : Prog α ι ω γ) (k : Res β → Res γ → Prog α ι ω δ) :
      Race q → Race (.join p q k)

theorem access_footprint {R : ι → Option ω → Prop} {β : Type} {p : Prog α ι ω β} {a : Addr} {w : Bool}
    (ha : Access p a w)
    {F : Addr → Prop} {Q : β → Mem α → List (ι × Option ω) → Prop} {E : Panic → Mem α → List (ι × Option ω) → Prop}
    {m : Mem α} {lg : List (ι × Option ω)} (h : wp R p F Q E m lg) : F a := by
  induction ha generalizing F E m lg with
  | get a k => exact h.1
  | set a x k => exact h.1
  | joinL p q k a w _ ih =>
    obtain ⟨F1, F2, h1, h2, hd, P1, P2, wp1, wp2, hk⟩ := h
    exact h1 _ (ih wp1)
  | joinR p q k a w _ ih =>
    obtain ⟨F1, F2, h1, h2, hd, P1, P2, wp1, wp2, hk⟩ := h
    exact h2 _ (ih wp2)

theorem wp_no_race {R : ι → Option ω → Prop} {β : Type} {p : Prog α ι ω β}
    {F : Addr → Prop} {Q : β → Mem α → List (ι × Option ω) → Prop} {E : Panic → Mem α → List (ι × Option ω) → Prop}
    {m : Mem α} {lg : List (ι × Option ω)} (h : wp R p F Q E m lg) : ¬ Race p := by
  intro hr
  induction hr generalizing F E m lg with
  | here p q k a w w' h1 h2 _ =>
    obtain ⟨F1, F2, _, _, hd, P1, P2, wp1, wp2, hk⟩ := h
    exact hd a (access_footprint h1 wp1) (access_footprint h2 wp2)
  | left p q k _ ih =>
    obtain ⟨F1, F2, _, _, hd, P1, P2, wp1, wp2, hk⟩ := h
    exact ih wp1
  | right p q k _ ih =>
    obtain ⟨F1, F2, _, _, hd, P1, P2, wp1, wp2, hk⟩ := h
    exact ih wp2

/-- Some thread of `p` is at an undefined operation or at an exhausted loop. -/
inductive Bad : {β : Type} → Prog α ι ω β → Prop where
  | ub {β : Type} : Bad (.ub : Prog α ι ω β)
  | diverge {β : Type} : Bad (.diverge : Prog α ι ω β)
  | left {β γ δ : Type} (p : Prog α ι ω β) (q : Prog α ι ω γ) (k : Res β → Res γ → Prog α ι ω δ) :
      Bad p → Bad (.join p q k)
  | right {β γ δ : Type} (p : Prog α ι ω β) (q : Prog α ι ω γ) (k : Res β → Res γ → Prog α ι ω δ) :
      Bad q → Bad (.join p q k)

theorem wp_not_bad {R : ι → Option ω → Prop} {β : Type} {p : Prog α ι ω β}
    {F : Addr → Prop} {Q : β → Mem α → List (ι × Option ω) → Prop} {E : Panic → Mem α → List (ι × Option ω) → Prop}
    {m : Mem α} {lg : List (ι × Option ω)} (h : wp R p F Q E m lg) : ¬ Bad p := by
  intro hr
  induction hr generalizing F E m lg with
  | ub => exact h
  | diverge => exact h
  | left p q k _ ih =>
    obtain ⟨F1, F2, _, _, hd, P1, P2, wp1, wp2, hk⟩ := h
    exact ih wp1
  | right p q k _ ih =>
    obtain ⟨F1, F2, _, _, hd, P1, P2, wp1, wp2, hk⟩ := h
    exact ih wp2

/-- `wp` holds all along every schedule. -/
theorem steps_wp {R : ι → Option ω → Prop} {o : Oracle σ ι ω} (ho : o.Sat R) {β : Type} {p p' : Prog α ι ω β}
    {s s' : St α ι ω σ} (hs : Steps o p s p' s')
    {F : Addr → Prop} {Q : β → Mem α → List (ι × Option ω) → Prop} {E : Panic → Mem α → List (ι × Option ω) → Prop}
    (h : wp R p F Q E s.mem s.log) :
    ∃ lg, wp R p' F Q E s'.mem lg ∧ (∀ a, ¬ F a → s'.mem a = s.mem a) ∧ lg.Perm s'.log := by
  induction hs with
  | refl => exact ⟨_, h, fun _ _ => rfl, .refl _⟩
  | tail _ hs ih =>
    obtain ⟨lg, w, hu, hl⟩ := ih
    obtain ⟨m', d, d', w', a1, a2, a3, a4, a5⟩ := step_wp ho hs w (fun _ _ => rfl)
    refine ⟨lg ++ d, ?_, fun a ha => (a3 a ha).trans (hu a ha), ?_⟩
    · have : m' = _ := funext fun a => (open Classical in if ha : F a then (a1 a ha).symm else (a2 a ha).trans (a3 a ha).symm)
      rw [this] at w'; exact w'
    · rw [a4]; exact hl.append a5

/-- Soundness for every schedule. -/
theorem sched_sound {R : ι → Option ω → Prop} {o : Oracle σ ι ω} (ho : o.Sat R) {β : Type} {p p' : Prog α ι ω β}
    {s s' : St α ι ω σ} (hs : Steps o p s p' s')
    {F : Addr → Prop} {Q : β → Mem α → List (ι × Option ω) → Prop} {E : Panic → Mem α → List (ι × Option ω) → Prop}
    (h : wp R p F Q E s.mem s.log) :
    ¬ Race p' ∧ ¬ Bad p' ∧ (∀ a, ¬ F a → s'.mem a = s.mem a) ∧
    ((∃ p'' s'', Step o p' s' p'' s'') ∨
     (∃ b lg, p' = .ret b ∧ lg.Perm s'.log ∧ Q b s'.mem lg) ∨
     (∃ e lg, p' = .throw e ∧ lg.Perm s'.log ∧ E e s'.mem lg)) := by
  obtain ⟨lg, w, hu, hl⟩ := steps_wp ho hs h
  refine ⟨wp_no_race w, wp_not_bad w, hu, ?_⟩
  rcases progress o w s' with ⟨r, hr⟩ | hs
  · cases hr with
    | ret b => exact .inr (.inl ⟨b, lg, rfl, hl, w⟩)
    | throw e => exact .inr (.inr ⟨e, lg, rfl, hl, w⟩)
  · exact .inl hs

/-- `p'` is what is left of `p` after one step, in whatever state. -/
def After (o : Oracle σ ι ω) {β : Type} (p' p : Prog α ι ω β) : Prop := ∃ s s', Step o p s p' s'

/-- The steps of a program are well-founded: there is no infinite schedule. -/
theorem sched_terminates (o : Oracle σ ι ω) {β : Type} (p : Prog α ι ω β) : Acc (After o) p := by
  induction p with
  | ret b => exact ⟨_, fun y h => by obtain ⟨s, s', h⟩ := h; cases h⟩
  | throw e => exact ⟨_, fun y h => by obtain ⟨s, s', h⟩ := h; cases h⟩
  | ub => exact ⟨_, fun y h => by obtain ⟨s, s', h⟩ := h; cases h⟩
  | diverge => exact ⟨_, fun y h => by obtain ⟨s, s', h⟩ := h; cases h⟩
  | get a k ih => exact ⟨_, fun y h => by obtain ⟨s, s', h⟩ := h; cases h; exact ih _⟩
  | set a x k ih => exact ⟨_, fun y h => by obtain ⟨s, s', h⟩ := h; cases h; exact ih⟩
  | call q k ih => exact ⟨_, fun y h => by obtain ⟨s, s', h⟩ := h; cases h; exact ih _⟩
  | choose k ih => exact ⟨_, fun y h => by obtain ⟨s, s', h⟩ := h; cases h; exact ih _⟩
  | join p q k ihp ihq ihk =>
    induction ihp generalizing q with
    | intro p hp ih1 =>
      induction ihq with
      | intro q hq ih2 =>
        refine ⟨_, fun y h => ?_⟩
        obtain ⟨s, s', h⟩ := h
        cases h with
        | joinL _ p' _ _ _ _ h => exact ih1 _ ⟨_, _, h⟩ q ⟨_, hq⟩
        | joinR _ _ q' _ _ _ h => exact ih2 _ ⟨_, _, h⟩
        | joinEnd _ _ _ _ r t _ _ => exact ihk r t

/-- Any sequence of states each of which is a step after the one before is finite. -/
theorem no_infinite_schedule (o : Oracle σ ι ω) {β : Type} (ps : Nat → Prog α ι ω β) (ss : Nat → St α ι ω σ) :
    ¬ ∀ n, Step o (ps n) (ss n) (ps (n + 1)) (ss (n + 1)) := by
  intro h
  have : ∀ p, Acc (After o) p → ∀ n, ps n = p → False := by
    intro p hp
    induction hp with
    | intro p _ ih =>
      intro n hn
      exact ih (ps (n + 1)) ⟨_, _, hn ▸ h n⟩ (n + 1) rfl
  exact this _ (sched_terminates o (ps 0)) 0 rfl

/-! ### Schedule independence -/

/-- User code that is a function of its arguments. -/
def Oracle.pure (f : ι → Option ω) (c : Bool) : Oracle Unit ι ω := ⟨fun _ q => (f q, ()), fun _ => (c, ())⟩

theorem Oracle.pure_sat {f : ι → Option ω} {c : Bool} {R : ι → Option ω → Prop} (h : ∀ q, R q (f q)) :
    (Oracle.pure f c).Sat R := fun _ q => h q

/-- Sequential runs agree on how they end and on memory when they agree on the footprint. -/
theorem run_frame {R : ι → Option ω → Prop} {f : ι → Option ω} {c : Bool} (ho : ∀ q, R q (f q)) {β : Type}
    {p : Prog α ι ω β} {F : Addr → Prop} {Q : β → Mem α → List (ι × Option ω) → Prop} {E : Panic → Mem α → List (ι × Option ω) → Prop}
    {m : Mem α} {lg : List (ι × Option ω)} (h : wp R p F Q E m lg) {s1 s2 : St α ι ω Unit}
    (e1 : ∀ a, F a → s1.mem a = m a) (e2 : ∀ a, F a → s2.mem a = m a) :
    (run (.pure f c) p s1).1 = (run (.pure f c) p s2).1 ∧
    (∀ a, F a → (run (.pure f c) p s1).2.mem a = (run (.pure f c) p s2).2.mem a) ∧
    (∀ a, ¬ F a → (run (.pure f c) p s1).2.mem a = s1.mem a) ∧
    (∀ a, ¬ F a → (run (.pure f c) p s2).2.mem a = s2.mem a) := by
  induction p generalizing s1 s2 F E m lg with
  | ret b => exact ⟨rfl, fun a ha => (e1 a ha).trans (e2 a ha).symm, fun _ _ => rfl, fun _ _ => rfl⟩
  | throw e => exact ⟨rfl, fun a ha => (e1 a ha).trans (e2 a ha).symm, fun _ _ => rfl, fun _ _ => rfl⟩
  | ub => exact h.elim
  | diverge => exact h.elim
  | get a k ih =>
    simp only [run]
    rw [e1 a h.1, e2 a h.1]
    exact ih _ h.2 e1 e2
  | set a x k ih =>
    simp only [run]
    have := ih (s1 := { s1 with mem := upd s1.mem a x }) (s2 := { s2 with mem := upd s2.mem a x }) h.2
      (upd_in e1) (upd_in e2)
    refine ⟨this.1, this.2.1, ?_, ?_⟩
    · intro b hb; rw [this.2.2.1 b hb]; exact upd_out h.1 (fun _ _ => rfl) b hb
    · intro b hb; rw [this.2.2.2 b hb]; exact upd_out h.1 (fun _ _ => rfl) b hb
  | call q k ih =>
    simp only [run, Oracle.pure]
    exact ih _ (s1 := { s1 with log := s1.log ++ [(q, f q)] }) (s2 := { s2 with log := s2.log ++ [(q, f q)] }) (h _ (ho q)) e1 e2
  | choose k ih =>
    simp only [run, Oracle.pure]
    exact ih _ (h c) e1 e2
  | join p q k ihp ihq ihk =>
    obtain ⟨F1, F2, h1, h2, hd, P1, P2, hp, hq, hk⟩ := h
    have P := ihp hp (fun a ha => e1 a (h1 a ha)) (fun a ha => e2 a (h1 a ha))
    have Qq := ihq hq (s1 := (run (.pure f c) p s1).2) (s2 := (run (.pure f c) p s2).2)
      (fun a ha => by rw [P.2.2.1 a (fun h => hd a h ha)]; exact e1 a (h2 a ha))
      (fun a ha => by rw [P.2.2.2 a (fun h => hd a h ha)]; exact e2 a (h2 a ha))
    -- the two runs started on the reference memory
    have W1 := run_sound (o := .pure f c) (Oracle.pure_sat ho) (s := ⟨m, (), []⟩) (wp_unchanged hp)
    have W2 := run_sound (o := .pure f c) (Oracle.pure_sat ho) (s := ⟨m, (), []⟩) (wp_unchanged hq)
    have P0 := ihp hp (s1 := s1) (s2 := ⟨m, (), []⟩) (fun a ha => e1 a (h1 a ha)) (fun _ _ => rfl)
    have Q0 := ihq hq (s1 := (run (.pure f c) p s1).2) (s2 := ⟨m, (), []⟩)
      (fun a ha => by rw [P.2.2.1 a (fun h => hd a h ha)]; exact e1 a (h2 a ha)) (fun _ _ => rfl)
    have fin : ∀ (r : Res _) (t : Res _) (m1 m2 : Mem α) (l1 l2 : List (ι × Option ω)) (u1 u2 : St α ι ω Unit),
        P1 r m1 l1 → P2 t m2 l2 → (∀ a, F1 a → u1.mem a = m1 a) → (∀ a, F2 a → u1.mem a = m2 a) →
        (∀ a, ¬ F1 a → ¬ F2 a → u1.mem a = s1.mem a) →
        (∀ a, ¬ F1 a → ¬ F2 a → u2.mem a = s2.mem a) →
        (∀ a, F1 a → u1.mem a = u2.mem a) → (∀ a, F2 a → u1.mem a = u2.mem a) →
        (run (.pure f c) (k r t) u1).1 = (run (.pure f c) (k r t) u2).1 ∧
        (∀ a, F a → (run (.pure f c) (k r t) u1).2.mem a = (run (.pure f c) (k r t) u2).2.mem a) ∧
        (∀ a, ¬ F a → (run (.pure f c) (k r t) u1).2.mem a = s1.mem a) ∧
        (∀ a, ¬ F a → (run (.pure f c) (k r t) u2).2.mem a = s2.mem a) := by
      intro r t m1 m2 l1 l2 u1 u2 hP1 hP2 a1 a2 a3 a4 a5 a6
      have hk' := hk r t m1 m2 l1 l2 hP1 hP2 (patch F u1.mem m) (l1 ++ l2)
        (fun a ha => by rw [patch_in (h1 a ha), a1 a ha]) (fun a ha => by rw [patch_in (h2 a ha), a2 a ha])
        (fun a n1 n2 => by
          by_cases ha : F a
          · rw [patch_in ha, a3 a n1 n2, e1 a ha]
          · rw [patch_out ha]) (.refl _)
      have := ihk r t hk' (s1 := u1) (s2 := u2) (fun a ha => (patch_in ha).symm) (fun a ha => by
        rw [patch_in ha]
        by_cases n1 : F1 a
        · exact (a5 a n1).symm
        · by_cases n2 : F2 a
          · exact (a6 a n2).symm
          · rw [a4 a n1 n2, a3 a n1 n2, e1 a ha, e2 a ha])
      refine ⟨this.1, this.2.1, ?_, ?_⟩
      · intro a ha
        rw [this.2.2.1 a ha]; exact a3 a (fun h => ha (h1 a h)) (fun h => ha (h2 a h))
      · intro a ha
        rw [this.2.2.2 a ha]; exact a4 a (fun h => ha (h1 a h)) (fun h => ha (h2 a h))
    obtain ⟨p1, p2, p3, p4⟩ := P
    obtain ⟨q1, q2, q3, q4⟩ := Qq
    obtain ⟨r1, r2, r3, r4⟩ := P0
    obtain ⟨t1, t2, t3, t4⟩ := Q0
    have fin' : ∀ (r : Res _) (t : Res _) (m1 m2 : Mem α) (l1 l2 : List (ι × Option ω)), P1 r m1 l1 → P2 t m2 l2 →
        (run (.pure f c) p ⟨m, (), []⟩).2.mem = m1 → (run (.pure f c) q ⟨m, (), []⟩).2.mem = m2 → _ :=
      fun r t m1 m2 l1 l2 hP1 hP2 g1 g2 =>
      fin r t m1 m2 l1 l2 (run (.pure f c) q (run (.pure f c) p s1).2).2 (run (.pure f c) q (run (.pure f c) p s2).2).2
        hP1 hP2 (fun a ha => by rw [q3 a (hd a ha), r2 a ha, g1]) (fun a ha => by rw [t2 a ha, g2])
        (fun a n1 n2 => by rw [q3 a n2, p3 a n1]) (fun a n1 n2 => by rw [q4 a n2, p4 a n1])
        (fun a ha => by rw [q3 a (hd a ha), q4 a (hd a ha), p2 a ha]) q2
    clear fin
    rcases W1 with ⟨b, u1, hr, hP1, hu1⟩ | ⟨b, u1, hr, hP1, hu1⟩ <;>
    rcases W2 with ⟨b', u2, hr2, hP2, hu2⟩ | ⟨b', u2, hr2, hP2, hu2⟩ <;>
    · have F' := fin' _ _ _ _ _ _ hP1 hP2 (by rw [hr]) (by rw [hr2])
      simp only [run]
      rw [hr] at r1
      rw [hr2] at t1
      rw [r1] at p1
      rw [t1] at q1
      generalize run (.pure f c) p s1 = x1 at *
      generalize run (.pure f c) p s2 = x2 at *
      generalize hx3 : run (.pure f c) q x1.2 = x3 at *
      generalize hx4 : run (.pure f c) q x2.2 = x4 at *
      obtain ⟨_, x1⟩ := x1
      obtain ⟨_, x2⟩ := x2
      obtain ⟨_, x3⟩ := x3
      obtain ⟨_, x4⟩ := x4
      simp only at *
      subst r1 t1 p1 q1
      simp only [hx3, hx4]
      exact F'

/-- The result of a run, without the question log. -/
def runOut (o : Oracle σ ι ω) {β : Type} (p : Prog α ι ω β) (s : St α ι ω σ) : Out β × Mem α :=
  ((run o p s).1, (run o p s).2.mem)

theorem runOut_eq {R : ι → Option ω → Prop} {f : ι → Option ω} {c : Bool} (ho : ∀ q, R q (f q)) {β : Type}
    {p : Prog α ι ω β} {F : Addr → Prop} {Q : β → Mem α → List (ι × Option ω) → Prop} {E : Panic → Mem α → List (ι × Option ω) → Prop}
    {lg : List (ι × Option ω)} {s1 s2 : St α ι ω Unit} (h : wp R p F Q E s1.mem lg) (e : s2.mem = s1.mem) :
    runOut (.pure f c) p s1 = runOut (.pure f c) p s2 := by
  have := run_frame (c := c) ho h (s1 := s1) (s2 := s2) (fun _ _ => rfl) (fun a _ => by rw [e])
  unfold runOut
  refine Prod.ext this.1 (funext fun a => ?_)
  by_cases ha : F a
  · exact this.2.1 a ha
  · exact (this.2.2.1 a ha).trans ((congrFun e a).symm.trans (this.2.2.2 a ha).symm)

/-- How a part ended, as the end of a whole program. -/
def Res.toOut {β : Type} : Res β → Out β
  | .ok b => .ok b
  | .panic e => .panic e

theorem Res.toOut_inj {β : Type} {r t : Res β} (h : r.toOut = t.toOut) : r = t := by
  cases r <;> cases t <;> simp_all [Res.toOut]

/-- What a run of `join` is, given how its sides end. -/
theorem run_join_eq {o : Oracle σ ι ω} {β γ δ : Type} {p : Prog α ι ω β} {q : Prog α ι ω γ}
    {k : Res β → Res γ → Prog α ι ω δ} {s : St α ι ω σ} {r : Res β} {t : Res γ}
    (h1 : (run o p s).1 = r.toOut) (h2 : (run o q (run o p s).2).1 = t.toOut) :
    run o (.join p q k) s = run o (k r t) (run o q (run o p s).2).2 := by
  simp only [run]
  generalize run o p s = x1 at *
  obtain ⟨x1, u1⟩ := x1
  simp only at h1 h2
  generalize hx : run o q u1 = x2 at *
  obtain ⟨x2, u2⟩ := x2
  simp only at h2
  subst h1 h2
  cases r <;> cases t <;> simp [Res.toOut, hx]

theorem run_join_wp {R : ι → Option ω → Prop} {f : ι → Option ω} {c : Bool} (ho : ∀ q, R q (f q))
    {β γ δ : Type} {p : Prog α ι ω β} {q : Prog α ι ω γ} {k : Res β → Res γ → Prog α ι ω δ}
    {F : Addr → Prop} {Q : δ → Mem α → List (ι × Option ω) → Prop} {E : Panic → Mem α → List (ι × Option ω) → Prop}
    {lg : List (ι × Option ω)} {s : St α ι ω Unit} (h : wp R (.join p q k) F Q E s.mem lg) :
    ∃ r t lg', (run (.pure f c) p s).1 = r.toOut ∧ (run (.pure f c) q (run (.pure f c) p s).2).1 = t.toOut ∧
      wp R (k r t) F Q E (run (.pure f c) q (run (.pure f c) p s).2).2.mem lg' ∧
      ∃ F2 Q2 E2 l2, wp R q F2 Q2 E2 (run (.pure f c) p s).2.mem l2 := by
  obtain ⟨F1, F2, h1, h2, hd, P1, P2, hp, hq, hk⟩ := h
  have hu := (run_frame (c := c) ho hp (s1 := s) (s2 := s) (fun _ _ => rfl) (fun _ _ => rfl)).2.2.1
  have e1 := run_frame (c := c) ho hp (s1 := s) (s2 := ⟨s.mem, (), []⟩) (fun _ _ => rfl) (fun _ _ => rfl)
  have e2 := run_frame (c := c) ho hq (s1 := (run (.pure f c) p s).2) (s2 := ⟨s.mem, (), []⟩)
    (fun a ha => hu a (fun h => hd a h ha)) (fun _ _ => rfl)
  have hq' := wp_frame hq (m' := (run (.pure f c) p s).2.mem) (m0 := s.mem) (m0' := (run (.pure f c) p s).2.mem)
    (fun a ha => hu a (fun h => hd a h ha)) (fun _ _ => rfl) (fun _ _ => rfl)
  have W1 := run_sound (o := .pure f c) (Oracle.pure_sat ho) (s := ⟨s.mem, (), []⟩) (wp_unchanged hp)
  have W2 := run_sound (o := .pure f c) (Oracle.pure_sat ho) (s := ⟨s.mem, (), []⟩) (wp_unchanged hq)
  have g : ∀ (r : Res β) (t : Res γ) (m1 m2 : Mem α) (l1 l2 : List (ι × Option ω)), P1 r m1 l1 → P2 t m2 l2 →
      (run (.pure f c) p ⟨s.mem, (), []⟩).2.mem = m1 → (run (.pure f c) q ⟨s.mem, (), []⟩).2.mem = m2 →
      wp R (k r t) F Q E (run (.pure f c) q (run (.pure f c) p s).2).2.mem (lg ++ (l1 ++ l2)) := by
    intro r t m1 m2 l1 l2 hP1 hP2 g1 g2
    refine hk r t m1 m2 l1 l2 hP1 hP2 _ _ ?_ ?_ ?_ (.refl _)
    · intro a ha; rw [e2.2.2.1 a (hd a ha), e1.2.1 a ha, g1]
    · intro a ha; rw [e2.2.1 a ha, g2]
    · intro a n1 n2; rw [e2.2.2.1 a n2, hu a n1]
  rcases W1 with ⟨b, u1, hr, hP1, hu1⟩ | ⟨b, u1, hr, hP1, hu1⟩ <;>
  rcases W2 with ⟨b', u2, hr2, hP2, hu2⟩ | ⟨b', u2, hr2, hP2, hu2⟩
  · exact ⟨.ok b, .ok b', _, by rw [e1.1, hr]; rfl, by rw [e2.1, hr2]; rfl, g _ _ _ _ _ _ hP1 hP2 (by rw [hr]) (by rw [hr2]), _, _, _, _, hq'⟩
  · exact ⟨.ok b, .panic b', _, by rw [e1.1, hr]; rfl, by rw [e2.1, hr2]; rfl, g _ _ _ _ _ _ hP1 hP2 (by rw [hr]) (by rw [hr2]), _, _, _, _, hq'⟩
  · exact ⟨.panic b, .ok b', _, by rw [e1.1, hr]; rfl, by rw [e2.1, hr2]; rfl, g _ _ _ _ _ _ hP1 hP2 (by rw [hr]) (by rw [hr2]), _, _, _, _, hq'⟩
  · exact ⟨.panic b, .panic b', _, by rw [e1.1, hr]; rfl, by rw [e2.1, hr2]; rfl, g _ _ _ _ _ _ hP1 hP2 (by rw [hr]) (by rw [hr2]), _, _, _, _, hq'⟩

theorem step_wp_mem {R : ι → Option ω → Prop} {o : Oracle σ ι ω} (ho : o.Sat R) {β : Type} {p p' : Prog α ι ω β}
    {s s' : St α ι ω σ} (hs : Step o p s p' s')
    {F : Addr → Prop} {Q : β → Mem α → List (ι × Option ω) → Prop} {E : Panic → Mem α → List (ι × Option ω) → Prop}
    {lg : List (ι × Option ω)} (h : wp R p F Q E s.mem lg) :
    (∃ lg', wp R p' F Q E s'.mem lg') ∧ ∀ a, ¬ F a → s'.mem a = s.mem a := by
  obtain ⟨m', d, d', w', a1, a2, a3, a4, a5⟩ := step_wp ho hs h (fun _ _ => rfl)
  have : m' = s'.mem := funext fun a => (open Classical in if ha : F a then (a1 a ha).symm else (a2 a ha).trans (a3 a ha).symm)
  subst this
  exact ⟨⟨_, w'⟩, a3⟩

/-- A step does not change what a sequential run leads to. -/
theorem step_run {R : ι → Option ω → Prop} {f : ι → Option ω} {c : Bool} (ho : ∀ q, R q (f q)) {β : Type}
    {p p' : Prog α ι ω β} {s s' : St α ι ω Unit} (hs : Step (.pure f c) p s p' s')
    {F : Addr → Prop} {Q : β → Mem α → List (ι × Option ω) → Prop} {E : Panic → Mem α → List (ι × Option ω) → Prop}
    {lg : List (ι × Option ω)} (h : wp R p F Q E s.mem lg) :
    runOut (.pure f c) p s = runOut (.pure f c) p' s' := by
  induction hs generalizing F E lg with
  | get a k s => rfl
  | set a x k s => rfl
  | call q k s => rfl
  | choose k s => rfl
  | joinL p p' q k s s' hs ih =>
    obtain ⟨r, t, l1, a1, a2, a3, F2, Q2, E2, l2, a4⟩ := run_join_wp (c := c) ho h
    obtain ⟨⟨l', h'⟩, _⟩ := step_wp_mem (Oracle.pure_sat ho) (.joinL p p' q k s s' hs) h
    obtain ⟨r', t', l1', a1', a2', a3', F2', Q2', E2', l2', a4'⟩ := run_join_wp (c := c) ho h'
    obtain ⟨F1, _, h1, h2, hd, P1, P2, hp, hq, hk⟩ := h
    have hi := ih hp
    have hi1 : (run (.pure f c) p s).1 = (run (.pure f c) p' s').1 := (congrArg Prod.fst hi :)
    have hi2 : (run (.pure f c) p s).2.mem = (run (.pure f c) p' s').2.mem := congrArg Prod.snd hi
    have e := runOut_eq (c := c) ho a4 (s2 := (run (.pure f c) p' s').2) hi2.symm
    have e1 : (run (.pure f c) q (run (.pure f c) p s).2).1 = (run (.pure f c) q (run (.pure f c) p' s').2).1 := (congrArg Prod.fst e :)
    have e2 : (run (.pure f c) q (run (.pure f c) p s).2).2.mem = (run (.pure f c) q (run (.pure f c) p' s').2).2.mem := congrArg Prod.snd e
    obtain rfl : r = r' := Res.toOut_inj (by rw [← a1, hi1, a1'])
    obtain rfl : t = t' := Res.toOut_inj (by rw [← a2, e1, a2'])
    have := runOut_eq (c := c) ho a3 (s2 := (run (.pure f c) q (run (.pure f c) p' s').2).2) e2.symm
    unfold runOut
    rw [run_join_eq a1 a2, run_join_eq a1' a2']
    exact this
  | joinR p q q' k s s' hs ih =>
    obtain ⟨r, t, l1, a1, a2, a3, F2, Q2, E2, l2, a4⟩ := run_join_wp (c := c) ho h
    obtain ⟨⟨l', h'⟩, _⟩ := step_wp_mem (Oracle.pure_sat ho) (.joinR p q q' k s s' hs) h
    obtain ⟨r', t', l1', a1', a2', a3', F2', Q2', E2', l2', a4'⟩ := run_join_wp (c := c) ho h'
    obtain ⟨G1, G2, h1, h2, hd, P1, P2, hp, hq, hk⟩ := h
    have hi := ih hq
    have hi1 : (run (.pure f c) q s).1 = (run (.pure f c) q' s').1 := (congrArg Prod.fst hi :)
    have hi2 : (run (.pure f c) q s).2.mem = (run (.pure f c) q' s').2.mem := congrArg Prod.snd hi
    obtain ⟨⟨lq, hq'⟩, hu⟩ := step_wp_mem (Oracle.pure_sat ho) hs hq
    have fp := run_frame (c := c) ho hp (s1 := s) (s2 := s') (fun _ _ => rfl) (fun a ha => hu a (hd a ha))
    have fq := run_frame (c := c) ho hq (s1 := s) (s2 := (run (.pure f c) p s).2) (fun _ _ => rfl)
      (fun a ha => fp.2.2.1 a (fun h => hd a h ha))
    have fq' := run_frame (c := c) ho hq' (s1 := s') (s2 := (run (.pure f c) p s').2) (fun _ _ => rfl)
      (fun a ha => fp.2.2.2 a (fun h => hd a h ha))
    obtain rfl : r = r' := Res.toOut_inj (by rw [← a1, fp.1, a1'])
    obtain rfl : t = t' := Res.toOut_inj (by rw [← a2, ← fq.1, hi1, fq'.1, a2'])
    have e2 : (run (.pure f c) q (run (.pure f c) p s).2).2.mem = (run (.pure f c) q' (run (.pure f c) p s').2).2.mem := by
      funext a
      by_cases n2 : G2 a
      · rw [← fq.2.1 a n2, hi2, fq'.2.1 a n2]
      · rw [fq.2.2.2 a n2, fq'.2.2.2 a n2]
        by_cases n1 : G1 a
        · exact fp.2.1 a n1
        · rw [fp.2.2.1 a n1, fp.2.2.2 a n1, hu a n2]
    have := runOut_eq (c := c) ho a3 (s2 := (run (.pure f c) q' (run (.pure f c) p s').2).2) e2.symm
    unfold runOut
    rw [run_join_eq a1 a2, run_join_eq a1' a2']
    exact this
  | joinEnd p q k s r t hp hq =>
    unfold runOut
    have b1 : run (.pure f c) p s = (r.toOut, s) := by cases hp <;> rfl
    have b2 : run (.pure f c) q s = (t.toOut, s) := by cases hq <;> rfl
    rw [run_join_eq (r := r) (t := t) (by rw [b1]) (by rw [b1, b2]), b1, b2]

/-- Schedule independence: with pure user code every schedule that ends, ends like the sequential run. -/
theorem sched_deterministic {R : ι → Option ω → Prop} {f : ι → Option ω} {c : Bool} (ho : ∀ q, R q (f q)) {β : Type}
    {p p' : Prog α ι ω β} {s s' : St α ι ω Unit} (hs : Steps (.pure f c) p s p' s')
    {F : Addr → Prop} {Q : β → Mem α → List (ι × Option ω) → Prop} {E : Panic → Mem α → List (ι × Option ω) → Prop}
    (h : wp R p F Q E s.mem s.log) {r : Res β} (he : Ended p' r) :
    runOut (.pure f c) p s = (r.toOut, s'.mem) := by
  have : runOut (.pure f c) p s = runOut (.pure f c) p' s' := by
    clear he
    induction hs with
    | refl => rfl
    | tail hs h1 ih =>
      obtain ⟨lg, w, _, _⟩ := steps_wp (Oracle.pure_sat ho) hs h
      rw [ih, step_run ho h1 w]
  rw [this]
  cases he <;> rfl

end NdSlice
