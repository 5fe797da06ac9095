import Verif.Core.Exact

/-
Programs in which the environment has no choices: with pure user code every schedule asks the questions of the sequential run, each of them
as many times.
-/

namespace NdSlice

variable {α ι ω : Type} {β γ : Type}

open Prog

/-- The questions of a sequential run with pure user code do not depend on the cells outside of the footprint, nor on the earlier questions. -/
theorem run_frame_log {R : ι → Option ω → Prop} {f : ι → Option ω} {c : Bool} (ho : ∀ q, R q (f q)) {β : Type}
    {p : Prog α ι ω β} {F : Addr → Prop} {Q : β → Mem α → List (ι × Option ω) → Prop} {E : Panic → Mem α → List (ι × Option ω) → Prop}
    {m : Mem α} {lg : List (ι × Option ω)} (h : wp R p F Q E m lg) {s1 s2 : St α ι ω Unit}
    (e1 : ∀ a, F a → s1.mem a = m a) (e2 : ∀ a, F a → s2.mem a = m a) :
    ∃ d, (run (.pure f c) p s1).2.log = s1.log ++ d ∧ (run (.pure f c) p s2).2.log = s2.log ++ d := by
  induction p generalizing s1 s2 F E m lg with
  | ret b => exact ⟨[], by simp [run]⟩
  | throw e => exact ⟨[], by simp [run]⟩
  | ub => exact h.elim
  | diverge => exact h.elim
  | get a k ih =>
    simp only [run]
    rw [e1 a h.1, e2 a h.1]
    exact ih _ h.2 e1 e2
  | set a x k ih =>
    simp only [run]
    exact ih (s1 := { s1 with mem := upd s1.mem a x }) (s2 := { s2 with mem := upd s2.mem a x }) h.2 (upd_in e1) (upd_in e2)
  | call q k ih =>
    simp only [run, Oracle.pure]
    obtain ⟨d, h1, h2⟩ := ih _ (s1 := { s1 with log := s1.log ++ [(q, f q)] }) (s2 := { s2 with log := s2.log ++ [(q, f q)] }) (h _ (ho q)) e1 e2
    exact ⟨(q, f q) :: d, h1.trans (by simp), h2.trans (by simp)⟩
  | choose k ih =>
    simp only [run, Oracle.pure]
    exact ih _ (h c) e1 e2
  | join p q k ihp ihq ihk =>
    obtain ⟨F1, F2, h1, h2, hd, P1, P2, hp, hq, hk⟩ := h
    have end1 : ∃ r m1 l1, P1 r m1 l1 ∧ (run (.pure f c) p ⟨m, (), []⟩).1 = r.toOut ∧ (run (.pure f c) p ⟨m, (), []⟩).2.mem = m1 := by
      rcases run_sound (o := .pure f c) (Oracle.pure_sat ho) (s := ⟨m, (), []⟩) hp with ⟨b, u, hr, hP⟩ | ⟨b, u, hr, hP⟩ <;>
      exact ⟨_, _, _, hP, by rw [hr]; rfl, by rw [hr]⟩
    have end2 : ∃ t m2 l2, P2 t m2 l2 ∧ (run (.pure f c) q ⟨m, (), []⟩).1 = t.toOut ∧ (run (.pure f c) q ⟨m, (), []⟩).2.mem = m2 := by
      rcases run_sound (o := .pure f c) (Oracle.pure_sat ho) (s := ⟨m, (), []⟩) hq with ⟨b, u, hr, hP⟩ | ⟨b, u, hr, hP⟩ <;>
      exact ⟨_, _, _, hP, by rw [hr]; rfl, by rw [hr]⟩
    obtain ⟨r, m1, l1, hP1, r1, rfl⟩ := end1
    obtain ⟨t, m2, l2, hP2, t1, rfl⟩ := end2
    have one : ∀ s : St α ι ω Unit, (∀ a, F a → s.mem a = m a) → (run (.pure f c) p s).1 = r.toOut ∧ (run (.pure f c) q (run (.pure f c) p s).2).1 = t.toOut ∧
        (∀ a, F2 a → (run (.pure f c) p s).2.mem a = m a) ∧
        ∀ a, F a → (run (.pure f c) q (run (.pure f c) p s).2).2.mem a =
          patch F1 (run (.pure f c) p ⟨m, (), []⟩).2.mem (patch F2 (run (.pure f c) q ⟨m, (), []⟩).2.mem m) a := by
      intro s e
      have P := run_frame (c := c) ho hp (s1 := s) (s2 := ⟨m, (), []⟩) (fun a ha => e a (h1 a ha)) (fun _ _ => rfl)
      have e' : ∀ a, F2 a → (run (.pure f c) p s).2.mem a = m a := fun a ha => by rw [P.2.2.1 a (fun h => hd a h ha)]; exact e a (h2 a ha)
      have Qq := run_frame (c := c) ho hq (s1 := (run (.pure f c) p s).2) (s2 := ⟨m, (), []⟩) e' (fun _ _ => rfl)
      refine ⟨P.1.trans r1, Qq.1.trans t1, e', fun a ha => ?_⟩
      by_cases n1 : F1 a
      · rw [patch_in n1, Qq.2.2.1 a (hd a n1), P.2.1 a n1]
      · rw [patch_out n1]
        by_cases n2 : F2 a
        · rw [patch_in n2, Qq.2.1 a n2]
        · rw [patch_out n2, Qq.2.2.1 a n2, P.2.2.1 a n1, e a ha]
    obtain ⟨a1, a2, a3, a4⟩ := one s1 e1
    obtain ⟨b1, b2, b3, b4⟩ := one s2 e2
    rw [run_join_eq a1 a2, run_join_eq b1 b2]
    obtain ⟨d1, x1, x2⟩ := ihp hp (s1 := s1) (s2 := s2) (fun a ha => e1 a (h1 a ha)) (fun a ha => e2 a (h1 a ha))
    obtain ⟨d2, y1, y2⟩ := ihq hq (s1 := (run (.pure f c) p s1).2) (s2 := (run (.pure f c) p s2).2) a3 b3
    obtain ⟨d3, z1, z2⟩ := ihk r t (hk r t _ _ l1 l2 hP1 hP2 (patch F1 (run (.pure f c) p ⟨m, (), []⟩).2.mem (patch F2 (run (.pure f c) q ⟨m, (), []⟩).2.mem m))
      (l1 ++ l2) (fun a ha => patch_in ha) (fun a ha => by rw [patch_out (fun h => hd a h ha), patch_in ha])
      (fun a n1 n2 => by rw [patch_out n1, patch_out n2]) (.refl _)) a4 b4
    exact ⟨d1 ++ (d2 ++ d3), by rw [z1, y1, x1]; simp, by rw [z2, y2, x2]; simp⟩

/-- With pure user code, and no choice for the environment, every schedule gives the result of the sequential run, and asks the same questions,
each of them as many times. -/
theorem wp_exact_log {f : ι → Option ω} {c : Bool} {p : Prog α ι ω β} (hn : NoChoose p) {F : Addr → Prop}
    {Q : β → Mem α → List (ι × Option ω) → Prop} {E : Panic → Mem α → List (ι × Option ω) → Prop} {m : Mem α} {lg : List (ι × Option ω)}
    (h : wp (fun q r => r = f q) p F Q E m lg) :
    wp (fun q r => r = f q) p F
      (fun b m' l => Q b m' l ∧ runOut (.pure f c) p ⟨m, (), []⟩ = (.ok b, m') ∧ ∃ d, l = lg ++ d ∧ d.Perm (run (.pure f c) p ⟨m, (), []⟩).2.log)
      (fun e m' l => E e m' l ∧ runOut (.pure f c) p ⟨m, (), []⟩ = (.panic e, m') ∧ ∃ d, l = lg ++ d ∧ d.Perm (run (.pure f c) p ⟨m, (), []⟩).2.log)
      m lg := by
  have ho : ∀ q, (fun (q : ι) (r : Option ω) => r = f q) q (f q) := fun q => rfl
  induction p generalizing F E m lg with
  | ret b => exact ⟨h, rfl, [], by simp, .refl _⟩
  | throw e => exact ⟨h, rfl, [], by simp, .refl _⟩
  | ub => exact h.elim
  | diverge => exact h.elim
  | get a k ih =>
    unfold NoChoose at hn
    exact ⟨h.1, ih _ (hn _) h.2⟩
  | set a x k ih =>
    unfold NoChoose at hn
    exact ⟨h.1, ih hn h.2⟩
  | call q k ih =>
    unfold NoChoose at hn
    rintro r rfl
    have e := runOut_eq (R := fun q r => r = f q) (c := c) (s1 := ⟨m, (), []⟩) (s2 := ⟨m, (), [] ++ [(q, f q)]⟩) ho (h (f q) rfl) rfl
    obtain ⟨d0, g1, g2⟩ := run_frame_log (R := fun q r => r = f q) (c := c) (s1 := ⟨m, (), []⟩) (s2 := ⟨m, (), [] ++ [(q, f q)]⟩) ho (h (f q) rfl)
      (fun _ _ => rfl) (fun _ _ => rfl)
    have g2 : (run (.pure f c) (.call q k) ⟨m, (), []⟩).2.log = [] ++ [(q, f q)] ++ d0 := g2
    refine wp_mono (ih (f q) (hn _) (h (f q) rfl)) (fun _ h => h) ?_ ?_
    · rintro b m' l ⟨h1, h2, d, rfl, h3⟩
      refine ⟨h1, e.symm.trans h2, (q, f q) :: d, by simp, ?_⟩
      rw [g2]
      rw [g1] at h3
      simpa using h3
    · rintro b m' l ⟨h1, h2, d, rfl, h3⟩
      refine ⟨h1, e.symm.trans h2, (q, f q) :: d, by simp, ?_⟩
      rw [g2]
      rw [g1] at h3
      simpa using h3
  | choose k ih =>
    unfold NoChoose at hn
    exact hn.elim
  | join p q k ihp ihq ihk =>
    unfold NoChoose at hn
    obtain ⟨n1, n2, n3⟩ := hn
    obtain ⟨F1, F2, h1, h2, hd, P1, P2, hp, hq, hk⟩ := h
    refine ⟨F1, F2, h1, h2, hd,
      fun r m1 l1 => P1 r m1 l1 ∧ runOut (.pure f c) p ⟨m, (), []⟩ = (r.toOut, m1) ∧ l1.Perm (run (.pure f c) p ⟨m, (), []⟩).2.log,
      fun t m2 l2 => P2 t m2 l2 ∧ runOut (.pure f c) q ⟨m, (), []⟩ = (t.toOut, m2) ∧ l2.Perm (run (.pure f c) q ⟨m, (), []⟩).2.log,
      wp_mono (ihp n1 hp) (fun _ h => h) ?_ ?_, wp_mono (ihq n2 hq) (fun _ h => h) ?_ ?_, ?_⟩
    · rintro b m' l ⟨h1, h2, d, rfl, h3⟩; exact ⟨h1, h2, by simpa using h3⟩
    · rintro b m' l ⟨h1, h2, d, rfl, h3⟩; exact ⟨h1, h2, by simpa using h3⟩
    · rintro b m' l ⟨h1, h2, d, rfl, h3⟩; exact ⟨h1, h2, by simpa using h3⟩
    · rintro b m' l ⟨h1, h2, d, rfl, h3⟩; exact ⟨h1, h2, by simpa using h3⟩
    rintro r t m1 m2 l1 l2 ⟨hP1, e1, i1⟩ ⟨hP2, e2, i2⟩ m' d a1 a2 a3 hd'
    have hk' := hk r t m1 m2 l1 l2 hP1 hP2 m' d a1 a2 a3 hd'
    have fp := run_frame (R := fun q r => r = f q) (c := c) ho hp (s1 := ⟨m, (), []⟩) (s2 := ⟨m, (), []⟩) (fun _ _ => rfl) (fun _ _ => rfl)
    have eqm : ∀ a, F2 a → (run (.pure f c) p ⟨m, (), []⟩).2.mem a = m a := fun a ha => fp.2.2.1 a (fun h => hd a h ha)
    have fq := run_frame (R := fun q r => r = f q) (c := c) ho hq (s1 := (run (.pure f c) p ⟨m, (), []⟩).2) (s2 := ⟨m, (), []⟩) eqm (fun _ _ => rfl)
    obtain ⟨dq, fq1, fq2⟩ := run_frame_log (R := fun q r => r = f q) (c := c) ho hq (s1 := (run (.pure f c) p ⟨m, (), []⟩).2) (s2 := ⟨m, (), []⟩)
      eqm (fun _ _ => rfl)
    unfold runOut at e1 e2
    obtain ⟨g1, g2⟩ := Prod.mk.inj e1
    obtain ⟨g3, g4⟩ := Prod.mk.inj e2
    have em : (run (.pure f c) q (run (.pure f c) p ⟨m, (), []⟩).2).2.mem = m' := by
      funext a
      by_cases ha2 : F2 a
      · rw [fq.2.1 a ha2, g4, a2 a ha2]
      · rw [fq.2.2.1 a ha2]
        by_cases ha1 : F1 a
        · rw [g2, a1 a ha1]
        · rw [fp.2.2.1 a ha1, a3 a ha1 ha2]
    have e : runOut (.pure f c) (.join p q k) ⟨m, (), []⟩ = runOut (.pure f c) (k r t) ⟨m', (), []⟩ := by
      rw [runOut_eq (R := fun q r => r = f q) (c := c) (s1 := ⟨m', (), []⟩) (s2 := (run (.pure f c) q (run (.pure f c) p ⟨m, (), []⟩).2).2) ho hk' em]
      unfold runOut
      rw [run_join_eq g1 (fq.1.trans g3)]
    obtain ⟨dk, fk1, fk2⟩ := run_frame_log (R := fun q r => r = f q) (c := c) ho hk' (s1 := (run (.pure f c) q (run (.pure f c) p ⟨m, (), []⟩).2).2)
      (s2 := ⟨m', (), []⟩) (fun a _ => by rw [em]) (fun _ _ => rfl)
    have lj : (d ++ (run (.pure f c) (k r t) ⟨m', (), []⟩).2.log).Perm (run (.pure f c) (.join p q k) ⟨m, (), []⟩).2.log := by
      rw [run_join_eq g1 (fq.1.trans g3), fk1, fk2, fq1, List.nil_append]
      refine List.Perm.append_right _ (hd'.trans (i1.append ?_))
      rw [fq2, List.nil_append] at i2
      exact i2
    rw [e]
    refine wp_mono (ihk r t (n3 r t) hk') (fun _ h => h) ?_ ?_
    · rintro b m'' l ⟨x1, x2, d', rfl, x3⟩
      exact ⟨x1, x2, d ++ d', by simp, (x3.append_left d).trans lj⟩
    · rintro b m'' l ⟨x1, x2, d', rfl, x3⟩
      exact ⟨x1, x2, d ++ d', by simp, (x3.append_left d).trans lj⟩

end NdSlice
