import Verif.Core.Adequacy
import Verif.Core.Sim
import Verif.Core.Cost

/-
Runs whose user code is known by what it answered: what holds for all answers allowed by `R` holds for a run in which all answers happened
to be allowed, even if the user code could have answered otherwise.
-/

namespace NdSlice

variable {α ι ω σ β γ : Type}

/-- `d` are questions and answers which take the user code from state `e` to state `e'`. -/
inductive Trace (o : Oracle σ ι ω) : σ → List (ι × Option ω) → σ → Prop where
  | nil (e : σ) : Trace o e [] e
  | cons {e e' : σ} {q : ι} {d : List (ι × Option ω)} : Trace o (o.ask e q).2 d e' → Trace o e ((q, (o.ask e q).1) :: d) e'

theorem Trace.append {o : Oracle σ ι ω} {e e' e'' : σ} {d d' : List (ι × Option ω)} (h : Trace o e d e') (h' : Trace o e' d' e'') :
    Trace o e (d ++ d') e'' := by
  induction h with
  | nil => exact h'
  | cons _ ih => exact .cons (ih h')

/-- A run asks a list of questions. -/
theorem run_trace {o : Oracle σ ι ω} (hf : ∀ e, (o.flip e).2 = e) (p : Prog α ι ω β) (s : St α ι ω σ) :
    ∃ d, (run o p s).2.log = s.log ++ d ∧ Trace o s.env d (run o p s).2.env := by
  induction p generalizing s with
  | ret b => exact ⟨[], by simp [run], .nil _⟩
  | get a k ih => exact ih _ _
  | set a x k ih => exact ih { s with mem := upd s.mem a x }
  | call q k ih =>
    obtain ⟨d, h1, h2⟩ := ih (o.ask s.env q).1 { s with env := (o.ask s.env q).2, log := s.log ++ [(q, (o.ask s.env q).1)] }
    exact ⟨_ :: d, by rw [run, h1]; simp, .cons h2⟩
  | choose k ih =>
    obtain ⟨d, h1, h2⟩ := ih (o.flip s.env).1 { s with env := (o.flip s.env).2 }
    refine ⟨d, h1, ?_⟩
    dsimp only at h2
    rw [run]
    rw [hf] at h2 ⊢
    exact h2
  | throw e => exact ⟨[], by simp [run], .nil _⟩
  | ub => exact ⟨[], by simp [run], .nil _⟩
  | diverge => exact ⟨[], by simp [run], .nil _⟩
  | join p q k ihp ihq ih =>
    obtain ⟨d1, h1, h2⟩ := ihp s
    rw [run]
    rcases hp : run o p s with ⟨_ | _ | _ | _, s1⟩ <;> rw [hp] at h1 h2 <;> dsimp only at h1 h2 ⊢
    · obtain ⟨d2, h3, h4⟩ := ihq s1
      rcases hq : run o q s1 with ⟨_ | _ | _ | _, s2⟩ <;> rw [hq] at h3 h4 <;> dsimp only at h3 h4 ⊢
      · obtain ⟨d3, h5, h6⟩ := ih _ _ s2
        exact ⟨d1 ++ (d2 ++ d3), by rw [h5, h3, h1]; simp, h2.append (h4.append h6)⟩
      · obtain ⟨d3, h5, h6⟩ := ih _ _ s2
        exact ⟨d1 ++ (d2 ++ d3), by rw [h5, h3, h1]; simp, h2.append (h4.append h6)⟩
      · exact ⟨d1 ++ d2, by rw [h3, h1]; simp, h2.append h4⟩
      · exact ⟨d1 ++ d2, by rw [h3, h1]; simp, h2.append h4⟩
    · obtain ⟨d2, h3, h4⟩ := ihq s1
      rcases hq : run o q s1 with ⟨_ | _ | _ | _, s2⟩ <;> rw [hq] at h3 h4 <;> dsimp only at h3 h4 ⊢
      · obtain ⟨d3, h5, h6⟩ := ih _ _ s2
        exact ⟨d1 ++ (d2 ++ d3), by rw [h5, h3, h1]; simp, h2.append (h4.append h6)⟩
      · obtain ⟨d3, h5, h6⟩ := ih _ _ s2
        exact ⟨d1 ++ (d2 ++ d3), by rw [h5, h3, h1]; simp, h2.append (h4.append h6)⟩
      · exact ⟨d1 ++ d2, by rw [h3, h1]; simp, h2.append h4⟩
      · exact ⟨d1 ++ d2, by rw [h3, h1]; simp, h2.append h4⟩
    · exact ⟨d1, h1, h2⟩
    · exact ⟨d1, h1, h2⟩

/-- Nothing is removed from the log. -/
theorem run_log_prefix (o : Oracle σ ι ω) (p : Prog α ι ω β) (s : St α ι ω σ) : s.log <+: (run o p s).2.log := by
  induction p generalizing s with
  | ret b => exact List.prefix_rfl
  | get a k ih => exact ih _ _
  | set a x k ih => exact ih { s with mem := upd s.mem a x }
  | call q k ih =>
    exact List.IsPrefix.trans (List.prefix_append _ _)
      (ih (o.ask s.env q).1 { s with env := (o.ask s.env q).2, log := s.log ++ [(q, (o.ask s.env q).1)] })
  | choose k ih => exact ih (o.flip s.env).1 { s with env := (o.flip s.env).2 }
  | throw e => exact List.prefix_rfl
  | ub => exact List.prefix_rfl
  | diverge => exact List.prefix_rfl
  | join p q k ihp ihq ih =>
    have h1 := ihp s
    rw [run]
    rcases hp : run o p s with ⟨_ | _ | _ | _, s1⟩ <;> rw [hp] at h1 <;> dsimp only at h1 ⊢
    · have h2 := ihq s1
      rcases hq : run o q s1 with ⟨_ | _ | _ | _, s2⟩ <;> rw [hq] at h2 <;> dsimp only at h2 ⊢
      · exact h1.trans (h2.trans (ih _ _ s2))
      · exact h1.trans (h2.trans (ih _ _ s2))
      · exact h1.trans h2
      · exact h1.trans h2
    · have h2 := ihq s1
      rcases hq : run o q s1 with ⟨_ | _ | _ | _, s2⟩ <;> rw [hq] at h2 <;> dsimp only at h2 ⊢
      · exact h1.trans (h2.trans (ih _ _ s2))
      · exact h1.trans (h2.trans (ih _ _ s2))
      · exact h1.trans h2
      · exact h1.trans h2
    · exact h1
    · exact h1

theorem prefix_cut {A : Type} {a l L : List A} {e : A} (h1 : (a ++ [e]) <+: l) (h2 : l <+: a ++ L) :
    ∃ L', L = e :: L' ∧ l <+: (a ++ [e]) ++ L' := by
  have h3 := h1.trans h2
  rw [List.prefix_append_right_inj] at h3
  obtain ⟨L', rfl⟩ := h3
  exact ⟨L', rfl, by simpa using h2⟩

/-- A run in which all answers were allowed. -/
theorem run_sound_log {R : ι → Option ω → Prop} {o : Oracle σ ι ω} {p : Prog α ι ω β} {F : Addr → Prop}
    {Q : β → Mem α → List (ι × Option ω) → Prop} {E : Panic → Mem α → List (ι × Option ω) → Prop} {s : St α ι ω σ}
    {L : List (ι × Option ω)} (hL : ∀ e ∈ L, R e.1 e.2) (hl : (run o p s).2.log <+: s.log ++ L) (h : wp R p F Q E s.mem s.log) :
    (∃ b s', run o p s = (.ok b, s') ∧ Q b s'.mem s'.log) ∨
    (∃ e s', run o p s = (.panic e, s') ∧ E e s'.mem s'.log) := by
  induction p generalizing s F E L with
  | ret b => exact .inl ⟨b, s, rfl, h⟩
  | get a k ih => exact ih _ hL hl h.2
  | set a x k ih => exact ih (s := { s with mem := upd s.mem a x }) hL hl h.2
  | call q k ih =>
    obtain ⟨L', rfl, hl'⟩ := prefix_cut (run_log_prefix o (k (o.ask s.env q).1)
      { s with env := (o.ask s.env q).2, log := s.log ++ [(q, (o.ask s.env q).1)] }) hl
    exact ih _ (s := { s with env := (o.ask s.env q).2, log := s.log ++ [(q, (o.ask s.env q).1)] })
      (fun e he => hL e (List.mem_cons_of_mem _ he)) hl' (h _ (hL _ List.mem_cons_self))
  | choose k ih => exact ih _ (s := { s with env := (o.flip s.env).2 }) hL hl (h _)
  | throw e => exact .inr ⟨e, s, rfl, h⟩
  | ub => exact h.elim
  | diverge => exact h.elim
  | join p q k ihp ihq ihk =>
    obtain ⟨F1, F2, h1, h2, hd, P1, P2, hp, hq, hk⟩ := h
    have hp := wp_log (l0 := []) (l1 := s.log) (wp_unchanged hp)
    rw [List.append_nil] at hp
    -- the logs of the parts
    have cut : ∀ (s1 : St α ι ω σ), s.log <+: s1.log → s1.log <+: s.log ++ L →
        ∃ L1, (∀ e ∈ L1, R e.1 e.2) ∧ s.log ++ L = s1.log ++ L1 := by
      rintro s1 ⟨d, hd⟩ h
      rw [← hd, List.prefix_append_right_inj] at h
      obtain ⟨L1, rfl⟩ := h
      exact ⟨L1, fun e he => hL e (List.mem_append_right _ he), by rw [← hd, List.append_assoc]⟩
    have lp : (run o p s).2.log <+: s.log ++ L := by
      refine List.IsPrefix.trans ?_ hl
      rw [run]
      rcases hp : run o p s with ⟨_ | _ | _ | _, s1⟩ <;> dsimp only
      · rcases hq : run o q s1 with ⟨_ | _ | _ | _, s2⟩ <;> dsimp only
        · exact (by have := run_log_prefix o q s1; rwa [hq] at this : s1.log <+: s2.log).trans (run_log_prefix _ _ _)
        · exact (by have := run_log_prefix o q s1; rwa [hq] at this : s1.log <+: s2.log).trans (run_log_prefix _ _ _)
        · have := run_log_prefix o q s1; rwa [hq] at this
        · have := run_log_prefix o q s1; rwa [hq] at this
      · rcases hq : run o q s1 with ⟨_ | _ | _ | _, s2⟩ <;> dsimp only
        · exact (by have := run_log_prefix o q s1; rwa [hq] at this : s1.log <+: s2.log).trans (run_log_prefix _ _ _)
        · exact (by have := run_log_prefix o q s1; rwa [hq] at this : s1.log <+: s2.log).trans (run_log_prefix _ _ _)
        · have := run_log_prefix o q s1; rwa [hq] at this
        · have := run_log_prefix o q s1; rwa [hq] at this
      · exact List.prefix_rfl
      · exact List.prefix_rfl
    have key : ∀ (r : Res _) (s1 : St α ι ω σ) (l1 : List (ι × Option ω)), s1.log = s.log ++ l1 →
        (run o q s1).2.log <+: s.log ++ L →
        (P1 r s1.mem l1) → (∀ a, ¬ F1 a → s1.mem a = s.mem a) →
        ((∃ c s2, run o q s1 = (.ok c, s2) ∧ wp R (k r (.ok c)) F Q E s2.mem s2.log) ∨
         (∃ e s2, run o q s1 = (.panic e, s2) ∧ wp R (k r (.panic e)) F Q E s2.mem s2.log)) := by
      intro r s1 l1 hl hlq hP hu
      obtain ⟨L1, hL1, eL1⟩ := cut s1 ⟨l1, hl.symm⟩ ((run_log_prefix o q s1).trans hlq)
      have hq' := wp_log (l0 := []) (l1 := s1.log) (wp_frame hq (m' := s1.mem) (m0 := s.mem) (m0' := s1.mem)
        (fun a ha => hu a (fun h => hd a h ha)) (fun _ _ => rfl) (fun _ _ => rfl))
      rw [List.append_nil] at hq'
      rcases ihq hL1 (eL1 ▸ hlq) hq' with ⟨c, s2, hr, l2, hl2, hP2, hu2⟩ | ⟨c, s2, hr, l2, hl2, hP2, hu2⟩
      · refine .inl ⟨c, s2, hr, ?_⟩
        rw [hl2, hl, List.append_assoc]
        refine hk r (.ok c) _ _ l1 l2 hP hP2 _ _ ?_ ?_ ?_ (by simp)
        · exact fun a ha => hu2 a (hd a ha)
        · exact fun a ha => (patch_in ha).symm
        · exact fun a n1 n2 => (hu2 a n2).trans (hu a n1)
      · refine .inr ⟨c, s2, hr, ?_⟩
        rw [hl2, hl, List.append_assoc]
        refine hk r (.panic c) _ _ l1 l2 hP hP2 _ _ ?_ ?_ ?_ (by simp)
        · exact fun a ha => hu2 a (hd a ha)
        · exact fun a ha => (patch_in ha).symm
        · exact fun a n1 n2 => (hu2 a n2).trans (hu a n1)
    rcases ihp hL lp hp with ⟨b, s1, hr, l1, hl1, hP1, hu1⟩ | ⟨b, s1, hr, l1, hl1, hP1, hu1⟩
    · have lq : (run o q s1).2.log <+: s.log ++ L := by
        refine List.IsPrefix.trans ?_ hl
        rw [run, hr]
        dsimp only
        rcases hq : run o q s1 with ⟨_ | _ | _ | _, s2⟩ <;> dsimp only
        · exact run_log_prefix _ _ _
        · exact run_log_prefix _ _ _
        · exact List.prefix_rfl
        · exact List.prefix_rfl
      rcases key _ s1 l1 hl1 lq hP1 hu1 with ⟨c, s2, hr2, hw⟩ | ⟨c, s2, hr2, hw⟩
      · simp only [run, hr, hr2] at hl ⊢
        rw [hr2] at lq
        obtain ⟨L2, hL2, eL2⟩ := cut s2 (List.IsPrefix.trans ⟨l1, hl1.symm⟩
          (by have := run_log_prefix o q s1; rwa [hr2] at this)) lq
        exact ihk _ _ hL2 (eL2 ▸ hl) hw
      · simp only [run, hr, hr2] at hl ⊢
        rw [hr2] at lq
        obtain ⟨L2, hL2, eL2⟩ := cut s2 (List.IsPrefix.trans ⟨l1, hl1.symm⟩
          (by have := run_log_prefix o q s1; rwa [hr2] at this)) lq
        exact ihk _ _ hL2 (eL2 ▸ hl) hw
    · have lq : (run o q s1).2.log <+: s.log ++ L := by
        refine List.IsPrefix.trans ?_ hl
        rw [run, hr]
        dsimp only
        rcases hq : run o q s1 with ⟨_ | _ | _ | _, s2⟩ <;> dsimp only
        · exact run_log_prefix _ _ _
        · exact run_log_prefix _ _ _
        · exact List.prefix_rfl
        · exact List.prefix_rfl
      rcases key _ s1 l1 hl1 lq hP1 hu1 with ⟨c, s2, hr2, hw⟩ | ⟨c, s2, hr2, hw⟩
      · simp only [run, hr, hr2] at hl ⊢
        rw [hr2] at lq
        obtain ⟨L2, hL2, eL2⟩ := cut s2 (List.IsPrefix.trans ⟨l1, hl1.symm⟩
          (by have := run_log_prefix o q s1; rwa [hr2] at this)) lq
        exact ihk _ _ hL2 (eL2 ▸ hl) hw
      · simp only [run, hr, hr2] at hl ⊢
        rw [hr2] at lq
        obtain ⟨L2, hL2, eL2⟩ := cut s2 (List.IsPrefix.trans ⟨l1, hl1.symm⟩
          (by have := run_log_prefix o q s1; rwa [hr2] at this)) lq
        exact ihk _ _ hL2 (eL2 ▸ hl) hw

/-! ### Replaying a run -/

/-- User code that is a function, and decides no choice. -/
def funOracle (f : ι → ω) : Oracle Unit ι ω := ⟨fun _ q => (some (f q), ()), fun _ => (true, ())⟩

/-- The state of a run without the state of the user code. -/
def St.forget (s : St α ι ω σ) : St α ι ω Unit := ⟨s.mem, (), s.log⟩

/-- A run in which all answers were those of a function. -/
theorem run_replay {f : ι → ω} {o : Oracle σ ι ω} (hf : ∀ e, (o.flip e).1 = true) {p : Prog α ι ω β} {s : St α ι ω σ}
    {L : List (ι × Option ω)} (hL : ∀ e ∈ L, e.2 = some (f e.1)) (hl : (run o p s).2.log <+: s.log ++ L) :
    run (funOracle f) p s.forget = ((run o p s).1, (run o p s).2.forget) := by
  induction p generalizing s L with
  | ret b => rfl
  | get a k ih => exact ih _ hL hl
  | set a x k ih => exact ih (s := { s with mem := upd s.mem a x }) hL hl
  | call q k ih =>
    obtain ⟨L', rfl, hl'⟩ := prefix_cut (run_log_prefix o (k (o.ask s.env q).1)
      { s with env := (o.ask s.env q).2, log := s.log ++ [(q, (o.ask s.env q).1)] }) hl
    have h1 := hL _ List.mem_cons_self
    dsimp only at h1
    have := ih (o.ask s.env q).1 (s := { s with env := (o.ask s.env q).2, log := s.log ++ [(q, (o.ask s.env q).1)] })
      (fun e he => hL e (List.mem_cons_of_mem _ he)) hl'
    rw [run, run, ← this]
    simp only [funOracle, St.forget, h1]
  | choose k ih =>
    have := ih (o.flip s.env).1 (s := { s with env := (o.flip s.env).2 }) hL hl
    rw [run, run, ← this, hf]
    rfl
  | throw e => rfl
  | ub => rfl
  | diverge => rfl
  | join p q k ihp ihq ihk =>
    have cut : ∀ (s1 : St α ι ω σ), s.log <+: s1.log → s1.log <+: s.log ++ L →
        ∃ L1, (∀ e ∈ L1, e.2 = some (f e.1)) ∧ s.log ++ L = s1.log ++ L1 := by
      rintro s1 ⟨d, hd⟩ h
      rw [← hd, List.prefix_append_right_inj] at h
      obtain ⟨L1, rfl⟩ := h
      exact ⟨L1, fun e he => hL e (List.mem_append_right _ he), by rw [← hd, List.append_assoc]⟩
    have a1 := run_log_prefix o p s
    rw [run] at hl
    rw [run, run]
    rcases hp : run o p s with ⟨r, s1⟩
    rw [hp] at hl a1
    dsimp only at a1
    have a2 := run_log_prefix o q s1
    have fin : ∀ r t s2, s1.log <+: s2.log → (run o (k r t) s2).2.log <+: s.log ++ L →
        run (funOracle f) (k r t) s2.forget = ((run o (k r t) s2).1, (run o (k r t) s2).2.forget) := by
      intro r t s2 b1 b2
      obtain ⟨L2, hL2, eL2⟩ := cut s2 (a1.trans b1) ((run_log_prefix _ _ _).trans b2)
      exact ihk _ _ hL2 (eL2 ▸ b2)
    have mid : (run o q s1).2.log <+: s.log ++ L →
        run (funOracle f) q s1.forget = ((run o q s1).1, (run o q s1).2.forget) := by
      intro b
      obtain ⟨L2, hL2, eL2⟩ := cut s1 a1 (a2.trans b)
      exact ihq hL2 (eL2 ▸ b)
    have fst : s1.log <+: s.log ++ L → run (funOracle f) p s.forget = (r, s1.forget) := by
      intro b
      have := ihp (s := s) hL (by rw [hp]; exact b)
      rwa [hp] at this
    rcases hq : run o q s1 with ⟨t, s2⟩
    rw [hq] at mid a2
    cases r with
    | ub => rw [fst hl]
    | diverge => rw [fst hl]
    | ok b =>
      dsimp only at hl ⊢
      rw [hq] at hl ⊢
      cases t with
      | ub => rw [fst (a2.trans hl)]; dsimp only; rw [mid hl]
      | diverge => rw [fst (a2.trans hl)]; dsimp only; rw [mid hl]
      | ok c =>
        rw [fst (a2.trans ((run_log_prefix _ _ _).trans hl))]; dsimp only
        rw [mid ((run_log_prefix _ _ _).trans hl)]
        exact fin _ _ _ a2 hl
      | panic c =>
        rw [fst (a2.trans ((run_log_prefix _ _ _).trans hl))]; dsimp only
        rw [mid ((run_log_prefix _ _ _).trans hl)]
        exact fin _ _ _ a2 hl
    | panic b =>
      dsimp only at hl ⊢
      rw [hq] at hl ⊢
      cases t with
      | ub => rw [fst (a2.trans hl)]; dsimp only; rw [mid hl]
      | diverge => rw [fst (a2.trans hl)]; dsimp only; rw [mid hl]
      | ok c =>
        rw [fst (a2.trans ((run_log_prefix _ _ _).trans hl))]; dsimp only
        rw [mid ((run_log_prefix _ _ _).trans hl)]
        exact fin _ _ _ a2 hl
      | panic c =>
        rw [fst (a2.trans ((run_log_prefix _ _ _).trans hl))]; dsimp only
        rw [mid ((run_log_prefix _ _ _).trans hl)]
        exact fin _ _ _ a2 hl

/-! ### Which questions are asked -/

/-- All questions satisfy `P` (for programs without `join`). -/
def Only (P : ι → Prop) {β : Type} : Prog α ι ω β → Prop
  | .ret _ => True
  | .get _ k => ∀ x, Only P (k x)
  | .set _ _ k => Only P k
  | .call q k => P q ∧ ∀ r, Only P (k r)
  | .choose k => ∀ b, Only P (k b)
  | .throw _ => True
  | .ub => True
  | .diverge => True
  | .join _ _ _ => False

namespace Only

variable {P : ι → Prop}

theorem pure {b : β} : Only P (Pure.pure b : Prog α ι ω β) := trivial
theorem ub : Only P (Prog.ub : Prog α ι ω β) := trivial
theorem throw {e : Panic} : Only P (Prog.throw e : Prog α ι ω β) := trivial

theorem bind {p : Prog α ι ω β} {f : β → Prog α ι ω γ} (h : Only P p) (hf : ∀ b, Only P (f b)) : Only P (p >>= f) := by
  show Only P (p.bind f)
  induction p with
  | ret b => exact hf b
  | get a k ih => exact fun x => ih x (h x) hf
  | set a x k ih => exact ih h hf
  | call q k ih => exact ⟨h.1, fun r => ih r (h.2 r) hf⟩
  | choose k ih => exact fun b => ih b (h b) hf
  | throw e => trivial
  | ub => trivial
  | diverge => trivial
  | join p q k _ _ ih => exact h

theorem onPanic {p : Prog α ι ω β} {g : Prog α ι ω Unit} (h : Only P p) (hg : Only P g) : Only P (p.onPanic g) := by
  induction p with
  | ret b => trivial
  | get a k ih => exact fun x => ih x (h x)
  | set a x k ih => exact ih h
  | call q k ih => exact ⟨h.1, fun r => ih r (h.2 r)⟩
  | choose k ih => exact fun b => ih b (h b)
  | throw e => exact bind hg fun _ => trivial
  | ub => trivial
  | diverge => trivial
  | join p q k _ _ ih => exact h

theorem ite {d : Prop} [Decidable d] {p q : Prog α ι ω β} (h1 : Only P p) (h2 : Only P q) : Only P (if d then p else q) := by
  split
  · exact h1
  · exact h2

theorem loop {s r : Type} {body : s → Prog α ι ω (s ⊕ r)} {n : Nat} {x : s} (h : ∀ x, Only P (body x)) : Only P (Prog.loop body n x) := by
  induction n generalizing x with
  | zero => trivial
  | succ n ih =>
    refine bind (h x) fun o => ?_
    cases o with
    | inl x' => exact ih
    | inr y => trivial

variable {v : View} {i j : Nat} {x : α} {cfg : Cfg}

theorem vget : Only P (v.get i : Prog α ι ω α) := by
  unfold View.get
  exact ite (fun _ => trivial) ub

theorem vidx : Only P (v.idx i : Prog α ι ω α) := by
  unfold View.idx
  exact ite (fun _ => trivial) throw

theorem vset : Only P (v.set i x : Prog α ι ω Unit) := by
  unfold View.set
  exact ite trivial ub

theorem vcset : Only P (v.cset i x : Prog α ι ω Unit) := by
  unfold View.cset
  exact ite trivial throw

theorem uswap : Only P (v.uswap i j : Prog α ι ω Unit) := by
  unfold View.uswap
  exact bind vget fun _ => bind vget fun _ => bind vset fun _ => vset

theorem swap : Only P (v.swap i j : Prog α ι ω Unit) := by
  unfold View.swap
  exact bind vidx fun _ => bind vidx fun _ => bind vset fun _ => vset

theorem splitAt {a : Nat} : Only P (v.splitAt a : Prog α ι ω (View × View)) := by
  unfold View.splitAt
  exact ite pure throw

theorem usub {a b : Nat} : Only P (NdSlice.usub cfg a b : Prog α ι ω Nat) := by
  unfold NdSlice.usub
  exact ite pure (ite throw pure)

theorem debugAssert {d : Bool} : Only P (NdSlice.debugAssert cfg d : Prog α ι ω Unit) := by
  unfold NdSlice.debugAssert
  exact ite throw pure

theorem slice {a b : Nat} : Only P (v.slice a b : Prog α ι ω View) := by
  unfold View.slice
  dsimp only
  exact ite pure throw

/-- All new entries of the log are about such questions. -/
theorem log {p : Prog α ι ω β} (h : Only P p) (o : Oracle σ ι ω) (s : St α ι ω σ) :
    ∃ d, (run o p s).2.log = s.log ++ d ∧ ∀ e ∈ d, P e.1 := by
  induction p generalizing s with
  | ret b => exact ⟨[], by simp [run], by simp⟩
  | get a k ih => exact ih _ (h _) _
  | set a x k ih => exact ih h { s with mem := upd s.mem a x }
  | call q k ih =>
    obtain ⟨d, h1, h2⟩ := ih (o.ask s.env q).1 (h.2 _)
      { s with env := (o.ask s.env q).2, log := s.log ++ [(q, (o.ask s.env q).1)] }
    refine ⟨(q, (o.ask s.env q).1) :: d, by rw [run, h1]; simp, fun e he => ?_⟩
    rcases List.mem_cons.1 he with rfl | he
    · exact h.1
    · exact h2 e he
  | choose k ih => exact ih _ (h _) { s with env := (o.flip s.env).2 }
  | throw e => exact ⟨[], by simp [run], by simp⟩
  | ub => exact ⟨[], by simp [run], by simp⟩
  | diverge => exact ⟨[], by simp [run], by simp⟩
  | join p q k _ _ ih => exact h.elim

end Only

end NdSlice
