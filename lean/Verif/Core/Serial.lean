import Verif.Core.Adequacy

/-
Every schedule of a program whose tasks have footprints of their own is a sequential run: there is user code which, when the tasks are run one
after the other, gives each task the answers it got, and the same result and memory come out.
-/

namespace NdSlice

variable {α ι ω σ : Type}

/-! ### Footprints -/

/-- Whatever is read and answered, `p` touches only cells in `F`, tasks which run at the same time have disjoint footprints, and a result
satisfies `P`.  Nothing is said about whether `p` ends. -/
def Inside {β : Type} : Prog α ι ω β → (Addr → Prop) → (β → Prop) → Prop
  | .ret b, _, P => P b
  | .get a k, F, P => F a ∧ ∀ x, Inside (k x) F P
  | .set a _ k, F, P => F a ∧ Inside k F P
  | .call _ k, F, P => ∀ r, Inside (k r) F P
  | .choose k, F, P => ∀ b, Inside (k b) F P
  | .throw _, _, _ => True
  | .ub, _, _ => True
  | .diverge, _, _ => True
  | .join (β := β) (γ := γ) p q k, F, P =>
    ∃ F1 F2 : Addr → Prop, (∀ a, F1 a → F a) ∧ (∀ a, F2 a → F a) ∧ (∀ a, F1 a → ¬ F2 a) ∧
    ∃ (P1 : β → Prop) (P2 : γ → Prop), Inside p F1 P1 ∧ Inside q F2 P2 ∧
      ∀ r t, (∀ b, r = .ok b → P1 b) → (∀ c, t = .ok c → P2 c) → Inside (k r t) F P

namespace Inside

variable {β γ δ : Type} {p : Prog α ι ω β} {F F' : Addr → Prop} {P P' : β → Prop}

theorem mono (h : Inside p F P) (hF : ∀ a, F a → F' a) (hP : ∀ b, P b → P' b) : Inside p F' P' := by
  induction p with
  | ret b => exact hP b h
  | get a k ih => exact ⟨hF _ h.1, fun x => ih x (h.2 x) hP⟩
  | set a x k ih => exact ⟨hF _ h.1, ih h.2 hP⟩
  | call q k ih => exact fun r => ih r (h r) hP
  | choose k ih => exact fun b => ih b (h b) hP
  | throw e => trivial
  | ub => trivial
  | diverge => trivial
  | join p q k ihp ihq ihk =>
    obtain ⟨F1, F2, h1, h2, hd, P1, P2, hp, hq, hk⟩ := h
    exact ⟨F1, F2, fun a ha => hF a (h1 a ha), fun a ha => hF a (h2 a ha), hd, P1, P2, hp, hq, fun r t hr ht => ihk r t (hk r t hr ht) hP⟩

theorem bind {f : β → Prog α ι ω γ} {Q : γ → Prop} (h : Inside p F P) (hf : ∀ b, P b → Inside (f b) F Q) : Inside (p >>= f) F Q := by
  change Inside (p.bind f) F Q
  induction p with
  | ret b => exact hf b h
  | get a k ih => exact ⟨h.1, fun x => ih x (h.2 x) hf⟩
  | set a x k ih => exact ⟨h.1, ih h.2 hf⟩
  | call q k ih => exact fun r => ih r (h r) hf
  | choose k ih => exact fun b => ih b (h b) hf
  | throw e => trivial
  | ub => trivial
  | diverge => trivial
  | join p q k ihp ihq ihk =>
    obtain ⟨F1, F2, h1, h2, hd, P1, P2, hp, hq, hk⟩ := h
    exact ⟨F1, F2, h1, h2, hd, P1, P2, hp, hq, fun r t hr ht => ihk r t (hk r t hr ht) hf⟩

theorem onPanic {h : Prog α ι ω Unit} {Q : Unit → Prop} (hp : Inside p F P) (hh : Inside h F Q) : Inside (p.onPanic h) F P := by
  induction p with
  | ret b => exact hp
  | get a k ih => exact ⟨hp.1, fun x => ih x (hp.2 x)⟩
  | set a x k ih => exact ⟨hp.1, ih hp.2⟩
  | call q k ih => exact fun r => ih r (hp r)
  | choose k ih => exact fun b => ih b (hp b)
  | throw e => exact bind (p := h) hh fun _ _ => trivial
  | ub => trivial
  | diverge => trivial
  | join p q k ihp ihq ihk =>
    obtain ⟨F1, F2, h1, h2, hd, P1, P2, hp, hq, hk⟩ := hp
    exact ⟨F1, F2, h1, h2, hd, P1, P2, hp, hq, fun r t hr ht => ihk r t (hk r t hr ht)⟩

theorem rayonJoin {q : Prog α ι ω γ} {Q : γ → Prop} {F1 F2 : Addr → Prop} (h1 : ∀ a, F1 a → F a) (h2 : ∀ a, F2 a → F a) (hd : ∀ a, F1 a → ¬ F2 a)
    (hp : Inside p F1 P) (hq : Inside q F2 Q) : Inside (Prog.rayonJoin p q) F (fun x => P x.1 ∧ Q x.2) := by
  refine ⟨F1, F2, h1, h2, hd, P, Q, hp, hq, fun r t hr ht => ?_⟩
  rcases r with b | e <;> rcases t with c | e'
  · exact ⟨hr b rfl, ht c rfl⟩
  · trivial
  · trivial
  · trivial

/-- A step keeps the footprint and changes nothing else. -/
theorem step {o : Oracle σ ι ω} {p' : Prog α ι ω β} {s s' : St α ι ω σ} (hs : Step o p s p' s') (h : Inside p F P) :
    Inside p' F P ∧ ∀ a, ¬ F a → s'.mem a = s.mem a := by
  induction hs generalizing F with
  | get a k s => exact ⟨h.2 _, fun _ _ => rfl⟩
  | set a x k s => exact ⟨h.2, upd_out h.1 fun _ _ => rfl⟩
  | call q k s => exact ⟨h _, fun _ _ => rfl⟩
  | choose k s => exact ⟨h _, fun _ _ => rfl⟩
  | joinL p p' q k s s' _ ih =>
    obtain ⟨F1, F2, h1, h2, hd, P1, P2, hp, hq, hk⟩ := h
    have := ih hp
    exact ⟨⟨F1, F2, h1, h2, hd, P1, P2, this.1, hq, hk⟩, fun a ha => this.2 a fun h => ha (h1 a h)⟩
  | joinR p q q' k s s' _ ih =>
    obtain ⟨F1, F2, h1, h2, hd, P1, P2, hp, hq, hk⟩ := h
    have := ih hq
    exact ⟨⟨F1, F2, h1, h2, hd, P1, P2, hp, this.1, hk⟩, fun a ha => this.2 a fun h => ha (h2 a h)⟩
  | joinEnd p q k s r t hr ht =>
    obtain ⟨F1, F2, h1, h2, hd, P1, P2, hp, hq, hk⟩ := h
    refine ⟨hk r t (fun b hb => ?_) (fun c hc => ?_), fun _ _ => rfl⟩
    · subst hb; cases hr; exact hp
    · subst hc; cases ht; exact hq

end Inside

/-! ### Sequential runs with given answers -/

/-- `Serial p m l c r m'`: run sequentially from the memory `m`, with the questions and answers `l` and the choices `c`, `p` ends with `r` in the
memory `m'`. -/
inductive Serial : {β : Type} → Prog α ι ω β → Mem α → List (ι × Option ω) → List Bool → Res β → Mem α → Prop where
  | ret {β : Type} (b : β) (m : Mem α) : Serial (.ret b) m [] [] (.ok b) m
  | throw {β : Type} (e : Panic) (m : Mem α) : Serial (.throw e : Prog α ι ω β) m [] [] (.panic e) m
  | get {β : Type} {a : Addr} {k : α → Prog α ι ω β} {m m' l c r} : Serial (k (m a)) m l c r m' → Serial (.get a k) m l c r m'
  | set {β : Type} {a : Addr} {x : α} {k : Prog α ι ω β} {m m' l c r} : Serial k (upd m a x) l c r m' → Serial (.set a x k) m l c r m'
  | call {β : Type} {q : ι} {k : Option ω → Prog α ι ω β} {m m' l c r} (x : Option ω) : Serial (k x) m l c r m' → Serial (.call q k) m ((q, x) :: l) c r m'
  | choose {β : Type} {k : Bool → Prog α ι ω β} {m m' l c r} (b : Bool) : Serial (k b) m l c r m' → Serial (.choose k) m l (b :: c) r m'
  | join {β γ δ : Type} {p : Prog α ι ω β} {q : Prog α ι ω γ} {k : Res β → Res γ → Prog α ι ω δ} {m m1 m2 m3 l1 l2 l3 c1 c2 c3 r t u} :
      Serial p m l1 c1 r m1 → Serial q m1 l2 c2 t m2 → Serial (k r t) m2 l3 c3 u m3 →
      Serial (.join p q k) m (l1 ++ (l2 ++ l3)) (c1 ++ (c2 ++ c3)) u m3

/-- A sequential run only sees and changes the footprint. -/
theorem Serial.frame {β : Type} {p : Prog α ι ω β} {m m' : Mem α} {l c r} (h : Serial p m l c r m') {F : Addr → Prop} {P : β → Prop}
    (hp : Inside p F P) : (∀ a, ¬ F a → m' a = m a) ∧ (∀ b, r = .ok b → P b) ∧ ∀ M : Mem α, (∀ a, F a → M a = m a) → Serial p M l c r (patch F m' M) := by
  induction h generalizing F with
  | ret b m =>
    refine ⟨fun _ _ => rfl, fun b' hb => by cases hb; exact hp, fun M hM => ?_⟩
    rw [patch_eq (fun a ha => (hM a ha).symm) (fun _ _ => rfl)]
    exact .ret b M
  | throw e m =>
    refine ⟨fun _ _ => rfl, fun b' hb => (by cases hb), fun M hM => ?_⟩
    rw [patch_eq (fun a ha => (hM a ha).symm) (fun _ _ => rfl)]
    exact .throw e M
  | get _ ih =>
    have := ih (hp.2 _)
    refine ⟨this.1, this.2.1, fun M hM => .get ?_⟩
    rw [hM _ hp.1]
    exact this.2.2 M hM
  | set _ ih =>
    rename_i a x k m m' l c r _
    have := ih hp.2
    refine ⟨fun b hb => by rw [this.1 b hb]; exact upd_out hp.1 (fun _ _ => rfl) b hb, this.2.1, fun M hM => .set ?_⟩
    have h2 := this.2.2 (upd M a x) (upd_in hM)
    rw [show patch F m' (upd M a x) = patch F m' M from ?_] at h2
    · exact h2
    · funext b
      by_cases hb : F b
      · rw [patch_in hb, patch_in hb]
      · rw [patch_out hb, patch_out hb]
        exact upd_out hp.1 (fun _ _ => rfl) b hb
  | call x _ ih =>
    have := ih (hp x)
    exact ⟨this.1, this.2.1, fun M hM => .call x (this.2.2 M hM)⟩
  | choose b _ ih =>
    have := ih (hp b)
    exact ⟨this.1, this.2.1, fun M hM => .choose b (this.2.2 M hM)⟩
  | join _ _ _ ih1 ih2 ih3 =>
    rename_i p q k m m1 m2 m3 l1 l2 l3 c1 c2 c3 r t u _ _ _
    obtain ⟨F1, F2, h1, h2, hd, P1, P2, hp, hq, hk⟩ := hp
    obtain ⟨a1, b1, e1⟩ := ih1 hp
    obtain ⟨a2, b2, e2⟩ := ih2 hq
    obtain ⟨a3, b3, e3⟩ := ih3 (hk r t b1 b2)
    have hm2 : ∀ a, ¬ F a → m2 a = m a := fun a ha => by rw [a2 a fun h => ha (h2 a h), a1 a fun h => ha (h1 a h)]
    refine ⟨fun a ha => by rw [a3 a ha, hm2 a ha], b3, fun M hM => ?_⟩
    have w1 := e1 M fun a ha => hM a (h1 a ha)
    have w2 := e2 (patch F1 m1 M) (fun a ha => by
      have hn : ¬ F1 a := fun h => hd a h ha
      rw [patch_out hn, a1 a hn, hM a (h2 a ha)])
    have w3 := e3 (patch F2 m2 (patch F1 m1 M)) (fun a ha => by
      by_cases hf2 : F2 a
      · rw [patch_in hf2]
      · rw [patch_out hf2, a2 a hf2]
        by_cases hf1 : F1 a
        · rw [patch_in hf1]
        · rw [patch_out hf1, a1 a hf1, hM a ha])
    rw [show patch F m3 (patch F2 m2 (patch F1 m1 M)) = patch F m3 M from ?_] at w3
    · exact .join w1 w2 w3
    · funext a
      by_cases ha : F a
      · rw [patch_in ha, patch_in ha]
      · rw [patch_out ha, patch_out ha, patch_out fun h => ha (h2 a h), patch_out fun h => ha (h1 a h)]

/-- A step can be put in front of a sequential run. -/
theorem Serial.step {o : Oracle σ ι ω} {β : Type} {p p' : Prog α ι ω β} {s s' : St α ι ω σ} (hs : Step o p s p' s') {F : Addr → Prop} {P : β → Prop}
    (hp : Inside p F P) {M : Mem α} (hM : ∀ a, F a → M a = s.mem a) {l c r m'} (h : Serial p' (patch F s'.mem M) l c r m') :
    ∃ d l' c', Serial p M l' c' r m' ∧ s'.log = s.log ++ d ∧ l'.Perm (d ++ l) := by
  induction hs generalizing F M l c m' with
  | get a k s =>
    rw [patch_eq (fun a ha => (hM a ha).symm) (fun _ _ => rfl)] at h
    exact ⟨[], l, c, .get (by rw [hM a hp.1]; exact h), by simp, .refl _⟩
  | set a x k s =>
    rw [show patch F (upd s.mem a x) M = upd M a x from ?_] at h
    · exact ⟨[], l, c, .set h, by simp, .refl _⟩
    · funext b
      by_cases hb : F b
      · rw [patch_in hb]
        exact (upd_in hM b hb).symm
      · rw [patch_out hb]
        exact (upd_out hp.1 (fun _ _ => rfl) b hb).symm
  | call q k s =>
    rw [patch_eq (fun a ha => (hM a ha).symm) (fun _ _ => rfl)] at h
    exact ⟨_, _, c, .call _ h, rfl, .refl _⟩
  | choose k s =>
    rw [patch_eq (fun a ha => (hM a ha).symm) (fun _ _ => rfl)] at h
    exact ⟨[], l, _, .choose _ h, by simp, .refl _⟩
  | joinL p p' q k s s' hs ih =>
    obtain ⟨F1, F2, h1, h2, hd, P1, P2, hp, hq, hk⟩ := hp
    have hu := (hp.step hs).2
    rw [show patch F s'.mem M = patch F1 s'.mem M from ?_] at h
    · cases h with
      | join w1 w2 w3 =>
        obtain ⟨d, l', c', w, e, hl⟩ := ih hp (fun a ha => hM a (h1 a ha)) w1
        refine ⟨d, _, _, .join w w2 w3, e, ?_⟩
        rw [← List.append_assoc d]
        exact hl.append_right _
    · funext a
      by_cases ha : F1 a
      · rw [patch_in ha, patch_in (h1 a ha)]
      · rw [patch_out ha]
        by_cases hf : F a
        · rw [patch_in hf, hu a ha, hM a hf]
        · rw [patch_out hf]
  | joinR p q q' k s s' hs ih =>
    obtain ⟨F1, F2, h1, h2, hd, P1, P2, hp, hq, hk⟩ := hp
    have hu := (hq.step hs).2
    rw [show patch F s'.mem M = patch F2 s'.mem M from ?_] at h
    · cases h with
      | join w1 w2 w3 =>
        rename_i m1 m2 l1 l2 l3 c1 c2 c3 r t
        obtain ⟨a1, b1, e1⟩ := w1.frame hp
        have w1' := e1 M (fun a ha => by rw [patch_out (hd a ha)])
        have hm1 : patch F2 s'.mem (patch F1 m1 M) = m1 := by
          funext a
          by_cases h2a : F2 a
          · have hn : ¬ F1 a := fun h => hd a h h2a
            rw [patch_in h2a, a1 a hn, patch_in h2a]
          · rw [patch_out h2a]
            by_cases h1a : F1 a
            · rw [patch_in h1a]
            · rw [patch_out h1a, a1 a h1a, patch_out h2a]
        obtain ⟨d, l', c', w, e, hl⟩ := ih hq (M := patch F1 m1 M) (fun a ha => by
          rw [patch_out fun h => hd a h ha, hM a (h2 a ha)]) (by rw [hm1]; exact w2)
        refine ⟨d, _, _, .join w1' w w3, e, ?_⟩
        have : (l1 ++ (l' ++ l3)).Perm (l1 ++ ((d ++ l2) ++ l3)) := (hl.append_right _).append_left _
        refine this.trans ?_
        rw [List.append_assoc d, ← List.append_assoc l1, ← List.append_assoc d]
        exact List.perm_append_comm.append_right _
    · funext a
      by_cases ha : F2 a
      · rw [patch_in ha, patch_in (h2 a ha)]
      · rw [patch_out ha]
        by_cases hf : F a
        · rw [patch_in hf, hu a ha, hM a hf]
        · rw [patch_out hf]
  | joinEnd p q k s r1 t1 hr ht =>
    rw [patch_eq (fun a ha => (hM a ha).symm) (fun _ _ => rfl)] at h
    refine ⟨[], l, c, ?_, by simp, .refl _⟩
    have w1 : Serial p M [] [] r1 M := by
      cases hr
      · exact .ret _ _
      · exact .throw _ _
    have w2 : Serial q M [] [] t1 M := by
      cases ht
      · exact .ret _ _
      · exact .throw _ _
    exact .join w1 w2 h

/-- Whatever the schedule, if a program with footprints ends then a sequential run with the same answers, up to their order, ends in the same way. -/
theorem Serial.steps {o : Oracle σ ι ω} {β : Type} {p p' : Prog α ι ω β} {s s' : St α ι ω σ} (hs : Steps o p s p' s') {F : Addr → Prop} {P : β → Prop}
    (hp : Inside p F P) {r : Res β} (hr : Ended p' r) : ∃ d l c, Serial p s.mem l c r s'.mem ∧ s'.log = s.log ++ d ∧ l.Perm d := by
  have key : ∀ {p' : Prog α ι ω β} {s' : St α ι ω σ}, Steps o p s p' s' → Inside p' F P ∧
      ∀ l c m, Serial p' s'.mem l c r m → ∃ d l' c', Serial p s.mem l' c' r m ∧ s'.log = s.log ++ d ∧ l'.Perm (d ++ l) := by
    intro p' s' hs
    induction hs with
    | refl => exact ⟨hp, fun l c m h => ⟨[], l, c, h, by simp, .refl _⟩⟩
    | tail _ hst ih =>
      rename_i p1 s1 p2 s2 _
      obtain ⟨hi, ih⟩ := ih
      have hi' := hi.step hst
      refine ⟨hi'.1, fun l c m h => ?_⟩
      rw [← patch_eq (F := F) (m' := s2.mem) (m := s2.mem) (m0 := s1.mem) (fun _ _ => rfl) hi'.2] at h
      obtain ⟨d, l', c', h', e, hl⟩ := Serial.step hst hi (fun _ _ => rfl) h
      obtain ⟨d', l'', c'', h'', e', hl'⟩ := ih _ _ _ h'
      refine ⟨d' ++ d, l'', c'', h'', by rw [e, e', List.append_assoc], ?_⟩
      refine hl'.trans ?_
      rw [List.append_assoc]
      exact hl.append_left _
  obtain ⟨_, h⟩ := key hs
  have : Serial p' s'.mem [] [] r s'.mem := by
    cases hr
    · exact .ret _ _
    · exact .throw _ _
  obtain ⟨d, l, c, h1, h2, h3⟩ := h _ _ _ this
  rw [List.append_nil] at h3
  exact ⟨d, l, c, h1, h2, h3⟩

/-! ### Sequential runs which get stuck -/

/-- `Stuck p m l c`: run sequentially from the memory `m`, with the questions and answers `l` and the choices `c`, `p` comes to an undefined operation or
to an exhausted loop. -/
inductive Stuck : {β : Type} → Prog α ι ω β → Mem α → List (ι × Option ω) → List Bool → Prop where
  | ub {β : Type} (m : Mem α) : Stuck (.ub : Prog α ι ω β) m [] []
  | diverge {β : Type} (m : Mem α) : Stuck (.diverge : Prog α ι ω β) m [] []
  | get {β : Type} {a : Addr} {k : α → Prog α ι ω β} {m l c} : Stuck (k (m a)) m l c → Stuck (.get a k) m l c
  | set {β : Type} {a : Addr} {x : α} {k : Prog α ι ω β} {m l c} : Stuck k (upd m a x) l c → Stuck (.set a x k) m l c
  | call {β : Type} {q : ι} {k : Option ω → Prog α ι ω β} {m l c} (x : Option ω) : Stuck (k x) m l c → Stuck (.call q k) m ((q, x) :: l) c
  | choose {β : Type} {k : Bool → Prog α ι ω β} {m l c} (b : Bool) : Stuck (k b) m l c → Stuck (.choose k) m l (b :: c)
  | joinL {β γ δ : Type} {p : Prog α ι ω β} {q : Prog α ι ω γ} {k : Res β → Res γ → Prog α ι ω δ} {m l c} : Stuck p m l c → Stuck (.join p q k) m l c
  | joinR {β γ δ : Type} {p : Prog α ι ω β} {q : Prog α ι ω γ} {k : Res β → Res γ → Prog α ι ω δ} {m m1 l1 l2 c1 c2 r} :
      Serial p m l1 c1 r m1 → Stuck q m1 l2 c2 → Stuck (.join p q k) m (l1 ++ l2) (c1 ++ c2)
  | join {β γ δ : Type} {p : Prog α ι ω β} {q : Prog α ι ω γ} {k : Res β → Res γ → Prog α ι ω δ} {m m1 m2 l1 l2 l3 c1 c2 c3 r t} :
      Serial p m l1 c1 r m1 → Serial q m1 l2 c2 t m2 → Stuck (k r t) m2 l3 c3 →
      Stuck (.join p q k) m (l1 ++ (l2 ++ l3)) (c1 ++ (c2 ++ c3))

theorem Stuck.frame {β : Type} {p : Prog α ι ω β} {m : Mem α} {l c} (h : Stuck p m l c) {F : Addr → Prop} {P : β → Prop}
    (hp : Inside p F P) {M : Mem α} (hM : ∀ a, F a → M a = m a) : Stuck p M l c := by
  induction h generalizing F M with
  | ub m => exact .ub M
  | diverge m => exact .diverge M
  | get _ ih =>
    refine .get ?_
    rw [hM _ hp.1]
    exact ih (hp.2 _) hM
  | set _ ih => exact .set (ih hp.2 (upd_in hM))
  | call x _ ih => exact .call x (ih (hp x) hM)
  | choose b _ ih => exact .choose b (ih (hp b) hM)
  | joinL _ ih =>
    obtain ⟨F1, F2, h1, h2, hd, P1, P2, hp, hq, hk⟩ := hp
    exact .joinL (ih hp fun a ha => hM a (h1 a ha))
  | joinR w1 _ ih =>
    obtain ⟨F1, F2, h1, h2, hd, P1, P2, hp, hq, hk⟩ := hp
    obtain ⟨a1, b1, e1⟩ := w1.frame hp
    refine .joinR (e1 M fun a ha => hM a (h1 a ha)) (ih hq fun a ha => ?_)
    have hn : ¬ F1 a := fun h => hd a h ha
    rw [patch_out hn, a1 a hn, hM a (h2 a ha)]
  | join w1 w2 _ ih =>
    obtain ⟨F1, F2, h1, h2, hd, P1, P2, hp, hq, hk⟩ := hp
    obtain ⟨a1, b1, e1⟩ := w1.frame hp
    obtain ⟨a2, b2, e2⟩ := w2.frame hq
    refine .join (e1 M fun a ha => hM a (h1 a ha)) (e2 _ fun a ha => ?_) (ih (hk _ _ b1 b2) fun a ha => ?_)
    · have hn : ¬ F1 a := fun h => hd a h ha
      rw [patch_out hn, a1 a hn, hM a (h2 a ha)]
    · by_cases hf2 : F2 a
      · rw [patch_in hf2]
      · rw [patch_out hf2, a2 a hf2]
        by_cases hf1 : F1 a
        · rw [patch_in hf1]
        · rw [patch_out hf1, a1 a hf1, hM a ha]

theorem step_log {o : Oracle σ ι ω} {β : Type} {p p' : Prog α ι ω β} {s s' : St α ι ω σ} (h : Step o p s p' s') : ∃ d, s'.log = s.log ++ d := by
  induction h with
  | get => exact ⟨[], by simp⟩
  | set => exact ⟨[], by simp⟩
  | call q k s => exact ⟨_, rfl⟩
  | choose => exact ⟨[], by simp⟩
  | joinL _ _ _ _ _ _ _ ih => exact ih
  | joinR _ _ _ _ _ _ _ ih => exact ih
  | joinEnd => exact ⟨[], by simp⟩

/-- A step can be put in front of a sequential run which gets stuck. -/
theorem Stuck.step {o : Oracle σ ι ω} {β : Type} {p p' : Prog α ι ω β} {s s' : St α ι ω σ} (hs : Step o p s p' s') {F : Addr → Prop} {P : β → Prop}
    (hp : Inside p F P) {M : Mem α} (hM : ∀ a, F a → M a = s.mem a) {l c} (h : Stuck p' (patch F s'.mem M) l c) :
    ∃ d l' c', Stuck p M l' c' ∧ s'.log = s.log ++ d ∧ ∀ x ∈ l', x ∈ d ++ l := by
  induction hs generalizing F M l c with
  | get a k s =>
    rw [patch_eq (fun a ha => (hM a ha).symm) (fun _ _ => rfl)] at h
    exact ⟨[], l, c, .get (by rw [hM a hp.1]; exact h), by simp, fun _ h => h⟩
  | set a x k s =>
    rw [show patch F (upd s.mem a x) M = upd M a x from ?_] at h
    · exact ⟨[], l, c, .set h, by simp, fun _ h => h⟩
    · funext b
      by_cases hb : F b
      · rw [patch_in hb]
        exact (upd_in hM b hb).symm
      · rw [patch_out hb]
        exact (upd_out hp.1 (fun _ _ => rfl) b hb).symm
  | call q k s =>
    rw [patch_eq (fun a ha => (hM a ha).symm) (fun _ _ => rfl)] at h
    exact ⟨_, _, c, .call _ h, rfl, fun _ h => h⟩
  | choose k s =>
    rw [patch_eq (fun a ha => (hM a ha).symm) (fun _ _ => rfl)] at h
    exact ⟨[], l, _, .choose _ h, by simp, fun _ h => h⟩
  | joinL p p' q k s s' hs ih =>
    obtain ⟨F1, F2, h1, h2, hd, P1, P2, hp, hq, hk⟩ := hp
    have hu := (hp.step hs).2
    rw [show patch F s'.mem M = patch F1 s'.mem M from ?_] at h
    · cases h with
      | joinL w =>
        obtain ⟨d, l', c', w, e, hl⟩ := ih hp (fun a ha => hM a (h1 a ha)) w
        exact ⟨d, l', c', .joinL w, e, hl⟩
      | joinR w1 w2 =>
        obtain ⟨d, l', c', w, e, hl⟩ := Serial.step hs hp (fun a ha => hM a (h1 a ha)) w1
        refine ⟨d, _, _, .joinR w w2, e, fun x hx => ?_⟩
        rw [← List.append_assoc]
        exact (hl.append_right _).subset hx
      | join w1 w2 w3 =>
        obtain ⟨d, l', c', w, e, hl⟩ := Serial.step hs hp (fun a ha => hM a (h1 a ha)) w1
        refine ⟨d, _, _, .join w w2 w3, e, fun x hx => ?_⟩
        rw [← List.append_assoc]
        exact (hl.append_right _).subset hx
    · funext a
      by_cases ha : F1 a
      · rw [patch_in ha, patch_in (h1 a ha)]
      · rw [patch_out ha]
        by_cases hf : F a
        · rw [patch_in hf, hu a ha, hM a hf]
        · rw [patch_out hf]
  | joinR p q q' k s s' hs ih =>
    obtain ⟨F1, F2, h1, h2, hd, P1, P2, hp, hq, hk⟩ := hp
    have hu := (hq.step hs).2
    have hmid : ∀ {m1 : Mem α}, (∀ a, ¬ F1 a → m1 a = patch F2 s'.mem M a) → patch F2 s'.mem (patch F1 m1 M) = m1 := by
      intro m1 a1
      funext a
      by_cases h2a : F2 a
      · have hn : ¬ F1 a := fun h => hd a h h2a
        rw [patch_in h2a, a1 a hn, patch_in h2a]
      · rw [patch_out h2a]
        by_cases h1a : F1 a
        · rw [patch_in h1a]
        · rw [patch_out h1a, a1 a h1a, patch_out h2a]
    rw [show patch F s'.mem M = patch F2 s'.mem M from ?_] at h
    · cases h with
      | joinL w =>
        obtain ⟨d, e⟩ := step_log hs
        exact ⟨d, l, c, .joinL (w.frame hp fun a ha => by rw [patch_out (hd a ha)]), e, fun x hx => List.mem_append_right _ hx⟩
      | joinR w1 w2 =>
        rename_i m1 l1 l2 c1 c2 r
        obtain ⟨a1, b1, e1⟩ := w1.frame hp
        have w1' := e1 M (fun a ha => by rw [patch_out (hd a ha)])
        obtain ⟨d, l', c', w, e, hl⟩ := ih hq (M := patch F1 m1 M) (fun a ha => by
          rw [patch_out fun h => hd a h ha, hM a (h2 a ha)]) (by rw [hmid a1]; exact w2)
        refine ⟨d, _, _, .joinR w1' w, e, fun x hx => ?_⟩
        rcases List.mem_append.1 hx with hx | hx
        · exact List.mem_append_right _ (List.mem_append_left _ hx)
        · rcases List.mem_append.1 (hl x hx) with hx | hx
          · exact List.mem_append_left _ hx
          · exact List.mem_append_right _ (List.mem_append_right _ hx)
      | join w1 w2 w3 =>
        rename_i m1 m2 l1 l2 l3 c1 c2 c3 r t
        obtain ⟨a1, b1, e1⟩ := w1.frame hp
        have w1' := e1 M (fun a ha => by rw [patch_out (hd a ha)])
        obtain ⟨d, l', c', w, e, hl⟩ := Serial.step hs hq (M := patch F1 m1 M) (fun a ha => by
          rw [patch_out fun h => hd a h ha, hM a (h2 a ha)]) (by rw [hmid a1]; exact w2)
        refine ⟨d, _, _, .join w1' w w3, e, fun x hx => ?_⟩
        rcases List.mem_append.1 hx with hx | hx
        · exact List.mem_append_right _ (List.mem_append_left _ hx)
        rcases List.mem_append.1 hx with hx | hx
        · rcases List.mem_append.1 (hl.mem_iff.1 hx) with hx | hx
          · exact List.mem_append_left _ hx
          · exact List.mem_append_right _ (List.mem_append_right _ (List.mem_append_left _ hx))
        · exact List.mem_append_right _ (List.mem_append_right _ (List.mem_append_right _ hx))
    · funext a
      by_cases ha : F2 a
      · rw [patch_in ha, patch_in (h2 a ha)]
      · rw [patch_out ha]
        by_cases hf : F a
        · rw [patch_in hf, hu a ha, hM a hf]
        · rw [patch_out hf]
  | joinEnd p q k s r1 t1 hr ht =>
    rw [patch_eq (fun a ha => (hM a ha).symm) (fun _ _ => rfl)] at h
    refine ⟨[], l, c, ?_, by simp, fun _ h => h⟩
    have w1 : Serial p M [] [] r1 M := by
      cases hr
      · exact .ret _ _
      · exact .throw _ _
    have w2 : Serial q M [] [] t1 M := by
      cases ht
      · exact .ret _ _
      · exact .throw _ _
    exact .join w1 w2 h

theorem Stuck.steps {o : Oracle σ ι ω} {β : Type} {p p' : Prog α ι ω β} {s s' : St α ι ω σ} (hs : Steps o p s p' s') {F : Addr → Prop} {P : β → Prop}
    (hp : Inside p F P) : Inside p' F P ∧ ∀ l c, Stuck p' s'.mem l c → ∃ d l' c', Stuck p s.mem l' c' ∧ s'.log = s.log ++ d ∧ ∀ x ∈ l', x ∈ d ++ l := by
  induction hs with
  | refl => exact ⟨hp, fun l c h => ⟨[], l, c, h, by simp, fun _ h => h⟩⟩
  | tail _ hst ih =>
    rename_i p1 s1 p2 s2 _
    obtain ⟨hi, ih⟩ := ih
    have hi' := hi.step hst
    refine ⟨hi'.1, fun l c h => ?_⟩
    rw [← patch_eq (F := F) (m' := s2.mem) (m := s2.mem) (m0 := s1.mem) (fun _ _ => rfl) hi'.2] at h
    obtain ⟨d, l', c', h', e, hl⟩ := Stuck.step hst hi (fun _ _ => rfl) h
    obtain ⟨d', l'', c'', h'', e', hl'⟩ := ih _ _ h'
    refine ⟨d' ++ d, l'', c'', h'', by rw [e, e', List.append_assoc], fun x hx => ?_⟩
    rw [List.append_assoc]
    rcases List.mem_append.1 (hl' x hx) with hx | hx
    · exact List.mem_append_left _ hx
    · exact List.mem_append_right _ (hl x hx)

/-- A program ends or gets stuck when run sequentially. -/
theorem serial_total {o : Oracle σ ι ω} {R : ι → Option ω → Prop} (ho : o.Sat R) (e : σ) {β : Type} (p : Prog α ι ω β) (m : Mem α) :
    (∃ l c r m', Serial p m l c r m' ∧ ∀ x ∈ l, R x.1 x.2) ∨ ∃ l c, Stuck p m l c ∧ ∀ x ∈ l, R x.1 x.2 := by
  have nil : ∀ x ∈ ([] : List (ι × Option ω)), R x.1 x.2 := fun _ h => by cases h
  induction p generalizing m with
  | ret b => exact .inl ⟨_, _, _, _, .ret b m, nil⟩
  | throw e => exact .inl ⟨_, _, _, _, .throw e m, nil⟩
  | ub => exact .inr ⟨_, _, .ub m, nil⟩
  | diverge => exact .inr ⟨_, _, .diverge m, nil⟩
  | get a k ih =>
    rcases ih (m a) m with ⟨l, c, r, m', h, hl⟩ | ⟨l, c, h, hl⟩
    · exact .inl ⟨l, c, r, m', .get h, hl⟩
    · exact .inr ⟨l, c, .get h, hl⟩
  | set a x k ih =>
    rcases ih (upd m a x) with ⟨l, c, r, m', h, hl⟩ | ⟨l, c, h, hl⟩
    · exact .inl ⟨l, c, r, m', .set h, hl⟩
    · exact .inr ⟨l, c, .set h, hl⟩
  | call q k ih =>
    have hc : ∀ l : List (ι × Option ω), (∀ x ∈ l, R x.1 x.2) → ∀ x ∈ (q, (o.ask e q).1) :: l, R x.1 x.2 := fun l hl x hx => by
      rcases List.mem_cons.1 hx with rfl | hx
      · exact ho e q
      · exact hl x hx
    rcases ih (o.ask e q).1 m with ⟨l, c, r, m', h, hl⟩ | ⟨l, c, h, hl⟩
    · exact .inl ⟨_, c, r, m', .call _ h, hc l hl⟩
    · exact .inr ⟨_, c, .call _ h, hc l hl⟩
  | choose k ih =>
    rcases ih true m with ⟨l, c, r, m', h, hl⟩ | ⟨l, c, h, hl⟩
    · exact .inl ⟨l, _, r, m', .choose _ h, hl⟩
    · exact .inr ⟨l, _, .choose _ h, hl⟩
  | join p q k ihp ihq ihk =>
    have app : ∀ l l' : List (ι × Option ω), (∀ x ∈ l, R x.1 x.2) → (∀ x ∈ l', R x.1 x.2) → ∀ x ∈ l ++ l', R x.1 x.2 := fun l l' h h' x hx =>
      (List.mem_append.1 hx).elim (h x) (h' x)
    rcases ihp m with ⟨l1, c1, r, m1, w1, hl1⟩ | ⟨l, c, h, hl⟩
    · rcases ihq m1 with ⟨l2, c2, t, m2, w2, hl2⟩ | ⟨l, c, h, hl⟩
      · rcases ihk r t m2 with ⟨l3, c3, u, m3, w3, hl3⟩ | ⟨l, c, h, hl⟩
        · exact .inl ⟨_, _, _, _, .join w1 w2 w3, app _ _ hl1 (app _ _ hl2 hl3)⟩
        · exact .inr ⟨_, _, .join w1 w2 h, app _ _ hl1 (app _ _ hl2 hl)⟩
      · exact .inr ⟨_, _, .joinR w1 h, app _ _ hl1 hl⟩
    · exact .inr ⟨l, c, .joinL h, hl⟩

/-- If some task is stuck, then a sequential run gets stuck. -/
theorem Bad.stuck {o : Oracle σ ι ω} {R : ι → Option ω → Prop} (ho : o.Sat R) (e : σ) {β : Type} {p : Prog α ι ω β} (h : Bad p) (m : Mem α) :
    ∃ l c, Stuck p m l c ∧ ∀ x ∈ l, R x.1 x.2 := by
  induction h generalizing m with
  | ub => exact ⟨_, _, .ub m, fun _ h => by cases h⟩
  | diverge => exact ⟨_, _, .diverge m, fun _ h => by cases h⟩
  | left p q k _ ih =>
    obtain ⟨l, c, h, hl⟩ := ih m
    exact ⟨l, c, .joinL h, hl⟩
  | right p q k _ ih =>
    rcases serial_total ho e p m with ⟨l1, c1, r, m1, w1, hl1⟩ | ⟨l, c, h, hl⟩
    · obtain ⟨l, c, h, hl⟩ := ih m1
      exact ⟨_, _, .joinR w1 h, fun x hx => (List.mem_append.1 hx).elim (hl1 x) (hl x)⟩
    · exact ⟨l, c, .joinL h, hl⟩

/-- What is not stuck has ended or goes on. -/
theorem progress_or_bad (o : Oracle σ ι ω) {β : Type} (p : Prog α ι ω β) (s : St α ι ω σ) :
    (∃ r, Ended p r) ∨ (∃ p' s', Step o p s p' s') ∨ Bad p := by
  induction p with
  | ret b => exact .inl ⟨_, .ret b⟩
  | get a k => exact .inr (.inl ⟨_, _, .get a k s⟩)
  | set a x k => exact .inr (.inl ⟨_, _, .set a x k s⟩)
  | call q k => exact .inr (.inl ⟨_, _, .call q k s⟩)
  | choose k => exact .inr (.inl ⟨_, _, .choose k s⟩)
  | throw e => exact .inl ⟨_, .throw e⟩
  | ub => exact .inr (.inr .ub)
  | diverge => exact .inr (.inr .diverge)
  | join p q k ihp ihq _ =>
    rcases ihp with ⟨r, hr⟩ | ⟨p', s', hs⟩ | h
    · rcases ihq with ⟨t, ht⟩ | ⟨q', s', hs⟩ | h
      · exact .inr (.inl ⟨_, _, .joinEnd p q k s r t hr ht⟩)
      · exact .inr (.inl ⟨_, _, .joinR _ _ _ _ _ _ hs⟩)
      · exact .inr (.inr (.right _ _ _ h))
    · exact .inr (.inl ⟨_, _, .joinL _ _ _ _ _ _ hs⟩)
    · exact .inr (.inr (.left _ _ _ h))

namespace Inside

theorem access {β : Type} {p : Prog α ι ω β} {a : Addr} {w : Bool} (ha : Access p a w) {F : Addr → Prop} {P : β → Prop} (h : Inside p F P) : F a := by
  induction ha generalizing F with
  | get a k => exact h.1
  | set a x k => exact h.1
  | joinL p q k a w _ ih =>
    obtain ⟨F1, F2, h1, h2, hd, P1, P2, hp, hq, hk⟩ := h
    exact h1 _ (ih hp)
  | joinR p q k a w _ ih =>
    obtain ⟨F1, F2, h1, h2, hd, P1, P2, hp, hq, hk⟩ := h
    exact h2 _ (ih hq)

theorem no_race {β : Type} {p : Prog α ι ω β} {F : Addr → Prop} {P : β → Prop} (h : Inside p F P) : ¬ Race p := by
  intro hr
  induction hr generalizing F with
  | here p q k a w w' h1 h2 _ =>
    obtain ⟨F1, F2, _, _, hd, P1, P2, hp, hq, hk⟩ := h
    exact hd a (hp.access h1) (hq.access h2)
  | left p q k _ ih =>
    obtain ⟨F1, F2, _, _, hd, P1, P2, hp, hq, hk⟩ := h
    exact ih hp
  | right p q k _ ih =>
    obtain ⟨F1, F2, _, _, hd, P1, P2, hp, hq, hk⟩ := h
    exact ih hq

end Inside

/-! ### User code which repeats given answers -/

/-- Gives the answers and choices of its state one after the other, as long as `R` allows them, and otherwise the answers of `o`. -/
noncomputable def Oracle.repeating (o : Oracle σ ι ω) (R : ι → Option ω → Prop) (e : σ) : Oracle (List (Option ω) × List Bool) ι ω where
  ask := fun s q => open Classical in match s with
    | ([], c) => ((o.ask e q).1, [], c)
    | (a :: as, c) => (if R q a then a else (o.ask e q).1, as, c)
  flip := fun s => match s with
    | (a, []) => (false, a, [])
    | (a, b :: c) => (b, a, c)

theorem Oracle.repeating_sat {o : Oracle σ ι ω} {R : ι → Option ω → Prop} {e : σ} (h : o.Sat R) : (o.repeating R e).Sat R := by
  intro s q
  unfold Oracle.repeating
  rcases s with ⟨_ | ⟨a, as⟩, c⟩
  · exact h e q
  · dsimp only
    split
    · assumption
    · exact h e q

theorem Serial.run {o : Oracle σ ι ω} {R : ι → Option ω → Prop} {e : σ} {β : Type} {p : Prog α ι ω β} {m m' : Mem α} {l c r} (h : Serial p m l c r m')
    (hR : ∀ x ∈ l, R x.1 x.2) (as : List (Option ω)) (cs : List Bool) (lg : List (ι × Option ω)) :
    NdSlice.run (o.repeating R e) p ⟨m, (l.map Prod.snd ++ as, c ++ cs), lg⟩ = (r.toOut, ⟨m', (as, cs), lg ++ l⟩) := by
  induction h generalizing as cs lg with
  | ret b m => rw [List.append_nil]; rfl
  | throw e m => rw [List.append_nil]; rfl
  | get _ ih => exact ih hR as cs lg
  | set _ ih => exact ih hR as cs lg
  | call x _ ih =>
    rename_i q k m m' l c r _
    have hx : R q x := hR (q, x) List.mem_cons_self
    have ha : (o.repeating R e).ask (x :: (l.map Prod.snd ++ as), c ++ cs) q = (x, l.map Prod.snd ++ as, c ++ cs) := by
      unfold Oracle.repeating
      dsimp only
      rw [if_pos hx]
    rw [List.map_cons, List.cons_append]
    simp only [NdSlice.run]
    rw [ha]
    have := ih (fun y hy => hR y (List.mem_cons_of_mem _ hy)) as cs (lg ++ [(q, x)])
    rw [List.append_assoc] at this
    exact this
  | choose b _ ih => exact ih hR as cs lg
  | join _ _ _ ih1 ih2 ih3 =>
    rename_i p q k m m1 m2 m3 l1 l2 l3 c1 c2 c3 r t u _ _ _
    have e1 := ih1 (fun y hy => hR y (List.mem_append_left _ hy)) ((l2 ++ l3).map Prod.snd ++ as) (c2 ++ c3 ++ cs) lg
    have e2 := ih2 (fun y hy => hR y (List.mem_append_right _ (List.mem_append_left _ hy))) (l3.map Prod.snd ++ as) (c3 ++ cs) (lg ++ l1)
    have e3 := ih3 (fun y hy => hR y (List.mem_append_right _ (List.mem_append_right _ hy))) as cs (lg ++ l1 ++ l2)
    rw [List.map_append, List.append_assoc, List.append_assoc c1]
    rw [List.map_append, List.append_assoc, List.append_assoc] at e1
    rw [List.map_append, List.append_assoc, List.append_assoc c2]
    simp only [NdSlice.run]
    rw [e1]
    generalize u.toOut = out at e3 ⊢
    rcases r with b | x <;> rcases t with c | y <;> simp only [Res.toOut] <;> rw [e2] <;> simp only [Res.toOut] <;> rw [e3] <;>
      simp only [List.append_assoc]

theorem Stuck.run {o : Oracle σ ι ω} {R : ι → Option ω → Prop} {e : σ} {β : Type} {p : Prog α ι ω β} {m : Mem α} {l c} (h : Stuck p m l c)
    (hR : ∀ x ∈ l, R x.1 x.2) (as : List (Option ω)) (cs : List Bool) (lg : List (ι × Option ω)) :
    (NdSlice.run (o.repeating R e) p ⟨m, (l.map Prod.snd ++ as, c ++ cs), lg⟩).1 = .ub ∨
    (NdSlice.run (o.repeating R e) p ⟨m, (l.map Prod.snd ++ as, c ++ cs), lg⟩).1 = .diverge := by
  induction h generalizing as cs lg with
  | ub m => exact .inl rfl
  | diverge m => exact .inr rfl
  | get _ ih => exact ih hR as cs lg
  | set _ ih => exact ih hR as cs lg
  | call x _ ih =>
    rename_i q k m l c _
    have hx : R q x := hR (q, x) List.mem_cons_self
    have ha : (o.repeating R e).ask (x :: (l.map Prod.snd ++ as), c ++ cs) q = (x, l.map Prod.snd ++ as, c ++ cs) := by
      unfold Oracle.repeating
      dsimp only
      rw [if_pos hx]
    rw [List.map_cons, List.cons_append]
    simp only [NdSlice.run]
    rw [ha]
    exact ih (fun y hy => hR y (List.mem_cons_of_mem _ hy)) as cs (lg ++ [(q, x)])
  | choose b _ ih => exact ih hR as cs lg
  | joinL _ ih =>
    rename_i p q k m l c _
    have := ih hR as cs lg
    simp only [NdSlice.run]
    generalize NdSlice.run (o.repeating R e) p ⟨m, (l.map Prod.snd ++ as, c ++ cs), lg⟩ = z at this ⊢
    rcases z with ⟨_ | _ | _ | _, s1⟩
    · rcases this with h | h <;> cases h
    · rcases this with h | h <;> cases h
    · exact .inl rfl
    · exact .inr rfl
  | joinR w1 _ ih =>
    rename_i p q k m m1 l1 l2 c1 c2 r _
    have e1 := w1.run (o := o) (e := e) (fun y hy => hR y (List.mem_append_left _ hy)) (l2.map Prod.snd ++ as) (c2 ++ cs) lg
    have := ih (fun y hy => hR y (List.mem_append_right _ hy)) as cs (lg ++ l1)
    rw [List.map_append, List.append_assoc, List.append_assoc c1]
    simp only [NdSlice.run]
    rw [e1]
    rcases r with b | x <;> simp only [Res.toOut] <;>
      generalize NdSlice.run (o.repeating R e) q ⟨m1, (l2.map Prod.snd ++ as, c2 ++ cs), lg ++ l1⟩ = z at this ⊢ <;>
      rcases z with ⟨_ | _ | _ | _, s1⟩ <;>
      first | exact .inl rfl | exact .inr rfl | (rcases this with h | h <;> cases h)
  | join w1 w2 _ ih =>
    rename_i p q k m m1 m2 l1 l2 l3 c1 c2 c3 r t _
    have e1 := w1.run (o := o) (e := e) (fun y hy => hR y (List.mem_append_left _ hy)) ((l2 ++ l3).map Prod.snd ++ as) (c2 ++ c3 ++ cs) lg
    have e2 := w2.run (o := o) (e := e) (fun y hy => hR y (List.mem_append_right _ (List.mem_append_left _ hy))) (l3.map Prod.snd ++ as) (c3 ++ cs) (lg ++ l1)
    have e3 := ih (fun y hy => hR y (List.mem_append_right _ (List.mem_append_right _ hy))) as cs (lg ++ l1 ++ l2)
    rw [List.map_append, List.append_assoc, List.append_assoc c1]
    rw [List.map_append, List.append_assoc, List.append_assoc] at e1
    rw [List.map_append, List.append_assoc, List.append_assoc c2]
    simp only [NdSlice.run]
    rw [e1]
    rcases r with b | x <;> rcases t with c | y <;> simp only [Res.toOut] <;> rw [e2] <;> simp only [Res.toOut] <;> exact e3

/-- The answers given in a schedule are answers of the user code. -/
theorem steps_answers {o : Oracle σ ι ω} {R : ι → Option ω → Prop} (ho : o.Sat R) {β : Type} {p p' : Prog α ι ω β} {s s' : St α ι ω σ}
    (hs : Steps o p s p' s') {d : List (ι × Option ω)} (hd : s'.log = s.log ++ d) : ∀ x ∈ d, R x.1 x.2 := by
  have one : ∀ {β : Type} {p p' : Prog α ι ω β} {s s' : St α ι ω σ}, Step o p s p' s' → ∃ d, s'.log = s.log ++ d ∧ ∀ x ∈ d, R x.1 x.2 := by
    intro β p p' s s' h
    induction h with
    | get => exact ⟨[], by simp, by simp⟩
    | set => exact ⟨[], by simp, by simp⟩
    | call q k s => exact ⟨_, rfl, fun x hx => by rw [List.mem_singleton.1 hx]; exact ho _ _⟩
    | choose => exact ⟨[], by simp, by simp⟩
    | joinL _ _ _ _ _ _ _ ih => exact ih
    | joinR _ _ _ _ _ _ _ ih => exact ih
    | joinEnd => exact ⟨[], by simp, by simp⟩
  have : ∃ d, s'.log = s.log ++ d ∧ ∀ x ∈ d, R x.1 x.2 := by
    clear hd d
    induction hs with
    | refl => exact ⟨[], by simp, by simp⟩
    | tail _ h ih =>
      obtain ⟨d1, e1, h1⟩ := ih
      obtain ⟨d2, e2, h2⟩ := one h
      exact ⟨d1 ++ d2, by rw [e2, e1, List.append_assoc], fun x hx => (List.mem_append.1 hx).elim (h1 x) (h2 x)⟩
  obtain ⟨d', e, h⟩ := this
  rw [hd] at e
  rw [List.append_cancel_left e]
  exact h

/-- Every schedule is a sequential run: user code which is allowed what `o` is allowed, but may give its answers in another order, leads to the same
result and the same memory when the tasks are run one after the other. -/
theorem schedule_serial {o : Oracle σ ι ω} {R : ι → Option ω → Prop} (ho : o.Sat R) {β : Type} {p p' : Prog α ι ω β} {s s' : St α ι ω σ}
    (hs : Steps o p s p' s') {F : Addr → Prop} {P : β → Prop} (hp : Inside p F P) {r : Res β} (hr : Ended p' r) :
    ∃ (o' : Oracle (List (Option ω) × List Bool) ι ω) (e e' : List (Option ω) × List Bool) (l d : List (ι × Option ω)), o'.Sat R ∧
      run o' p ⟨s.mem, e, s.log⟩ = (r.toOut, ⟨s'.mem, e', s.log ++ l⟩) ∧ s'.log = s.log ++ d ∧ l.Perm d := by
  obtain ⟨d, l, c, h1, h2, h3⟩ := Serial.steps hs hp hr
  have := h1.run (o := o) (R := R) (e := s.env) (fun x hx => steps_answers ho hs h2 x (h3.mem_iff.1 hx)) [] [] s.log
  exact ⟨o.repeating R s.env, _, _, l, d, Oracle.repeating_sat ho, this, h2, h3⟩

/-- If no sequential run gets stuck, whatever user code (allowed by `R`) does, then no schedule has a data race, undefined behaviour or a task which runs
forever or is stuck, and every end is that of a sequential run. -/
theorem schedules_serial {o : Oracle σ ι ω} {R : ι → Option ω → Prop} (ho : o.Sat R) {β : Type} {p p' : Prog α ι ω β} {s s' : St α ι ω σ}
    (hs : Steps o p s p' s') {F : Addr → Prop} {P : β → Prop} (hp : Inside p F P)
    (hn : ∀ (o' : Oracle (List (Option ω) × List Bool) ι ω) e, o'.Sat R →
      (run o' p ⟨s.mem, e, s.log⟩).1 ≠ .ub ∧ (run o' p ⟨s.mem, e, s.log⟩).1 ≠ .diverge) :
    ¬ Race p' ∧ ¬ Bad p' ∧ ((∃ p'' s'', Step o p' s' p'' s'') ∨
      ∃ r, Ended p' r ∧ ∃ (o' : Oracle (List (Option ω) × List Bool) ι ω) (e e' : List (Option ω) × List Bool) (l d : List (ι × Option ω)), o'.Sat R ∧
        run o' p ⟨s.mem, e, s.log⟩ = (r.toOut, ⟨s'.mem, e', s.log ++ l⟩) ∧ s'.log = s.log ++ d ∧ l.Perm d) := by
  have hst := Stuck.steps hs hp
  have hb : ¬ Bad p' := by
    intro hb
    obtain ⟨l, c, h, hl⟩ := hb.stuck ho s.env s'.mem
    obtain ⟨d, l', c', h', e, hl'⟩ := hst.2 l c h
    have := h'.run (o := o) (R := R) (e := s.env) (fun x hx => (List.mem_append.1 (hl' x hx)).elim (steps_answers ho hs e x) (hl x)) [] [] s.log
    have hne := hn (o.repeating R s.env) (l'.map Prod.snd ++ [], c' ++ []) (Oracle.repeating_sat ho)
    exact this.elim hne.1 hne.2
  refine ⟨hst.1.no_race, hb, ?_⟩
  rcases progress_or_bad o p' s' with ⟨r, hr⟩ | h | h
  · exact .inr ⟨r, hr, schedule_serial ho hs hp hr⟩
  · exact .inl h
  · exact (hb h).elim

end NdSlice
