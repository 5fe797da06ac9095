import Verif.Core.Adequacy
import Verif.Core.Tri
import Verif.Core.Scratch
import Verif.Model.Api
import Verif.Proof.Insertion

/-
What the property theorems are stated with, and how they follow from triples.
-/

namespace NdSlice

variable {α κ ι ω σ β : Type}

/-! ### Vocabulary -/

/-- User code compares consistently with `lt`: every answer is the one `lt` gives (`_by`: `Less` exactly if `lt`; `_by_key`: the
key function is a function and keys are compared by a function), and it never panics.  Its private state may
change arbitrarily. -/
def Agrees : (st : Style) → Oracle σ (st.Q α κ) (st.A κ) → (α → α → Bool) → Prop
  | .ord, o, lt => ∀ e (x y : α), (o.ask e (x, y)).1 = some (lt x y)
  | .cmp, o, lt => ∃ c : α → α → Ordering, (∀ e (x y : α), (o.ask e (x, y)).1 = some (c x y)) ∧
      ∀ x y, lt x y = (c x y == .lt)
  | .key, o, lt => ∃ (f : α → κ) (klt : κ → κ → Bool), (∀ e (x : α), ∃ b, (o.ask e (KeyQ.key x)).1 = some (f x, b)) ∧
      (∀ e (k l : κ), ∃ c, (o.ask e (KeyQ.lt k l)).1 = some (c, klt k l)) ∧ ∀ x y, lt x y = klt (f x) (f y)

/-- User code never panics. -/
def NoPanic (o : Oracle σ ι ω) : Prop := ∀ e q, (o.ask e q).1 ≠ none

/-- The sequential run of `p` from `s` ends (no undefined behaviour, no endless loop): normally with `Q`, or panicking
with `E`. -/
def Ends (o : Oracle σ ι ω) (p : Prog α ι ω β) (s : St α ι ω σ) (Q : β → Mem α → Prop) (E : Panic → Mem α → Prop) : Prop :=
  (∃ b s', run o p s = (.ok b, s') ∧ Q b s'.mem) ∨ (∃ e s', run o p s = (.panic e, s') ∧ E e s'.mem)

/-- Every schedule of `p` from `s`: in no reachable state there is a data race, undefined behaviour or a task that
runs forever or is stuck; there is no infinite schedule; and every end is normal with `Q` or a panic with `E`. -/
def Always (o : Oracle σ ι ω) (p : Prog α ι ω β) (s : St α ι ω σ) (Q : β → Mem α → Prop) (E : Panic → Mem α → Prop) : Prop :=
  (∀ p' s', Steps o p s p' s' → ¬ Race p' ∧ ¬ Bad p' ∧
    ((∃ p'' s'', Step o p' s' p'' s'') ∨ (∃ b, p' = .ret b ∧ Q b s'.mem) ∨ (∃ e, p' = .throw e ∧ E e s'.mem))) ∧
  Acc (After o) p

/-! ### From triples to runs -/

theorem Tri.ends {R : ι → Option ω → Prop} {o : Oracle σ ι ω} (ho : o.Sat R) {p : Prog α ι ω β} {v : View} (hv : v.WF)
    {s : St α ι ω σ} {Q : β → List α → Prop} {E : Panic → List α → Prop}
    (h : Tri R v.region p (v.contents s.mem) Q E) :
    Ends o p s (fun b m => Q b (v.contents m) ∧ ∀ a, a ∉ v.region → m a = s.mem a)
      (fun e m => E e (v.contents m) ∧ ∀ a, a ∉ v.region → m a = s.mem a) := by
  rcases run_sound ho (wp_unchanged (h s.mem s.log (View.region_nodup hv) rfl)) with ⟨b, s', h1, h2⟩ | ⟨e, s', h1, h2⟩
  · exact .inl ⟨b, s', h1, h2⟩
  · exact .inr ⟨e, s', h1, h2⟩

theorem Tri.always {R : ι → Option ω → Prop} {o : Oracle σ ι ω} (ho : o.Sat R) {p : Prog α ι ω β} {v : View} (hv : v.WF)
    {s : St α ι ω σ} {Q : β → List α → Prop} {E : Panic → List α → Prop}
    (h : Tri R v.region p (v.contents s.mem) Q E) :
    Always o p s (fun b m => Q b (v.contents m) ∧ ∀ a, a ∉ v.region → m a = s.mem a)
      (fun e m => E e (v.contents m) ∧ ∀ a, a ∉ v.region → m a = s.mem a) := by
  refine ⟨fun p' s' hs => ?_, sched_terminates o p⟩
  obtain ⟨h1, h2, h3, h4⟩ := sched_sound ho hs (h s.mem s.log (View.region_nodup hv) rfl)
  refine ⟨h1, h2, ?_⟩
  rcases h4 with h4 | ⟨b, lg, rfl, _, h4⟩ | ⟨e, lg, rfl, _, h4⟩
  · exact .inl h4
  · exact .inr (.inl ⟨b, rfl, h4, h3⟩)
  · exact .inr (.inr ⟨e, rfl, h4, h3⟩)

/-- The buffer is fresh memory: no element of the array is in it. -/
def Fresh (v buf : View) : Prop := ∀ a ∈ buf.region, a ∉ v.region

theorem Fresh.nodup {v buf : View} (hv : v.WF) (hb : buf.WF) (h : Fresh v buf) : (v.region ++ buf.region).Nodup :=
  List.nodup_append.mpr ⟨View.region_nodup hv, View.region_nodup hb, fun _ ha b hb hab => h b hb (hab ▸ ha)⟩

theorem TriS.contents {R : ι → Option ω → Prop} {p : Prog α ι ω β} {v buf : View}
    {m : Mem α} {Q : β → List α → Prop} {E : Panic → List α → Prop}
    (h : TriS R v.region buf.region p (v.contents m) Q E) :
    Tri R (v.region ++ buf.region) p ((v.region ++ buf.region).map m)
      (fun b zs => Q b (zs.take v.len)) (fun e zs => E e (zs.take v.len)) := by
  rw [List.map_append]
  refine Tri.mono (h (buf.region.map m) (by simp)) ?_ ?_
  · rintro b _ _ ⟨ys, bs, h1, h2, rfl, h3⟩
    rw [View.contents_length] at h1
    rwa [List.take_left' h1]
  · rintro b _ _ ⟨ys, bs, h1, h2, rfl, h3⟩
    rw [View.contents_length] at h1
    rwa [List.take_left' h1]

theorem View.contents_eq_take {v buf : View} (m : Mem α) : ((v.region ++ buf.region).map m).take v.len = v.contents m := by
  rw [List.map_append, List.take_left' (by simp)]; rfl

theorem TriS.ends {R : ι → Option ω → Prop} {o : Oracle σ ι ω} (ho : o.Sat R) {p : Prog α ι ω β} {v buf : View} (hv : v.WF)
    (hb : buf.WF) (hf : Fresh v buf) {s : St α ι ω σ} {Q : β → List α → Prop} {E : Panic → List α → Prop}
    (h : TriS R v.region buf.region p (v.contents s.mem) Q E) :
    Ends o p s (fun b m => Q b (v.contents m) ∧ ∀ a, a ∉ v.region → a ∉ buf.region → m a = s.mem a)
      (fun e m => E e (v.contents m) ∧ ∀ a, a ∉ v.region → a ∉ buf.region → m a = s.mem a) := by
  rcases run_sound ho (wp_unchanged (h.contents s.mem s.log (hf.nodup hv hb) rfl)) with
    ⟨b, s', h1, h2, h3⟩ | ⟨e, s', h1, h2, h3⟩
  · rw [View.contents_eq_take] at h2
    exact .inl ⟨b, s', h1, h2, fun a h4 h5 => h3 a (by simp [h4, h5])⟩
  · rw [View.contents_eq_take] at h2
    exact .inr ⟨e, s', h1, h2, fun a h4 h5 => h3 a (by simp [h4, h5])⟩

theorem TriS.always {R : ι → Option ω → Prop} {o : Oracle σ ι ω} (ho : o.Sat R) {p : Prog α ι ω β} {v buf : View} (hv : v.WF)
    (hb : buf.WF) (hf : Fresh v buf) {s : St α ι ω σ} {Q : β → List α → Prop} {E : Panic → List α → Prop}
    (h : TriS R v.region buf.region p (v.contents s.mem) Q E) :
    Always o p s (fun b m => Q b (v.contents m) ∧ ∀ a, a ∉ v.region → a ∉ buf.region → m a = s.mem a)
      (fun e m => E e (v.contents m) ∧ ∀ a, a ∉ v.region → a ∉ buf.region → m a = s.mem a) := by
  refine ⟨fun p' s' hs => ?_, sched_terminates o p⟩
  obtain ⟨h1, h2, h3, h4⟩ := sched_sound ho hs (h.contents s.mem s.log (hf.nodup hv hb) rfl)
  refine ⟨h1, h2, ?_⟩
  rcases h4 with h4 | ⟨b, lg, rfl, _, h4⟩ | ⟨e, lg, rfl, _, h4⟩
  · exact .inl h4
  · rw [View.contents_eq_take] at h4
    exact .inr (.inl ⟨b, rfl, h4, fun a h5 h6 => h3 a (by simp [h5, h6])⟩)
  · rw [View.contents_eq_take] at h4
    exact .inr (.inr ⟨e, rfl, h4, fun a h5 h6 => h3 a (by simp [h5, h6])⟩)

theorem Ends.mono {o : Oracle σ ι ω} {p : Prog α ι ω β} {s : St α ι ω σ} {Q Q' : β → Mem α → Prop} {E E' : Panic → Mem α → Prop}
    (h : Ends o p s Q E) (hQ : ∀ b m, Q b m → Q' b m) (hE : ∀ e m, E e m → E' e m) : Ends o p s Q' E' := by
  rcases h with ⟨b, s', h1, h2⟩ | ⟨b, s', h1, h2⟩
  · exact .inl ⟨b, s', h1, hQ _ _ h2⟩
  · exact .inr ⟨b, s', h1, hE _ _ h2⟩

theorem Always.mono {o : Oracle σ ι ω} {p : Prog α ι ω β} {s : St α ι ω σ} {Q Q' : β → Mem α → Prop} {E E' : Panic → Mem α → Prop}
    (h : Always o p s Q E) (hQ : ∀ b m, Q b m → Q' b m) (hE : ∀ e m, E e m → E' e m) : Always o p s Q' E' := by
  refine ⟨fun p' s' hs => ?_, h.2⟩
  obtain ⟨h1, h2, h3⟩ := h.1 p' s' hs
  refine ⟨h1, h2, ?_⟩
  rcases h3 with h3 | ⟨b, h4, h5⟩ | ⟨b, h4, h5⟩
  · exact .inl h3
  · exact .inr (.inl ⟨b, h4, hQ _ _ h5⟩)
  · exact .inr (.inr ⟨b, h4, hE _ _ h5⟩)

/-- With no possible panic. -/
theorem Ends.ok {o : Oracle σ ι ω} {p : Prog α ι ω β} {s : St α ι ω σ} {Q : β → Mem α → Prop} {E : Panic → Mem α → Prop}
    (h : Ends o p s Q E) (hE : ∀ e m, ¬ E e m) : ∃ b s', run o p s = (.ok b, s') ∧ Q b s'.mem := by
  rcases h with h | ⟨e, s', _, h⟩
  · exact h
  · exact (hE _ _ h).elim

/-! ### The comparators of the methods -/

namespace Style

/-- What the comparison may answer when user code gives answers in `R`. -/
def ans : (st : Style) → (R : st.Q α κ → Option (st.A κ) → Prop) → α → α → Bool → Prop
  | .ord, R, x, y, b => R (x, y) (some b)
  | .cmp, R, x, y, b => ∃ c : Ordering, R (x, y) (some c) ∧ b = (c == .lt)
  | .key, R, x, y, b => ∃ k l c, R (.key x) (some k) ∧ R (.key y) (some l) ∧ R (.lt k.1 l.1) (some c) ∧ b = c.2

/-- The comparison of a method, given what user code may answer. -/
def toCmp (st : Style) (R : st.Q α κ → Option (st.A κ) → Prop) : Cmp α (st.Q α κ) (st.A κ) where
  R := R
  less := st.less
  ans := st.ans R
  pan := ∃ q, R q none
  ok := by
    intro x y m lg
    cases st with
    | ord =>
      intro r hr
      cases r with
      | none => exact ⟨rfl, ⟨_, hr⟩, rfl⟩
      | some b => exact ⟨rfl, hr⟩
    | cmp =>
      intro r hr
      cases r with
      | none => exact ⟨rfl, ⟨_, hr⟩, rfl⟩
      | some b => exact ⟨rfl, _, hr, rfl⟩
    | key =>
      intro r hr
      cases r with
      | none => exact ⟨rfl, ⟨_, hr⟩, rfl⟩
      | some k =>
        intro r hr'
        cases r with
        | none => exact ⟨rfl, ⟨_, hr'⟩, rfl⟩
        | some l =>
          intro r hr''
          cases r with
          | none => exact ⟨rfl, ⟨_, hr''⟩, rfl⟩
          | some b => exact ⟨rfl, k, l, b, hr, hr', hr'', rfl⟩

/-- The answers an oracle gives. -/
def rel (o : Oracle σ ι ω) : ι → Option ω → Prop := fun q r => ∃ e, (o.ask e q).1 = r

theorem rel_sat (o : Oracle σ ι ω) : o.Sat (rel o) := fun s _ => ⟨s, rfl⟩

theorem ans_of_agrees {st : Style} {o : Oracle σ (st.Q α κ) (st.A κ)} {lt : α → α → Bool} (h : Agrees st o lt) {x y : α} {b : Bool}
    (hb : (st.toCmp (rel o)).ans x y b) : b = lt x y := by
  cases st with
  | ord =>
    obtain ⟨e, he⟩ := hb
    have := h e x y
    rw [this] at he
    exact (Option.some.inj he).symm
  | cmp =>
    obtain ⟨cmp, h1, h2⟩ := h
    obtain ⟨c, ⟨e, he⟩, rfl⟩ := hb
    have := h1 e x y
    rw [this] at he
    rw [h2, ← Option.some.inj he]
  | key =>
    obtain ⟨f, klt, h1, h2, h3⟩ := h
    obtain ⟨k, l, c, ⟨e1, hk⟩, ⟨e2, hl⟩, ⟨e3, hc⟩, rfl⟩ := hb
    obtain ⟨b1, h1'⟩ := h1 e1 x
    obtain ⟨b2, h2'⟩ := h1 e2 y
    rw [h1'] at hk
    rw [h2'] at hl
    rw [← Option.some.inj hk, ← Option.some.inj hl] at hc
    obtain ⟨c', h3'⟩ := h2 e3 (f x) (f y)
    rw [h3'] at hc
    rw [h3, ← Option.some.inj hc]

theorem good_of_agrees {st : Style} {o : Oracle σ (st.Q α κ) (st.A κ)} {lt : α → α → Bool} (h : Agrees st o lt) (so : SWO lt) :
    (st.toCmp (rel o)).Good lt := ⟨so, fun _ _ _ hb => ans_of_agrees h hb⟩

theorem noPanic_of_agrees {st : Style} {o : Oracle σ (st.Q α κ) (st.A κ)} {lt : α → α → Bool} (h : Agrees st o lt) :
    NoPanic o := by
  intro e q
  cases st with
  | ord => obtain ⟨x, y⟩ := q; rw [h e x y]; exact Option.some_ne_none _
  | cmp => obtain ⟨cmp, h1, h2⟩ := h; obtain ⟨x, y⟩ := q; rw [h1 e x y]; exact Option.some_ne_none _
  | key =>
    obtain ⟨f, klt, h1, h2, h3⟩ := h
    cases q with
    | key x => obtain ⟨b, hb⟩ := h1 e x; rw [hb]; exact Option.some_ne_none _
    | lt k l => obtain ⟨b, hb⟩ := h2 e k l; rw [hb]; exact Option.some_ne_none _

theorem pan_iff {st : Style} {o : Oracle σ (st.Q α κ) (st.A κ)} (h : NoPanic o) : ¬ (st.toCmp (rel o)).pan := by
  rintro ⟨q, e, he⟩
  exact h e q he

end Style

end NdSlice
