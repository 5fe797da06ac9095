import Verif.Core.RunLog
import Verif.Props.Base
import Verif.Proof.Search
import Verif.Proof.CostLeaf
import Verif.Proof.Select

/-
An adversary against selection: user code that decides as late as possible how elements compare, and decides for few elements only.  All others
are equal to each other and greater than these few.  (After M. D. McIlroy, A Killer Adversary for Quicksort, 1999.)
-/

namespace NdSlice

variable {α ι ω σ β γ : Type}

/-- The comparison `A::lt`, with its types spelled out. -/
def lessO : α → α → Prog α (α × α) Bool Bool := Style.less (κ := Unit) .ord

theorem lessO_asks : Asks 1 (lessO (α := α)) := by
  intro x y
  refine ⟨0, rfl, fun r => ?_⟩
  cases r with
  | none => trivial
  | some b => trivial

theorem lessO_only {P : α × α → Prop} {x y : α} (h : P (x, y)) : Only P (lessO x y) := by
  refine ⟨h, fun r => ?_⟩
  cases r with
  | none => trivial
  | some b => trivial

/-- The comparison with answers in `R`. -/
def ordCmp (R : α × α → Option Bool → Prop) : Cmp α (α × α) Bool := Style.toCmp (κ := Unit) .ord R

variable [DecidableEq α]

/-- Less: earlier in `T`, where elements not in `T` come last; or the other way round (`up`). -/
def ltT (up : Bool) (T : List α) (x y : α) : Bool := if up then decide (T.idxOf y < T.idxOf x) else decide (T.idxOf x < T.idxOf y)

theorem ltT_swo (up : Bool) (T : List α) : SWO (ltT up T) where
  irrefl x := by simp [ltT]
  trans x y z h1 h2 := by cases up <;> simp [ltT] at * <;> omega
  ntrans x y z h1 h2 := by cases up <;> simp [ltT] at * <;> omega

theorem ltT_mem {T : List α} {x y : α} (h : ltT false T x y = true) : x ∈ T := by
  have h : T.idxOf x < T.idxOf y := by simpa [ltT] using h
  exact List.idxOf_lt_length_iff.1 (Nat.lt_of_lt_of_le h List.idxOf_le_length)

/-- An element of `T` is less than every other element which is not less than it. -/
theorem ltT_of_not {T : List α} {x y : α} (hx : x ∈ T) (hxy : x ≠ y) (h : ltT false T y x = false) : ltT false T x y = true := by
  simp only [ltT, Bool.false_eq_true, if_false, decide_eq_false_iff_not, decide_eq_true_eq] at h ⊢
  rcases Nat.lt_or_eq_of_le (Nat.le_of_not_lt h) with h | h
  · exact h
  · exact absurd ((List.idxOf_inj hx).1 h) hxy

theorem idxOf_prefix {e T : List α} (h : e <+: T) (x : α) :
    (x ∈ e → T.idxOf x = e.idxOf x) ∧ (x ∉ e → e.length ≤ T.idxOf x ∧ e.idxOf x = e.length) := by
  obtain ⟨u, rfl⟩ := h
  refine ⟨fun hx => List.idxOf_append_of_mem hx, fun hx => ⟨?_, List.idxOf_eq_length hx⟩⟩
  rw [List.idxOf_append_of_notMem hx]
  omega

/-- The adversary; its state is the list of elements decided so far.  If it has decided about neither of the two elements it is asked about, it
makes the second one the next one in its list, unless there are `K` already.  Decided elements are less than undecided ones, and the earlier the less;
or greater, and the earlier the greater (`up`). -/
def adv (up : Bool) (K : Nat) : Oracle (List α) (α × α) Bool where
  ask e q := if q.1 ≠ q.2 ∧ q.1 ∉ e ∧ q.2 ∉ e ∧ e.length < K then (some up, e ++ [q.2]) else (some (ltT up e q.1 q.2), e)
  flip e := (true, e)

variable {up : Bool} {K : Nat} {e e' T : List α} {d : List ((α × α) × Option Bool)}

theorem adv_ask_prefix (q : α × α) : e <+: ((adv up K).ask e q).2 := by
  simp only [adv]
  split
  · exact List.prefix_append _ _
  · exact List.prefix_rfl

theorem Trace.env_prefix (h : Trace (adv up K) e d e') : e <+: e' := by
  induction h with
  | nil => exact List.prefix_rfl
  | cons _ ih => exact (adv_ask_prefix _).trans ih

theorem Trace.env_le (h : Trace (adv up K) e d e') (he : e.length ≤ K) : e'.length ≤ K := by
  induction h with
  | nil => exact he
  | @cons e e' q d _ ih =>
    apply ih
    simp only [adv]
    split
    · simp; omega
    · exact he

/-- At most one element is decided in each question. -/
theorem Trace.env_count (h : Trace (adv up K) e d e') : e'.length ≤ e.length + d.length := by
  induction h with
  | nil => simp
  | @cons e e' q d _ ih =>
    have : ((adv up K).ask e q).2.length ≤ e.length + 1 := by
      simp only [adv]
      split
      · simp
      · simp
    simp only [List.length_cons]
    omega

/-- Questions with the same second element decide about at most one element. -/
theorem Trace.env_one {t : α} (h : Trace (adv up K) e d e') (ht : ∀ x ∈ d, x.1.2 = t) : e'.length ≤ e.length + 1 ∧ (t ∈ e → e' = e) := by
  induction h with
  | nil => exact ⟨by omega, fun _ => rfl⟩
  | @cons e e' q d _ ih =>
    have hq : q.2 = t := ht _ List.mem_cons_self
    obtain ⟨h1, h2⟩ := ih (fun x hx => ht x (List.mem_cons_of_mem _ hx))
    by_cases hf : q.1 ≠ q.2 ∧ q.1 ∉ e ∧ q.2 ∉ e ∧ e.length < K
    · have e2 : ((adv up K).ask e q).2 = e ++ [t] := by rw [← hq]; simp only [adv, if_pos hf]
      rw [e2] at h1 h2
      rw [h2 (by simp)]
      refine ⟨by simp, fun hm => absurd (hq ▸ hm) hf.2.2.1⟩
    · have e2 : ((adv up K).ask e q).2 = e := by simp only [adv, if_neg hf]
      rw [e2] at h1 h2
      exact ⟨h1, h2⟩

/-- One of the elements asked about is decided after the question, or all `K` are. -/
theorem Trace.touched (h : Trace (adv up K) e d e') : ∀ x ∈ d, x.1.1 ≠ x.1.2 → x.1.1 ∈ e' ∨ x.1.2 ∈ e' ∨ K ≤ e'.length := by
  induction h with
  | nil => simp
  | @cons e e' q d h ih =>
    intro x hx hne
    rcases List.mem_cons.1 hx with rfl | hx
    · by_cases hf : q.1 ≠ q.2 ∧ q.1 ∉ e ∧ q.2 ∉ e ∧ e.length < K
      · have e2 : ((adv up K).ask e q).2 = e ++ [q.2] := by simp only [adv, if_pos hf]
        rw [e2] at h
        exact .inr (.inl (h.env_prefix.subset (by simp)))
      · have e2 : ((adv up K).ask e q).2 = e := by simp only [adv, if_neg hf]
        rw [e2] at h
        have hp := h.env_prefix
        by_cases h1 : q.1 ∈ e
        · exact .inl (hp.subset h1)
        · by_cases h2 : q.2 ∈ e
          · exact .inr (.inl (hp.subset h2))
          · have := hp.length_le
            have h3 : ¬ e.length < K := fun h3 => hf ⟨hne, h1, h2, h3⟩
            exact .inr (.inr (by omega))
    · exact ih x hx hne

/-- In the end, all answers were those of one strict weak order. -/
theorem Trace.answers (h : Trace (adv up K) e d e') (hT : e' <+: T) (hK : T.length ≤ K) : ∀ x ∈ d, x.2 = some (ltT up T x.1.1 x.1.2) := by
  induction h with
  | nil => simp
  | @cons e e' q d h ih =>
    intro x hx
    rcases List.mem_cons.1 hx with rfl | hx
    · dsimp only
      have hp := h.env_prefix.trans hT
      by_cases hf : q.1 ≠ q.2 ∧ q.1 ∉ e ∧ q.2 ∉ e ∧ e.length < K
      · have e2 : (adv up K).ask e q = (some up, e ++ [q.2]) := by simp only [adv, if_pos hf]
        rw [e2] at hp ⊢
        dsimp only at hp ⊢
        have i1 := (idxOf_prefix hp q.2).1 (by simp)
        rw [List.idxOf_append_of_notMem hf.2.2.1] at i1
        have i2 := ((idxOf_prefix hp q.1).2 (by simp [hf.1, hf.2.1])).1
        have : [q.2].idxOf q.2 = 0 := by simp
        rw [List.length_append] at i2
        have i3 : T.idxOf q.2 < T.idxOf q.1 := by simp at i2; omega
        congr 1
        simp only [ltT, i3, decide_true, show ¬ T.idxOf q.1 < T.idxOf q.2 by omega, decide_false]
        cases up <;> rfl
      · have e2 : (adv up K).ask e q = (some (ltT up e q.1 q.2), e) := by simp only [adv, if_neg hf]
        rw [e2] at hp ⊢
        dsimp only at hp ⊢
        congr 1
        have a1 := idxOf_prefix hp q.1
        have a2 := idxOf_prefix hp q.2
        have l1 : q.1 ∈ e → e.idxOf q.1 < e.length := List.idxOf_lt_length_iff.2
        have l2 : q.2 ∈ e → e.idxOf q.2 < e.length := List.idxOf_lt_length_iff.2
        have key : (q.1 = q.2 ∨ (q.1 ∈ e ∨ q.2 ∈ e)) →
            (e.idxOf q.1 < e.idxOf q.2 ↔ T.idxOf q.1 < T.idxOf q.2) ∧ (e.idxOf q.2 < e.idxOf q.1 ↔ T.idxOf q.2 < T.idxOf q.1) := by
          intro hor
          by_cases h0 : q.1 = q.2
          · rw [h0]; simp
          · by_cases h1 : q.1 ∈ e
            · have b1 := a1.1 h1
              by_cases h2 : q.2 ∈ e
              · have b2 := a2.1 h2
                rw [b1, b2]
                exact ⟨Iff.rfl, Iff.rfl⟩
              · have b2 := a2.2 h2
                have := l1 h1
                constructor <;> omega
            · have b1 := a1.2 h1
              have h2 : q.2 ∈ e := (hor.resolve_left h0).resolve_left h1
              have b2 := a2.1 h2
              have := l2 h2
              constructor <;> omega
        by_cases hor : q.1 = q.2 ∨ (q.1 ∈ e ∨ q.2 ∈ e)
        · obtain ⟨k1, k2⟩ := key hor
          simp only [ltT, decide_eq_decide.2 k1, decide_eq_decide.2 k2]
        · have : ¬ e.length < K := fun h3 => hf ⟨fun h => hor (.inl h), fun h => hor (.inr (.inl h)), fun h => hor (.inr (.inr h)), h3⟩
          have := hp.eq_of_length_le (by omega)
          rw [this]
    · exact ih hT x hx

/-! ### Runs against the adversary -/

/-- The order fixed in the end. -/
def relT (up : Bool) (T : List α) : α × α → Option Bool → Prop := fun q r => r = some (ltT up T q.1 q.2)

theorem relT_good (up : Bool) (T : List α) : (ordCmp (relT up T)).Good (ltT up T) := ⟨ltT_swo up T, fun _ _ _ h => Option.some.inj h⟩

theorem relT_pan (up : Bool) (T : List α) : ¬ (ordCmp (relT up T)).pan := by
  rintro ⟨q, h⟩
  cases h

abbrev StA (α : Type) := St α (α × α) Bool (List α)

/-- Against the adversary which decides for (at most) `T` in the end, the run of `p` from `s` ends with at least `n` more questions,
leaves what is not in `v`, and `Q` holds. -/
def AT (up : Bool) (K : Nat) (T : List α) (p : Prog α (α × α) Bool β) (v : View) (s : StA α) (n : Nat) (Q : β → StA α → Prop) : Prop :=
  (run (adv up K) p s).2.env <+: T →
    ∃ b s', run (adv up K) p s = (.ok b, s') ∧ s.log.length + n ≤ s'.log.length ∧ (∀ a, a ∉ v.region → s'.mem a = s.mem a) ∧ Q b s'

variable {v w : View} {s : StA α} {n n1 n2 : Nat}

theorem run_env_prefix (p : Prog α (α × α) Bool β) : s.env <+: (run (adv up K) p s).2.env := by
  obtain ⟨d, _, h⟩ := run_trace (o := adv up K) (fun _ => rfl) p s
  exact h.env_prefix

namespace AT

theorem bind {p : Prog α (α × α) Bool β} {f : β → Prog α (α × α) Bool γ} {Q' : β → StA α → Prop} {Q : γ → StA α → Prop}
    (h : AT up K T p v s n1 Q') (hf : ∀ b s', Q' b s' → (∀ a, a ∉ v.region → s'.mem a = s.mem a) → AT up K T (f b) v s' n2 Q) :
    AT up K T (p >>= f) v s (n1 + n2) Q := by
  intro hT
  rw [run_bind] at hT ⊢
  rcases hp : run (adv up K) p s with ⟨r, s1⟩
  rw [hp] at hT
  have h1 : (run (adv up K) p s).2.env <+: T := by
    rw [hp]
    cases r with
    | ok b => exact (run_env_prefix (f b)).trans hT
    | panic => exact hT
    | ub => exact hT
    | diverge => exact hT
  obtain ⟨b, s', e1, e2, e3, e4⟩ := h h1
  rw [hp] at e1
  injection e1 with e5 e6
  subst e5 e6
  dsimp only at hT ⊢
  obtain ⟨c, s2, g1, g2, g3, g4⟩ := hf b s1 e4 e3 hT
  exact ⟨c, s2, g1, by omega, fun a ha => (g3 a ha).trans (e3 a ha), g4⟩

theorem mono {p : Prog α (α × α) Bool β} {Q Q' : β → StA α → Prop} (h : AT up K T p v s n1 Q') (hn : n2 ≤ n1)
    (hQ : ∀ b s', Q' b s' → Q b s') : AT up K T p v s n2 Q := by
  intro hT
  obtain ⟨b, s', e1, e2, e3, e4⟩ := h hT
  exact ⟨b, s', e1, by omega, e3, hQ b s' e4⟩

theorem and {p : Prog α (α × α) Bool β} {Q Q' : β → StA α → Prop} (h : AT up K T p v s n1 Q) (h' : AT up K T p v s n2 Q') :
    AT up K T p v s n1 (fun b s' => Q b s' ∧ Q' b s') := by
  intro hT
  obtain ⟨b, s', e1, e2, e3, e4⟩ := h hT
  obtain ⟨b', s'', f1, f2, f3, f4⟩ := h' hT
  rw [e1] at f1
  injection f1 with f5 f6
  injection f5 with f5
  subst f5 f6
  exact ⟨b, s', e1, e2, e3, e4, f4⟩

theorem sub {p : Prog α (α × α) Bool β} {Q : β → StA α → Prop} (h : AT up K T p w s n Q) (hw : ∀ a ∈ w.region, a ∈ v.region) :
    AT up K T p v s n Q := by
  intro hT
  obtain ⟨b, s', e1, e2, e3, e4⟩ := h hT
  exact ⟨b, s', e1, e2, fun a ha => e3 a fun h => ha (hw a h), e4⟩

theorem pure {b : β} {Q : β → StA α → Prop} (h : Q b s) : AT up K T (Pure.pure b : Prog α (α × α) Bool β) v s 0 Q :=
  fun _ => ⟨b, s, rfl, Nat.le_refl _, fun _ _ => rfl, h⟩

theorem env {p : Prog α (α × α) Bool β} {Q : β → StA α → Prop} (h : s.env <+: T → AT up K T p v s n Q) : AT up K T p v s n Q :=
  fun hT => h ((run_env_prefix p).trans hT) hT

/-- What is known for every comparator, or for those which are strict weak orders. -/
theorem tri {p : Prog α (α × α) Bool β} {Q : β → List α → Prop} {E : Panic → List α → Prop} (hK : T.length ≤ K) (hv : v.WF)
    (h : Tri (relT up T) v.region p (v.contents s.mem) Q E) (hE : ∀ e ys, ¬ E e ys) :
    AT up K T p v s 0 (fun b s' => Q b (v.contents s'.mem)) := by
  intro hT
  obtain ⟨d, h1, h2⟩ := run_trace (o := adv up K) (fun _ => rfl) p s
  have h3 := h2.answers hT hK
  rcases run_sound_log (R := relT up T) (L := d) h3 (by rw [h1]) (wp_unchanged (h s.mem s.log (View.region_nodup hv) rfl)) with
    ⟨b, s', e1, e2, e3⟩ | ⟨e, s', e1, e2, e3⟩
  · rw [e1] at h1
    refine ⟨b, s', e1, ?_, e3, e2⟩
    dsimp only at h1
    rw [h1]; simp
  · exact (hE _ _ e2).elim

/-- How many elements are decided. -/
theorem cost {p : Prog α (α × α) Bool β} {Q : β → StA α → Prop} {B : Nat} (h : AT up K T p v s n Q) (hc : Cost 1 p B (fun _ _ => True)) :
    AT up K T p v s n (fun b s' => Q b s' ∧ s'.env.length ≤ s.env.length + B) := by
  intro hT
  obtain ⟨b, s', e1, e2, e3, e4⟩ := h hT
  refine ⟨b, s', e1, e2, e3, e4, ?_⟩
  obtain ⟨d, h1, h2⟩ := run_trace (o := adv up K) (fun _ => rfl) p s
  obtain ⟨B', h3, -⟩ := Spend.run (o := adv up K) (s := s) hc
  have := h2.env_count
  rw [e1] at h1 h3 this
  dsimp only at h1 h3 this
  rw [h1] at h3
  simp at h3
  omega

theorem silent {p : Prog α (α × α) Bool β} {Q : β → StA α → Prop} (h : AT up K T p v s n Q) (hc : Silent p) :
    AT up K T p v s n (fun b s' => Q b s' ∧ s'.env.length ≤ s.env.length) :=
  (h.cost (B := 0) (Cost.silent hc fun _ => trivial)).mono (Nat.le_refl _) fun _ _ h => ⟨h.1, by omega⟩

/-! Steps without effect. -/

theorem usub {cfg : Cfg} {a b : Nat} {k : Nat → Prog α (α × α) Bool β} {Q : β → StA α → Prop} (hab : b ≤ a)
    (h : AT up K T (k (a - b)) v s n Q) : AT up K T (NdSlice.usub cfg a b >>= k) v s n Q := by
  unfold NdSlice.usub
  rw [if_pos hab]
  exact h

theorem splitAt {a : Nat} {k : View × View → Prog α (α × α) Bool β} {Q : β → StA α → Prop} (ha : a ≤ w.len)
    (h : AT up K T (k (w.sub 0 a, w.sub a (w.len - a))) v s n Q) : AT up K T (w.splitAt a >>= k) v s n Q := by
  unfold View.splitAt
  rw [if_pos ha]
  exact h

theorem slice {a b : Nat} {k : View → Prog α (α × α) Bool β} {Q : β → StA α → Prop} (hab : a ≤ b) (hb : b ≤ w.len)
    (h : AT up K T (k (w.sub a (b - a))) v s n Q) : AT up K T (w.slice a b >>= k) v s n Q := by
  unfold View.slice
  rw [if_neg (Nat.not_lt.2 hab)]
  dsimp only
  rw [if_pos ⟨by omega, hb⟩]
  exact h

theorem vref {i : Nat} {k : Addr → Prog α (α × α) Bool β} {Q : β → StA α → Prop} (hi : i < w.len)
    (h : AT up K T (k (w.addr i)) v s n Q) : AT up K T (w.ref i >>= k) v s n Q := by
  unfold View.ref
  rw [if_pos hi]
  exact h

theorem debugAssert {cfg : Cfg} {c : Bool} {k : Unit → Prog α (α × α) Bool β} {Q : β → StA α → Prop} (hd : cfg.dbg = false)
    (h : AT up K T (k ()) v s n Q) : AT up K T (NdSlice.debugAssert cfg c >>= k) v s n Q := by
  unfold NdSlice.debugAssert
  rw [if_neg (by simp [hd])]
  exact h

end AT

/-! ### Partitioning against the adversary -/

omit [DecidableEq α]

/-- After some reads and writes, all questions have the same second element. -/
inductive Second {β : Type} : Prog α (α × α) Bool β → Prop where
  | only (t : α) {p : Prog α (α × α) Bool β} : Only (fun q => q.2 = t) p → Second p
  | get {a : Addr} {k : α → Prog α (α × α) Bool β} : (∀ x, Second (k x)) → Second (.get a k)
  | set {a : Addr} {x : α} {k : Prog α (α × α) Bool β} : Second k → Second (.set a x k)
  | choose {k : Bool → Prog α (α × α) Bool β} : (∀ b, Second (k b)) → Second (.choose k)

namespace Second

theorem log {p : Prog α (α × α) Bool β} (h : Second p) (o : Oracle σ (α × α) Bool) (s : St α (α × α) Bool σ) :
    ∃ t d, (run o p s).2.log = s.log ++ d ∧ ∀ e ∈ d, e.1.2 = t := by
  induction h generalizing s with
  | only t h =>
    obtain ⟨d, h1, h2⟩ := h.log o s
    exact ⟨t, d, h1, h2⟩
  | get _ ih => exact ih _ _
  | @set a x k _ ih => exact ih { s with mem := upd s.mem a x }
  | @choose k _ ih => exact ih _ { s with env := (o.flip s.env).2 }

theorem bind [Nonempty α] {p : Prog α (α × α) Bool β} {f : β → Prog α (α × α) Bool γ} (h : Only (fun _ => False) p)
    (hf : ∀ b, Second (f b)) : Second (p >>= f) := by
  show Second (p.bind f)
  induction p with
  | ret b => exact hf b
  | get a k ih => exact get fun x => ih x (h x) hf
  | set a x k ih => exact set (ih h hf)
  | call q k ih => exact h.1.elim
  | choose k ih => exact choose fun b => ih b (h b) hf
  | throw e => exact only Classical.ofNonempty trivial
  | ub => exact only Classical.ofNonempty trivial
  | diverge => exact only Classical.ofNonempty trivial
  | join p q k _ _ ih => exact h.elim

end Second

section

variable {cfg : Cfg} {v : View} {t : α}

theorem scanUp_only {P : α × α → Prop} {test : Nat → Prog α (α × α) Bool Bool} (h : ∀ i, Only P (test i)) {n l : Nat} :
    Only P (scanUp test n l) := by
  induction n generalizing l with
  | zero => trivial
  | succ n ih => exact Only.bind (h l) fun b => Only.ite ih trivial

theorem scanDown_only {P : α × α → Prop} {test : Nat → Prog α (α × α) Bool Bool} (h : ∀ i, Only P (test i)) {n l : Nat} :
    Only P (scanDown test n l) := by
  induction n generalizing l with
  | zero => trivial
  | succ n ih => exact Only.bind (h _) fun b => Only.ite ih trivial

theorem traceL_only {l n i : Nat} {acc : List Nat} : Only (fun q => q.2 = t) (traceL lessO v t l n i acc) := by
  induction n generalizing i acc with
  | zero => trivial
  | succ n ih => exact Only.ite (Only.bind Only.vidx fun _ => Only.bind (lessO_only rfl) fun _ => ih) trivial

theorem traceR_only {l n i : Nat} {acc : List Nat} : Only (fun q => q.2 = t) (traceR cfg lessO v t n l i acc) := by
  induction n generalizing l i acc with
  | zero => trivial
  | succ n ih =>
    exact Only.ite (Only.bind Only.usub fun _ => Only.bind Only.vidx fun _ => Only.bind (lessO_only rfl) fun _ => ih) trivial

theorem leftIdx_only {P : ι → Prop} {l : Nat} {o : List Nat} : Only P (leftIdx l o : Prog α ι ω Nat) := by
  cases o <;> trivial

theorem rightIdx_only {P : ι → Prop} {l : Nat} {o : List Nat} : Only P (rightIdx cfg l o : Prog α ι ω Nat) := by
  cases o with
  | nil => trivial
  | cons => exact Only.usub

theorem copyIdx_only {P : ι → Prop} {i j : Nat} : Only P (copyIdx v i j : Prog α ι ω Unit) := Only.bind Only.vidx fun _ => Only.vcset

theorem cycleLoop_only {P : ι → Prop} {l r n : Nat} {ol or : List Nat} : Only P (cycleLoop cfg v l r n ol or : Prog α ι ω _) := by
  induction n generalizing ol or with
  | zero => trivial
  | succ n ih =>
    exact Only.bind leftIdx_only fun _ => Only.bind rightIdx_only fun _ => Only.bind copyIdx_only fun _ =>
      Only.bind rightIdx_only fun _ => Only.bind leftIdx_only fun _ => Only.bind copyIdx_only fun _ => ih

theorem cycle_only {P : ι → Prop} {l r n : Nat} {ol or : List Nat} : Only P (cycle cfg v l r n ol or : Prog α ι ω _) :=
  Only.bind leftIdx_only fun _ => Only.bind Only.vidx fun _ => Only.bind rightIdx_only fun _ => Only.bind copyIdx_only fun _ =>
    Only.bind cycleLoop_only fun _ => Only.bind rightIdx_only fun _ => Only.bind Only.vcset fun _ => trivial

theorem blockSizes_only {P : ι → Prop} {s : BlockSt} : Only P (blockSizes cfg s : Prog α ι ω _) := by
  unfold blockSizes
  refine Only.bind Only.usub fun _ => Only.ite (Only.bind (Only.ite Only.usub trivial) fun _ => Only.bind ?_ fun _ =>
    Only.bind Only.debugAssert fun _ => Only.bind Only.debugAssert fun _ => trivial) trivial
  exact Only.ite trivial (Only.ite trivial (Only.bind Only.usub fun _ => trivial))

theorem blockStep_only {s : BlockSt} : Only (fun q => q.2 = t) (blockStep cfg lessO v t s) := by
  unfold blockStep
  refine Only.bind Only.usub fun _ => Only.bind blockSizes_only fun _ => Only.bind (Only.ite traceL_only trivial) fun _ =>
    Only.bind (Only.ite traceR_only trivial) fun _ => Only.bind (Only.ite cycle_only trivial) fun _ =>
    Only.bind (Only.ite Only.usub trivial) fun _ => Only.ite trivial trivial

theorem moveRemL_only {P : ι → Prop} {l n r : Nat} {o : List Nat} : Only P (moveRemL cfg v l n o r : Prog α ι ω _) := by
  induction n generalizing o r with
  | zero => trivial
  | succ n ih => exact Only.bind Only.usub fun _ => Only.bind Only.uswap fun _ => ih

theorem moveRemR_only {P : ι → Prop} {l n r : Nat} {o : List Nat} : Only P (moveRemR cfg v r n o l : Prog α ι ω _) := by
  induction n generalizing o l with
  | zero => trivial
  | succ n ih => exact Only.bind Only.usub fun _ => Only.bind Only.uswap fun _ => ih

theorem partitionInBlocks_only : Only (fun q => q.2 = t) (partitionInBlocks cfg lessO v t) := by
  unfold partitionInBlocks
  refine Only.ite trivial (Only.bind (Only.loop fun _ => blockStep_only) fun _ => Only.ite ?_ (Only.ite ?_ trivial))
  · exact Only.bind Only.usub fun _ => Only.bind Only.debugAssert fun _ => moveRemL_only
  · exact Only.bind Only.usub fun _ => Only.bind Only.debugAssert fun _ => moveRemR_only

/-- All comparisons of `partition` have the pivot on the right. -/
theorem partition_second [Nonempty α] {pivot : Nat} : Second (partition cfg (lessO (α := α)) v pivot) := by
  unfold partition
  refine Second.bind Only.swap fun _ => Second.bind Only.splitAt fun r => Second.bind Only.vidx fun t => Second.only t ?_
  refine Only.bind (Only.onPanic ?_ Only.vset) fun _ => Only.bind Only.vset fun _ => Only.bind Only.swap fun _ => trivial
  refine Only.bind (scanUp_only (P := fun q => q.2 = t) fun _ => Only.bind Only.vget fun _ => lessO_only rfl) fun _ =>
    Only.bind (scanDown_only (P := fun q => q.2 = t) fun _ => Only.bind Only.vget fun _ => Only.bind (lessO_only rfl) fun _ => Only.pure) fun _ =>
    Only.bind Only.slice fun _ => Only.bind partitionInBlocks_only fun _ => trivial

end

variable [DecidableEq α] {cfg : Cfg}

/-- `partition` against the adversary: it compares all other elements with the pivot, and the pivot is the only one the adversary may have to
decide about. -/
theorem partition_AT (hK : T.length ≤ K) (hv : v.WF) (nd : (v.contents s.mem).Nodup) {pivot : Nat} (hp : pivot < v.len) :
    AT up K T (partition cfg lessO v pivot) v s (v.len - 1) (fun r s' => ∃ p A B, v.contents s'.mem = A ++ p :: B ∧ r.1 = A.length ∧
      (v.contents s'.mem).Perm (v.contents s.mem) ∧ (∀ a ∈ A, ltT up T a p = true) ∧ (∀ b ∈ B, ltT up T b p = false) ∧
      s'.env.length ≤ s.env.length + 1 ∧ (s'.env.length < K → (∃ x ∈ A ++ B, x ∉ s'.env) → p ∈ s'.env) ∧
      (s'.env.length < K → K < v.len → p ∈ s'.env)) := by
  intro hT
  have hne : Nonempty α := ⟨s.mem 0⟩
  have sp : ∀ R : α × α → Option Bool → Prop, Tri R v.region (partition cfg lessO v pivot) (v.contents s.mem) _ _ := fun R =>
    partition_spec (cfg := cfg) (v := v) (ordCmp R) (v.contents_length s.mem) hp
  obtain ⟨r, s', e1, -, e3, e4, p, A, B, e5, e6, e7, e8, e9⟩ := AT.tri hK hv (sp (relT up T)) (fun _ _ h => relT_pan up T h.2.1) hT
  obtain ⟨d, h1, h2⟩ := run_trace (o := adv up K) (fun _ => rfl) (partition cfg lessO v pivot) s
  have h3 := h2.answers hT hK
  have h4 : ∀ x ∈ A ++ B, ∃ b, ((x, p), some b) ∈ d := by
    have := run_sound_log (o := adv up K) (s := s) (R := fun q r => (q, r) ∈ d) (L := d) (fun _ h => h) (by rw [h1])
      (sp (fun q r => (q, r) ∈ d) s.mem s.log (View.region_nodup hv) rfl)
    rcases this with ⟨b, s'', g1, g4, p', A', B', g5, g6, g7, g8, g9⟩ | ⟨_, s'', g1, _⟩
    · rw [e1] at g1
      injection g1 with g1 g2
      injection g1 with g1
      subst g1 g2
      rw [e5] at g5
      injection g5 with g5
      subst g5
      rw [show List.map s'.mem v.region = v.contents s'.mem from rfl, e6] at g6
      obtain ⟨g6, g6'⟩ := List.append_inj g6 (by omega)
      injection g6' with _ g6'
      subst g6 g6'
      intro x hx
      rcases List.mem_append.1 hx with hx | hx
      · exact ⟨_, g8 x hx⟩
      · exact ⟨_, g9 x hx⟩
    · rw [e1] at g1
      injection g1 with g1 g2
      cases g1
  have nd' := e4.nodup_iff.2 nd
  have hl : A.length + B.length + 1 = v.len := by
    have := v.contents_length s'.mem
    rw [e6] at this
    simp at this
    omega
  rw [e6] at nd'
  have nd2 : (A ++ B).Nodup := (nd'.sublist (List.Sublist.append_left (List.sublist_cons_self _ _) _))
  rw [e1] at h1 h2
  dsimp only at h1 h2
  have key : s'.env.length < K → (∃ x ∈ A ++ B, x ∉ s'.env) → p ∈ s'.env := by
    rintro k1 ⟨x, hx, hxe⟩
    obtain ⟨b, hb⟩ := h4 x hx
    have hne : x ≠ p := by
      rintro rfl
      rw [List.nodup_append, List.nodup_cons] at nd'
      rcases List.mem_append.1 hx with h | h
      · exact nd'.2.2 _ h _ List.mem_cons_self rfl
      · exact nd'.2.1.1 h
    rcases h2.touched _ hb hne with h | h | h
    · exact absurd h hxe
    · exact h
    · omega
  refine ⟨r, s', e1, ?_, e3, p, A, B, e6, e7, e4, fun a ha => (relT_good up T).2 _ _ _ (e8 a ha) ▸ rfl,
    fun b hb => (relT_good up T).2 _ _ _ (e9 b hb) ▸ rfl, ?_, key, ?_⟩
  · rw [h1, List.length_append]
    have : (A ++ B).length ≤ (d.map fun x => x.1.1).length :=
      (nd2.subperm fun x hx => by
        obtain ⟨b, hb⟩ := h4 x hx
        exact List.mem_map.2 ⟨_, hb, rfl⟩).length_le
    simp at this
    omega
  · obtain ⟨t, d', k1, k2⟩ := (partition_second (cfg := cfg) (v := v) (pivot := pivot)).log (adv up K) s
    rw [e1] at k1
    dsimp only at k1
    rw [h1] at k1
    have := List.append_cancel_left k1
    subst this
    exact (h2.env_one k2).1
  · intro k1 k2
    apply key k1
    by_contra hpe
    have : (A ++ B).length ≤ s'.env.length := (nd2.subperm fun x hx => by
      by_contra hxe
      exact hpe ⟨x, hx, hxe⟩).length_le
    simp at this
    omega

end NdSlice
