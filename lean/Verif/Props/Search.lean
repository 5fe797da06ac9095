import Verif.Props.Base
import Verif.Props.Sample
import Verif.Proof.Search
import Mathlib.Data.List.Chain

/-
Properties of the functions which only look at the array: C22 (`is_sorted*`), C23, C24 (`binary_search*`),
C25 (`partition_point`), C26 (`contains`).  The views may also have stride 0.
-/

namespace NdSlice

open Style

variable {α κ ι ω σ β : Type}

/-- Like `Ends`, but about the whole final state: also about the questions asked. -/
def EndsS (o : Oracle σ ι ω) (p : Prog α ι ω β) (s : St α ι ω σ) (Q : β → St α ι ω σ → Prop) (E : Panic → St α ι ω σ → Prop) : Prop :=
  (∃ b s', run o p s = (.ok b, s') ∧ Q b s') ∨ (∃ e s', run o p s = (.panic e, s') ∧ E e s')

theorem wp.endsS {R : ι → Option ω → Prop} {o : Oracle σ ι ω} (ho : o.Sat R) {p : Prog α ι ω β} {F : Addr → Prop}
    {Q : β → Mem α → List (ι × Option ω) → Prop} {E : Panic → Mem α → List (ι × Option ω) → Prop} {s : St α ι ω σ}
    (h : wp R p F Q E s.mem s.log) :
    EndsS o p s (fun b s' => Q b s'.mem s'.log) (fun e s' => E e s'.mem s'.log) := by
  rcases run_sound ho h with ⟨b, s', h1, h2⟩ | ⟨b, s', h1, h2⟩
  · exact .inl ⟨b, s', h1, h2⟩
  · exact .inr ⟨b, s', h1, h2⟩

theorem EndsS.mono {o : Oracle σ ι ω} {p : Prog α ι ω β} {s : St α ι ω σ} {Q Q' : β → St α ι ω σ → Prop}
    {E E' : Panic → St α ι ω σ → Prop} (h : EndsS o p s Q E) (hQ : ∀ b s', Q b s' → Q' b s') (hE : ∀ e s', E e s' → E' e s') :
    EndsS o p s Q' E' := by
  rcases h with ⟨b, s', h1, h2⟩ | ⟨b, s', h1, h2⟩
  · exact .inl ⟨b, s', h1, hQ _ _ h2⟩
  · exact .inr ⟨b, s', h1, hE _ _ h2⟩

theorem EndsS.ok {o : Oracle σ ι ω} {p : Prog α ι ω β} {s : St α ι ω σ} {Q : β → St α ι ω σ → Prop}
    {E : Panic → St α ι ω σ → Prop} (h : EndsS o p s Q E) (hE : ∀ e s', ¬ E e s') : ∃ b s', run o p s = (.ok b, s') ∧ Q b s' := by
  rcases h with h | ⟨e, s', _, h⟩
  · exact h
  · exact (hE _ _ h).elim

/-- The panic came out of user code: it is the answer to the last of at most `n` questions. -/
def UserPanic (s : St α ι ω σ) (n : Nat) (e : Panic) (s' : St α ι ω σ) : Prop :=
  e = .user ∧ ∃ d q, s'.log = s.log ++ d ++ [(q, none)] ∧ d.length < n

/-! ### `is_sorted` -/

/-- One test of `x` against `y` in the log: its questions and answers `d`, and its outcome `b`. -/
def RelStyle.Event : (st : RelStyle) → (x y : α) → Bool → List (st.Q α κ × Option (st.A κ)) → Prop
  | .rel, x, y, b, d => d = [((x, y), some b)]
  | .key, x, y, b, d => ∃ k l c, d = [(KeyQ.key x, some k), (KeyQ.key y, some l), (KeyQ.lt k.1 l.1, some c)] ∧ b = c.2

/-- User code is the relation `le`. -/
def RelStyle.Agrees : (st : RelStyle) → Oracle σ (st.Q α κ) (st.A κ) → (α → α → Bool) → Prop
  | .rel, o, le => ∀ e (x y : α), (o.ask e (x, y)).1 = some (le x y)
  | .key, o, le => ∃ (f : α → κ) (kle : κ → κ → Bool), (∀ e (x : α), ∃ b, (o.ask e (KeyQ.key x)).1 = some (f x, b)) ∧
      (∀ e (k l : κ), ∃ c, (o.ask e (KeyQ.lt k l)).1 = some (c, kle k l)) ∧ ∀ x y, le x y = kle (f x) (f y)

/-- The number of questions of one test. -/
def RelStyle.cost : RelStyle → Nat
  | .rel => 1
  | .key => 3

/-- The test as a `Fn`. -/
def RelStyle.fn (st : RelStyle) (o : Oracle σ (st.Q α κ) (st.A κ)) : Fn α (st.Q α κ) (st.A κ) (α × α) Bool where
  R := Style.rel o
  prog := fun x => st.test x.1 x.2
  ans := fun x b d => st.Event x.1 x.2 b d ∧ ∀ q r, (q, r) ∈ d → Style.rel o q r
  pan := ∃ e q, (o.ask e q).1 = none
  cost := st.cost
  ok := by
    rintro ⟨x, y⟩ m lg
    cases st with
    | rel =>
      intro r hr
      cases r with
      | none => obtain ⟨e, he⟩ := hr; exact ⟨rfl, ⟨e, _, he⟩, rfl, [], _, by rw [List.append_nil]; rfl, Nat.zero_lt_one⟩
      | some b =>
        refine ⟨rfl, [((x, y), some b)], rfl, rfl, rfl, fun q r h => ?_⟩
        cases List.mem_singleton.mp h
        exact hr
    | key =>
      intro r hr
      cases r with
      | none => obtain ⟨e, he⟩ := hr; exact ⟨rfl, ⟨e, _, he⟩, rfl, [], _, by rw [List.append_nil]; rfl, by simp [RelStyle.cost]⟩
      | some k =>
        intro r hr'
        cases r with
        | none => obtain ⟨e, he⟩ := hr'; exact ⟨rfl, ⟨e, _, he⟩, rfl, [_], _, rfl, by simp [RelStyle.cost]⟩
        | some l =>
          intro r hr''
          cases r with
          | none => obtain ⟨e, he⟩ := hr''; exact ⟨rfl, ⟨e, _, he⟩, rfl, [_, _], _, by simp only [List.append_assoc, List.cons_append, List.nil_append]; rfl, by simp [RelStyle.cost]⟩
          | some b =>
            refine ⟨rfl, [(KeyQ.key x, some k), (KeyQ.key y, some l), (KeyQ.lt k.1 l.1, some b)], by simp, rfl,
              ⟨k, l, b, rfl, rfl⟩, fun q r h => ?_⟩
            simp only [List.mem_cons, List.not_mem_nil, or_false] at h
            rcases h with h | h | h <;> cases h
            · exact hr
            · exact hr'
            · exact hr''

theorem RelStyle.fn_ans {st : RelStyle} {o : Oracle σ (st.Q α κ) (st.A κ)} {le : α → α → Bool} (h : st.Agrees o le) {x y : α} {b : Bool}
    {d : List (st.Q α κ × Option (st.A κ))} (ha : (st.fn o).ans (x, y) b d) : le x y = b := by
  obtain ⟨h1, h2⟩ := ha
  cases st with
  | rel =>
    cases h1
    obtain ⟨e, he⟩ := h2 _ _ (List.mem_singleton.mpr rfl)
    have := h e x y
    rw [this] at he
    exact Option.some.inj he
  | key =>
    obtain ⟨k, l, c, rfl, rfl⟩ := h1
    obtain ⟨f, kle, g1, g2, g3⟩ := h
    obtain ⟨e1, h3⟩ := h2 (KeyQ.key x) (some k) (.head _)
    obtain ⟨e2, h4⟩ := h2 (KeyQ.key y) (some l) (.tail _ (.head _))
    obtain ⟨e3, h5⟩ := h2 (KeyQ.lt k.1 l.1) (some c) (.tail _ (.tail _ (.head _)))
    obtain ⟨b1, h6⟩ := g1 e1 x
    obtain ⟨b2, h7⟩ := g1 e2 y
    rw [h6] at h3
    rw [h7] at h4
    rw [← Option.some.inj h3, ← Option.some.inj h4] at h5
    obtain ⟨c', h8⟩ := g2 e3 (f x) (f y)
    rw [h8] at h5
    rw [g3, ← Option.some.inj h5]

theorem RelStyle.Agrees.noPanic {st : RelStyle} {o : Oracle σ (st.Q α κ) (st.A κ)} {le : α → α → Bool} (h : st.Agrees o le) :
    ¬ (st.fn o).pan := by
  rintro ⟨e, q, hq⟩
  cases st with
  | rel => obtain ⟨x, y⟩ := q; have := h e x y; rw [this] at hq; cases hq
  | key =>
    obtain ⟨f, kle, g1, g2, g3⟩ := h
    cases q with
    | key x => obtain ⟨b, hb⟩ := g1 e x; rw [hb] at hq; cases hq
    | lt k l => obtain ⟨b, hb⟩ := g2 e k l; rw [hb] at hq; cases hq

variable {v : View}

/-- C22, for arbitrary user code: `is_sorted*` never changes anything and ends; if it returns true, then each adjacent pair has been tested in this
run and the test said true, with no further questions; if it returns false, some adjacent pair has been tested and the test said false.  It panics only if
user code does. -/
theorem is_sorted_safe (st : RelStyle) (o : Oracle σ (st.Q α κ) (st.A κ)) (s : St α (st.Q α κ) (st.A κ) σ) :
    EndsS o (isSorted st v) s
      (fun b s' => s'.mem = s.mem ∧ (∃ d, s'.log = s.log ++ d ∧ d.length ≤ st.cost * (v.len - 1) ∧
          (b = true → d.length = st.cost * (v.len - 1))) ∧
        (b = true → ∀ i x y, (v.contents s.mem)[i]? = some x → (v.contents s.mem)[i + 1]? = some y →
          ∃ d1 d d2, s'.log = s.log ++ d1 ++ d ++ d2 ∧ st.Event x y true d) ∧
        (b = false → ∃ i x y, (v.contents s.mem)[i]? = some x ∧ (v.contents s.mem)[i + 1]? = some y ∧
          ∃ d1 d d2, s'.log = s.log ++ d1 ++ d ++ d2 ∧ st.Event x y false d))
      (fun e s' => s'.mem = s.mem ∧ UserPanic s (st.cost * (v.len - 1)) e s') := by
  by_cases hlen : v.len = 0
  · refine .inl ⟨true, s, ?_, rfl, ⟨[], by simp, by simp, by simp [hlen]⟩, ?_, by simp⟩
    · unfold isSorted isSortedBy; rw [hlen]; rfl
    · intro _ i x y hx
      have := List.getElem?_eq_some_iff.mp hx
      obtain ⟨hi, -⟩ := this
      rw [View.contents_length] at hi
      omega
  refine (wp.endsS (rel_sat o) (isSortedFrom_spec (st.fn o) (v := v) (i := 1) (n := v.len - 1) (Nat.le_refl _) (by omega))).mono ?_ ?_
  · rintro b s' ⟨h1, h2, h3⟩
    refine ⟨h1, ?_, fun hb i x y hx hy => ?_, fun hb => ?_⟩
    · cases b with
      | true => obtain ⟨⟨d, g1, g2⟩, -⟩ := h2 rfl; exact ⟨d, g1, Nat.le_of_eq g2, fun _ => g2⟩
      | false =>
        obtain ⟨j, g1, g2, ⟨d, g3, g4⟩, -⟩ := h3 rfl
        exact ⟨d, g3, by rw [g4]; exact Nat.mul_le_mul_left _ (by omega), fun h => by cases h⟩
    · have hi : i + 1 < v.len := by
        have := (List.getElem?_eq_some_iff.mp hy).1
        rwa [View.contents_length] at this
      obtain ⟨d1, d, d2, g1, g2, -⟩ := (h2 hb).2 (i + 1) (by omega) (by omega)
      rw [View.contents_get v hi] at hy
      rw [View.contents_get v (by omega)] at hx
      rw [show i + 1 - 1 = i by omega, Option.some.inj hx, Option.some.inj hy] at g2
      exact ⟨d1, d, d2, g1, g2⟩
    · obtain ⟨j, g1, g2, -, d1, d, d2, g3, g4, -⟩ := h3 hb
      refine ⟨j - 1, _, _, View.contents_get v (by omega), ?_, d1, d, d2, g3, g4⟩
      rw [show j - 1 + 1 = j by omega]
      exact View.contents_get v (by omega)
  · rintro e s' ⟨h1, -, h3, d, q, h4, h5⟩
    exact ⟨h3, h1, d, q, h4, h5⟩

/-- C22: `is_sorted*` returns true iff the relation holds for every adjacent pair, which for a transitive relation means for every two
positions `i < j`; nothing is modified. -/
theorem is_sorted_correct (st : RelStyle) {o : Oracle σ (st.Q α κ) (st.A κ)} {le : α → α → Bool} (h : st.Agrees o le)
    (s : St α (st.Q α κ) (st.A κ) σ) :
    ∃ b s', run o (isSorted st v) s = (.ok b, s') ∧ s'.mem = s.mem ∧
      (b = true ↔ ∀ i x y, (v.contents s.mem)[i]? = some x → (v.contents s.mem)[i + 1]? = some y → le x y = true) ∧
      ((∀ x y z, le x y = true → le y z = true → le x z = true) →
        (b = true ↔ (v.contents s.mem).Pairwise (fun x y => le x y = true))) := by
  have hnp := h.noPanic
  obtain ⟨b, s', h1, h2, h3, h4⟩ := (show EndsS o (isSorted st v) s (fun b s' => s'.mem = s.mem ∧
      (b = true → ∀ i, i + 1 < v.len → le (s.mem (v.addr i)) (s.mem (v.addr (i + 1))) = true) ∧
      (b = false → ∃ i, i + 1 < v.len ∧ le (s.mem (v.addr i)) (s.mem (v.addr (i + 1))) = false)) (fun _ _ => False) from by
    by_cases hlen : v.len = 0
    · refine .inl ⟨true, s, ?_, rfl, fun _ i hi => by omega, fun h => by cases h⟩
      unfold isSorted isSortedBy; rw [hlen]; rfl
    refine (wp.endsS (rel_sat o) (s := s)
      (isSortedFrom_spec (st.fn o) (v := v) (i := 1) (n := v.len - 1) (Nat.le_refl _) (by omega))).mono ?_ (fun _ _ h => hnp h.2.1)
    rintro b s' ⟨h1, h2, h3⟩
    refine ⟨h1, fun hb i hi => ?_, fun hb => ?_⟩
    · obtain ⟨d1, d, d2, g1, g2⟩ := (h2 hb).2 (i + 1) (by omega) (by omega)
      exact RelStyle.fn_ans h g2
    · obtain ⟨j, g1, g2, -, d1, d, d2, g3, g4⟩ := h3 hb
      have := RelStyle.fn_ans h g4
      exact ⟨j - 1, by omega, by rwa [show j - 1 + 1 = j by omega]⟩).ok (fun _ _ h => h)
  have key : b = true ↔ ∀ i x y, (v.contents s.mem)[i]? = some x → (v.contents s.mem)[i + 1]? = some y → le x y = true := by
    constructor
    · intro hb i x y hx hy
      have hi : i + 1 < v.len := by
        have := (List.getElem?_eq_some_iff.mp hy).1
        rwa [View.contents_length] at this
      rw [View.contents_get v hi] at hy
      rw [View.contents_get v (by omega)] at hx
      rw [← Option.some.inj hx, ← Option.some.inj hy]
      exact h3 hb i hi
    · intro hall
      cases b with
      | true => rfl
      | false =>
        obtain ⟨i, hi, hf⟩ := h4 rfl
        rw [hall i _ _ (View.contents_get v (by omega)) (View.contents_get v hi)] at hf
        cases hf
  refine ⟨b, s', h1, h2, key, fun ht => key.trans ?_⟩
  constructor
  · intro hall
    have : IsTrans α (fun x y => le x y = true) := ⟨ht⟩
    refine (List.isChain_iff_pairwise.mp ?_)
    rw [List.isChain_iff_getElem]
    intro i hi
    exact hall i _ _ (List.getElem?_eq_getElem _) (List.getElem?_eq_getElem _)
  · intro hp i x y hx hy
    obtain ⟨hi, rfl⟩ := List.getElem?_eq_some_iff.mp hx
    obtain ⟨hj, rfl⟩ := List.getElem?_eq_some_iff.mp hy
    exact List.pairwise_iff_getElem.mp hp i (i + 1) hi hj (Nat.lt_succ_self _)

/-! ### `binary_search` -/

namespace SearchStyle

/-- One comparison of the element `p` with what is searched, in the log: its questions and answers `d`, and its outcome `c`. -/
def Event : (st : SearchStyle) → st.T α κ → α → Ordering → List (st.Q α κ × Option (st.A κ)) → Prop
  | .ord, x, p, c, d => d = [((p, x), some c)]
  | .fn, _, p, c, d => d = [(p, some c)]
  | .key, b, p, c, d => ∃ k c', d = [(KeyQ.key p, some k), (KeyQ.lt k.1 b, some c')] ∧ c = c'.2

/-- User code is the search function `c`. -/
def Agrees : (st : SearchStyle) → Oracle σ (st.Q α κ) (st.A κ) → st.T α κ → (α → Ordering) → Prop
  | .ord, o, x, c => ∀ e (p : α), (o.ask e (p, x)).1 = some (c p)
  | .fn, o, _, c => ∀ e (p : α), (o.ask e p).1 = some (c p)
  | .key, o, b, c => ∃ f : α → κ, (∀ e (p : α), ∃ c', (o.ask e (KeyQ.key p)).1 = some (f p, c')) ∧
      (∀ e (p : α), ∃ k, (o.ask e (KeyQ.lt (f p) b)).1 = some (k, c p))

/-- The number of questions of one comparison. -/
def cost : SearchStyle → Nat
  | .ord => 1
  | .fn => 1
  | .key => 2

/-- Whether one of the questions can be answered by a panic. -/
def MayPanic : (st : SearchStyle) → Oracle σ (st.Q α κ) (st.A κ) → st.T α κ → Prop
  | .ord, o, x => ∃ p, Style.rel o (p, x) none
  | .fn, o, _ => ∃ p, Style.rel o p none
  | .key, o, b => (∃ p, Style.rel o (KeyQ.key p) none) ∨
      ∃ p k, Style.rel o (KeyQ.key p) (some k) ∧ Style.rel o (KeyQ.lt k.1 b) none

/-- The comparison as a `Fn`. -/
def toFn (st : SearchStyle) (o : Oracle σ (st.Q α κ) (st.A κ)) (t : st.T α κ) : Fn α (st.Q α κ) (st.A κ) α Ordering where
  R := Style.rel o
  prog := st.ask t
  ans := fun x c d => st.Event t x c d ∧ ∀ q r, (q, r) ∈ d → Style.rel o q r
  pan := st.MayPanic o t
  cost := st.cost
  ok := by
    intro p m lg
    cases st with
    | ord =>
      intro r hr
      cases r with
      | none => exact ⟨rfl, ⟨p, hr⟩, rfl, [], _, by rw [List.append_nil]; rfl, Nat.zero_lt_one⟩
      | some b =>
        refine ⟨rfl, [((p, t), some b)], rfl, rfl, rfl, fun q r h => ?_⟩
        cases List.mem_singleton.mp h
        exact hr
    | fn =>
      intro r hr
      cases r with
      | none => exact ⟨rfl, ⟨p, hr⟩, rfl, [], _, by rw [List.append_nil]; rfl, Nat.zero_lt_one⟩
      | some b =>
        refine ⟨rfl, [(p, some b)], rfl, rfl, rfl, fun q r h => ?_⟩
        cases List.mem_singleton.mp h
        exact hr
    | key =>
      intro r hr
      cases r with
      | none => exact ⟨rfl, .inl ⟨p, hr⟩, rfl, [], _, by rw [List.append_nil]; rfl, by simp [cost]⟩
      | some k =>
        intro r hr'
        cases r with
        | none => exact ⟨rfl, .inr ⟨p, k, hr, hr'⟩, rfl, [_], _, rfl, by simp [cost]⟩
        | some l =>
          refine ⟨rfl, [(KeyQ.key p, some k), (KeyQ.lt k.1 t, some l)], by simp, rfl, ⟨k, l, rfl, rfl⟩, fun q r h => ?_⟩
          simp only [List.mem_cons, List.not_mem_nil, or_false] at h
          rcases h with h | h <;> cases h
          · exact hr
          · exact hr'

theorem Agrees.ans {st : SearchStyle} {o : Oracle σ (st.Q α κ) (st.A κ)} {t : st.T α κ} {c : α → Ordering} (h : st.Agrees o t c)
    {p : α} {b : Ordering} {d : List (st.Q α κ × Option (st.A κ))} (ha : (st.toFn o t).ans p b d) : c p = b := by
  obtain ⟨h1, h2⟩ := ha
  cases st with
  | ord =>
    cases h1
    obtain ⟨e, he⟩ := h2 _ _ (List.mem_singleton.mpr rfl)
    exact Option.some.inj ((h e p).symm.trans he)
  | fn =>
    cases h1
    obtain ⟨e, he⟩ := h2 _ _ (List.mem_singleton.mpr rfl)
    exact Option.some.inj ((h e p).symm.trans he)
  | key =>
    obtain ⟨k, c', rfl, rfl⟩ := h1
    obtain ⟨f, g1, g2⟩ := h
    obtain ⟨e1, h3⟩ := h2 (KeyQ.key p) (some k) (.head _)
    obtain ⟨e2, h4⟩ := h2 (KeyQ.lt k.1 t) (some c') (.tail _ (.head _))
    obtain ⟨b1, h6⟩ := g1 e1 p
    rw [h6] at h3
    rw [← Option.some.inj h3] at h4
    obtain ⟨b2, h7⟩ := g2 e2 p
    rw [h7] at h4
    rw [← Option.some.inj h4]

theorem Agrees.noPanic {st : SearchStyle} {o : Oracle σ (st.Q α κ) (st.A κ)} {t : st.T α κ} {c : α → Ordering} (h : st.Agrees o t c) :
    ¬ st.MayPanic o t := by
  intro hp
  cases st with
  | ord => obtain ⟨p, e, he⟩ := hp; have := h e p; rw [this] at he; cases he
  | fn => obtain ⟨p, e, he⟩ := hp; have := h e p; rw [this] at he; cases he
  | key =>
    obtain ⟨f, g1, g2⟩ := h
    rcases hp with ⟨p, e, he⟩ | ⟨p, k, ⟨e, he⟩, e', he'⟩
    · obtain ⟨b, hb⟩ := g1 e p; rw [hb] at he; cases he
    · obtain ⟨b, hb⟩ := g1 e p
      rw [hb] at he
      rw [← Option.some.inj he] at he'
      obtain ⟨b', hb'⟩ := g2 e' p
      rw [hb'] at he'; cases he'

end SearchStyle

/-- C24: for arbitrary user code `binary_search*` ends after at most `⌊log2 len⌋ + 1` comparisons (none on the empty array) and never changes
anything.  `Ok(i)` is in bounds and the last comparison of the run was of the element at `i` and said `Equal`; `Err(i)` is at most the length,
the element before `i` has been compared and said `Less`, and the element at `i` has been compared and said `Greater`.  It panics only
if user code does. -/
theorem binary_search_safe (st : SearchStyle) (cfg : Cfg) (o : Oracle σ (st.Q α κ) (st.A κ)) (t : st.T α κ)
    (s : St α (st.Q α κ) (st.A κ) σ) :
    EndsS o (binarySearch st cfg v t) s
      (fun r s' => s'.mem = s.mem ∧
        (∃ k d, s'.log = s.log ++ d ∧ d.length = st.cost * k ∧ (v.len = 0 → k = 0) ∧ k ≤ Nat.log2 v.len + 1) ∧
        match r with
        | .ok i => ∃ x l d, (v.contents s.mem)[i]? = some x ∧ s'.log = s.log ++ l ++ d ∧ st.Event t x .eq d
        | .error i => i ≤ v.len ∧
          (∀ j x, j + 1 = i → (v.contents s.mem)[j]? = some x → ∃ d1 d d2, s'.log = s.log ++ d1 ++ d ++ d2 ∧ st.Event t x .lt d) ∧
          (∀ x, (v.contents s.mem)[i]? = some x → ∃ d1 d d2, s'.log = s.log ++ d1 ++ d ++ d2 ∧ st.Event t x .gt d))
      (fun e s' => s'.mem = s.mem ∧ UserPanic s (st.cost * (Nat.log2 v.len + 1)) e s') := by
  have hcalls : searchCalls v.len ≤ Nat.log2 v.len + 1 := by unfold searchCalls; split <;> omega
  refine (wp.endsS (rel_sat o) (s := s) (binarySearchBy_spec (st.toFn o t) (v := v))).mono ?_ ?_
  · rintro r s' ⟨h1, ⟨k, h2, d, h3, h4⟩, h5⟩
    refine ⟨h1, ⟨k, d, h3, h4, fun h0 => ?_, by omega⟩, ?_⟩
    · rw [searchCalls, if_pos h0] at h2; omega
    cases r with
    | ok i =>
      obtain ⟨hi, l, d, g1, g2⟩ := h5
      exact ⟨_, l, d, View.contents_get v hi, g1, g2.1⟩
    | error i =>
      obtain ⟨hi, g1, g2⟩ := h5
      refine ⟨hi, fun j x hj hx => ?_, fun x hx => ?_⟩
      · obtain ⟨d1, d, d2, g3, g4⟩ := g1 (by omega)
        rw [View.contents_get v (by omega)] at hx
        rw [show i - 1 = j by omega, Option.some.inj hx] at g4
        exact ⟨d1, d, d2, g3, g4.1⟩
      · have hi : i < v.len := by
          have := (List.getElem?_eq_some_iff.mp hx).1
          rwa [View.contents_length] at this
        obtain ⟨d1, d, d2, g3, g4⟩ := g2 hi
        rw [View.contents_get v (by omega)] at hx
        rw [Option.some.inj hx] at g4
        exact ⟨d1, d, d2, g3, g4.1⟩
  · rintro e s' ⟨h1, -, h3, d, q, h4, h5⟩
    exact ⟨h3, h1, d, q, h4, Nat.lt_of_lt_of_le h5 (Nat.mul_le_mul_left _ hcalls)⟩

/-- What `binary_search*` returns for a search function `c`, on any array. -/
theorem binary_search_pure (st : SearchStyle) (cfg : Cfg) {o : Oracle σ (st.Q α κ) (st.A κ)} {t : st.T α κ} {c : α → Ordering}
    (h : st.Agrees o t c) (s : St α (st.Q α κ) (st.A κ) σ) :
    ∃ r s', run o (binarySearch st cfg v t) s = (.ok r, s') ∧ s'.mem = s.mem ∧
      match r with
      | .ok i => ∃ x, (v.contents s.mem)[i]? = some x ∧ c x = .eq
      | .error i => i ≤ v.len ∧ (∀ j x, j + 1 = i → (v.contents s.mem)[j]? = some x → c x = .lt) ∧
          (∀ x, (v.contents s.mem)[i]? = some x → c x = .gt) := by
  refine EndsS.ok (E := fun _ _ => False) ((wp.endsS (rel_sat o) (s := s) (binarySearchBy_spec (st.toFn o t) (v := v))).mono ?_
    (fun _ _ hp => h.noPanic hp.2.1)) (fun _ _ h => h)
  rintro r s' ⟨h1, -, h5⟩
  refine ⟨h1, ?_⟩
  cases r with
  | ok i =>
    obtain ⟨hi, l, d, g1, g2⟩ := h5
    exact ⟨_, View.contents_get v hi, h.ans g2⟩
  | error i =>
    obtain ⟨hi, g1, g2⟩ := h5
    refine ⟨hi, fun j x hj hx => ?_, fun x hx => ?_⟩
    · obtain ⟨d1, d, d2, g3, g4⟩ := g1 (by omega)
      rw [View.contents_get v (by omega)] at hx
      rw [show i - 1 = j by omega, Option.some.inj hx] at g4
      exact h.ans g4
    · have hi : i < v.len := by
        have := (List.getElem?_eq_some_iff.mp hx).1
        rwa [View.contents_length] at this
      obtain ⟨d1, d, d2, g3, g4⟩ := g2 hi
      rw [View.contents_get v (by omega)] at hx
      rw [Option.some.inj hx] at g4
      exact h.ans g4

/-- C23: on an array in which the elements that compare `Less` come first, then those that compare `Equal`, then those that compare `Greater`,
`binary_search*` returns `Ok(i)` with an `Equal` element at `i` if there is one, and otherwise `Err(i)` with the
number `i` of `Less` elements; nothing is modified. -/
theorem binary_search_correct (st : SearchStyle) (cfg : Cfg) {o : Oracle σ (st.Q α κ) (st.A κ)} {t : st.T α κ} {c : α → Ordering}
    (h : st.Agrees o t c) (s : St α (st.Q α κ) (st.A κ) σ) {L M G : List α} (hc : v.contents s.mem = L ++ M ++ G)
    (hL : ∀ x ∈ L, c x = .lt) (hM : ∀ x ∈ M, c x = .eq) (hG : ∀ x ∈ G, c x = .gt) :
    ∃ r s', run o (binarySearch st cfg v t) s = (.ok r, s') ∧ s'.mem = s.mem ∧
      ((∃ i, r = .ok i) ↔ ∃ x ∈ v.contents s.mem, c x = .eq) ∧
      match r with
      | .ok i => ∃ x, (v.contents s.mem)[i]? = some x ∧ c x = .eq
      | .error i => i = (v.contents s.mem).countP (fun x => c x == .lt) := by
  obtain ⟨r, s', h1, h2, h3⟩ := binary_search_pure (v := v) st cfg h s
  refine ⟨r, s', h1, h2, ?_⟩
  have hlen : v.len = L.length + M.length + G.length := by
    have := congrArg List.length hc
    rw [View.contents_length] at this
    simp only [List.length_append] at this; exact this
  cases r with
  | ok i =>
    obtain ⟨x, hx, hcx⟩ := h3
    exact ⟨⟨fun _ => ⟨x, List.mem_of_getElem? hx, hcx⟩, fun _ => ⟨i, rfl⟩⟩, x, hx, hcx⟩
  | error i =>
    obtain ⟨hi, h4, h5⟩ := h3
    rw [hc] at h4 h5 ⊢
    have hcount : (L ++ M ++ G).countP (fun x => c x == .lt) = L.length := by
      rw [List.countP_append, List.countP_append, List.countP_eq_length.mpr (fun x hx => by simp [hL x hx]),
        List.countP_eq_zero.mpr (fun x hx => by simp [hM x hx]), List.countP_eq_zero.mpr (fun x hx => by simp [hG x hx])]
      omega
    have hlo : ¬ i < L.length := by
      intro hlt
      have := h5 L[i] (by rw [List.append_assoc, List.getElem?_append_left hlt, List.getElem?_eq_getElem hlt])
      rw [hL _ (List.getElem_mem _)] at this; cases this
    have hhi : ¬ L.length < i := by
      intro hlt
      obtain ⟨j, rfl⟩ : ∃ j, i = j + 1 := ⟨i - 1, by omega⟩
      have hj : j < (L ++ M ++ G).length := by simp; omega
      have h6 := h4 j _ rfl (List.getElem?_eq_getElem hj)
      rw [List.getElem_append] at h6
      split at h6
      · rename_i hj'
        rw [List.getElem_append_right (by omega), hM _ (List.getElem_mem _)] at h6; cases h6
      · rw [hG _ (List.getElem_mem _)] at h6; cases h6
    have hi' : i = L.length := by omega
    refine ⟨⟨fun ⟨_, h⟩ => (by cases h), ?_⟩, by rw [hcount, hi']⟩
    rintro ⟨x, hx, hcx⟩
    have hxM : x ∈ M := by
      rcases List.mem_append.mp hx with hx | hx
      · rcases List.mem_append.mp hx with hx | hx
        · rw [hL x hx] at hcx; cases hcx
        · exact hx
      · rw [hG x hx] at hcx; cases hcx
    have hpos := List.length_pos_of_mem hxM
    have := h5 M[0] (by
      rw [hi', List.append_assoc, List.getElem?_append_right (Nat.le_refl _), Nat.sub_self, List.getElem?_append_left hpos,
        List.getElem?_eq_getElem hpos])
    rw [hM _ (List.getElem_mem _)] at this; cases this

/-- C23 on a sorted array: searching for what compares like `x` gives `Ok` iff some element is equivalent to `x`, and putting `x`
at the returned position keeps the array sorted in both cases. -/
theorem binary_search_sorted (st : SearchStyle) (cfg : Cfg) {o : Oracle σ (st.Q α κ) (st.A κ)} {t : st.T α κ} {c : α → Ordering}
    (h : st.Agrees o t c) {lt : α → α → Bool} (so : SWO lt) {x : α} (hlt : ∀ p, c p = .lt ↔ lt p x = true)
    (hgt : ∀ p, c p = .gt ↔ lt x p = true) (s : St α (st.Q α κ) (st.A κ) σ) (hs : Sorted lt (v.contents s.mem)) :
    ∃ r s', run o (binarySearch st cfg v t) s = (.ok r, s') ∧ s'.mem = s.mem ∧
      ((∃ i, r = .ok i) ↔ ∃ y ∈ v.contents s.mem, eqv lt x y = true) ∧
      (∀ i, r = .ok i ∨ r = .error i → i ≤ v.len ∧ Sorted lt ((v.contents s.mem).take i ++ x :: (v.contents s.mem).drop i)) ∧
      (∀ i, r = .ok i → ∃ y, (v.contents s.mem)[i]? = some y ∧ eqv lt x y = true) := by
  obtain ⟨r, s', h1, h2, h3⟩ := binary_search_pure (v := v) st cfg h s
  refine ⟨r, s', h1, h2, ?_⟩
  have hce : ∀ p, c p = .eq ↔ eqv lt x p = true := by
    intro p
    rw [eqv_iff]
    have h4 := hlt p
    have h5 := hgt p
    cases hcp : c p <;> cases g1 : lt p x <;> cases g2 : lt x p <;> simp_all
  have hlen := View.contents_length v s.mem
  generalize hX : v.contents s.mem = X at *
  have hsX := List.pairwise_iff_getElem.mp hs
  -- enough to know about sortedness
  have sorted_of : ∀ i, (∀ j (hj : j < X.length), j < i → lt x X[j] = false) →
      (∀ j (hj : j < X.length), i ≤ j → lt X[j] x = false) → Sorted lt (X.take i ++ x :: X.drop i) := by
    intro i hb ha
    refine Sorted.append_iff.mpr ⟨hs.take _, Sorted.cons_iff.mpr ⟨?_, hs.drop _⟩, ?_⟩
    · intro y hy
      obtain ⟨j, hj, rfl⟩ := List.mem_iff_getElem.mp hy
      rw [List.length_drop] at hj
      rw [List.getElem_drop]
      exact ha _ _ (by omega)
    · intro y hy z hz
      obtain ⟨j, hj, rfl⟩ := List.mem_iff_getElem.mp hy
      rw [List.length_take] at hj
      rw [List.getElem_take]
      rcases List.mem_cons.mp hz with rfl | hz
      · exact hb j (by omega) (by omega)
      · obtain ⟨k, hk, rfl⟩ := List.mem_iff_getElem.mp hz
        rw [List.length_drop] at hk
        rw [List.getElem_drop]
        exact hsX _ _ _ _ (by omega)
  cases r with
  | ok i =>
    obtain ⟨y, hy, hcy⟩ := h3
    have hxy := (hce y).mp hcy
    refine ⟨⟨fun _ => ⟨y, List.mem_of_getElem? hy, hxy⟩, fun _ => ⟨i, rfl⟩⟩, ?_, ?_⟩
    · rintro k (hk | hk) <;> cases hk
      obtain ⟨hi, rfl⟩ := List.getElem?_eq_some_iff.mp hy
      obtain ⟨e1, e2⟩ := eqv_iff.mp hxy
      refine ⟨by omega, sorted_of i (fun j hj hji => ?_) (fun j hj hij => ?_)⟩
      · exact so.le_trans (hsX j i _ _ hji) e1
      · rcases Nat.eq_or_lt_of_le hij with rfl | hij
        · exact e2
        · exact so.le_trans e2 (hsX i j _ _ hij)
    · intro k hk; cases hk
      exact ⟨y, hy, hxy⟩
  | error i =>
    obtain ⟨hi, h4, h5⟩ := h3
    have hb : ∀ j (hj : j < X.length), j < i → lt X[j] x = true := by
      intro j hj hji
      have h6 := (hlt _).mp (h4 (i - 1) X[i - 1] (by omega) (List.getElem?_eq_getElem _))
      rcases Nat.lt_or_ge j (i - 1) with hj' | hj'
      · exact so.lt_of_le_of_lt (hsX j (i - 1) _ _ hj') h6
      · have : j = i - 1 := by omega
        subst this; exact h6
    have ha : ∀ j (hj : j < X.length), i ≤ j → lt x X[j] = true := by
      intro j hj hij
      have h6 := (hgt _).mp (h5 X[i] (List.getElem?_eq_getElem _))
      rcases Nat.eq_or_lt_of_le hij with rfl | hij
      · exact h6
      · exact so.lt_of_lt_of_le h6 (hsX i j _ _ hij)
    refine ⟨⟨fun ⟨_, h⟩ => (by cases h), ?_⟩, ?_, fun _ h => by cases h⟩
    · rintro ⟨y, hy, hxy⟩
      obtain ⟨j, hj, rfl⟩ := List.mem_iff_getElem.mp hy
      obtain ⟨e1, e2⟩ := eqv_iff.mp hxy
      rcases Nat.lt_or_ge j i with hji | hji
      · rw [hb j hj hji] at e2; cases e2
      · rw [ha j hj hji] at e1; cases e1
    · rintro k (hk | hk) <;> cases hk
      exact ⟨hi, sorted_of i (fun j hj hji => so.asymm (hb j hj hji)) (fun j hj hij => so.asymm (ha j hj hij))⟩

/-! ### `partition_point` -/

/-- The closure of `partition_point` as a `Fn`. -/
def predFn (o : Oracle σ α Bool) : Fn α α Bool α Ordering where
  R := Style.rel o
  prog := fun x => do
    let b ← askPred x
    pure (if b then Ordering.lt else Ordering.gt)
  ans := fun x c d => ∃ b, d = [(x, some b)] ∧ Style.rel o x (some b) ∧ c = if b then .lt else .gt
  pan := ∃ p, Style.rel o p none
  cost := 1
  ok := by
    intro p m lg r hr
    cases r with
    | none => exact ⟨rfl, ⟨p, hr⟩, rfl, [], _, by rw [List.append_nil], Nat.zero_lt_one⟩
    | some b => exact ⟨rfl, [(p, some b)], rfl, rfl, b, rfl, hr, rfl⟩

theorem partitionPoint_spec {cfg : Cfg} (o : Oracle σ α Bool) {m : Mem α} {lg : List (α × Option Bool)} :
    wp (Style.rel o) (partitionPoint cfg v) (· ∈ v.region)
      (fun i m' lg' => m' = m ∧ (∃ k, k ≤ searchCalls v.len ∧ Grown lg k lg') ∧ i ≤ v.len ∧
        (0 < i → ∃ d1 d2, lg' = lg ++ d1 ++ [(m (v.addr (i - 1)), some true)] ++ d2 ∧ Style.rel o (m (v.addr (i - 1))) (some true)) ∧
        (i < v.len → ∃ d1 d2, lg' = lg ++ d1 ++ [(m (v.addr i), some false)] ++ d2 ∧ Style.rel o (m (v.addr i)) (some false)))
      (fun e m' lg' => e = .user ∧ (∃ p, Style.rel o p none) ∧ m' = m ∧ Panicked lg (searchCalls v.len) lg') m lg := by
  refine wp_bind (wp_mono (binarySearchBy_spec (predFn o) (v := v)) (fun _ h => h) ?_ ?_)
  · rintro r _ lg' ⟨rfl, ⟨k, h1, h2⟩, h3⟩
    rw [show (predFn o).cost = 1 from rfl, Nat.one_mul] at h2
    cases r with
    | ok i =>
      obtain ⟨_, l, d, _, b, _, _, hb⟩ := h3
      cases b <;> cases hb
    | error i =>
      obtain ⟨hi, h4, h5⟩ := h3
      refine ⟨rfl, ⟨k, h1, h2⟩, hi, fun hp => ?_, fun hp => ?_⟩
      · obtain ⟨d1, d, d2, g1, b, rfl, g2, g3⟩ := h4 hp
        cases b <;> cases g3
        exact ⟨d1, d2, g1, g2⟩
      · obtain ⟨d1, d, d2, g1, b, rfl, g2, g3⟩ := h5 hp
        cases b <;> cases g3
        exact ⟨d1, d2, g1, g2⟩
  · rintro e _ lg' ⟨rfl, h1, rfl, h2⟩
    rw [show (predFn o).cost = 1 from rfl, Nat.one_mul] at h2
    exact ⟨rfl, h1, rfl, h2⟩

/-- C25, for an arbitrary predicate: the result is at most the length, at most `⌊log2 len⌋ + 1` calls (none on the empty array), nothing changes; the
predicate has been called on the element before the returned position and said true, and on the element at the returned position
and said false. -/
theorem partition_point_safe (cfg : Cfg) (o : Oracle σ α Bool) (s : St α α Bool σ) :
    EndsS o (partitionPoint cfg v) s
      (fun i s' => s'.mem = s.mem ∧ i ≤ v.len ∧
        (∃ d, s'.log = s.log ++ d ∧ d.length ≤ Nat.log2 v.len + 1 ∧ (v.len = 0 → d = [])) ∧
        (∀ j x, j + 1 = i → (v.contents s.mem)[j]? = some x → ∃ d1 d2, s'.log = s.log ++ d1 ++ [(x, some true)] ++ d2) ∧
        (∀ x, (v.contents s.mem)[i]? = some x → ∃ d1 d2, s'.log = s.log ++ d1 ++ [(x, some false)] ++ d2))
      (fun e s' => s'.mem = s.mem ∧ UserPanic s (Nat.log2 v.len + 1) e s') := by
  have hcalls : searchCalls v.len ≤ Nat.log2 v.len + 1 := by unfold searchCalls; split <;> omega
  refine (wp.endsS (rel_sat o) (s := s) (partitionPoint_spec o (v := v))).mono ?_ ?_
  · rintro i s' ⟨h1, ⟨k, h2, d, h3, h4⟩, hi, h5, h6⟩
    refine ⟨h1, hi, ⟨d, h3, by omega, fun h0 => ?_⟩, fun j x hj hx => ?_, fun x hx => ?_⟩
    · rw [searchCalls, if_pos h0] at h2
      exact List.length_eq_zero_iff.mp (by omega)
    · obtain ⟨d1, d2, g1, -⟩ := h5 (by omega)
      rw [View.contents_get v (by omega)] at hx
      rw [show i - 1 = j by omega, Option.some.inj hx] at g1
      exact ⟨d1, d2, g1⟩
    · have hi : i < v.len := by
        have := (List.getElem?_eq_some_iff.mp hx).1
        rwa [View.contents_length] at this
      obtain ⟨d1, d2, g1, -⟩ := h6 hi
      rw [View.contents_get v hi] at hx
      rw [Option.some.inj hx] at g1
      exact ⟨d1, d2, g1⟩
  · rintro e s' ⟨h1, -, h3, d, q, h4, h5⟩
    exact ⟨h3, h1, d, q, h4, Nat.lt_of_lt_of_le h5 hcalls⟩

/-- C25: on an array partitioned by the predicate, `partition_point` returns the number of elements satisfying it. -/
theorem partition_point_correct (cfg : Cfg) {o : Oracle σ α Bool} {f : α → Bool} (h : ∀ e x, (o.ask e x).1 = some (f x))
    (s : St α α Bool σ) {L G : List α} (hc : v.contents s.mem = L ++ G) (hL : ∀ x ∈ L, f x = true) (hG : ∀ x ∈ G, f x = false) :
    ∃ s', run o (partitionPoint cfg v) s = (.ok ((v.contents s.mem).countP f), s') ∧ s'.mem = s.mem := by
  obtain ⟨i, s', h1, h2, hi, h3, h4⟩ := EndsS.ok (E := fun _ _ => False)
    ((wp.endsS (rel_sat o) (s := s) (partitionPoint_spec (cfg := cfg) o (v := v))).mono
      (Q' := fun i s' => s'.mem = s.mem ∧ i ≤ v.len ∧ (0 < i → f (s.mem (v.addr (i - 1))) = true) ∧
        (i < v.len → f (s.mem (v.addr i)) = false))
      (by
        rintro i s' ⟨g1, -, g2, g3, g4⟩
        refine ⟨g1, g2, fun hp => ?_, fun hp => ?_⟩
        · obtain ⟨_, _, _, e, he⟩ := g3 hp
          rw [h] at he; exact Option.some.inj he
        · obtain ⟨_, _, _, e, he⟩ := g4 hp
          rw [h] at he; exact Option.some.inj he)
      (by
        rintro e s' ⟨-, ⟨p, e', he⟩, -⟩
        rw [h] at he; cases he)) (fun _ _ h => h)
  have hlen := View.contents_length v s.mem
  have hcount : (v.contents s.mem).countP f = L.length := by
    rw [hc, List.countP_append, List.countP_eq_length.mpr hL, List.countP_eq_zero.mpr (fun x hx => by simp [hG x hx])]
    rfl
  have e1 : i = L.length := by
    rcases Nat.lt_trichotomy i L.length with hlt | heq | hgt
    · have hiv : i < v.len := by rw [hc, List.length_append] at hlen; omega
      have g := View.contents_get (m := s.mem) v hiv
      rw [hc, List.getElem?_append_left hlt] at g
      have := hL _ (List.mem_of_getElem? g)
      rw [h4 hiv] at this; cases this
    · exact heq
    · have g := View.contents_get (m := s.mem) v (i := i - 1) (by omega)
      rw [hc, List.getElem?_append_right (by omega)] at g
      have := hG _ (List.mem_of_getElem? g)
      rw [h3 (by omega)] at this; cases this
  exact ⟨s', by rw [h1, hcount, e1], h2⟩

/-! ### `contains` -/

/-- The closure of `contains` as a `Fn`. -/
def eqFn (o : Oracle σ (α × α) Bool) (x : α) : Fn α (α × α) Bool α Bool where
  R := Style.rel o
  prog := fun a => .call (a, x) fun
    | none => .throw .user
    | some b => .ret b
  ans := fun a b d => d = [((a, x), some b)] ∧ Style.rel o (a, x) (some b)
  pan := ∃ p, Style.rel o (p, x) none
  cost := 1
  ok := by
    intro p m lg r hr
    cases r with
    | none => exact ⟨rfl, ⟨p, hr⟩, rfl, [], _, by rw [List.append_nil], Nat.zero_lt_one⟩
    | some b => exact ⟨rfl, [((p, x), some b)], rfl, rfl, rfl, hr⟩

/-- C26, for arbitrary `==`: nothing changes; the result is true only if some element has been compared and found equal, and false only if every
element has been compared and found different. -/
theorem contains_safe (o : Oracle σ (α × α) Bool) (x : α) (s : St α (α × α) Bool σ) :
    EndsS o (contains v x) s
      (fun b s' => s'.mem = s.mem ∧ (∃ d, s'.log = s.log ++ d ∧ d.length ≤ v.len) ∧
        (b = true → ∃ a ∈ v.contents s.mem, ∃ d1 d2, s'.log = s.log ++ d1 ++ [((a, x), some true)] ++ d2) ∧
        (b = false → ∀ a ∈ v.contents s.mem, ∃ d1 d2, s'.log = s.log ++ d1 ++ [((a, x), some false)] ++ d2))
      (fun e s' => s'.mem = s.mem ∧ UserPanic s v.len e s') := by
  refine (wp.endsS (rel_sat o) (s := s) (anyFrom_spec (eqFn o x) (v := v) (i := 0) (n := v.len) (by omega))).mono ?_ ?_
  · rintro b s' ⟨h1, h2, h3⟩
    simp only [show (eqFn o x).cost = 1 from rfl, Nat.one_mul] at h2 h3
    refine ⟨h1, ?_, fun hb => ?_, fun hb a ha => ?_⟩
    · cases b with
      | false => obtain ⟨⟨d, g1, g2⟩, -⟩ := h2 rfl; exact ⟨d, g1, by omega⟩
      | true => obtain ⟨j, g1, g2, ⟨d, g3, g4⟩, -⟩ := h3 rfl; exact ⟨d, g3, by omega⟩
    · obtain ⟨j, g1, g2, -, d1, d, d2, g3, rfl, -⟩ := h3 hb
      exact ⟨_, List.mem_of_getElem? (View.contents_get v (by omega)), d1, d2, g3⟩
    · obtain ⟨j, hj, rfl⟩ := List.mem_iff_getElem.mp ha
      have hj' : j < v.len := by rwa [View.contents_length] at hj
      obtain ⟨d1, d, d2, g3, rfl, -⟩ := (h2 hb).2 j (Nat.zero_le _) (by omega)
      have g := View.contents_get (m := s.mem) v hj'
      rw [List.getElem?_eq_getElem hj] at g
      rw [Option.some.inj g]
      exact ⟨d1, d2, g3⟩
  · rintro e s' ⟨h1, -, h3, d, q, h4, h5⟩
    exact ⟨h3, h1, d, q, h4, by rwa [show (eqFn o x).cost = 1 from rfl, Nat.one_mul] at h5⟩

/-- C26: `contains(x)` returns whether some element equals `x`. -/
theorem contains_correct {o : Oracle σ (α × α) Bool} {x : α} {eq : α → Bool} (h : ∀ e a, (o.ask e (a, x)).1 = some (eq a))
    (s : St α (α × α) Bool σ) :
    ∃ s', run o (contains v x) s = (.ok ((v.contents s.mem).any eq), s') ∧ s'.mem = s.mem := by
  obtain ⟨b, s', h1, h2, h3, h4⟩ := EndsS.ok (E := fun _ _ => False)
    ((wp.endsS (rel_sat o) (s := s) (anyFrom_spec (eqFn o x) (v := v) (i := 0) (n := v.len) (by omega))).mono
      (Q' := fun b s' => s'.mem = s.mem ∧ (b = true → ∃ a ∈ v.contents s.mem, eq a = true) ∧
        (b = false → ∀ a ∈ v.contents s.mem, eq a = false))
      (by
        rintro b s' ⟨h1, h2, h3⟩
        refine ⟨h1, fun hb => ?_, fun hb a ha => ?_⟩
        · obtain ⟨j, g1, g2, -, d1, d, d2, g3, rfl, e, he⟩ := h3 hb
          rw [h] at he
          exact ⟨_, List.mem_of_getElem? (View.contents_get v (by omega)), Option.some.inj he⟩
        · obtain ⟨j, hj, rfl⟩ := List.mem_iff_getElem.mp ha
          have hj' : j < v.len := by rwa [View.contents_length] at hj
          obtain ⟨d1, d, d2, g3, rfl, e, he⟩ := (h2 hb).2 j (Nat.zero_le _) (by omega)
          have g := View.contents_get (m := s.mem) v hj'
          rw [List.getElem?_eq_getElem hj] at g
          rw [h, ← Option.some.inj g] at he
          exact Option.some.inj he)
      (by
        rintro e s' ⟨-, ⟨p, e', he⟩, -⟩
        rw [h] at he; cases he)) (fun _ _ h => h)
  refine ⟨s', ?_, h2⟩
  refine h1.trans ?_
  congr 2
  cases b with
  | true => obtain ⟨a, ha, hea⟩ := h3 rfl; exact (List.any_eq_true.mpr ⟨a, ha, hea⟩).symm
  | false => exact (List.any_eq_false.mpr (fun a ha => by simp [h4 rfl a ha])).symm

/-! ### Examples -/

namespace Sample

/-- A sorted array of 50 elements with repetitions, every fifth element of some memory. -/
def smem : Mem Nat := fun a => a.toNat / 7
def sview : View := ⟨3, 5, 50⟩
/-- A broadcast array: one element shown ten times. -/
def bview : View := ⟨3, 0, 10⟩

def relAnswer (f : Nat → Nat → Bool) : (st : RelStyle) → st.Q Nat Nat → st.A Nat
  | .rel, q => f q.1 q.2
  | .key, q => match (q : KeyQ Nat Nat) with
    | .key x => (x, true)
    | .lt k l => (0, f k l)

def le (x y : Nat) : Bool := decide (x ≤ y)

def relOracle (st : RelStyle) : Oracle Unit (st.Q Nat Nat) (st.A Nat) := ⟨fun _ q => (some (relAnswer le st q), ()), fun _ => (true, ())⟩

theorem relAgrees (st : RelStyle) : st.Agrees (relOracle st) le := by
  cases st with
  | rel => exact fun _ _ _ => rfl
  | key => exact ⟨id, le, fun _ _ => ⟨_, rfl⟩, fun _ _ _ => ⟨_, rfl⟩, fun _ _ => rfl⟩

def searchAnswer (c : Nat → Nat → Ordering) : (st : SearchStyle) → st.Q Nat Nat → st.A Nat
  | .ord, q => c q.1 q.2
  | .fn, q => c q 17
  | .key, q => match (q : KeyQ Nat Nat) with
    | .key x => (x, .eq)
    | .lt k l => (0, c k l)

def target : (st : SearchStyle) → st.T Nat Nat
  | .ord => (17 : Nat)
  | .fn => ()
  | .key => (17 : Nat)

def searchOracle (st : SearchStyle) : Oracle Unit (st.Q Nat Nat) (st.A Nat) :=
  ⟨fun _ q => (some (searchAnswer compare st q), ()), fun _ => (true, ())⟩

theorem searchAgrees (st : SearchStyle) : st.Agrees (searchOracle st) (target st) (fun p => compare p 17) := by
  cases st with
  | ord => exact fun _ _ => rfl
  | fn => exact fun _ _ => rfl
  | key => exact ⟨id, fun _ _ => ⟨_, rfl⟩, fun _ _ => ⟨_, rfl⟩⟩

def searchState (st : SearchStyle) : St Nat (st.Q Nat Nat) (st.A Nat) Unit := ⟨smem, (), []⟩

theorem ssorted : Sorted lt (sview.contents smem) := by unfold Sorted; decide

theorem sparts : sview.contents smem = (sview.contents smem).take 24 ++ ((sview.contents smem).drop 24).take 1
    ++ (sview.contents smem).drop 25 := by decide

example (st : RelStyle) := is_sorted_correct (v := view) st (relAgrees st) ⟨mem, (), []⟩
example (st : RelStyle) := is_sorted_safe (v := bview) st (relOracle st) ⟨mem, (), []⟩
example (st : SearchStyle) := binary_search_safe (v := view) st cfg (searchOracle st) (target st) ⟨mem, (), []⟩
example (st : SearchStyle) := binary_search_pure (v := view) st cfg (searchAgrees st) ⟨mem, (), []⟩
example (st : SearchStyle) := binary_search_correct (v := sview) st cfg (searchAgrees st) (searchState st) sparts
  (by decide) (by decide) (by decide)
example (st : SearchStyle) := binary_search_sorted (v := sview) st cfg (searchAgrees st) swo (x := 17)
  (fun p => by simp [lt, Nat.compare_eq_lt]) (fun p => by simp [lt, Nat.compare_eq_gt]) (searchState st) ssorted
example := partition_point_safe (v := view) cfg (⟨fun n x => (some (x * n % 3 == 0), n + 1), fun n => (true, n)⟩ : Oracle Nat Nat Bool) ⟨mem, 1, []⟩
example := partition_point_correct (v := sview) cfg (o := (⟨fun _ x => (some (lt x 17), ()), fun n => (true, n)⟩ : Oracle Unit Nat Bool))
  (f := fun x => lt x 17) (fun _ _ => rfl) ⟨smem, (), []⟩ (L := (sview.contents smem).take 24) (G := (sview.contents smem).drop 24)
  (by decide) (by decide) (by decide)
example := contains_safe (v := view) (⟨fun n q => (if n = 9 then none else some (q.1 == q.2), n + 1), fun n => (true, n)⟩ :
  Oracle Nat (Nat × Nat) Bool) 5 ⟨mem, 0, []⟩
example := contains_correct (v := view) (o := (⟨fun n q => (some (q.1 == q.2), n), fun n => (true, n)⟩ : Oracle Unit (Nat × Nat) Bool))
  (x := 5) (eq := (· == 5)) (fun _ _ => rfl) ⟨mem, (), []⟩

end Sample

end NdSlice
