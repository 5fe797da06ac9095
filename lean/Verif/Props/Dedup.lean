import Verif.Props.Search
import Verif.Proof.Dedup
import Verif.Proof.Pivot

/-
Properties of `partition_dedup*` (C18, C19, C20) and `reverse` (C21), and the parts of C09 about them.
-/

namespace NdSlice

open Style

variable {α κ ι ω σ β : Type}

/-- From triples with a log to runs. -/
theorem TriL.endsS {R : ι → Option ω → Prop} {o : Oracle σ ι ω} (ho : o.Sat R) {p : Prog α ι ω β} {v : View} (hv : v.WF)
    {s : St α ι ω σ} {Q : β → List α → List (ι × Option ω) → Prop} {E : Panic → List α → List (ι × Option ω) → Prop}
    (h : TriL R v.region p (v.contents s.mem) Q E) :
    EndsS o p s (fun b s' => (∃ d, s'.log = s.log ++ d ∧ Q b (v.contents s'.mem) d) ∧ ∀ a, a ∉ v.region → s'.mem a = s.mem a)
      (fun e s' => (∃ d, s'.log = s.log ++ d ∧ E e (v.contents s'.mem) d) ∧ ∀ a, a ∉ v.region → s'.mem a = s.mem a) :=
  wp.endsS ho (wp_unchanged (h s.mem s.log (View.region_nodup hv) rfl))

namespace DedupStyle

/-- One call of `same_bucket` on `x` and `y` in the log: its questions and answers `d`, its outcome `b`, and what it left in place of `x` and
`y`. -/
def Event : (st : DedupStyle) → (x y : α) → Bool → (x' y' : α) → List (st.Q α κ × Option (st.A α κ)) → Prop
  | .eq, x, y, b, x', y', d => d = [((x, y), some b)] ∧ x' = x ∧ y' = y
  | .fn, x, y, b, x', y', d => d = [((x, y), some (x', y', some b))]
  | .key, x, y, b, x', y', d => ∃ k l c1 c2 c3 c4, d = [(KeyQ.key x, some (x', some k, c1)), (KeyQ.key y, some (y', some l, c2)),
      (KeyQ.lt k l, some (c3, c4, b))]

/-- User code is the relation `same` and changes nothing. -/
def Agrees : (st : DedupStyle) → Oracle σ (st.Q α κ) (st.A α κ) → (α → α → Bool) → Prop
  | .eq, o, same => ∀ e (x y : α), (o.ask e (x, y)).1 = some (same x y)
  | .fn, o, same => ∀ e (x y : α), (o.ask e (x, y)).1 = some (x, y, some (same x y))
  | .key, o, same => ∃ (f : α → κ) (keq : κ → κ → Bool), (∀ e (x : α), ∃ b, (o.ask e (KeyQ.key x)).1 = some (x, some (f x), b)) ∧
      (∀ e (k l : κ), ∃ a b, (o.ask e (KeyQ.lt k l)).1 = some (a, b, keq k l)) ∧ ∀ x y, same x y = keq (f x) (f y)

/-- User code changes no elements (but may answer anything and panic). -/
def NoMutate : (st : DedupStyle) → Oracle σ (st.Q α κ) (st.A α κ) → Prop
  | .eq, _ => True
  | .fn, o => ∀ e (x y : α) x' y' r, (o.ask e (x, y)).1 = some (x', y', r) → x' = x ∧ y' = y
  | .key, o => ∀ e (x : α) x' k b, (o.ask e (KeyQ.key x)).1 = some (x', k, b) → x' = x

/-- The answer is a panic. -/
def IsPanic : (st : DedupStyle) → st.Q α κ → Option (st.A α κ) → Prop
  | .eq, _, r => r = none
  | .fn, _, r => r = none ∨ ∃ x y : α, r = some (x, y, none)
  | .key, q, r => r = none ∨ ∃ (y : α), q = KeyQ.key y ∧ ∃ (x : α) (b : Bool), r = some (x, none, b)

/-- The number of questions of one call. -/
def cost : DedupStyle → Nat
  | .eq => 1
  | .fn => 1
  | .key => 3

theorem askKey_spec (o : Oracle σ (KeyQ α κ) (α × Option κ × Bool)) {rg : List Addr} {xs : List α} {j : Nat} {a : Addr} {x : α}
    (hj : rg[j]? = some a) (hx : xs[j]? = some x) :
    TriL (Style.rel o) rg (askKey a) xs
      (fun k ys d => ∃ x' c, ys = xs.set j x' ∧ d = [(KeyQ.key x, some (x', some k, c))] ∧ Style.rel o (KeyQ.key x) (some (x', some k, c)))
      (fun e ys d => e = .user ∧ ∃ x' r, ys = xs.set j x' ∧ d = [(KeyQ.key x, r)] ∧ Style.rel o (KeyQ.key x) r ∧ IsPanic .key (KeyQ.key x) r ∧
        (r = none → x' = x) ∧ ∀ y k c, r = some (y, k, c) → x' = y) := by
  have hself : xs.set j x = xs := by
    obtain ⟨h, rfl⟩ := List.getElem?_eq_some_iff.mp hx
    exact List.set_getElem_self h
  refine TriL.get_cell hj fun x' hx' => ?_
  rw [hx] at hx'; cases hx'
  refine TriL.call fun r hr => ?_
  cases r with
  | none => exact TriL.throw ⟨rfl, x, none, hself.symm, rfl, hr, .inl rfl, fun _ => rfl, fun _ _ _ h => by cases h⟩
  | some r =>
    obtain ⟨x', k, c⟩ := r
    refine TriL.set_cell hj ?_
    cases k with
    | none =>
      exact TriL.throw ⟨rfl, x', _, rfl, rfl, hr, .inr ⟨x, rfl, x', c, rfl⟩, fun h => (by cases h), fun _ _ _ h => by cases h; rfl⟩
    | some k => exact TriL.pure ⟨x', c, rfl, rfl, hr⟩

/-- `same_bucket` as a `SameFn`. -/
def toFn (st : DedupStyle) (o : Oracle σ (st.Q α κ) (st.A α κ)) : SameFn α (st.Q α κ) (st.A α κ) where
  R := Style.rel o
  prog := st.same
  ans := fun x y b x' y' d => st.Event x y b x' y' d ∧ ∀ q r, (q, r) ∈ d → Style.rel o q r
  pan := fun x y x' y' => (∃ q r, Style.rel o q r ∧ st.IsPanic q r) ∧ (st.NoMutate o → x' = x ∧ y' = y)
  isP := st.IsPanic
  cost := st.cost
  ok := by
    intro rg xs j k a b x y hjk ha hb hx hy
    have hsx : xs.set j x = xs := by
      obtain ⟨h, rfl⟩ := List.getElem?_eq_some_iff.mp hx
      exact List.set_getElem_self h
    have hsy : xs.set k y = xs := by
      obtain ⟨h, rfl⟩ := List.getElem?_eq_some_iff.mp hy
      exact List.set_getElem_self h
    cases st with
    | eq =>
      refine TriL.get_cell ha fun x1 h1 => TriL.get_cell hb fun y1 h2 => TriL.call fun r hr => ?_
      rw [hx] at h1; rw [hy] at h2; cases h1; cases h2
      cases r with
      | none =>
        exact TriL.throw ⟨rfl, x, y, by rw [hsx, hsy], ⟨⟨_, _, hr, rfl⟩, fun _ => ⟨rfl, rfl⟩⟩, [], _, _, rfl, rfl, Nat.zero_lt_one⟩
      | some c =>
        refine TriL.pure ⟨x, y, by rw [hsx, hsy], rfl, ⟨rfl, rfl, rfl⟩, fun q r h => ?_⟩
        cases List.mem_singleton.mp h
        exact hr
    | fn =>
      refine TriL.get_cell ha fun x1 h1 => TriL.get_cell hb fun y1 h2 => TriL.call fun r hr => ?_
      rw [hx] at h1; rw [hy] at h2; cases h1; cases h2
      cases r with
      | none =>
        exact TriL.throw ⟨rfl, x, y, by rw [hsx, hsy], ⟨⟨_, _, hr, .inl rfl⟩, fun _ => ⟨rfl, rfl⟩⟩, [], _, _, rfl, .inl rfl, Nat.zero_lt_one⟩
      | some c =>
        obtain ⟨x', y', c⟩ := c
        refine TriL.set_cell ha (TriL.set_cell hb ?_)
        cases c with
        | none =>
          refine TriL.throw ⟨rfl, x', y', rfl, ⟨⟨_, _, hr, .inr ⟨x', y', rfl⟩⟩, fun hm => ?_⟩, [], _, _, rfl, .inr ⟨x', y', rfl⟩, Nat.zero_lt_one⟩
          obtain ⟨e, he⟩ := hr
          exact hm e x y x' y' none he
        | some c =>
          refine TriL.pure ⟨x', y', rfl, rfl, rfl, fun q r h => ?_⟩
          cases List.mem_singleton.mp h
          exact hr
    | key =>
      refine TriL.bind (askKey_spec o ha hx) ?_ ?_
      · rintro k1 ys d1 - ⟨x', c1, rfl, rfl, hr1⟩
        have hy' : (xs.set j x')[k]? = some y := by rw [List.getElem?_set_ne hjk]; exact hy
        refine TriL.bind (askKey_spec o hb hy') ?_ ?_
        · rintro k2 ys d2 - ⟨y', c2, rfl, rfl, hr2⟩
          refine TriL.call fun r hr => ?_
          cases r with
          | none =>
            refine TriL.throw ⟨rfl, x', y', rfl, ⟨⟨_, _, hr, .inl rfl⟩, fun hm => ?_⟩,
              [(KeyQ.key x, some (x', some k1, c1)), (KeyQ.key y, some (y', some k2, c2))], _, _, rfl, .inl rfl, by simp [cost]⟩
            obtain ⟨e1, he1⟩ := hr1
            obtain ⟨e2, he2⟩ := hr2
            exact ⟨hm e1 x _ _ _ he1, hm e2 y _ _ _ he2⟩
          | some r =>
            obtain ⟨c3, c4, b⟩ := r
            refine TriL.pure ⟨x', y', rfl, rfl, ⟨k1, k2, c1, c2, c3, c4, rfl⟩, fun q r h => ?_⟩
            rcases List.mem_cons.mp h with h | h
            · cases h; exact hr1
            · rcases List.mem_cons.mp h with h | h
              · cases h; exact hr2
              · cases List.mem_singleton.mp h; exact hr
        · rintro e zs d2 ⟨rfl, y', r, rfl, rfl, hr, hp, g1, g2⟩
          refine ⟨rfl, x', y', rfl, ⟨⟨_, _, hr, hp⟩, fun hm => ?_⟩, [_], _, r, rfl, hp, (by decide : 1 < 3)⟩
          obtain ⟨e1, he1⟩ := hr1
          refine ⟨hm e1 x _ _ _ he1, ?_⟩
          obtain ⟨e2, he2⟩ := hr
          cases r with
          | none => exact g1 rfl
          | some r => obtain ⟨z, k', c'⟩ := r; rw [g2 z k' c' rfl]; exact hm e2 y _ _ _ he2
      · rintro e zs d1 ⟨rfl, x', r, rfl, rfl, hr, hp, g1, g2⟩
        refine ⟨rfl, x', y, ?_, ⟨⟨_, _, hr, hp⟩, fun hm => ⟨?_, rfl⟩⟩, [], _, r, rfl, hp, by simp [cost]⟩
        · rw [List.set_comm _ _ hjk, hsy]
        obtain ⟨e2, he2⟩ := hr
        cases r with
        | none => exact g1 rfl
        | some r => obtain ⟨z, k', c'⟩ := r; rw [g2 z k' c' rfl]; exact hm e2 x _ _ _ he2

theorem Agrees.ans {st : DedupStyle} {o : Oracle σ (st.Q α κ) (st.A α κ)} {same : α → α → Bool} (h : st.Agrees o same) {x y x' y' : α} {b : Bool}
    {d : List (st.Q α κ × Option (st.A α κ))} (ha : (st.toFn o).ans x y b x' y' d) : b = same x y := by
  obtain ⟨h1, h2⟩ := ha
  cases st with
  | eq =>
    obtain ⟨rfl, -⟩ := h1
    obtain ⟨e, he⟩ := h2 _ _ (List.mem_singleton.mpr rfl)
    exact (Option.some.inj ((h e x y).symm.trans he)).symm
  | fn =>
    cases h1
    obtain ⟨e, he⟩ := h2 _ _ (List.mem_singleton.mpr rfl)
    have := Option.some.inj ((h e x y).symm.trans he)
    exact (Option.some.inj (Prod.mk.inj (Prod.mk.inj this).2).2).symm
  | key =>
    obtain ⟨k, l, c1, c2, c3, c4, rfl⟩ := h1
    obtain ⟨f, keq, g1, g2, g3⟩ := h
    obtain ⟨e1, h3⟩ := h2 _ _ (.head _)
    obtain ⟨e2, h4⟩ := h2 _ _ (.tail _ (.head _))
    obtain ⟨e3, h5⟩ := h2 _ _ (.tail _ (.tail _ (.head _)))
    obtain ⟨b1, h6⟩ := g1 e1 x
    obtain ⟨b2, h7⟩ := g1 e2 y
    have hk := Option.some.inj (Prod.mk.inj (Prod.mk.inj (Option.some.inj (h6.symm.trans h3))).2).1
    have hl := Option.some.inj (Prod.mk.inj (Prod.mk.inj (Option.some.inj (h7.symm.trans h4))).2).1
    obtain ⟨a, c, h8⟩ := g2 e3 k l
    have hb := (Prod.mk.inj (Prod.mk.inj (Option.some.inj (h8.symm.trans h5))).2).2
    rw [g3, hk, hl, hb]

theorem Agrees.noMutate {st : DedupStyle} {o : Oracle σ (st.Q α κ) (st.A α κ)} {same : α → α → Bool} (h : st.Agrees o same) :
    st.NoMutate o := by
  cases st with
  | eq => trivial
  | fn =>
    intro e x y x' y' r hr
    have := Option.some.inj ((h e x y).symm.trans hr)
    exact ⟨(Prod.mk.inj this).1.symm, (Prod.mk.inj (Prod.mk.inj this).2).1.symm⟩
  | key =>
    intro e x x' k b hr
    obtain ⟨f, keq, g1, g2, g3⟩ := h
    obtain ⟨b1, h6⟩ := g1 e x
    exact (Prod.mk.inj (Option.some.inj (h6.symm.trans hr))).1.symm

theorem Agrees.noPanic {st : DedupStyle} {o : Oracle σ (st.Q α κ) (st.A α κ)} {same : α → α → Bool} (h : st.Agrees o same) {x y x' y' : α} :
    ¬ (st.toFn o).pan x y x' y' := by
  rintro ⟨⟨q, r, ⟨e, he⟩, hp⟩, -⟩
  subst he
  cases st with
  | eq => obtain ⟨x, y⟩ := q; exact absurd ((h e x y).symm.trans hp) (Option.some_ne_none _)
  | fn =>
    obtain ⟨x, y⟩ := q
    rcases hp with hp | ⟨a, b, hp⟩
    · exact absurd ((h e x y).symm.trans hp) (Option.some_ne_none _)
    · have := Option.some.inj ((h e x y).symm.trans hp)
      exact absurd (Prod.mk.inj (Prod.mk.inj this).2).2 (Option.some_ne_none _)
  | key =>
    obtain ⟨f, keq, g1, g2, g3⟩ := h
    rcases hp with hp | ⟨y, rfl, a, b, hp⟩
    · cases q with
      | key x =>
        obtain ⟨b, hb⟩ := g1 e x
        exact absurd (hb.symm.trans hp) (Option.some_ne_none _)
      | lt k l =>
        obtain ⟨a, b, hb⟩ := g2 e k l
        exact absurd (hb.symm.trans hp) (Option.some_ne_none _)
    · obtain ⟨b1, hb⟩ := g1 e y
      have := Option.some.inj (hb.symm.trans hp)
      exact absurd (Prod.mk.inj (Prod.mk.inj this).2).1 (Option.some_ne_none _)

theorem noMutate_ans {st : DedupStyle} {o : Oracle σ (st.Q α κ) (st.A α κ)} (h : st.NoMutate o) {x y x' y' : α} {b : Bool}
    {d : List (st.Q α κ × Option (st.A α κ))} (ha : (st.toFn o).ans x y b x' y' d) : x' = x ∧ y' = y := by
  obtain ⟨h1, h2⟩ := ha
  cases st with
  | eq => exact h1.2
  | fn =>
    cases h1
    obtain ⟨e, he⟩ := h2 _ _ (List.mem_singleton.mpr rfl)
    exact h e x y _ _ _ he
  | key =>
    obtain ⟨k, l, c1, c2, c3, c4, rfl⟩ := h1
    obtain ⟨e1, h3⟩ := h2 _ _ (.head _)
    obtain ⟨e2, h4⟩ := h2 _ _ (.tail _ (.head _))
    exact ⟨h e1 x _ _ _ h3, h e2 y _ _ _ h4⟩

end DedupStyle


variable {v : View}

/-- What `partition_dedup*` returns for arrays with at most one element. -/
theorem partitionDedup_small (st : DedupStyle) {cfg : Cfg} (o : Oracle σ (st.Q α κ) (st.A α κ)) (hlen : v.len ≤ 1)
    (s : St α (st.Q α κ) (st.A α κ) σ) : run o (partitionDedup st cfg v) s = (.ok (v.sub 0 v.len, v.sub 0 0), s) := by
  unfold partitionDedup partitionDedupBy
  rw [if_pos hlen]
  unfold View.splitAt
  rw [if_pos (Nat.zero_le _)]
  rfl

theorem View.sub_region_append (v : View) {w : Nat} (hw : w ≤ v.len) :
    (v.sub 0 w).region ++ (v.sub w (v.len - w)).region = v.region := by
  have h := View.region_split v (a := 0) (n := w) (by omega)
  rw [h]
  have e : v.sub (0 + w) (v.len - (0 + w)) = v.sub w (v.len - w) := by rw [Nat.zero_add]
  rw [e]
  simp [View.region]

theorem View.sub_contents (v : View) {w : Nat} (hw : w ≤ v.len) (m : Mem α) :
    (v.sub 0 w).contents m = (v.contents m).take w ∧ (v.sub w (v.len - w)).contents m = (v.contents m).drop w := by
  have h := v.sub_region_append hw
  unfold View.contents
  rw [← h, List.map_append]
  exact ⟨(List.take_left' (by simp)).symm, (List.drop_left' (by simp)).symm⟩

/-- C20 (and C09): with arbitrary user code, `partition_dedup*` ends without undefined behaviour after exactly `len - 1` calls of `same_bucket`
(`st.cost` questions each); the two returned parts are the array split in two, the first is empty only if the array is; nothing outside of the array
changes; and the array is a permutation of what it was unless user code itself changes elements.  If user code panics the array is a permutation
as well, and the panic is the answer to the last question. -/
theorem dedup_safe (st : DedupStyle) (cfg : Cfg) (o : Oracle σ (st.Q α κ) (st.A α κ)) (hv : v.WF) (s : St α (st.Q α κ) (st.A α κ) σ) :
    EndsS o (partitionDedup st cfg v) s
      (fun r s' => (∃ d, s'.log = s.log ++ d ∧ d.length = st.cost * (v.len - 1)) ∧
        (∃ w, r = (v.sub 0 w, v.sub w (v.len - w)) ∨ (v.len ≤ 1 ∧ w = v.len ∧ r = (v.sub 0 w, v.sub 0 0))) ∧
        r.1.region ++ r.2.region = v.region ∧ (r.1.len = 0 ↔ v.len = 0) ∧
        (∀ a, a ∉ v.region → s'.mem a = s.mem a) ∧
        (st.NoMutate o → (v.contents s'.mem).Perm (v.contents s.mem)))
      (fun e s' => e = .user ∧
        (∃ d q r, s'.log = s.log ++ d ++ [(q, r)] ∧ st.IsPanic q r ∧ d.length < st.cost * (v.len - 1)) ∧
        (∀ a, a ∉ v.region → s'.mem a = s.mem a) ∧
        (st.NoMutate o → (v.contents s'.mem).Perm (v.contents s.mem))) := by
  by_cases hlen : v.len ≤ 1
  · refine .inl ⟨_, s, partitionDedup_small st o hlen s, ⟨[], by simp, by simp; right; omega⟩, ⟨v.len, .inr ⟨hlen, rfl, rfl⟩⟩, ?_, by simp,
      fun _ _ => rfl, fun _ => .refl _⟩
    rw [View.sub_self]
    simp [View.region]
  have key : TriL (Style.rel o) v.region (partitionDedup st cfg v) (v.contents s.mem)
        (fun r ys d => ∃ w, r = (v.sub 0 w, v.sub w (v.len - w)) ∧ 1 ≤ w ∧ w ≤ v.len ∧ d.length = st.cost * (v.len - 1) ∧
          (st.NoMutate o → DedupInv (v.contents s.mem) v.len w ys))
        (fun e ys d => e = .user ∧ (st.NoMutate o → ys.Perm (v.contents s.mem)) ∧
          ∃ d' q r, d = d' ++ [(q, r)] ∧ st.IsPanic q r ∧ d'.length < st.cost * (v.len - 1)) := by
    unfold partitionDedup partitionDedupBy
    rw [if_neg hlen]
    refine TriL.bind (dedupLoop_spec (st.toFn o) (View.contents_length v s.mem) (by omega)
      (I := fun r w ys => st.NoMutate o → DedupInv (v.contents s.mem) r w ys) (J := fun ys => st.NoMutate o → ys.Perm (v.contents s.mem))
      (fun _ => DedupInv.init (by rw [View.contents_length]; omega)) ?_ ?_) ?_ (fun _ _ _ h => h)
    · intro r w ys x y b x' y' d h1 h2 h3 h4 h5 h6 h7
      refine ⟨fun hb hm => ?_, fun hb a t ha ht hm => ?_⟩
      · obtain ⟨rfl, rfl⟩ := DedupStyle.noMutate_ans hm h7
        obtain ⟨_, rfl⟩ := List.getElem?_eq_some_iff.mp h5
        obtain ⟨_, rfl⟩ := List.getElem?_eq_some_iff.mp h6
        rw [List.set_getElem_self, List.set_getElem_self]
        exact (h4 hm).skip h5
      · obtain ⟨rfl, rfl⟩ := DedupStyle.noMutate_ans hm h7
        obtain ⟨_, rfl⟩ := List.getElem?_eq_some_iff.mp h5
        obtain ⟨_, rfl⟩ := List.getElem?_eq_some_iff.mp h6
        rw [List.set_getElem_self, List.set_getElem_self] at ha ht ⊢
        exact ((h4 hm).take ha ht).1
    · intro r w ys x y x' y' h1 h2 h3 h4 h5 h6 h7 hm
      obtain ⟨rfl, rfl⟩ := h7.2 hm
      obtain ⟨_, rfl⟩ := List.getElem?_eq_some_iff.mp h5
      obtain ⟨_, rfl⟩ := List.getElem?_eq_some_iff.mp h6
      rw [List.set_getElem_self, List.set_getElem_self]
      exact (h4 hm).perm
    · rintro w ys d - ⟨h1, h2, h3, h4⟩
      unfold View.splitAt
      rw [if_pos h2]
      exact TriL.pure ⟨w, rfl, h1, h2, by rw [List.append_nil]; exact h4, h3⟩
  refine (TriL.endsS (rel_sat o) hv key).mono ?_ ?_
  · rintro r s' ⟨⟨d, h1, w, rfl, h2, h3, h4, h5⟩, h6⟩
    exact ⟨⟨d, h1, h4⟩, ⟨w, .inl rfl⟩, v.sub_region_append h3, by simp; omega, h6, fun hm => (h5 hm).perm⟩
  · rintro e s' ⟨⟨d, h1, rfl, h2, d', q, r, rfl, h3, h4⟩, h6⟩
    exact ⟨rfl, ⟨d', q, r, by rw [h1, List.append_assoc], h3, h4⟩, h6, h2⟩

/-- C18: with a relation `same`, `partition_dedup*` returns `(dedup, duplicates)`, the array split in two: `dedup` is the original sequence without every element
that is the same as the last kept one, and together both are a permutation of the original array. -/
theorem dedup_correct (st : DedupStyle) (cfg : Cfg) {o : Oracle σ (st.Q α κ) (st.A α κ)} {same : α → α → Bool} (h : st.Agrees o same)
    (hv : v.WF) (s : St α (st.Q α κ) (st.A α κ) σ) :
    ∃ dedup duplicates s', run o (partitionDedup st cfg v) s = (.ok (dedup, duplicates), s') ∧
      dedup.contents s'.mem = dedupOf same (v.contents s.mem) ∧
      (dedup.contents s'.mem ++ duplicates.contents s'.mem).Perm (v.contents s.mem) ∧
      dedup.region ++ duplicates.region = v.region ∧ ∀ a, a ∉ v.region → s'.mem a = s.mem a := by
  by_cases hlen : v.len ≤ 1
  · refine ⟨_, _, s, partitionDedup_small st o hlen s, ?_, ?_, ?_, fun _ _ => rfl⟩
    · rw [View.sub_self]
      have := View.contents_length v s.mem
      match hc : v.contents s.mem with
      | [] => rfl
      | [x] => rfl
      | x :: y :: l => rw [hc] at this; simp at this; omega
    · rw [View.sub_self]
      simp [View.contents, View.region]
    · rw [View.sub_self]
      simp [View.region]
  have key : TriL (Style.rel o) v.region (partitionDedup st cfg v) (v.contents s.mem)
      (fun r ys _ => ∃ w, r = (v.sub 0 w, v.sub w (v.len - w)) ∧ 1 ≤ w ∧ w ≤ v.len ∧
        DedupInv (v.contents s.mem) v.len w ys ∧ ys.take w = dedupOf same ((v.contents s.mem).take v.len))
      (fun e ys d => False) := by
    unfold partitionDedup partitionDedupBy
    rw [if_neg hlen]
    refine TriL.bind (dedupLoop_spec (st.toFn o) (View.contents_length v s.mem) (by omega)
      (I := fun r w ys => DedupInv (v.contents s.mem) r w ys ∧ ys.take w = dedupOf same ((v.contents s.mem).take r))
      (J := fun ys => False)
      ⟨DedupInv.init (by rw [View.contents_length]; omega), ?_⟩ ?_ ?_) ?_ (fun _ _ _ h => h.2.1)
    · have := View.contents_length v s.mem
      match hc : v.contents s.mem with
      | [] => rfl
      | x :: l => rfl
    · intro r w ys x y b x' y' d h1 h2 h3 h4 h5 h6 h7
      obtain ⟨rfl, rfl⟩ := DedupStyle.noMutate_ans h.noMutate h7
      have hb := h.ans h7
      have hsnoc := dedupOf_snoc same (A := (v.contents s.mem).take r) x' (l := y') (by
        rw [← h4.2, List.getLast?_eq_getElem?, List.length_take, List.getElem?_take]
        have hw : min w ys.length = w := by
          have := (List.getElem?_eq_some_iff.mp h5).1
          omega
        rw [hw, if_pos (by omega)]
        exact h6)
      rw [← (h4.1.head h5).2] at hsnoc
      obtain ⟨_, e5⟩ := List.getElem?_eq_some_iff.mp h5
      obtain ⟨_, e6⟩ := List.getElem?_eq_some_iff.mp h6
      have hset : (ys.set r x').set (w - 1) y' = ys := by
        rw [← e5, List.set_getElem_self, ← e6, List.set_getElem_self]
      rw [hset]
      refine ⟨fun hb' => ⟨h4.1.skip h5, ?_⟩, fun hb' a t ha ht => ?_⟩
      · rw [hsnoc, ← hb, hb']
        exact h4.2
      · obtain ⟨g1, g2⟩ := h4.1.take ha ht
        refine ⟨g1, ?_⟩
        rw [h5] at ha; cases ha
        rw [g2, hsnoc, ← hb, hb', h4.2]
        rfl
    · intro r w ys x y x' y' h1 h2 h3 h4 h5 h6 h7
      exact h.noPanic h7
    · rintro w ys d - ⟨h1, h2, ⟨h3, h3'⟩, h4⟩
      unfold View.splitAt
      rw [if_pos h2]
      exact TriL.pure ⟨w, rfl, h1, h2, h3, h3'⟩
  obtain ⟨r, s', h1, ⟨d, -, w, rfl, h2, h3, h4, h5⟩, h6⟩ := EndsS.ok (E := fun _ _ => False)
    ((TriL.endsS (rel_sat o) hv key).mono (fun _ _ h => h) (fun _ _ ⟨⟨_, _, h⟩, _⟩ => h)) (fun _ _ h => h)
  obtain ⟨c1, c2⟩ := v.sub_contents h3 s'.mem
  refine ⟨_, _, s', h1, ?_, ?_, v.sub_region_append h3, h6⟩
  · rw [c1, h5, List.take_of_length_le (by rw [View.contents_length])]
  · rw [c1, c2, List.take_append_drop]
    exact h4.perm

/-! ### On a sorted array -/

theorem keep_sorted {lt : α → α → Bool} (so : SWO lt) {l : α} {xs : List α} (hs : Sorted lt (l :: xs)) :
    (l :: keep (eqv lt) l xs).Pairwise (fun a b => lt a b = true) ∧
      ∀ x ∈ l :: xs, ∃ y ∈ l :: keep (eqv lt) l xs, eqv lt x y = true := by
  have refl : ∀ x, eqv lt x x = true := fun x => eqv_iff.mpr ⟨so.irrefl x, so.irrefl x⟩
  induction xs generalizing l with
  | nil =>
    refine ⟨by simp [keep], fun x hx => ⟨x, ?_, refl x⟩⟩
    simpa [keep] using hx
  | cons a xs ih =>
    obtain ⟨h1, h2⟩ := Sorted.cons_iff.mp hs
    obtain ⟨h3, h4⟩ := Sorted.cons_iff.mp h2
    unfold keep
    by_cases hal : eqv lt a l = true
    · simp only [hal, if_true]
      obtain ⟨g1, g2⟩ := ih (Sorted.cons_iff.mpr ⟨fun y hy => h1 y (by simp [hy]), h4⟩)
      refine ⟨g1, fun x hx => ?_⟩
      rcases List.mem_cons.mp hx with rfl | hx
      · exact ⟨x, by simp, refl x⟩
      · rcases List.mem_cons.mp hx with rfl | hx
        · exact ⟨l, by simp, hal⟩
        · exact g2 x (by simp [hx])
    · simp only [hal, Bool.false_eq_true, if_false]
      obtain ⟨g1, g2⟩ := ih h2
      have hla : lt l a = true := by
        cases hla : lt l a with
        | true => rfl
        | false => exact absurd (eqv_iff.mpr ⟨h1 a (by simp), hla⟩) hal
      refine ⟨List.pairwise_cons.mpr ⟨fun y hy => ?_, g1⟩, fun x hx => ?_⟩
      · rcases List.mem_cons.mp hy with rfl | hy
        · exact hla
        · exact so.trans _ _ _ hla ((List.pairwise_cons.mp g1).1 y hy)
      · rcases List.mem_cons.mp hx with rfl | hx
        · exact ⟨x, by simp, refl x⟩
        · obtain ⟨y, hy, hxy⟩ := g2 x hx
          exact ⟨y, by simp only [List.mem_cons] at hy ⊢; exact .inr hy, hxy⟩

/-- C19: on an array sorted by a strict weak order, with its equivalence as `same_bucket`, `dedup` is strictly ascending (so has no two equal elements) and has an
element equivalent to each original one. -/
theorem dedup_sorted (st : DedupStyle) (cfg : Cfg) {o : Oracle σ (st.Q α κ) (st.A α κ)} {lt : α → α → Bool} (so : SWO lt)
    (h : st.Agrees o (eqv lt)) (hv : v.WF) (s : St α (st.Q α κ) (st.A α κ) σ) (hs : Sorted lt (v.contents s.mem)) :
    ∃ dedup duplicates s', run o (partitionDedup st cfg v) s = (.ok (dedup, duplicates), s') ∧
      (dedup.contents s'.mem).Pairwise (fun a b => lt a b = true) ∧
      (∀ x ∈ v.contents s.mem, ∃ y ∈ dedup.contents s'.mem, eqv lt x y = true) ∧
      (dedup.contents s'.mem).Sublist (v.contents s.mem) := by
  obtain ⟨dedup, duplicates, s', h1, h2, -⟩ := dedup_correct st cfg h hv s
  refine ⟨dedup, duplicates, s', h1, ?_⟩
  rw [h2]
  refine ⟨?_, ?_, dedupOf_sublist _ _⟩
  · match hc : v.contents s.mem with
    | [] => exact List.Pairwise.nil
    | x :: l => rw [hc] at hs; exact (keep_sorted so hs).1
  · match hc : v.contents s.mem with
    | [] => intro x hx; cases hx
    | x :: l => rw [hc] at hs; exact (keep_sorted so hs).2

/-! ### `reverse` -/

/-- C21 (and C09): `reverse` reverses the array and touches nothing else. -/
theorem reverse_correct (cfg : Cfg) (o : Oracle σ ι ω) (hv : v.WF) (s : St α ι ω σ) :
    ∃ s', run o (reverse cfg v) s = (.ok (), s') ∧ v.contents s'.mem = (v.contents s.mem).reverse ∧
      ∀ a, a ∉ v.region → s'.mem a = s.mem a := by
  obtain ⟨b, s', h1, h2, h3⟩ := (Tri.ends (rel_sat o) hv (s := s)
    (reverse_spec (E := fun _ _ => False) (View.contents_length v s.mem))).ok (fun _ _ h => h.1)
  exact ⟨s', h1, h2, h3⟩

/-! ### Examples -/

namespace Sample

def dedupAnswer (f : Nat → Nat → Bool) : (st : DedupStyle) → st.Q Nat Nat → st.A Nat Nat
  | .eq, q => f q.1 q.2
  | .fn, q => (q.1, q.2, some (f q.1 q.2))
  | .key, q => match (q : KeyQ Nat Nat) with
    | .key x => (x, some x, true)
    | .lt k l => (0, none, f k l)

def dedupOracle (f : Nat → Nat → Bool) (st : DedupStyle) : Oracle Unit (st.Q Nat Nat) (st.A Nat Nat) :=
  ⟨fun _ q => (some (dedupAnswer f st q), ()), fun _ => (true, ())⟩

theorem dedupAgrees (f : Nat → Nat → Bool) (st : DedupStyle) : st.Agrees (dedupOracle f st) f := by
  cases st with
  | eq => exact fun _ _ _ => rfl
  | fn => exact fun _ _ _ => rfl
  | key => exact ⟨id, f, fun _ _ => ⟨_, rfl⟩, fun _ _ _ => ⟨_, _, rfl⟩, fun _ _ => rfl⟩

/-- Changes elements and panics at the eighth call. -/
def vandal : Oracle Nat (Nat × Nat) (Nat × Nat × Option Bool) :=
  ⟨fun n q => (some (q.1 + n, q.2 * 2, if n = 7 then none else some (n % 2 == 0)), n + 1), fun n => (true, n)⟩

example := dedup_safe (κ := Nat) (v := view) .fn cfg vandal wf ⟨mem, 0, []⟩
-- a relation which is no equivalence
example (st : DedupStyle) := dedup_correct (v := view) st cfg (dedupAgrees (fun x y => decide (x ≤ y + 1)) st) wf ⟨mem, (), []⟩
example (st : DedupStyle) := dedup_sorted (v := sview) st cfg swo (dedupAgrees (eqv lt) st) (.inl (by decide)) ⟨smem, (), []⟩ ssorted
example := reverse_correct (v := view) cfg (oracle .ord) wf (state .ord)

end Sample

end NdSlice
