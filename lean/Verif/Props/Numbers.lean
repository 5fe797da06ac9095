import Verif.Props.Relational
import Verif.Props.QuickCost
import Verif.Props.QuickOdd
import Verif.Props.SelectCost
import Verif.Props.Depth

/-
The bad cases of C52, C54 and C67 for arrays of numbers with their usual order, in all three flavours.  A strict weak order of `n` elements is the order
of their ranks; so the array of the ranks is as bad as the array of elements (C49).
-/

namespace NdSlice

open Style

variable {cfg : Cfg} {st : Style} {v : View}

/-- How many elements are less. -/
def rankOf {n : Nat} (lt : Fin n → Fin n → Bool) (x : Fin n) : Nat := (List.finRange n).countP (fun z => lt z x)

theorem rankOf_lt {n : Nat} {lt : Fin n → Fin n → Bool} (h : SWO lt) (x y : Fin n) : rankOf lt x < rankOf lt y ↔ lt x y = true := by
  have mono : ∀ {x y}, lt y x = false → rankOf lt x ≤ rankOf lt y := by
    intro x y hxy
    refine List.countP_mono_left fun z _ hz => ?_
    by_contra hc
    rw [Bool.not_eq_true] at hc
    rw [h.ntrans z y x hc hxy] at hz
    cases hz
  constructor
  · intro hr
    by_contra hc
    rw [Bool.not_eq_true] at hc
    have := mono hc
    omega
  · intro hxy
    obtain ⟨l1, l2, e⟩ := List.append_of_mem (List.mem_finRange x)
    unfold rankOf
    rw [e, List.countP_append, List.countP_append, List.countP_cons, List.countP_cons, h.irrefl x, hxy]
    have h1 : l1.countP (fun z => lt z x) ≤ l1.countP (fun z => lt z y) := List.countP_mono_left fun z _ hz => h.trans z x y hz hxy
    have h2 : l2.countP (fun z => lt z x) ≤ l2.countP (fun z => lt z y) := List.countP_mono_left fun z _ hz => h.trans z x y hz hxy
    simp
    omega

theorem rankOf_less {n : Nat} {lt : Fin n → Fin n → Bool} (h : SWO lt) (x : Fin n) : rankOf lt x < n := by
  have h1 : rankOf lt x ≤ (List.finRange n).length := List.countP_le_length
  rw [List.length_finRange] at h1
  rcases Nat.lt_or_ge (rankOf lt x) n with h2 | h2
  · exact h2
  · have h3 : (List.finRange n).countP (fun z => lt z x) = (List.finRange n).length := by
      rw [List.length_finRange]
      exact Nat.le_antisymm h1 h2
    have := List.countP_eq_length.1 h3 x (List.mem_finRange x)
    rw [h.irrefl] at this
    cases this

/-- User code which compares numbers in the usual way: `a < b`, `a.cmp(&b)`, or `f(a) < f(b)` with the identity as `f`. -/
def numbers (flip : Unit → Bool × Unit) : (st : Style) → Oracle Unit (st.Q Nat Nat) (st.A Nat)
  | .ord => ⟨fun _ (q : Nat × Nat) => (some (decide (q.1 < q.2)), ()), flip⟩
  | .cmp => ⟨fun _ (q : Nat × Nat) => (some (compare q.1 q.2), ()), flip⟩
  | .key => ⟨fun _ (q : KeyQ Nat Nat) => (some (match q with
      | .key x => (x, true)
      | .lt x y => (0, decide (x < y))), ()), flip⟩

theorem numbers_decides (flip : Unit → Bool × Unit) (st : Style) (e : Unit) (x y : Nat) :
    decides st (numbers flip st) e x y = (some (decide (x < y)), ()) := by
  cases st with
  | ord => rfl
  | cmp =>
    show (some (compare x y == .lt), ()) = _
    rcases Nat.lt_trichotomy x y with h | h | h
    · rw [Nat.compare_eq_lt.2 h, decide_eq_true h]; rfl
    · rw [Nat.compare_eq_eq.2 h, decide_eq_false (by omega)]; rfl
    · rw [Nat.compare_eq_gt.2 h, decide_eq_false (by omega)]; rfl
  | key => rfl

theorem numbers_sameOrder {n : Nat} {lt : Fin n → Fin n → Bool} (h : SWO lt) {κ : Type} {o : Oracle Unit (Style.Q (Fin n) κ .ord) (Style.A κ .ord)}
    (ho : Agrees .ord o lt) : SameOrder .ord st o (numbers o.flip st) (rankOf lt) where
  decides e x y := by
    rw [numbers_decides]
    have h1 : (o.ask e (x, y)).1 = some (lt x y) := ho e x y
    show o.ask e (x, y) = _
    refine Prod.ext ?_ rfl
    rw [h1]
    exact congrArg some (Bool.eq_iff_iff.2 (by rw [decide_eq_true_iff]; exact (rankOf_lt h x y).symm))
  flip e := by cases st <;> rfl

theorem numbers_agrees (flip : Unit → Bool × Unit) (st : Style) : Agrees st (numbers flip st) (fun x y => decide (x < y)) := by
  cases st with
  | ord => exact fun _ _ _ => rfl
  | cmp =>
    refine ⟨compare, fun _ _ _ => rfl, fun x y => ?_⟩
    have := numbers_decides flip .cmp () x y
    exact (Option.some.inj (congrArg Prod.fst this)).symm
  | key => exact ⟨id, fun x y => decide (x < y), fun _ _ => ⟨_, rfl⟩, fun _ _ _ => ⟨_, rfl⟩, fun _ _ => rfl⟩

theorem Compares.length_le {α κ : Type} {ps : List (α × α)} {d : List (st.Q α κ × Option (st.A κ))} (h : Compares st ps d) : ps.length ≤ d.length := by
  induction h with
  | nil => simp
  | snoc _ h ih =>
    rename_i d _
    have : 1 ≤ d.length := by
      cases st with
      | ord => obtain ⟨a, rfl⟩ := h; exact Nat.le_refl _
      | cmp => obtain ⟨a, rfl⟩ := h; exact Nat.le_refl _
      | key => rcases h with rfl | ⟨k, rfl⟩ | ⟨k, l, b, rfl⟩ <;> exact Nat.succ_le_succ (Nat.zero_le _)
    simp only [List.length_append, List.length_cons, List.length_nil]
    omega

theorem Compares.length_ord {α κ : Type} {ps : List (α × α)} {d : List (Style.Q α κ .ord × Option (Style.A κ .ord))} (h : Compares .ord ps d) :
    ps.length = d.length := by
  induction h with
  | nil => simp
  | snoc _ h ih =>
    obtain ⟨a, h⟩ := h
    rw [List.length_append, List.length_append, ih, h]
    rfl

theorem SameCalls.length_le {α α' κ κ' σ : Type} {g : α → α'} {s t : St α (Style.Q α κ .ord) (Style.A κ .ord) σ}
    {s' t' : St α' (st.Q α' κ') (st.A κ') σ} (h : SameCalls .ord st g s t s' t') (h0 : s.log = []) (h1 : s'.log = []) :
    t.log.length ≤ t'.log.length := by
  obtain ⟨-, ps, d, d', e1, e2, c1, c2⟩ := h
  rw [e1, e2, h0, h1, List.nil_append, List.nil_append, ← c1.length_ord]
  have := c2.length_le
  rwa [List.length_map] at this

/-- An array of `len` different elements. -/
theorem exists_distinct (hv : v.WF) (h0 : 0 < v.len) : ∃ m : Mem (Fin v.len), (v.contents m).Nodup := by
  obtain ⟨m, hm⟩ := View.exists_contents hv (xs := List.finRange v.len) (List.length_finRange ..) ⟨0, h0⟩
  exact ⟨m, hm ▸ List.nodup_finRange _⟩

theorem contents_comp {α β : Type} {m : Mem α} {g : α → β} : v.contents (fun a => g (m a)) = (v.contents m).map g := by
  unfold View.contents
  rw [List.map_map]
  rfl

/-- C54 for numbers: for every layout and every length there is an array of numbers less than `len` on which `par_sort_unstable*`, in each of the
flavours, makes at least `len ^ 2 / 400` comparisons. -/
theorem par_sort_unstable_numbers_quadratic (st : Style) (hz : cfg.zst = false) (hv : v.WF) (hN : 8000 ≤ v.len) :
    ∃ (m : Mem Nat) (o : Oracle Unit (st.Q Nat Nat) (st.A Nat)), (∀ a, m a < v.len) ∧ Agrees st o (fun x y => decide (x < y)) ∧
      ∃ s', run o (parSortUnstable st cfg v) ⟨m, (), []⟩ = (.ok (), s') ∧ v.len ^ 2 ≤ 400 * s'.log.length := by
  obtain ⟨m, nd⟩ := exists_distinct hv (by omega)
  obtain ⟨lt, o, so, ho, s', e1, e2⟩ := par_sort_unstable_quadratic (κ := Nat) hz hv hN nd
  obtain ⟨h1, h2, h3⟩ := par_sort_unstable_natural (cfg := cfg) (numbers_sameOrder (st := st) so ho) hv hv rfl
    (s := ⟨m, (), []⟩) (s' := ⟨fun a => rankOf lt (m a), (), []⟩) rfl (contents_comp (m := m) (g := rankOf lt))
  refine ⟨fun a => rankOf lt (m a), numbers o.flip st, fun a => rankOf_less so _, numbers_agrees _ _, _, Prod.ext ?_ rfl, ?_⟩
  · rw [e1] at h1
    generalize (run (numbers o.flip st) _ _).1 = r at h1
    cases h1
    rfl
  · have := h3.length_le rfl rfl
    rw [e1] at this
    exact Nat.le_trans e2 (Nat.mul_le_mul_left _ this)

/-- C67 for numbers: for every layout and every length there is an array of numbers less than `len` on which `d` nested calls of `recurse` in
`par_sort_unstable*` are not enough, if only `48 * d + 2001 ≤ len`. -/
theorem par_sort_unstable_numbers_deep (st : Style) (hv : v.WF) {d : Nat} (hd : 48 * d + 2001 ≤ v.len) :
    ∃ (m : Mem Nat) (o : Oracle Unit (st.Q Nat Nat) (st.A Nat)), (∀ a, m a < v.len) ∧ Agrees st o (fun x y => decide (x < y)) ∧
      (run o (recurse cfg (st.less (κ := Nat)) (some 2000) d v none (bitLen v.len)) ⟨m, (), []⟩).1 = .diverge := by
  obtain ⟨m, nd⟩ := exists_distinct hv (by omega)
  obtain ⟨lt, o, so, ho, e1⟩ := par_sort_unstable_deep (κ := Nat) (cfg := cfg) hv nd hd
  have hs := numbers_sameOrder (st := st) so ho
  obtain ⟨h1, -, -⟩ := hs.sameRuns (v := v) (v' := v) (s := ⟨m, (), []⟩) (s' := ⟨fun a => rankOf lt (m a), (), []⟩) hv hv rfl
    (Sim.recurse_sim (cfg := cfg) (m := some 2000) (d := d) (l := bitLen v.len) (p₁ := none) (p₂ := none) hs.less (hs.vrel hv hv rfl) trivial) rfl (contents_comp (m := m) (g := rankOf lt))
  refine ⟨fun a => rankOf lt (m a), numbers o.flip st, fun a => rankOf_less so _, numbers_agrees _ _, ?_⟩
  rw [e1] at h1
  generalize (run (numbers o.flip st) _ _).1 = r at h1
  cases h1
  rfl

theorem numbers_sameOrder_rank {α κ : Type} {rank : α → Nat} {o : Oracle Unit (Style.Q α κ .ord) (Style.A κ .ord)}
    (ho : Agrees .ord o (fun x y => decide (rank x < rank y))) : SameOrder .ord st o (numbers o.flip st) rank where
  decides e x y := by
    rw [numbers_decides]
    have h1 : (o.ask e (x, y)).1 = some (decide (rank x < rank y)) := ho e x y
    exact Prod.ext h1 rfl
  flip e := by cases st <;> rfl

/-- C52 for small numbers: for every power `j` there are a factor `c` and a length `N` such that for every layout and every length from `N` on there
is an array of numbers less than 240 (thus of `u8`) in which selecting the element at `len - 2`, in each of the flavours, takes at least
`len ^ j / c` comparisons (release build). -/
theorem select_nth_bytes_superpolynomial (st : Style) (hd : cfg.dbg = false) (hz : cfg.zst = false) (j : Nat) :
    ∃ c N, ∀ v : View, v.WF → N ≤ v.len → ∃ (m : Mem Nat) (o : Oracle Unit (st.Q Nat Nat) (st.A Nat)), (∀ a, m a < 240) ∧
      Agrees st o (fun x y => decide (x < y)) ∧
        ∃ r s', run o (selectNthUnstable st cfg v (v.len - 2)) ⟨m, (), []⟩ = (.ok r, s') ∧ v.len ^ j ≤ c * s'.log.length := by
  obtain ⟨c, N, h⟩ := select_nth_superpolynomial_few (α := Nat) (κ := Nat) hd hz j
  refine ⟨c, N + 1, fun v hv hN => ?_⟩
  obtain ⟨m, nd⟩ := exists_distinct hv (by omega)
  obtain ⟨rank, o, hr, ho, r, s1, e1, e2⟩ := h v (fun a => (m a).val) hv (by omega) (by
    rw [contents_comp (m := m) (g := Fin.val)]
    exact nd.map Fin.val_injective)
  obtain ⟨h1, -, h3⟩ := select_nth_natural (cfg := cfg) (numbers_sameOrder_rank (st := st) ho) hv hv rfl
    (s := ⟨fun a => (m a).val, (), []⟩) (s' := ⟨fun a => rank (m a).val, (), []⟩) rfl
    (contents_comp (m := fun a => (m a).val) (g := rank)) (v.len - 2)
  have hlen := h3.length_le rfl rfl
  revert h1 hlen
  rcases hr' : run (numbers o.flip st) (selectNthUnstable st cfg v (v.len - 2)) ⟨fun a => rank (m a).val, (), []⟩ with ⟨r2, t2⟩
  rw [e1]
  intro h1 hlen
  cases h1 with
  | ok h1 => exact ⟨fun a => rank (m a).val, numbers o.flip st, fun a => hr _, numbers_agrees _ _, _, _, hr', Nat.le_trans e2 (Nat.mul_le_mul_left _ hlen)⟩

/-! ### The hypotheses can be met -/

example := par_sort_unstable_numbers_quadratic (cfg := Sample.cfg) (v := ⟨7, -2, 100000⟩) .key rfl (.inl (by decide)) (by decide)
example := par_sort_unstable_numbers_deep (cfg := Sample.cfg) (v := ⟨7, -2, 100000⟩) (d := 2000) .cmp (.inl (by decide)) (by decide)
example := select_nth_bytes_superpolynomial (cfg := ⟨false, 64, false⟩) .key rfl rfl 100

end NdSlice
