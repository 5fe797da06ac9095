import Verif.Proof.SimSort
import Verif.Proof.SimMerge
import Verif.Props.Sample
import Verif.Props.Parallel

/-
C44, C46 and C49: pairs of runs.  Of the three flavours of a method, of the same method on arrays with the same contents at other places, and on arrays
of other elements that compare in the same way.  All theorems hold for arbitrary user code: stateful, inconsistent or panicking.
-/

namespace NdSlice

variable {α α' κ κ' ι ω ι' ω' σ β β' : Type}

/-! ### Vocabulary -/

/-- What user code in state `e` decides when `x` and `y` are compared (`none`: it panics), and its state afterwards. -/
def decides : (st : Style) → Oracle σ (st.Q α κ) (st.A κ) → σ → α → α → Option Bool × σ
  | .ord, o, e, x, y => o.ask e (x, y)
  | .cmp, o, e, x, y => ((o.ask e (x, y)).1.map fun c : Ordering => c == .lt, (o.ask e (x, y)).2)
  | .key, o, e, x, y => match o.ask e (KeyQ.key x) with
    | (none, e) => (none, e)
    | (some k, e) => match o.ask e (KeyQ.key y) with
      | (none, e) => (none, e)
      | (some l, e) => ((o.ask e (KeyQ.lt k.1 l.1)).1.map (·.2), (o.ask e (KeyQ.lt k.1 l.1)).2)

/-- The user code of two flavours decides in the same way, for elements translated by `g`. -/
structure SameOrder (st st' : Style) (o : Oracle σ (st.Q α κ) (st.A κ)) (o' : Oracle σ (st'.Q α' κ') (st'.A κ')) (g : α → α') : Prop where
  decides : ∀ e x y, decides st o e x y = decides st' o' e (g x) (g y)
  flip : ∀ e, o.flip e = o'.flip e

/-- The calls of user code made for comparing `x` and `y`: one call of `x < y` or `compare(x, y)`; or the key of `x`, the key of `y` and the comparison
of the keys, up to the first panic. -/
def Asked : (st : Style) → α → α → List (st.Q α κ × Option (st.A κ)) → Prop
  | .ord, x, y, d => ∃ a, d = [((x, y), a)]
  | .cmp, x, y, d => ∃ a, d = [((x, y), a)]
  | .key, x, y, d => d = [(KeyQ.key x, none)] ∨ (∃ k, d = [(KeyQ.key x, some k), (KeyQ.key y, none)]) ∨
      ∃ k l b, d = [(KeyQ.key x, some k), (KeyQ.key y, some l), (KeyQ.lt k.1 l.1, b)]

/-- The log `d` is that of comparing the given pairs one after the other. -/
inductive Compares (st : Style) : List (α × α) → List (st.Q α κ × Option (st.A κ)) → Prop where
  | nil : Compares st [] []
  | snoc {ps l x y d} : Compares st ps l → Asked st x y d → Compares st (ps ++ [(x, y)]) (l ++ d)

/-- Both runs compare the same pairs (up to `g`), in the same order, and leave user code in the same state. -/
def SameCalls (st st' : Style) (g : α → α') (s t : St α (st.Q α κ) (st.A κ) σ) (s' t' : St α' (st'.Q α' κ') (st'.A κ') σ) : Prop :=
  t.env = t'.env ∧ ∃ ps d d', t.log = s.log ++ d ∧ t'.log = s'.log ++ d' ∧ Compares st ps d ∧
    Compares st' (ps.map fun p => (g p.1, g p.2)) d'

/-! ### The simulation -/

theorem run_less (st : Style) (o : Oracle σ (st.Q α κ) (st.A κ)) (x y : α) (s : St α (st.Q α κ) (st.A κ) σ) :
    ∃ d, Asked st x y d ∧ run o (st.less x y) s =
      (match (decides st o s.env x y).1 with
        | none => .panic .user
        | some b => .ok b, ⟨s.mem, (decides st o s.env x y).2, s.log ++ d⟩) := by
  cases st with
  | ord =>
    refine ⟨[((x, y), (o.ask s.env (x, y)).1)], ⟨_, rfl⟩, ?_⟩
    unfold Style.less decides
    simp only [run]
    cases (o.ask s.env (x, y)).1 <;> rfl
  | cmp =>
    refine ⟨[((x, y), (o.ask s.env (x, y)).1)], ⟨_, rfl⟩, ?_⟩
    unfold Style.less decides
    simp only [run]
    cases (o.ask s.env (x, y)).1 <;> rfl
  | key =>
    unfold Style.less decides
    simp only [run]
    rcases o.ask s.env (KeyQ.key x) with ⟨_ | k, e⟩
    · exact ⟨_, .inl rfl, rfl⟩
    · dsimp only
      simp only [run]
      rcases o.ask e (KeyQ.key y) with ⟨_ | l, e⟩
      · refine ⟨_, .inr (.inl ⟨k, rfl⟩), ?_⟩
        simp [run]
        rfl
      · dsimp only
        simp only [run]
        refine ⟨_, .inr (.inr ⟨k, l, (o.ask e (KeyQ.lt k.1 l.1)).1, rfl⟩), ?_⟩
        cases (o.ask e (KeyQ.lt k.1 l.1)).1 <;> simp [run] <;> rfl

section

variable {st st' : Style} {o : Oracle σ (st.Q α κ) (st.A κ)} {o' : Oracle σ (st'.Q α' κ') (st'.A κ')} {g : α → α'}

/-- Runs with corresponding user code, for addresses related by `A` and views by `G`, starting with the logs `l` and `l'`. -/
def SameOrder.sim (h : SameOrder st st' o o' g) (A : Addr → Addr → Prop) (inj : ∀ {a b a' b'}, A a b → A a' b' → (a' = a ↔ b' = b))
    (G : View → View → Prop) (sub : ∀ {v w}, G v w → ∀ i n, G (v.sub i n) (w.sub i n)) (l : List (st.Q α κ × Option (st.A κ)))
    (l' : List (st'.Q α' κ' × Option (st'.A κ'))) : Sim α (st.Q α κ) (st.A κ) σ α' (st'.Q α' κ') (st'.A κ') σ where
  o₁ := o
  o₂ := o'
  A := A
  inj := inj
  G := G
  sub := sub
  V x y := y = g x
  S e₁ l₁ e₂ l₂ := e₁ = e₂ ∧ ∃ ps d d', l₁ = l ++ d ∧ l₂ = l' ++ d' ∧ Compares st ps d ∧ Compares st' (ps.map fun p => (g p.1, g p.2)) d'
  flip := by
    rintro e₁ l₁ _ l₂ ⟨rfl, hS⟩
    rw [← h.flip e₁]
    exact ⟨rfl, rfl, hS⟩

theorem SameOrder.less (h : SameOrder st st' o o' g) {A inj G sub l l'} :
    (h.sim A inj G sub l l').LessRel (st.less (κ := κ)) (st'.less (κ := κ')) := by
  refine ⟨?_⟩
  rintro x _ y _ rfl rfl s₁ s₂ ⟨hm, he, ps, d, d', h1, h2, h3, h4⟩
  obtain ⟨c, hc, hr⟩ := run_less st o x y s₁
  obtain ⟨c', hc', hr'⟩ := run_less st' o' (g x) (g y) s₂
  show OutRel Eq (run o (st.less x y) s₁).1 (run o' (st'.less (g x) (g y)) s₂).1 ∧ _
  have hd := h.decides s₁.env x y
  refine ⟨?_, ?_, ?_, ?_⟩
  · rw [hr, hr', hd, he]
    cases (NdSlice.decides st' o' s₂.env (g x) (g y)).1 with
    | none => exact .panic _
    | some b => exact .ok rfl
  · show ∀ a b, A a b → (run o' (st'.less (g x) (g y)) s₂).2.mem b = g ((run o (st.less x y) s₁).2.mem a)
    rw [hr, hr']
    exact hm
  · show (run o (st.less x y) s₁).2.env = (run o' (st'.less (g x) (g y)) s₂).2.env
    rw [hr, hr', hd, he]
  · refine ⟨ps ++ [(x, y)], d ++ c, d' ++ c', ?_, ?_, .snoc h3 hc, ?_⟩
    · show (run o (st.less x y) s₁).2.log = _
      rw [hr, ← List.append_assoc, ← h1]
    · show (run o' (st'.less (g x) (g y)) s₂).2.log = _
      rw [hr', ← List.append_assoc, ← h2]
    · rw [List.map_append]
      exact .snoc h4 hc'

/-- What a simulation says about runs from states with equal user state. -/
theorem SameOrder.runs (h : SameOrder st st' o o' g) {A inj G sub} {s : St α (st.Q α κ) (st.A κ) σ} {s' : St α' (st'.Q α' κ') (st'.A κ') σ}
    {p : Prog α (st.Q α κ) (st.A κ) β} {p' : Prog α' (st'.Q α' κ') (st'.A κ') β'} {R : β → β' → Prop}
    (hp : (h.sim A inj G sub s.log s'.log).P p p' R) (he : s.env = s'.env) (hm : ∀ a b, A a b → s'.mem b = g (s.mem a)) :
    OutRel R (run o p s).1 (run o' p' s').1 ∧ (∀ a b, A a b → (run o' p' s').2.mem b = g ((run o p s).2.mem a)) ∧
      SameCalls st st' g s (run o p s).2 s' (run o' p' s').2 := by
  obtain ⟨h1, h2, h3⟩ := hp s s' ⟨hm, he, [], [], [], by simp, by simp, .nil, .nil⟩
  exact ⟨h1, h2, h3⟩

end

/-! ### C49, C46: arrays at any places -/

/-- The same part of two arrays. -/
def SamePart (v v' w w' : View) : Prop := ∃ i n, w = v.sub i n ∧ w' = v'.sub i n

/-- The element at the same position of two arrays. -/
def SamePlace (v v' : View) (a a' : Addr) : Prop := ∃ i, i < v.len ∧ a = v.addr i ∧ a' = v'.addr i

theorem addr_inj {v : View} (hv : v.WF) {i j : Nat} (hi : i < v.len) (hj : j < v.len) (h : v.addr i = v.addr j) : i = j := by
  rcases hv with hv | hv
  · unfold View.addr at h
    have h : v.stride * i = v.stride * j := Int.add_left_cancel h
    have := Int.eq_of_mul_eq_mul_left hv h
    omega
  · omega

section

variable {v v' : View} {cfg : Cfg} {st st' : Style} {o : Oracle σ (st.Q α κ) (st.A κ)} {o' : Oracle σ (st'.Q α' κ') (st'.A κ')} {g : α → α'}
  {s : St α (st.Q α κ) (st.A κ) σ} {s' : St α' (st'.Q α' κ') (st'.A κ') σ}

theorem samePlace_inj (hv : v.WF) (hv' : v'.WF) (hl : v.len = v'.len) {a b a' b' : Addr} (h : SamePlace v v' a b) (h' : SamePlace v v' a' b') :
    a' = a ↔ b' = b := by
  obtain ⟨i, hi, rfl, rfl⟩ := h
  obtain ⟨j, hj, rfl, rfl⟩ := h'
  constructor <;> intro h
  · rw [addr_inj hv hj hi h]
  · rw [addr_inj hv' (by omega) (by omega) h]

theorem samePart_sub {w w' : View} (h : SamePart v v' w w') (i n : Nat) : SamePart v v' (w.sub i n) (w'.sub i n) := by
  obtain ⟨j, m, rfl, rfl⟩ := h
  exact ⟨j + i, n, View.sub_sub .., View.sub_sub ..⟩

theorem contents_map_iff (hl : v.len = v'.len) {m : Mem α} {m' : Mem α'} :
    v'.contents m' = (v.contents m).map g ↔ ∀ a b, SamePlace v v' a b → m' b = g (m a) := by
  unfold View.contents View.region
  rw [List.map_map, List.map_map, List.map_map, hl]
  constructor
  · rintro h _ _ ⟨i, hi, rfl, rfl⟩
    have := List.map_eq_map_iff.mp h i (List.mem_range.mpr (by omega))
    exact this
  · intro h
    refine List.map_eq_map_iff.mpr fun i hi => ?_
    have := List.mem_range.mp hi
    exact h _ _ ⟨i, by omega, rfl, rfl⟩

/-- Both runs end in the same way, with results related by `R`; the final contents of `v'` are those of `v` translated by `g`; the same
comparisons have been made. -/
def SameRuns (g : α → α') (o : Oracle σ (st.Q α κ) (st.A κ)) (o' : Oracle σ (st'.Q α' κ') (st'.A κ')) (v v' : View)
    (p : Prog α (st.Q α κ) (st.A κ) β) (p' : Prog α' (st'.Q α' κ') (st'.A κ') β') (s : St α (st.Q α κ) (st.A κ) σ)
    (s' : St α' (st'.Q α' κ') (st'.A κ') σ) (R : β → β' → Prop) : Prop :=
  OutRel R (run o p s).1 (run o' p' s').1 ∧ v'.contents (run o' p' s').2.mem = (v.contents (run o p s).2.mem).map g ∧
    SameCalls st st' g s (run o p s).2 s' (run o' p' s').2

theorem SameOrder.sameRuns (h : SameOrder st st' o o' g) (hv : v.WF) (hv' : v'.WF) (hl : v.len = v'.len)
    {p : Prog α (st.Q α κ) (st.A κ) β} {p' : Prog α' (st'.Q α' κ') (st'.A κ') β'} {R : β → β' → Prop}
    (hp : (h.sim (SamePlace v v') (samePlace_inj hv hv' hl) (SamePart v v') samePart_sub s.log s'.log).P p p' R) (he : s.env = s'.env)
    (hm : v'.contents s'.mem = (v.contents s.mem).map g) : SameRuns g o o' v v' p p' s s' R := by
  obtain ⟨h1, h2, h3⟩ := h.runs hp he ((contents_map_iff hl).mp hm)
  exact ⟨h1, (contents_map_iff hl).mpr h2, h3⟩

theorem SameOrder.vrel (h : SameOrder st st' o o' g) (hv : v.WF) (hv' : v'.WF) (hl : v.len = v'.len) {l l'} :
    (h.sim (SamePlace v v') (samePlace_inj hv hv' hl) (SamePart v v') samePart_sub l l').VRel v v' :=
  ⟨hl, fun i hi => ⟨i, by omega, rfl, rfl⟩, 0, v.len, (View.sub_self v).symm, by rw [hl]; exact (View.sub_self v').symm⟩

/-- C49 for `sort_unstable*`: arrays of other elements, anywhere, which compare in the same way are permuted in the same way. -/
theorem sort_unstable_natural (h : SameOrder st st' o o' g) (hv : v.WF) (hv' : v'.WF) (hl : v.len = v'.len) (he : s.env = s'.env)
    (hm : v'.contents s'.mem = (v.contents s.mem).map g) :
    SameRuns g o o' v v' (sortUnstable st cfg v) (sortUnstable st' cfg v') s s' Eq :=
  h.sameRuns hv hv' hl (Sim.quickSort_sim h.less (h.vrel hv hv' hl)) he hm

/-- C49 for `par_sort_unstable*`, tasks running one after the other (`par_sort_unstable_deterministic` covers other schedules). -/
theorem par_sort_unstable_natural (h : SameOrder st st' o o' g) (hv : v.WF) (hv' : v'.WF) (hl : v.len = v'.len) (he : s.env = s'.env)
    (hm : v'.contents s'.mem = (v.contents s.mem).map g) :
    SameRuns g o o' v v' (parSortUnstable st cfg v) (parSortUnstable st' cfg v') s s' Eq :=
  h.sameRuns hv hv' hl (Sim.parQuickSort_sim h.less (h.vrel hv hv' hl)) he hm

/-- C49 for `select_nth_unstable*`: the results are the same parts of the two arrays. -/
theorem select_nth_natural (h : SameOrder st st' o o' g) (hv : v.WF) (hv' : v'.WF) (hl : v.len = v'.len) (he : s.env = s'.env)
    (hm : v'.contents s'.mem = (v.contents s.mem).map g) (k : Nat) :
    SameRuns g o o' v v' (selectNthUnstable st cfg v k) (selectNthUnstable st' cfg v' k) s s'
      (fun r r' => SamePart v v' r.1 r'.1 ∧ SamePlace v v' r.2.1 r'.2.1 ∧ SamePart v v' r.2.2 r'.2.2) :=
  h.sameRuns hv hv' hl (Sim.P.mono (Sim.partitionAtIndex_sim h.less (h.vrel hv hv' hl)) fun _ _ ⟨h1, h2, h3⟩ => ⟨h1.geo, h2, h3.geo⟩) he hm

/-- The same indices with the elements at the same positions. -/
def SameRefs (v v' : View) (r r' : List (Nat × Addr)) : Prop :=
  ∃ ps : List (Nat × Nat), (∀ p ∈ ps, p.2 < v.len) ∧ r = ps.map (fun p => (p.1, v.addr p.2)) ∧ r' = ps.map (fun p => (p.1, v'.addr p.2))

theorem sameRefs_of (h : SameOrder st st' o o' g) {hi : ∀ {a b a' b'}, SamePlace v v' a b → SamePlace v v' a' b' → (a' = a ↔ b' = b)} {G hs l l'}
    {r r' : List (Nat × Addr)} (hr : (h.sim (SamePlace v v') hi G hs l l').RefsR r r') : SameRefs v v' r r' := by
  induction r generalizing r' with
  | nil =>
    cases r' with
    | nil => exact ⟨[], by simp, rfl, rfl⟩
    | cons => exact hr.elim
  | cons x r ih =>
    cases r' with
    | nil => exact hr.elim
    | cons x' r' =>
      obtain ⟨i, a⟩ := x
      obtain ⟨i', a'⟩ := x'
      obtain ⟨h1, h2, h3⟩ := hr
      obtain ⟨ps, h4, rfl, rfl⟩ := ih h3
      obtain ⟨j, hj, rfl, rfl⟩ := h2
      subst h1
      refine ⟨(i, j) :: ps, ?_, rfl, rfl⟩
      intro p hp
      rcases List.mem_cons.mp hp with rfl | hp
      · exact hj
      · exact h4 p hp

/-- C49 for `select_many_nth_unstable*`. -/
theorem select_many_natural (h : SameOrder st st' o o' g) (hv : v.WF) (hv' : v'.WF) (hl : v.len = v'.len) (he : s.env = s'.env)
    (hm : v'.contents s'.mem = (v.contents s.mem).map g) (is : List Nat) :
    SameRuns g o o' v v' (selectManyNthUnstable st cfg v is) (selectManyNthUnstable st' cfg v' is) s s' (SameRefs v v') :=
  h.sameRuns hv hv' hl (Sim.P.mono (Sim.selectMany_sim h.less (h.vrel hv hv' hl)) fun _ _ hr => sameRefs_of h hr) he hm

/-- C49 for `par_select_many_nth_unstable*`, tasks running one after the other (`par_select_many_deterministic` covers other schedules). -/
theorem par_select_many_natural (h : SameOrder st st' o o' g) (hv : v.WF) (hv' : v'.WF) (hl : v.len = v'.len) (he : s.env = s'.env)
    (hm : v'.contents s'.mem = (v.contents s.mem).map g) (is : List Nat) (extra : Nat) :
    SameRuns g o o' v v' (parSelectManyNthUnstable st cfg v is extra) (parSelectManyNthUnstable st' cfg v' is extra) s s' (SameRefs v v') :=
  h.sameRuns hv hv' hl (Sim.P.mono (Sim.parSelectMany_sim h.less (h.vrel hv hv' hl)) fun _ _ hr => sameRefs_of h hr) he hm

end

/-! ### C49: stable sorts -/

section

variable {v v' : View} {cfg : Cfg} {st st' : Style} {o : Oracle σ (st.Q α κ) (st.A κ)} {o' : Oracle σ (st'.Q α' κ') (st'.A κ')} {g : α → α'}
  {s : St α (st.Q α κ) (st.A κ) σ} {s' : St α' (st'.Q α' κ') (st'.A κ') σ}

theorem samePlaces_inj {b b' : View} (hv : v.WF) (hv' : v'.WF) (hl : v.len = v'.len) (hb : b.WF) (hb' : b'.WF) (hbl : b.len = b'.len)
    (hf : Fresh v b) (hf' : Fresh v' b') {x y x' y' : Addr} (h : SamePlace v v' x y ∨ SamePlace b b' x y) (h' : SamePlace v v' x' y' ∨ SamePlace b b' x' y') :
    x' = x ↔ y' = y := by
  have hm : ∀ {w w' : View} {a a' : Addr}, w.len = w'.len → SamePlace w w' a a' → a ∈ w.region ∧ a' ∈ w'.region := by
    rintro w w' _ _ hw ⟨i, hi, rfl, rfl⟩
    unfold View.region
    exact ⟨List.mem_map.mpr ⟨i, List.mem_range.mpr hi, rfl⟩, List.mem_map.mpr ⟨i, List.mem_range.mpr (by omega), rfl⟩⟩
  rcases h with h | h <;> rcases h' with h' | h'
  · exact samePlace_inj hv hv' hl h h'
  · constructor <;> rintro rfl
    · exact (hf _ (hm hbl h').1 (hm hl h).1).elim
    · exact (hf' _ (hm hbl h').2 (hm hl h).2).elim
  · constructor <;> rintro rfl
    · exact (hf _ (hm hbl h).1 (hm hl h').1).elim
    · exact (hf' _ (hm hbl h).2 (hm hl h').2).elim
  · exact samePlace_inj hb hb' hbl h h'

/-- For arrays `v`, `v'` with buffers `b`, `b'`. -/
theorem SameOrder.sameRunsBuf (h : SameOrder st st' o o' g) {b b' : View} (hv : v.WF) (hv' : v'.WF) (hl : v.len = v'.len) (hb : b.WF) (hb' : b'.WF)
    (hbl : b.len = b'.len) (hf : Fresh v b) (hf' : Fresh v' b') {p : Prog α (st.Q α κ) (st.A κ) β} {p' : Prog α' (st'.Q α' κ') (st'.A κ') β'}
    {R : β → β' → Prop}
    (hp : ∀ D : Sim α (st.Q α κ) (st.A κ) σ α' (st'.Q α' κ') (st'.A κ') σ, D.LessRel (st.less (κ := κ)) (st'.less (κ := κ')) → D.VRel v v' →
      D.VRel b b' → D.P p p' R) (he : s.env = s'.env)
    (hm : v'.contents s'.mem = (v.contents s.mem).map g) (hmb : b'.contents s'.mem = (b.contents s.mem).map g) :
    SameRuns g o o' v v' p p' s s' R := by
  obtain ⟨h1, h2, h3⟩ := h.runs (A := fun x y => SamePlace v v' x y ∨ SamePlace b b' x y)
    (inj := samePlaces_inj hv hv' hl hb hb' hbl hf hf') (G := fun _ _ => True) (sub := fun _ _ _ => trivial)
    (hp _ h.less ⟨hl, fun i hi => .inl ⟨i, by omega, rfl, rfl⟩, trivial⟩ ⟨hbl, fun i hi => .inr ⟨i, by omega, rfl, rfl⟩, trivial⟩) he
    (fun x y hxy => hxy.elim ((contents_map_iff hl).mp hm x y) ((contents_map_iff hbl).mp hmb x y))
  exact ⟨h1, (contents_map_iff hl).mpr fun x y hxy => h2 x y (.inl hxy), h3⟩

/-- C49 for `sort*`, for buffers whose initial contents correspond (for consistent comparators `sort_sorts` determines the result for all buffers). -/
theorem sort_natural (h : SameOrder st st' o o' g) (al : Alloc) (heap heap' : Addr) (hv : v.WF) (hv' : v'.WF) (hl : v.len = v'.len)
    (hf : Fresh v ⟨heap, 1, v.len / 2⟩) (hf' : Fresh v' ⟨heap', 1, v'.len / 2⟩) (he : s.env = s'.env)
    (hm : v'.contents s'.mem = (v.contents s.mem).map g)
    (hmb : View.contents ⟨heap', 1, v'.len / 2⟩ s'.mem = (View.contents ⟨heap, 1, v.len / 2⟩ s.mem).map g) :
    SameRuns g o o' v v' (sortStable st cfg v al heap) (sortStable st' cfg v' al heap') s s' Eq :=
  h.sameRunsBuf hv hv' hl (.inl (show (1 : Int) ≠ 0 by decide)) (.inl (show (1 : Int) ≠ 0 by decide)) (congrArg (· / 2) hl) hf hf' (fun _ h1 h2 h3 => Sim.stableSort_sim h1 h2 h3) he hm hmb

/-- C49 for `par_sort*`, tasks running one after the other. -/
theorem par_sort_natural (h : SameOrder st st' o o' g) (heap heap' : Addr) (hv : v.WF) (hv' : v'.WF) (hl : v.len = v'.len)
    (hf : Fresh v ⟨heap, 1, v.len⟩) (hf' : Fresh v' ⟨heap', 1, v'.len⟩) (he : s.env = s'.env)
    (hm : v'.contents s'.mem = (v.contents s.mem).map g)
    (hmb : View.contents ⟨heap', 1, v'.len⟩ s'.mem = (View.contents ⟨heap, 1, v.len⟩ s.mem).map g) :
    SameRuns g o o' v v' (parSortStable st cfg v heap) (parSortStable st' cfg v' heap') s s' Eq :=
  h.sameRunsBuf (b := ⟨heap, 1, v.len⟩) (b' := ⟨heap', 1, v'.len⟩) hv hv' hl (.inl (show (1 : Int) ≠ 0 by decide)) (.inl (show (1 : Int) ≠ 0 by decide))
    hl hf hf' (fun _ h1 h2 h3 => Sim.parMergeSort_sim h1 h2 h3 rfl) he hm hmb

end

/-! ### C46: the layout does not matter -/

section

variable {v v' : View} {cfg : Cfg} {st : Style} {s s' : St α (st.Q α κ) (st.A κ) σ}

theorem SameOrder.refl (st : Style) (o : Oracle σ (st.Q α κ) (st.A κ)) : SameOrder st st o o (fun x => x) := ⟨fun _ _ _ => rfl, fun _ => rfl⟩

/-- Runs on two arrays with any user code: both end in the same way (results related by `R`), with the same contents and the same calls of user code. -/
def SameOn (o : Oracle σ (st.Q α κ) (st.A κ)) (v v' : View) (p p' : Prog α (st.Q α κ) (st.A κ) β)
    (s s' : St α (st.Q α κ) (st.A κ) σ) (R : β → β → Prop) : Prop :=
  OutRel R (run o p s).1 (run o p' s').1 ∧ v.contents (run o p s).2.mem = v'.contents (run o p' s').2.mem ∧
    (run o p s).2.env = (run o p' s').2.env ∧ ∃ ps d d', (run o p s).2.log = s.log ++ d ∧ (run o p' s').2.log = s'.log ++ d' ∧
      Compares st ps d ∧ Compares st ps d'

theorem SameRuns.sameOn {o : Oracle σ (st.Q α κ) (st.A κ)} {p p' : Prog α (st.Q α κ) (st.A κ) β} {R : β → β → Prop}
    (h : SameRuns (fun x => x) o o v v' p p' s s' R) : SameOn o v v' p p' s s' R := by
  obtain ⟨h1, h2, h3, ps, d, d', h4, h5, h6, h7⟩ := h
  rw [List.map_id'] at h2
  rw [List.map_id'] at h7
  exact ⟨h1, h2.symm, h3, ps, d, d', h4, h5, h6, h7⟩

/-- C46 for `sort_unstable*`: the final contents depend on the initial contents (and on user code) only, not on where and how the array is laid
out, nor on the rest of the memory, nor on earlier calls. -/
theorem sort_unstable_layout (o : Oracle σ (st.Q α κ) (st.A κ)) (hv : v.WF) (hv' : v'.WF) (he : s.env = s'.env)
    (hm : v.contents s.mem = v'.contents s'.mem) : SameOn o v v' (sortUnstable st cfg v) (sortUnstable st cfg v') s s' Eq := by
  have hl : v.len = v'.len := by have := congrArg List.length hm; rwa [View.contents_length, View.contents_length] at this
  exact (sort_unstable_natural (.refl st o) hv hv' hl he (by rw [List.map_id', hm])).sameOn

/-- C46 for `select_nth_unstable*`. -/
theorem select_nth_layout (o : Oracle σ (st.Q α κ) (st.A κ)) (hv : v.WF) (hv' : v'.WF) (he : s.env = s'.env)
    (hm : v.contents s.mem = v'.contents s'.mem) (k : Nat) :
    SameOn o v v' (selectNthUnstable st cfg v k) (selectNthUnstable st cfg v' k) s s'
      (fun r r' => SamePart v v' r.1 r'.1 ∧ SamePlace v v' r.2.1 r'.2.1 ∧ SamePart v v' r.2.2 r'.2.2) := by
  have hl : v.len = v'.len := by have := congrArg List.length hm; rwa [View.contents_length, View.contents_length] at this
  exact (select_nth_natural (.refl st o) hv hv' hl he (by rw [List.map_id', hm]) k).sameOn

/-- C46 for `select_many_nth_unstable*`. -/
theorem select_many_layout (o : Oracle σ (st.Q α κ) (st.A κ)) (hv : v.WF) (hv' : v'.WF) (he : s.env = s'.env)
    (hm : v.contents s.mem = v'.contents s'.mem) (is : List Nat) :
    SameOn o v v' (selectManyNthUnstable st cfg v is) (selectManyNthUnstable st cfg v' is) s s' (SameRefs v v') := by
  have hl : v.len = v'.len := by have := congrArg List.length hm; rwa [View.contents_length, View.contents_length] at this
  exact (select_many_natural (.refl st o) hv hv' hl he (by rw [List.map_id', hm]) is).sameOn

/-- C46 for `par_sort_unstable*`: all schedules on both arrays, with pure user code. -/
theorem par_sort_unstable_layout (f : st.Q α κ → Option (st.A κ)) (c : Bool) (hz : cfg.zst = true → Subsingleton α) (hv : v.WF) (hv' : v'.WF)
    {s s' t t' : St α (st.Q α κ) (st.A κ) Unit} (hm : v.contents s.mem = v'.contents s'.mem) {q q' r r'}
    (ht : Steps (.pure f c) (parSortUnstable st cfg v) s q t) (hq : Ended q r)
    (ht' : Steps (.pure f c) (parSortUnstable st cfg v') s' q' t') (hq' : Ended q' r') :
    r.toOut = r'.toOut ∧ v.contents t.mem = v'.contents t'.mem := by
  have hl : v.len = v'.len := by have := congrArg List.length hm; rwa [View.contents_length, View.contents_length] at this
  obtain ⟨h1, h2, -⟩ := (par_sort_unstable_natural (cfg := cfg) (.refl st (.pure f c)) hv hv' hl (s := s) (s' := s') rfl (by rw [List.map_id', hm])).sameOn
  obtain ⟨h3, h4⟩ := par_sort_unstable_deterministic f c hz hv s _ _ _ ht hq
  obtain ⟨h5, h6⟩ := par_sort_unstable_deterministic f c hz hv' s' _ _ _ ht' hq'
  rw [h3, h5] at h1
  rw [h4, h6] at h2
  refine ⟨?_, h2⟩
  generalize r.toOut = x at h1
  generalize r'.toOut = y at h1
  cases h1 with
  | ok h => rw [h]
  | panic => rfl
  | ub => rfl
  | diverge => rfl

end

/-! ### C44: the three flavours -/

section

variable {v : View} {cfg : Cfg} {st st' : Style} {o : Oracle σ (st.Q α κ) (st.A κ)} {o' : Oracle σ (st'.Q α κ') (st'.A κ')}

/-- From the same memory and state of user code, both programs end in the same way, with the same result, memory and state of user code, and the
calls of user code are those of the same comparisons. -/
def SameBehaviour (o : Oracle σ (st.Q α κ) (st.A κ)) (o' : Oracle σ (st'.Q α κ') (st'.A κ')) (p : Prog α (st.Q α κ) (st.A κ) β)
    (p' : Prog α (st'.Q α κ') (st'.A κ') β) : Prop :=
  ∀ (m : Mem α) (e : σ), (run o p ⟨m, e, []⟩).1 = (run o' p' ⟨m, e, []⟩).1 ∧
    (run o p ⟨m, e, []⟩).2.mem = (run o' p' ⟨m, e, []⟩).2.mem ∧ (run o p ⟨m, e, []⟩).2.env = (run o' p' ⟨m, e, []⟩).2.env ∧
    ∃ ps, Compares st ps (run o p ⟨m, e, []⟩).2.log ∧ Compares st' ps (run o' p' ⟨m, e, []⟩).2.log

theorem SameOrder.behaviour (h : SameOrder st st' o o' (fun x => x)) {p : Prog α (st.Q α κ) (st.A κ) β} {p' : Prog α (st'.Q α κ') (st'.A κ') β}
    (R : Sim α (st.Q α κ) (st.A κ) σ α (st'.Q α κ') (st'.A κ') σ → β → β → Prop)
    (hp : ∀ D : Sim α (st.Q α κ) (st.A κ) σ α (st'.Q α κ') (st'.A κ') σ, D.LessRel (st.less (κ := κ)) (st'.less (κ := κ')) → (∀ v, D.VRel v v) →
      D.P p p' (R D))
    (hR : ∀ D : Sim α (st.Q α κ) (st.A κ) σ α (st'.Q α κ') (st'.A κ') σ, (∀ a b, D.A a b → a = b) → (∀ v w, D.VRel v w → v = w) →
      ∀ x y, R D x y → x = y) :
    SameBehaviour o o' p p' := by
  intro m e
  have hi : ∀ {a b a' b' : Addr}, a = b → a' = b' → (a' = a ↔ b' = b) := by
    rintro a _ a' _ rfl rfl
    exact Iff.rfl
  have hs : ∀ {v w : View}, v = w → ∀ i n, v.sub i n = w.sub i n := by
    rintro v _ rfl _ _
    rfl
  obtain ⟨h1, h2, h3, ps, d, d', h4, h5, h6, h7⟩ := h.runs (A := Eq) (inj := hi) (G := Eq) (sub := hs)
    (s := ⟨m, e, []⟩) (s' := ⟨m, e, []⟩) (hp _ h.less fun v => ⟨rfl, fun _ _ => rfl, rfl⟩) rfl (by rintro a _ rfl; rfl)
  rw [List.map_id'] at h7
  rw [List.nil_append] at h4 h5
  refine ⟨?_, (funext fun a => (h2 a a rfl)).symm, h3, ps, h4 ▸ h6, h5 ▸ h7⟩
  have hR := hR (h.sim Eq hi Eq hs [] []) (fun _ _ h => h) (fun _ _ h => h.geo)
  generalize (run o p ⟨m, e, []⟩).1 = x at h1
  generalize (run o' p' ⟨m, e, []⟩).1 = y at h1
  cases h1 with
  | ok h => rw [hR _ _ h]
  | panic => rfl
  | ub => rfl
  | diverge => rfl

/-- C44 for `sort`, `sort_by`, `sort_by_key`. -/
theorem sort_variants (h : SameOrder st st' o o' (fun x => x)) (al : Alloc) (heap : Addr) :
    SameBehaviour o o' (sortStable st cfg v al heap) (sortStable st' cfg v al heap) :=
  h.behaviour (fun _ => Eq) (fun _ h1 h2 => Sim.stableSort_sim h1 (h2 _) (h2 _)) fun _ _ _ _ _ h => h

/-- C44 for `sort_unstable`, `sort_unstable_by`, `sort_unstable_by_key`. -/
theorem sort_unstable_variants (h : SameOrder st st' o o' (fun x => x)) : SameBehaviour o o' (sortUnstable st cfg v) (sortUnstable st' cfg v) :=
  h.behaviour (fun _ => Eq) (fun _ h1 h2 => Sim.quickSort_sim h1 (h2 _)) fun _ _ _ _ _ h => h

/-- C44 for `select_nth_unstable`, `select_nth_unstable_by`, `select_nth_unstable_by_key`. -/
theorem select_nth_variants (h : SameOrder st st' o o' (fun x => x)) (k : Nat) :
    SameBehaviour o o' (selectNthUnstable st cfg v k) (selectNthUnstable st' cfg v k) :=
  h.behaviour (fun D => Sim.ProdR D.VRel (Sim.ProdR D.A D.VRel)) (fun _ h1 h2 => Sim.partitionAtIndex_sim h1 (h2 _))
    fun _ hA hV ⟨_, _, _⟩ ⟨_, _, _⟩ ⟨h1, h2, h3⟩ => by
      rw [Prod.mk.injEq, Prod.mk.injEq]
      exact ⟨hV _ _ h1, hA _ _ h2, hV _ _ h3⟩

theorem refs_eq {D : Sim α (st.Q α κ) (st.A κ) σ α (st'.Q α κ') (st'.A κ') σ} (hA : ∀ a b, D.A a b → a = b) :
    ∀ r r' : List (Nat × Addr), D.RefsR r r' → r = r'
  | [], [], _ => rfl
  | [], _ :: _, h => h.elim
  | _ :: _, [], h => h.elim
  | (_, _) :: r, (_, _) :: r', ⟨h1, h2, h3⟩ => by rw [h1, hA _ _ h2, refs_eq hA r r' h3]

/-- C44 for `select_many_nth_unstable`, `select_many_nth_unstable_by`, `select_many_nth_unstable_by_key`. -/
theorem select_many_variants (h : SameOrder st st' o o' (fun x => x)) (is : List Nat) :
    SameBehaviour o o' (selectManyNthUnstable st cfg v is) (selectManyNthUnstable st' cfg v is) :=
  h.behaviour (fun D => D.RefsR) (fun _ h1 h2 => Sim.selectMany_sim h1 (h2 _)) fun _ hA _ => refs_eq hA

/-- C44 for `par_sort`, `par_sort_by`, `par_sort_by_key`, tasks running one after the other. -/
theorem par_sort_variants (h : SameOrder st st' o o' (fun x => x)) (heap : Addr) :
    SameBehaviour o o' (parSortStable st cfg v heap) (parSortStable st' cfg v heap) :=
  h.behaviour (fun _ => Eq) (fun _ h1 h2 => Sim.parMergeSort_sim h1 (h2 _) (h2 _) rfl) fun _ _ _ _ _ h => h

/-- C44 for `par_sort_unstable`, `par_sort_unstable_by`, `par_sort_unstable_by_key`, tasks running one after the other. -/
theorem par_sort_unstable_variants (h : SameOrder st st' o o' (fun x => x)) :
    SameBehaviour o o' (parSortUnstable st cfg v) (parSortUnstable st' cfg v) :=
  h.behaviour (fun _ => Eq) (fun _ h1 h2 => Sim.parQuickSort_sim h1 (h2 _)) fun _ _ _ _ _ h => h

/-- C44 for `par_select_many_nth_unstable`, `par_select_many_nth_unstable_by`, `par_select_many_nth_unstable_by_key`, tasks running one after the
other. -/
theorem par_select_many_variants (h : SameOrder st st' o o' (fun x => x)) (is : List Nat) (extra : Nat) :
    SameBehaviour o o' (parSelectManyNthUnstable st cfg v is extra) (parSelectManyNthUnstable st' cfg v is extra) :=
  h.behaviour (fun D => D.RefsR) (fun _ h1 h2 => Sim.parSelectMany_sim h1 (h2 _)) fun _ hA _ => refs_eq hA

/-- C44 for `par_sort_unstable*`: any schedules of both flavours, with pure user code. -/
theorem par_sort_unstable_variants_schedules {f : st.Q α κ → Option (st.A κ)} {f' : st'.Q α κ' → Option (st'.A κ')} {c : Bool}
    (h : SameOrder st st' (.pure f c) (.pure f' c) (fun x => x)) (hz : cfg.zst = true → Subsingleton α) (hv : v.WF) {m : Mem α} {q q' r r' t t'}
    (ht : Steps (.pure f c) (parSortUnstable st cfg v) ⟨m, (), []⟩ q t) (hq : Ended q r)
    (ht' : Steps (.pure f' c) (parSortUnstable st' cfg v) ⟨m, (), []⟩ q' t') (hq' : Ended q' r') : r.toOut = r'.toOut ∧ t.mem = t'.mem := by
  obtain ⟨h1, h2, -⟩ := par_sort_unstable_variants (cfg := cfg) (v := v) h m ()
  obtain ⟨h3, h4⟩ := par_sort_unstable_deterministic f c hz hv _ _ _ _ ht hq
  obtain ⟨h5, h6⟩ := par_sort_unstable_deterministic f' c hz hv _ _ _ _ ht' hq'
  exact ⟨by rw [← h3, h1, h5], by rw [← h4, h2, h6]⟩

/-- C44 for `par_select_many_nth_unstable*`: any schedules of both flavours, with pure user code. -/
theorem par_select_many_variants_schedules {f : st.Q α κ → Option (st.A κ)} {f' : st'.Q α κ' → Option (st'.A κ')} {c : Bool}
    (h : SameOrder st st' (.pure f c) (.pure f' c) (fun x => x)) (hz : cfg.zst = true → Subsingleton α) (hv : v.WF) (hb : 2 * v.len ≤ 2 ^ cfg.bits)
    (is : List Nat) (extra : Nat) {m : Mem α} {q q' r r' t t'}
    (ht : Steps (.pure f c) (parSelectManyNthUnstable st cfg v is extra) ⟨m, (), []⟩ q t) (hq : Ended q r)
    (ht' : Steps (.pure f' c) (parSelectManyNthUnstable st' cfg v is extra) ⟨m, (), []⟩ q' t') (hq' : Ended q' r') :
    r.toOut = r'.toOut ∧ t.mem = t'.mem := by
  obtain ⟨h1, h2, -⟩ := par_select_many_variants (cfg := cfg) (v := v) h is extra m ()
  obtain ⟨h3, h4⟩ := par_select_many_deterministic f c hz hv hb is extra _ _ _ _ ht hq
  obtain ⟨h5, h6⟩ := par_select_many_deterministic f' c hz hv hb is extra _ _ _ _ ht' hq'
  exact ⟨by rw [← h3, h1, h5], by rw [← h4, h2, h6]⟩

/-- The closure `|a, b| f(a).cmp(&f(b))` for `x_by`, where `f` and the order of keys are the user code of `x_by_key` (of which only "less" is known). -/
def viaKey (o : Oracle σ (KeyQ α κ) (κ × Bool)) : Oracle σ (α × α) Ordering where
  ask e q := match decides .key o e q.1 q.2 with
    | (b, e) => (b.map fun b => if b then .lt else .gt, e)
  flip := o.flip

theorem sameOrder_viaKey (o : Oracle σ (KeyQ α κ) (κ × Bool)) : SameOrder (κ := κ) .cmp .key (viaKey o) o (fun x => x) := by
  refine ⟨fun e x y => ?_, fun _ => rfl⟩
  show (((viaKey o).ask e (x, y)).1.map fun c : Ordering => c == .lt, ((viaKey o).ask e (x, y)).2) = decides .key o e x y
  unfold viaKey
  dsimp only
  rcases decides .key o e x y with ⟨_ | _ | _, e⟩ <;> rfl

/-- The closure `|a, b| a.cmp(b)` for `x_by`, for a type whose `cmp` agrees with the `lt` used by `x`. -/
def viaOrd (o : Oracle σ (α × α) Bool) : Oracle σ (α × α) Ordering where
  ask e q := ((o.ask e q).1.map fun b => if b then .lt else .gt, (o.ask e q).2)
  flip := o.flip

theorem sameOrder_viaOrd (o : Oracle σ (α × α) Bool) : SameOrder (κ := κ) (κ' := κ') .cmp .ord (viaOrd o) o (fun x => x) := by
  refine ⟨fun e x y => ?_, fun _ => rfl⟩
  show (((viaOrd o).ask e (x, y)).1.map fun c : Ordering => c == .lt, ((viaOrd o).ask e (x, y)).2) = o.ask e (x, y)
  unfold viaOrd
  dsimp only
  rcases o.ask e (x, y) with ⟨_ | _ | _, e⟩ <;> rfl

end

/-! ### The hypotheses can be met -/

/-- A descending copy of the sample somewhere else. -/
def Sample.view' : View := ⟨-5, 3, 60⟩

def Sample.mem' : Mem Nat := fun a => Sample.mem (200 - 2 * ((a + 5) / 3))

theorem Sample.mem'_contents : Sample.view.contents Sample.mem = Sample.view'.contents Sample.mem' := by decide

example (st : Style) := sort_unstable_layout (cfg := Sample.cfg) (s := Sample.nstate st) (s' := ⟨Sample.mem', 0, []⟩) (v' := Sample.view') (Sample.nonsense st) Sample.wf
  (.inl (by decide)) rfl Sample.mem'_contents
example (st : Style) := select_nth_layout (cfg := Sample.cfg) (s := Sample.nstate st) (s' := ⟨Sample.mem', 0, []⟩) (v' := Sample.view') (Sample.nonsense st) Sample.wf
  (.inl (by decide)) rfl Sample.mem'_contents 17
example (st : Style) := select_many_layout (cfg := Sample.cfg) (s := Sample.nstate st) (s' := ⟨Sample.mem', 0, []⟩) (v' := Sample.view') (Sample.nonsense st) Sample.wf
  (.inl (by decide)) rfl Sample.mem'_contents [3, 17, 40]

/-- Comparing doubled elements modulo halving them. -/
theorem Sample.sameOrder : SameOrder (κ := Nat) (κ' := Nat) .ord .key (Sample.oracle .ord) (Sample.oracle .key) (fun x => 2 * x) := by
  refine ⟨fun e x y => ?_, fun _ => rfl⟩
  show (some (Sample.lt x y), ()) = (some (Sample.lt (2 * x) (2 * y)), ())
  have : Sample.lt x y = Sample.lt (2 * x) (2 * y) := by
    unfold Sample.lt
    exact decide_eq_decide.mpr (by omega)
  rw [this]

example := sort_unstable_natural (cfg := Sample.cfg) (v := Sample.view) (v' := Sample.view') (s := Sample.state .ord)
  (s' := ⟨fun a => 2 * Sample.mem' a, (), []⟩) Sample.sameOrder Sample.wf (.inl (by decide)) rfl rfl (by decide)
example := par_sort_unstable_natural (cfg := Sample.cfg) (v := Sample.view) (v' := Sample.view') (s := Sample.state .ord)
  (s' := ⟨fun a => 2 * Sample.mem' a, (), []⟩) Sample.sameOrder Sample.wf (.inl (by decide)) rfl rfl (by decide)
example := select_nth_natural (cfg := Sample.cfg) (v := Sample.view) (v' := Sample.view') (s := Sample.state .ord)
  (s' := ⟨fun a => 2 * Sample.mem' a, (), []⟩) Sample.sameOrder Sample.wf (.inl (by decide)) rfl rfl (by decide) 17
example := select_many_natural (cfg := Sample.cfg) (v := Sample.view) (v' := Sample.view') (s := Sample.state .ord)
  (s' := ⟨fun a => 2 * Sample.mem' a, (), []⟩) Sample.sameOrder Sample.wf (.inl (by decide)) rfl rfl (by decide) [3, 17]
example := par_select_many_natural (cfg := Sample.cfg) (v := Sample.view) (v' := Sample.view') (s := Sample.state .ord)
  (s' := ⟨fun a => 2 * Sample.mem' a, (), []⟩) Sample.sameOrder Sample.wf (.inl (by decide)) rfl rfl (by decide) [3, 17] 1
example := sort_natural (cfg := Sample.cfg) (v := Sample.view) (v' := Sample.view') (s := Sample.state .ord)
  (s' := ⟨fun a => if 1000 ≤ a then 2 * Sample.mem a else 2 * Sample.mem' a, (), []⟩) Sample.sameOrder ⟨true, fun _ => true⟩ 1000 1000 Sample.wf (.inl (by decide))
  rfl (by unfold Fresh; decide) (by unfold Fresh; decide) rfl (by decide) (by decide)
example := par_sort_natural (cfg := Sample.cfg) (v := Sample.view) (v' := Sample.view') (s := Sample.state .ord)
  (s' := ⟨fun a => if 1000 ≤ a then 2 * Sample.mem a else 2 * Sample.mem' a, (), []⟩) Sample.sameOrder 1000 1000 Sample.wf (.inl (by decide))
  rfl (by unfold Fresh; decide) (by unfold Fresh; decide) rfl (by decide) (by decide)

example := sort_variants (cfg := Sample.cfg) (v := Sample.view) (sameOrder_viaKey (Sample.nonsense .key)) ⟨true, fun _ => true⟩ 1000
example := sort_unstable_variants (cfg := Sample.cfg) (v := Sample.view) (sameOrder_viaKey (Sample.nonsense .key))
example := select_nth_variants (cfg := Sample.cfg) (v := Sample.view) (sameOrder_viaKey (Sample.nonsense .key)) 17
example := select_many_variants (cfg := Sample.cfg) (v := Sample.view) (sameOrder_viaOrd (κ := Nat) (κ' := Nat) (Sample.nonsense .ord)) [3, 17]
example := par_sort_variants (cfg := Sample.cfg) (v := Sample.view) (sameOrder_viaKey (Sample.nonsense .key)) 1000
example := par_sort_unstable_variants (cfg := Sample.cfg) (v := Sample.view) (sameOrder_viaKey (Sample.nonsense .key))
example := par_select_many_variants (cfg := Sample.cfg) (v := Sample.view) (sameOrder_viaOrd (κ := Nat) (κ' := Nat) (Sample.nonsense .ord)) [3, 17] 1

end NdSlice
