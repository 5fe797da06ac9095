import Verif.Proof.SimSearch
import Verif.Props.Relational

/-
C44 for `is_sorted*`, `binary_search*` and `partition_dedup*`: the flavours behave in the same way, for arbitrary user code.
-/

namespace NdSlice

variable {α κ κ' ι ω ι' ω' σ β : Type}

/-- From the same memory and state of user code, both programs end in the same way, with the same result, memory and state of user code; the
calls of user code come in blocks, and corresponding blocks are related by `K`. -/
def SameUnder (K : List (ι × Option ω) → List (ι' × Option ω') → Prop) (o : Oracle σ ι ω) (o' : Oracle σ ι' ω') (p : Prog α ι ω β)
    (p' : Prog α ι' ω' β) : Prop :=
  ∀ (m : Mem α) (e : σ), (run o p ⟨m, e, []⟩).1 = (run o' p' ⟨m, e, []⟩).1 ∧
    (run o p ⟨m, e, []⟩).2.mem = (run o' p' ⟨m, e, []⟩).2.mem ∧ (run o p ⟨m, e, []⟩).2.env = (run o' p' ⟨m, e, []⟩).2.env ∧
    ∃ ds : List (List (ι × Option ω) × List (ι' × Option ω')), (∀ d ∈ ds, K d.1 d.2) ∧
      (run o p ⟨m, e, []⟩).2.log = (ds.map (·.1)).flatten ∧ (run o' p' ⟨m, e, []⟩).2.log = (ds.map (·.2)).flatten

/-- The simulation for it: equal addresses, views and elements. -/
def blockSim (K : List (ι × Option ω) → List (ι' × Option ω') → Prop) (o : Oracle σ ι ω) (o' : Oracle σ ι' ω') (hf : ∀ e, o.flip e = o'.flip e) :
    Sim α ι ω σ α ι' ω' σ where
  o₁ := o
  o₂ := o'
  A := Eq
  inj := by rintro a _ a' _ rfl rfl; exact Iff.rfl
  G := Eq
  sub := by rintro v _ rfl _ _; rfl
  V := Eq
  S e l e' l' := e = e' ∧ ∃ ds : List (List (ι × Option ω) × List (ι' × Option ω')), (∀ d ∈ ds, K d.1 d.2) ∧ l = (ds.map (·.1)).flatten ∧
    l' = (ds.map (·.2)).flatten
  flip := by
    rintro e _ _ _ ⟨rfl, h⟩
    rw [hf e]
    exact ⟨rfl, rfl, h⟩

theorem blockSim_same {K : List (ι × Option ω) → List (ι' × Option ω') → Prop} {o : Oracle σ ι ω} {o' : Oracle σ ι' ω'}
    {hf : ∀ e, o.flip e = o'.flip e} {p : Prog α ι ω β} {p' : Prog α ι' ω' β} {R : β → β → Prop} (h : (blockSim K o o' hf).P p p' R)
    (hR : ∀ x y, R x y → x = y) : SameUnder K o o' p p' := by
  intro m e
  obtain ⟨h1, h2, h3, ds, h4, h5, h6⟩ := h ⟨m, e, []⟩ ⟨m, e, []⟩ ⟨fun a b h => congrArg m h, rfl, [], by simp, rfl, rfl⟩
  refine ⟨?_, funext fun a => h2 a a rfl, h3, ds, h4, h5, h6⟩
  change OutRel R (run o p ⟨m, e, []⟩).1 (run o' p' ⟨m, e, []⟩).1 at h1
  generalize (run o p ⟨m, e, []⟩).1 = x at h1
  generalize (run o' p' ⟨m, e, []⟩).1 = y at h1
  cases h1 with
  | ok h => rw [hR _ _ h]
  | panic => rfl
  | ub => rfl
  | diverge => rfl

/-- One block of calls. -/
theorem blockSim_call {K : List (ι × Option ω) → List (ι' × Option ω') → Prop} {o : Oracle σ ι ω} {o' : Oracle σ ι' ω'}
    {hf : ∀ e, o.flip e = o'.flip e} {p : Prog α ι ω β} {p' : Prog α ι' ω' β}
    (h : ∀ m e l l', ∃ (r : Out β) (t : Mem α × σ) (d : List (ι × Option ω)) (d' : List (ι' × Option ω')), K d d' ∧ run o p ⟨m, e, l⟩ = (r, ⟨t.1, t.2, l ++ d⟩) ∧ run o' p' ⟨m, e, l'⟩ = (r, ⟨t.1, t.2, l' ++ d'⟩)) :
    (blockSim K o o' hf).P p p' Eq := by
  rintro ⟨m, e, _⟩ ⟨m', _, _⟩ ⟨hm, rfl, ds, h1, rfl, rfl⟩
  obtain rfl : m = m' := funext fun a => hm a a rfl
  obtain ⟨r, t, d, d', hK, h2, h3⟩ := h m e (ds.map (·.1)).flatten (ds.map (·.2)).flatten
  change OutRel Eq (run o p _).1 (run o' p' _).1 ∧ (blockSim K o o' hf).Rel (run o p _).2 (run o' p' _).2
  rw [h2, h3]
  refine ⟨?_, fun a b h => congrArg t.1 h, rfl, ds ++ [(d, d')], ?_, ?_, ?_⟩
  · cases r with
    | ok => exact .ok rfl
    | panic => exact .panic _
    | ub => exact .ub
    | diverge => exact .diverge
  · intro x hx
    rcases List.mem_append.mp hx with hx | hx
    · exact h1 x hx
    · rw [List.mem_singleton.mp hx]
      exact hK
  · simp
  · simp

/-! ### `is_sorted*` -/

/-- What user code in state `e` says when asked whether `x` may be before `y`. -/
def relDecides : (st : RelStyle) → Oracle σ (st.Q α κ) (st.A κ) → σ → α → α → Option Bool × σ
  | .rel, o, e, x, y => o.ask e (x, y)
  | .key, o, e, x, y => match o.ask e (KeyQ.key x) with
    | (none, e) => (none, e)
    | (some k, e) => match o.ask e (KeyQ.key y) with
      | (none, e) => (none, e)
      | (some l, e) => ((o.ask e (KeyQ.lt k.1 l.1)).1.map (·.2), (o.ask e (KeyQ.lt k.1 l.1)).2)

/-- One call for the pair, or two calls for keys and one for their comparison, up to the first panic. -/
def RelAsked : (st : RelStyle) → α → α → List (st.Q α κ × Option (st.A κ)) → Prop
  | .rel, x, y, d => ∃ a, d = [((x, y), a)]
  | .key, x, y, d => d = [(KeyQ.key x, none)] ∨ (∃ k, d = [(KeyQ.key x, some k), (KeyQ.key y, none)]) ∨
      ∃ k l b, d = [(KeyQ.key x, some k), (KeyQ.key y, some l), (KeyQ.lt k.1 l.1, b)]

theorem run_test (st : RelStyle) (o : Oracle σ (st.Q α κ) (st.A κ)) (x y : α) (s : St α (st.Q α κ) (st.A κ) σ) :
    ∃ d, RelAsked st x y d ∧ run o (st.test x y) s =
      (match (relDecides st o s.env x y).1 with
        | none => .panic .user
        | some b => .ok b, ⟨s.mem, (relDecides st o s.env x y).2, s.log ++ d⟩) := by
  cases st with
  | rel =>
    refine ⟨[((x, y), (o.ask s.env (x, y)).1)], ⟨_, rfl⟩, ?_⟩
    unfold RelStyle.test relDecides
    simp only [run]
    cases (o.ask s.env (x, y)).1 <;> rfl
  | key =>
    unfold RelStyle.test relDecides
    simp only [run]
    rcases o.ask s.env (KeyQ.key x) with ⟨_ | k, e⟩
    · exact ⟨_, .inl rfl, rfl⟩
    · dsimp only
      simp only [run]
      rcases o.ask e (KeyQ.key y) with ⟨_ | l, e⟩
      · refine ⟨_, .inr (.inl ⟨k, rfl⟩), ?_⟩
        simp [run]
        rfl
      · dsimp only
        simp only [run]
        refine ⟨_, .inr (.inr ⟨k, l, (o.ask e (KeyQ.lt k.1 l.1)).1, rfl⟩), ?_⟩
        cases (o.ask e (KeyQ.lt k.1 l.1)).1 <;> simp [run] <;> rfl

/-- C44 for `is_sorted`, `is_sorted_by` and `is_sorted_by_key`: same answer, and the same neighbours are compared. -/
theorem is_sorted_variants {st st' : RelStyle} {o : Oracle σ (st.Q α κ) (st.A κ)} {o' : Oracle σ (st'.Q α κ') (st'.A κ')}
    (h : ∀ e x y, relDecides st o e x y = relDecides st' o' e x y) (hf : ∀ e, o.flip e = o'.flip e) (v : View) :
    SameUnder (fun d d' => ∃ x y, RelAsked st x y d ∧ RelAsked st' x y d') o o' (isSorted st v) (isSorted st' v) := by
  refine blockSim_same (hf := hf) (Sim.isSortedBy_sim ⟨?_⟩ ⟨rfl, fun _ _ => rfl, rfl⟩) fun _ _ h => h
  rintro x _ y _ rfl rfl
  refine blockSim_call fun m e l l' => ?_
  obtain ⟨d, hd, hr⟩ := run_test st o x y ⟨m, e, l⟩
  obtain ⟨d', hd', hr'⟩ := run_test st' o' x y ⟨m, e, l'⟩
  dsimp only at hr hr'
  rw [← h] at hr'
  exact ⟨_, (m, _), d, d', ⟨x, y, hd, hd'⟩, hr, hr'⟩

/-! ### `binary_search*` -/

/-- What user code in state `e` says about the element `x` when `t` is searched for. -/
def searchDecides : (st : SearchStyle) → Oracle σ (st.Q α κ) (st.A κ) → st.T α κ → σ → α → Option Ordering × σ
  | .ord, o, t, e, x => o.ask e (x, t)
  | .fn, o, _, e, x => o.ask e x
  | .key, o, t, e, x => match o.ask e (KeyQ.key x) with
    | (none, e) => (none, e)
    | (some k, e) => ((o.ask e (KeyQ.lt k.1 t)).1.map (·.2), (o.ask e (KeyQ.lt k.1 t)).2)

/-- One call for the element, or one for its key and one for the comparison with the searched key, up to the first panic. -/
def SearchAsked : (st : SearchStyle) → st.T α κ → α → List (st.Q α κ × Option (st.A κ)) → Prop
  | .ord, t, x, d => ∃ a, d = [((x, t), a)]
  | .fn, _, x, d => ∃ a, d = [(x, a)]
  | .key, t, x, d => d = [(KeyQ.key x, none)] ∨ ∃ k c, d = [(KeyQ.key x, some k), (KeyQ.lt k.1 t, c)]

theorem run_ask (st : SearchStyle) (o : Oracle σ (st.Q α κ) (st.A κ)) (t : st.T α κ) (x : α) (s : St α (st.Q α κ) (st.A κ) σ) :
    ∃ d, SearchAsked st t x d ∧ run o (st.ask t x) s =
      (match (searchDecides st o t s.env x).1 with
        | none => .panic .user
        | some b => .ok b, ⟨s.mem, (searchDecides st o t s.env x).2, s.log ++ d⟩) := by
  cases st with
  | ord =>
    refine ⟨[((x, t), (o.ask s.env (x, t)).1)], ⟨_, rfl⟩, ?_⟩
    unfold SearchStyle.ask searchDecides
    simp only [run]
    cases (o.ask s.env (x, t)).1 <;> rfl
  | fn =>
    refine ⟨[(x, (o.ask s.env x).1)], ⟨_, rfl⟩, ?_⟩
    unfold SearchStyle.ask searchDecides
    simp only [run]
    cases (o.ask s.env x).1 <;> rfl
  | key =>
    unfold SearchStyle.ask searchDecides
    simp only [run]
    rcases o.ask s.env (KeyQ.key x) with ⟨_ | k, e⟩
    · exact ⟨_, .inl rfl, rfl⟩
    · dsimp only
      simp only [run]
      refine ⟨_, .inr ⟨k, (o.ask e (KeyQ.lt k.1 t)).1, rfl⟩, ?_⟩
      cases (o.ask e (KeyQ.lt k.1 t)).1 <;> simp [run] <;> rfl

/-- C44 for `binary_search`, `binary_search_by` and `binary_search_by_key`: same answer, and the same elements are looked at. -/
theorem binary_search_variants {st st' : SearchStyle} {o : Oracle σ (st.Q α κ) (st.A κ)} {o' : Oracle σ (st'.Q α κ') (st'.A κ')} {t : st.T α κ}
    {t' : st'.T α κ'} (h : ∀ e x, searchDecides st o t e x = searchDecides st' o' t' e x) (hf : ∀ e, o.flip e = o'.flip e) (cfg : Cfg) (v : View) :
    SameUnder (fun d d' => ∃ x, SearchAsked st t x d ∧ SearchAsked st' t' x d') o o' (binarySearch st cfg v t) (binarySearch st' cfg v t') := by
  refine blockSim_same (hf := hf) (Sim.binarySearchBy_sim ?_ ⟨rfl, fun _ _ => rfl, rfl⟩) fun _ _ h => h
  rintro x _ rfl
  refine blockSim_call fun m e l l' => ?_
  obtain ⟨d, hd, hr⟩ := run_ask st o t x ⟨m, e, l⟩
  obtain ⟨d', hd', hr'⟩ := run_ask st' o' t' x ⟨m, e, l'⟩
  dsimp only at hr hr'
  rw [← h] at hr'
  exact ⟨_, (m, _), d, d', ⟨x, hd, hd'⟩, hr, hr'⟩

/-! ### `partition_dedup*` -/

/-- What user code in state `e` does when asked whether `x` and `y` are duplicates: what it leaves in their places, and its answer (`none`: it panics). -/
def dedupDecides : (st : DedupStyle) → Oracle σ (st.Q α κ) (st.A α κ) → σ → α → α → (α × α × Option Bool) × σ
  | .eq, o, e, x, y => ((x, y, (o.ask e (x, y)).1), (o.ask e (x, y)).2)
  | .fn, o, e, x, y => match o.ask e (x, y) with
    | (none, e) => ((x, y, none), e)
    | (some r, e) => (r, e)
  | .key, o, e, x, y => match o.ask e (KeyQ.key x) with
    | (none, e) => ((x, y, none), e)
    | (some (x, none, _), e) => ((x, y, none), e)
    | (some (x, some k, _), e) => match o.ask e (KeyQ.key y) with
      | (none, e) => ((x, y, none), e)
      | (some (y, none, _), e) => ((x, y, none), e)
      | (some (y, some l, _), e) => match o.ask e (KeyQ.lt k l) with
        | (none, e) => ((x, y, none), e)
        | (some r, e) => ((x, y, some r.2.2), e)

/-- One call for the pair, or two calls for keys and one for their comparison, up to the first panic. -/
def DedupAsked : (st : DedupStyle) → α → α → List (st.Q α κ × Option (st.A α κ)) → Prop
  | .eq, x, y, d => ∃ a, d = [((x, y), a)]
  | .fn, x, y, d => ∃ a, d = [((x, y), a)]
  | .key, x, y, d => (∃ a, d = [(KeyQ.key x, a)]) ∨ (∃ x' k b a, d = [(KeyQ.key x, some (x', some k, b)), (KeyQ.key y, a)]) ∨
      ∃ x' k b y' l c a, d = [(KeyQ.key x, some (x', some k, b)), (KeyQ.key y, some (y', some l, c)), (KeyQ.lt k l, a)]

theorem upd_self (m : Mem α) (a : Addr) : upd m a (m a) = m := by
  funext b
  unfold upd
  split
  · next h => rw [h]
  · rfl

theorem run_same (st : DedupStyle) (o : Oracle σ (st.Q α κ) (st.A α κ)) {a b : Addr} (hab : a ≠ b) (s : St α (st.Q α κ) (st.A α κ) σ) :
    ∃ d, DedupAsked st (s.mem a) (s.mem b) d ∧ run o (st.same a b) s =
      (match (dedupDecides st o s.env (s.mem a) (s.mem b)).1.2.2 with
        | none => .panic .user
        | some b => .ok b,
        ⟨upd (upd s.mem a (dedupDecides st o s.env (s.mem a) (s.mem b)).1.1) b (dedupDecides st o s.env (s.mem a) (s.mem b)).1.2.1,
          (dedupDecides st o s.env (s.mem a) (s.mem b)).2, s.log ++ d⟩) := by
  have hu : upd (upd s.mem a (s.mem a)) b (s.mem b) = s.mem := by rw [upd_self, upd_self]
  have hb : ∀ x, upd s.mem a x b = s.mem b := fun x => if_neg (Ne.symm hab)
  have hub : ∀ x, upd (upd s.mem a x) b (s.mem b) = upd s.mem a x := fun x => by
    conv_lhs => rw [← hb x]
    exact upd_self _ b
  cases st with
  | eq =>
    refine ⟨[((s.mem a, s.mem b), (o.ask s.env (s.mem a, s.mem b)).1)], ⟨_, rfl⟩, ?_⟩
    unfold DedupStyle.same dedupDecides
    simp only [run, hu]
    cases (o.ask s.env (s.mem a, s.mem b)).1 <;> rfl
  | fn =>
    refine ⟨[((s.mem a, s.mem b), (o.ask s.env (s.mem a, s.mem b)).1)], ⟨_, rfl⟩, ?_⟩
    unfold DedupStyle.same dedupDecides
    simp only [run]
    rcases o.ask s.env (s.mem a, s.mem b) with ⟨_ | ⟨x, y, _ | c⟩, e⟩
    · simp only [run, hu]
    · rfl
    · rfl
  | key =>
    unfold DedupStyle.same dedupDecides DedupStyle.askKey
    simp only [run, Prog.bind]
    rcases o.ask s.env (KeyQ.key (s.mem a)) with ⟨_ | ⟨x, _ | k, c⟩, e⟩
    · refine ⟨_, .inl ⟨none, rfl⟩, ?_⟩
      simp only [run, Prog.bind, hu]
      rfl
    · refine ⟨_, .inl ⟨some (x, none, c), rfl⟩, ?_⟩
      simp only [run, Prog.bind, hub]
      rfl
    · dsimp only
      simp only [run, Prog.bind, hb]
      rcases o.ask e (KeyQ.key (s.mem b)) with ⟨_ | ⟨y, _ | l, c'⟩, e⟩
      · refine ⟨_, .inr (.inl ⟨x, k, c, none, rfl⟩), ?_⟩
        simp [run, Prog.bind, hub]
        rfl
      · refine ⟨_, .inr (.inl ⟨x, k, c, some (y, none, c'), rfl⟩), ?_⟩
        simp [run, Prog.bind]
        rfl
      · dsimp only
        simp only [run, Prog.bind]
        refine ⟨_, .inr (.inr ⟨x, k, c, y, l, c', (o.ask e (KeyQ.lt k l)).1, rfl⟩), ?_⟩
        rcases o.ask e (KeyQ.lt k l) with ⟨_ | r, e⟩ <;> simp [run] <;> rfl

/-- C44 for `partition_dedup`, `partition_dedup_by` and `partition_dedup_by_key`: same parts, same final array (also with user code that changes the
elements), and the same pairs are compared. -/
theorem dedup_variants {st st' : DedupStyle} {o : Oracle σ (st.Q α κ) (st.A α κ)} {o' : Oracle σ (st'.Q α κ') (st'.A α κ')}
    (h : ∀ e x y, dedupDecides st o e x y = dedupDecides st' o' e x y) (hf : ∀ e, o.flip e = o'.flip e) (cfg : Cfg) {v : View} (hv : v.WF) :
    SameUnder (fun d d' => ∃ x y, DedupAsked st x y d ∧ DedupAsked st' x y d') o o' (partitionDedup st cfg v) (partitionDedup st' cfg v) := by
  refine blockSim_same (hf := hf) (Sim.partitionDedupBy_sim ⟨rfl, fun _ _ => rfl, rfl⟩ fun i j hij hi => ?_) fun _ _ h => ?_
  · refine blockSim_call fun m e l l' => ?_
    have hne : v.addr i ≠ v.addr j := fun h => by
      have := addr_inj hv hi (by omega) h
      omega
    obtain ⟨d, hd, hr⟩ := run_same st o hne ⟨m, e, l⟩
    obtain ⟨d', hd', hr'⟩ := run_same st' o' hne ⟨m, e, l'⟩
    dsimp only at hr hr'
    rw [← h] at hr'
    exact ⟨_, (_, _), d, d', ⟨_, _, hd, hd'⟩, hr, hr'⟩
  · exact Prod.ext h.1.geo h.2.geo

/-! ### The hypotheses can be met -/

/-- Pure user code for keys `x % 7`. -/
def Sample.relKey : Oracle Unit (KeyQ Nat Nat) (Nat × Bool) :=
  ⟨fun _ q => (some (match q with | .key x => (x % 7, true) | .lt k l => (0, decide (k ≤ l))), ()), fun n => (true, n)⟩
def Sample.relRel : Oracle Unit (Nat × Nat) Bool := ⟨fun _ q => (some (decide (q.1 % 7 ≤ q.2 % 7)), ()), fun n => (true, n)⟩

example := is_sorted_variants (st := .rel) (st' := .key) (κ := Nat) (κ' := Nat) (o := Sample.relRel) (o' := Sample.relKey) (fun _ _ _ => rfl) (fun _ => rfl) Sample.view

def Sample.searchKey : Oracle Unit (KeyQ Nat Nat) (Nat × Ordering) :=
  ⟨fun _ q => (some (match q with | .key x => (x % 7, .eq) | .lt k l => (0, compare k l)), ()), fun n => (true, n)⟩
def Sample.searchFn : Oracle Unit Nat Ordering := ⟨fun _ x => (some (compare (x % 7) 3), ()), fun n => (true, n)⟩

example := binary_search_variants (st := .fn) (st' := .key) (κ := Nat) (κ' := Nat) (o := Sample.searchFn) (o' := Sample.searchKey) (t := ()) (t' := (3 : Nat))
  (fun _ _ => rfl) (fun _ => rfl) Sample.cfg Sample.view

/-- The key function increments the elements it sees. -/
def Sample.dedupKey : Oracle Unit (KeyQ Nat Nat) (Nat × Option Nat × Bool) :=
  ⟨fun _ q => (some (match q with | .key x => (x + 1, some (x % 7), true) | .lt k l => (0, none, k == l)), ()), fun n => (true, n)⟩
def Sample.dedupFn : Oracle Unit (Nat × Nat) (Nat × Nat × Option Bool) :=
  ⟨fun _ q => (some (q.1 + 1, q.2 + 1, some (q.1 % 7 == q.2 % 7)), ()), fun n => (true, n)⟩

example := dedup_variants (st := .fn) (st' := .key) (κ := Nat) (κ' := Nat) (o := Sample.dedupFn) (o' := Sample.dedupKey)
  (fun _ _ _ => rfl) (fun _ => rfl) Sample.cfg Sample.wf

end NdSlice
