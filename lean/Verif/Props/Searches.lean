import Verif.Core.Looks
import Verif.Props.Search

/-
Searches at the same time by different threads (C96), on the same array or on arrays with common elements: the methods which take `&self` read
without any synchronisation.
-/

namespace NdSlice

open Style

variable {α κ σ ι ω β J : Type}

/-- Calls made at the same time, as `rayon::join` nests them.  User code; not part of /repo. -/
inductive Tree (J : Type) where
  | one (j : J)
  | both (l r : Tree J)

namespace Tree

/-- All the calls. -/
def list : Tree J → List J
  | one j => [j]
  | both l r => l.list ++ r.list

/-- The program; the results are listed in the order of `list`. -/
def atOnce (f : J → Prog α ι ω β) : Tree J → Prog α ι ω (List β)
  | one j => do
    let b ← f j
    pure [b]
  | both l r => do
    let x ← Prog.rayonJoin (l.atOnce f) (r.atOnce f)
    pure (x.1 ++ x.2)

end Tree

theorem forall₂_append {P : J → β → Prop} {xs xs' : List J} {ys ys' : List β} (h : List.Forall₂ P xs ys) (h' : List.Forall₂ P xs' ys') :
    List.Forall₂ P (xs ++ xs') (ys ++ ys') := by
  induction h with
  | nil => exact h'
  | cons h1 _ ih => exact .cons h1 ih

theorem Looks.atOnce {R : ι → Option ω → Prop} {m : Mem α} {f : J → Prog α ι ω β} {Q : J → β → Prop} {E : J → Panic → Prop} {t : Tree J}
    (h : ∀ j ∈ t.list, Looks R m (f j) (Q j) (E j)) :
    Looks R m (t.atOnce f) (fun bs => List.Forall₂ Q t.list bs) (fun e => ∃ j ∈ t.list, E j e) := by
  induction t with
  | one j =>
    have hj : j ∈ (Tree.one j).list := List.mem_singleton.mpr rfl
    exact ((h j hj).mono (fun _ h => h) (fun e he => ⟨j, hj, he⟩)).bind fun b hb => List.Forall₂.cons hb .nil
  | both l r ihl ihr =>
    refine ((rayonJoin (ihl fun j hj => h j (List.mem_append_left _ hj)) (ihr fun j hj => h j (List.mem_append_right _ hj))).mono
      (fun _ h => h) ?_).bind fun x hx => forall₂_append hx.1 hx.2
    rintro e (⟨j, hj, he⟩ | ⟨j, hj, he⟩)
    · exact ⟨j, List.mem_append_left _ hj, he⟩
    · exact ⟨j, List.mem_append_right _ hj, he⟩

theorem Looks.always {o : Oracle σ ι ω} {p : Prog α ι ω β} {s : St α ι ω σ} {Q : β → Prop} {E : Panic → Prop} (h : Looks (rel o) s.mem p Q E) :
    Always o p s (fun b m => m = s.mem ∧ Q b) (fun e m => m = s.mem ∧ E e) := by
  refine ⟨fun p' s' hs => ?_, sched_terminates o _⟩
  obtain ⟨h1, h2⟩ := steps (rel_sat o) hs h
  refine ⟨no_race h2, not_bad h2, ?_⟩
  rcases progress o h2 s' with ⟨r, hr⟩ | hs
  · cases hr with
    | ret b => exact .inr (.inl ⟨b, rfl, h1, h2⟩)
    | throw e => exact .inr (.inr ⟨e, rfl, h1, h2⟩)
  · exact .inl hs

/-! ### The methods do not write -/

theorem vget_noWrite (v : View) (i : Nat) : NoWrite (v.get i : Prog α ι ω α) := by
  unfold View.get
  split
  · exact fun _ => trivial
  · trivial

theorem vidx_noWrite (v : View) (i : Nat) : NoWrite (v.idx i : Prog α ι ω α) := by
  unfold View.idx
  split
  · exact fun _ => trivial
  · trivial

theorem debugAssert_noWrite (cfg : Cfg) (c : Bool) : NoWrite (debugAssert cfg c : Prog α ι ω Unit) := by
  unfold debugAssert
  split <;> trivial

theorem usub_noWrite (cfg : Cfg) (a b : Nat) : NoWrite (usub cfg a b : Prog α ι ω Nat) := by
  unfold usub
  split
  · trivial
  · split <;> trivial

theorem binarySearchBy_noWrite (cfg : Cfg) {f : α → Prog α ι ω Ordering} (hf : ∀ x, NoWrite (f x)) (v : View) : NoWrite (binarySearchBy cfg f v) := by
  refine NoWrite.loop ?_ _ _
  rintro ⟨size, left, right⟩
  unfold binarySearchBody
  dsimp only
  split
  · refine (vget_noWrite v _).bind fun x => (hf x).bind fun c => ?_
    split
    · exact (debugAssert_noWrite cfg _).bind fun _ => trivial
    · exact (usub_noWrite cfg _ _).bind fun _ => trivial
  · exact (debugAssert_noWrite cfg _).bind fun _ => trivial

theorem SearchStyle.ask_noWrite (st : SearchStyle) (t : st.T α κ) (x : α) : NoWrite (st.ask t x) := by
  cases st with
  | ord => intro r; cases r <;> trivial
  | fn => intro r; cases r <;> trivial
  | key =>
    intro r
    cases r with
    | none => trivial
    | some k => intro r; cases r <;> trivial

theorem askPred_noWrite (x : α) : NoWrite (askPred x) := by
  intro r; cases r <;> trivial

theorem partitionPoint_noWrite (cfg : Cfg) (v : View) : NoWrite (partitionPoint cfg v : Prog α α Bool Nat) := by
  refine NoWrite.bind (binarySearchBy_noWrite cfg (fun x => ?_) v) fun _ => trivial
  exact (askPred_noWrite x).bind fun _ => trivial

theorem anyFrom_noWrite {f : α → Prog α ι ω Bool} (hf : ∀ x, NoWrite (f x)) (v : View) (i n : Nat) : NoWrite (anyFrom f v i n) := by
  induction n generalizing i with
  | zero => trivial
  | succ n ih =>
    refine (vget_noWrite v i).bind fun x => (hf x).bind fun b => ?_
    cases b
    · exact ih _
    · trivial

theorem contains_noWrite (v : View) (x : α) : NoWrite (contains v x) := by
  unfold contains
  refine anyFrom_noWrite (fun a => ?_) v 0 v.len
  intro r
  cases r <;> trivial

theorem RelStyle.test_noWrite (st : RelStyle) (x y : α) : NoWrite (st.test x y : Prog α (st.Q α κ) (st.A κ) Bool) := by
  cases st with
  | rel => intro r; cases r <;> trivial
  | key =>
    intro r
    cases r with
    | none => trivial
    | some k =>
      intro r
      cases r with
      | none => trivial
      | some l => intro r; cases r <;> trivial

theorem isSortedFrom_noWrite {f : α → α → Prog α ι ω Bool} (hf : ∀ x y, NoWrite (f x y)) (v : View) (i n : Nat) : NoWrite (isSortedFrom f v i n) := by
  induction n generalizing i with
  | zero => trivial
  | succ n ih =>
    refine (vidx_noWrite v _).bind fun x => (vidx_noWrite v _).bind fun y => (hf x y).bind fun b => ?_
    cases b
    · trivial
    · exact ih _

/-! ### One way only -/

theorem binarySearchBy_path {R : ι → Option ω → Prop} {m : Mem α} {cfg : Cfg} {f : α → Prog α ι ω Ordering} {c : α → Ordering} {k : Nat}
    (hf : ∀ x, Path R m (f x) (c x) k) (v : View) : ∃ r n, Path R m (binarySearchBy cfg f v) r n := by
  suffices h : ∀ n size left right, size = right - left → size < n → right ≤ v.len → left ≤ right →
      ∃ r l, Path R m (Prog.loop (binarySearchBody cfg f v) n (size, left, right)) r l from
    h _ _ _ _ rfl (Nat.lt_succ_self _) (Nat.le_refl _) (Nat.zero_le _)
  intro n
  induction n with
  | zero => intro size left right _ h; omega
  | succ n ih =>
    intro size left right h1 h2 h3 h4
    by_cases hlr : left < right
    · have hm : left + size / 2 < right := by omega
      have body : ∀ (y : (Nat × Nat × Nat) ⊕ Except Nat Nat),
          (match c (m (v.addr (left + size / 2))) with
            | .eq => y = .inr (.ok (left + size / 2))
            | .lt => y = .inl (right - (left + size / 2 + 1), left + size / 2 + 1, right)
            | .gt => y = .inl (left + size / 2 - left, left, left + size / 2)) →
          ∃ l, Path R m (binarySearchBody cfg f v (size, left, right)) y l := by
        intro y hy
        unfold binarySearchBody
        dsimp only
        rw [if_pos hlr]
        cases hc : c (m (v.addr (left + size / 2))) with
        | eq =>
          rw [hc] at hy
          subst hy
          have hf' := hf (m (v.addr (left + size / 2)))
          rw [hc] at hf'
          refine ⟨_, Path.bind (Path.vget (by omega)) (Path.bind (k := 0) hf' ?_)⟩
          exact Path.bind (k := 0) (n := 0) (Path.debugAssert (by simp; omega)) Path.pure
        | lt =>
          rw [hc] at hy
          subst hy
          have hf' := hf (m (v.addr (left + size / 2)))
          rw [hc] at hf'
          refine ⟨_, Path.bind (Path.vget (by omega)) (Path.bind (k := 0) hf' ?_)⟩
          exact Path.bind (k := 0) (n := 0) (Path.usub (by simp; omega)) Path.pure
        | gt =>
          rw [hc] at hy
          subst hy
          have hf' := hf (m (v.addr (left + size / 2)))
          rw [hc] at hf'
          refine ⟨_, Path.bind (Path.vget (by omega)) (Path.bind (k := 0) hf' ?_)⟩
          exact Path.bind (k := 0) (n := 0) (Path.usub (by simp)) Path.pure
      cases hc : c (m (v.addr (left + size / 2))) with
      | eq =>
        obtain ⟨l, hl⟩ := body _ (by rw [hc])
        exact ⟨_, _, Path.bind hl Path.pure⟩
      | lt =>
        obtain ⟨l, hl⟩ := body _ (by rw [hc])
        obtain ⟨r, l', hr⟩ := ih (right - (left + size / 2 + 1)) (left + size / 2 + 1) right rfl (by omega) h3 (by omega)
        exact ⟨r, _, Path.bind hl hr⟩
      | gt =>
        obtain ⟨l, hl⟩ := body _ (by rw [hc])
        obtain ⟨r, l', hr⟩ := ih (left + size / 2 - left) left (left + size / 2) rfl (by omega) (by omega) (by omega)
        exact ⟨r, _, Path.bind hl hr⟩
    · refine ⟨.error left, 0, Path.bind (k := 0) (n := 0) (b := .inr (.error left)) ?_ Path.pure⟩
      unfold binarySearchBody
      dsimp only
      rw [if_neg hlr]
      exact Path.bind (k := 0) (n := 0) (Path.debugAssert (by simp; omega)) Path.pure

theorem SearchStyle.ask_path {st : SearchStyle} {o : Oracle σ (st.Q α κ) (st.A κ)} {t : st.T α κ} {c : α → Ordering} (h : st.Agrees o t c)
    (m : Mem α) (x : α) : Path (rel o) m (st.ask t x) (c x) st.cost := by
  cases st with
  | ord =>
    refine ⟨0, rfl, fun r hr => ?_⟩
    obtain ⟨e, rfl⟩ := hr
    rw [h e x]
    exact ⟨rfl, rfl⟩
  | fn =>
    refine ⟨0, rfl, fun r hr => ?_⟩
    obtain ⟨e, rfl⟩ := hr
    rw [h e x]
    exact ⟨rfl, rfl⟩
  | key =>
    obtain ⟨f, h1, h2⟩ := h
    refine ⟨1, rfl, fun r hr => ?_⟩
    obtain ⟨e, rfl⟩ := hr
    obtain ⟨c', hc⟩ := h1 e x
    rw [hc]
    refine ⟨0, rfl, fun r hr => ?_⟩
    obtain ⟨e, rfl⟩ := hr
    obtain ⟨k, hk⟩ := h2 e x
    show Path _ m (match (o.ask e (KeyQ.lt (f x) t)).1 with | none => .throw .user | some c => .ret c.2) (c x) 0
    rw [hk]
    exact ⟨rfl, rfl⟩

/-! ### The properties -/

/-- C96: `binary_search*` called at the same time for several values and on several arrays, which may be the same or have elements in common: on every
schedule there is neither a race nor undefined behaviour nor a deadlock, nothing is changed, and each call returns what it returns when called alone. -/
theorem binary_searches_at_once (st : SearchStyle) (cfg : Cfg) {o : Oracle σ (st.Q α κ) (st.A κ)} {c : st.T α κ → α → Ordering} {t : Tree (View × st.T α κ)}
    (h : ∀ j ∈ t.list, st.Agrees o j.2 (c j.2)) (s : St α (st.Q α κ) (st.A κ) σ) :
    Always o (t.atOnce fun j => binarySearch st cfg j.1 j.2) s
      (fun rs m => m = s.mem ∧ List.Forall₂ (fun j r => ∃ s', run o (binarySearch st cfg j.1 j.2) s = (.ok r, s')) t.list rs)
      (fun _ _ => False) := by
  refine (Looks.always (Looks.atOnce (E := fun _ _ => False) fun j hj => ?_)).mono (fun _ _ h => h) (fun _ _ h => by obtain ⟨-, _, _, h⟩ := h; exact h)
  obtain ⟨r, n, hp⟩ := binarySearchBy_path (cfg := cfg) (m := s.mem) (SearchStyle.ask_path (h j hj) s.mem) j.1
  refine (Looks.of_path hp).mono ?_ (fun _ h => h)
  rintro _ rfl
  obtain ⟨s', h1, -⟩ := hp.run (rel_sat o)
  exact ⟨s', h1⟩

/-- C96: the results are correct on each array by itself. -/
theorem binary_searches_at_once_correct (st : SearchStyle) (cfg : Cfg) {o : Oracle σ (st.Q α κ) (st.A κ)} {c : st.T α κ → α → Ordering}
    {t : Tree (View × st.T α κ)} (h : ∀ j ∈ t.list, st.Agrees o j.2 (c j.2)) (s : St α (st.Q α κ) (st.A κ) σ) :
    Always o (t.atOnce fun j => binarySearch st cfg j.1 j.2) s
      (fun rs m => m = s.mem ∧ List.Forall₂ (fun j r => match r with
        | .ok i => ∃ x, (j.1.contents s.mem)[i]? = some x ∧ c j.2 x = .eq
        | .error i => i ≤ j.1.len ∧ (∀ k x, k + 1 = i → (j.1.contents s.mem)[k]? = some x → c j.2 x = .lt) ∧
            (∀ x, (j.1.contents s.mem)[i]? = some x → c j.2 x = .gt)) t.list rs)
      (fun _ _ => False) := by
  refine (Looks.always (Looks.atOnce (E := fun _ _ => False) fun j hj => ?_)).mono (fun _ _ h => h) (fun _ _ h => by obtain ⟨-, _, _, h⟩ := h; exact h)
  obtain ⟨r, n, hp⟩ := binarySearchBy_path (cfg := cfg) (m := s.mem) (SearchStyle.ask_path (h j hj) s.mem) j.1
  refine (Looks.of_path hp).mono ?_ (fun _ h => h)
  rintro _ rfl
  obtain ⟨s1, h1, -⟩ := hp.run (rel_sat o)
  obtain ⟨r2, s2, h2, -, h3⟩ := binary_search_pure (v := j.1) st cfg (h j hj) s
  cases h1.symm.trans h2
  exact h3

/-- C96 with any user code: nothing is changed, every position returned is at most the length of the array, and the only panics are those of user code. -/
theorem binary_searches_at_once_safe (st : SearchStyle) (cfg : Cfg) (o : Oracle σ (st.Q α κ) (st.A κ)) (t : Tree (View × st.T α κ))
    (s : St α (st.Q α κ) (st.A κ) σ) :
    Always o (t.atOnce fun j => binarySearch st cfg j.1 j.2) s
      (fun rs m => m = s.mem ∧ List.Forall₂ (fun j r => match r with | .ok i => i < j.1.len | .error i => i ≤ j.1.len) t.list rs)
      (fun e m => m = s.mem ∧ e = .user ∧ ∃ j ∈ t.list, st.MayPanic o j.2) := by
  refine (Looks.always (Looks.atOnce (E := fun j e => e = .user ∧ st.MayPanic o j.2) fun j _ => ?_)).mono (fun _ _ h => h)
    (fun _ _ h => by obtain ⟨h1, j, hj, h2, h3⟩ := h; exact ⟨h1, h2, j, hj, h3⟩)
  refine (Looks.of_wp (lg := []) (binarySearchBy_noWrite cfg (st.ask_noWrite j.2) j.1) (binarySearchBy_spec (st.toFn o j.2) (v := j.1))).mono ?_ ?_
  · rintro r ⟨lg, -, -, h⟩
    cases r with
    | ok i => exact h.1
    | error i => exact h.1
  · rintro e ⟨lg, h1, h2, -⟩
    exact ⟨h1, h2⟩

/-- C96 for `partition_point`. -/
theorem partition_points_at_once (cfg : Cfg) {o : Oracle σ α Bool} {f : α → Bool} (h : ∀ e x, (o.ask e x).1 = some (f x)) (t : Tree View)
    (s : St α α Bool σ) :
    Always o (t.atOnce (partitionPoint cfg)) s
      (fun is m => m = s.mem ∧ List.Forall₂ (fun (v : View) i => ∃ s', run o (partitionPoint cfg v) s = (.ok i, s')) t.list is)
      (fun _ _ => False) := by
  refine (Looks.always (Looks.atOnce (E := fun _ _ => False) fun v _ => ?_)).mono (fun _ _ h => h) (fun _ _ h => by obtain ⟨-, _, _, h⟩ := h; exact h)
  have hf : ∀ x, Path (rel o) s.mem (do let b ← askPred x; pure (if b then Ordering.lt else Ordering.gt)) (if f x then Ordering.lt else Ordering.gt) 1 := by
    intro x
    refine ⟨0, rfl, fun r hr => ?_⟩
    obtain ⟨e, rfl⟩ := hr
    rw [h e x]
    exact ⟨rfl, rfl⟩
  obtain ⟨r, n, hp⟩ := binarySearchBy_path (cfg := cfg) hf v
  obtain ⟨i, hp'⟩ : ∃ i, Path (rel o) s.mem (partitionPoint cfg v) i (n + 0) := ⟨_, Path.bind hp Path.pure⟩
  refine (Looks.of_path hp').mono ?_ (fun _ h => h)
  rintro _ rfl
  obtain ⟨s', h1, -⟩ := hp'.run (rel_sat o)
  exact ⟨s', h1⟩

/-- C96 for `contains`. -/
theorem contains_at_once {o : Oracle σ (α × α) Bool} {eq : α → α → Bool} {t : Tree (View × α)}
    (h : ∀ j ∈ t.list, ∀ e a, (o.ask e (a, j.2)).1 = some (eq a j.2)) (s : St α (α × α) Bool σ) :
    Always o (t.atOnce fun j => contains j.1 j.2) s
      (fun bs m => m = s.mem ∧ bs = t.list.map fun j => (j.1.contents s.mem).any fun a => eq a j.2)
      (fun _ _ => False) := by
  refine (Looks.always (Looks.atOnce (Q := fun j b => b = (j.1.contents s.mem).any fun a => eq a j.2) (E := fun _ _ => False) fun j hj => ?_)).mono
    (fun bs _ h => ⟨h.1, ?_⟩) (fun _ _ h => by obtain ⟨-, _, _, h⟩ := h; exact h)
  · refine (Looks.of_wp (lg := []) (contains_noWrite j.1 j.2) (anyFrom_spec (eqFn o j.2) (v := j.1) (i := 0) (n := j.1.len) (by omega))).mono ?_ ?_
    · rintro b ⟨lg, -, h2, h3⟩
      cases b with
      | true =>
        obtain ⟨i, g1, g2, -, d1, d, d2, g3, rfl, e, he⟩ := h3 rfl
        rw [h j hj] at he
        exact (List.any_eq_true.mpr ⟨_, List.mem_of_getElem? (View.contents_get j.1 (by omega)), Option.some.inj he⟩).symm
      | false =>
        refine (List.any_eq_false.mpr fun a ha => ?_).symm
        obtain ⟨i, hi, rfl⟩ := List.mem_iff_getElem.mp ha
        have hi' : i < j.1.len := by rwa [View.contents_length] at hi
        obtain ⟨d1, d, d2, g3, rfl, e, he⟩ := (h2 rfl).2 i (Nat.zero_le _) (by omega)
        have g := View.contents_get (m := s.mem) j.1 hi'
        rw [List.getElem?_eq_getElem hi] at g
        rw [h j hj, ← Option.some.inj g] at he
        rw [Option.some.inj he]
        decide
    · rintro e ⟨lg, -, ⟨p, e', he⟩, -⟩
      rw [h j hj] at he
      cases he
  · have := h.2
    clear h
    generalize t.list = js at this ⊢
    induction this with
    | nil => rfl
    | cons h1 _ ih => rw [List.map_cons, h1, ih]

/-- C96 for `is_sorted*`. -/
theorem is_sorted_at_once (st : RelStyle) {o : Oracle σ (st.Q α κ) (st.A κ)} {le : α → α → Bool} (h : st.Agrees o le) (t : Tree View)
    (s : St α (st.Q α κ) (st.A κ) σ) :
    Always o (t.atOnce (isSorted st)) s
      (fun bs m => m = s.mem ∧ List.Forall₂ (fun (v : View) b =>
        (b = true ↔ ∀ i x y, (v.contents s.mem)[i]? = some x → (v.contents s.mem)[i + 1]? = some y → le x y = true)) t.list bs)
      (fun _ _ => False) := by
  refine (Looks.always (Looks.atOnce (E := fun _ _ => False) fun v _ => ?_)).mono (fun _ _ h => h) (fun _ _ h => by obtain ⟨-, _, _, h⟩ := h; exact h)
  by_cases hlen : v.len = 0
  · have e : (isSorted st v : Prog α (st.Q α κ) (st.A κ) Bool) = .ret true := by unfold isSorted isSortedBy; rw [hlen]; rfl
    rw [e]
    refine ⟨fun _ i x y hx _ => ?_, fun _ => rfl⟩
    have := (List.getElem?_eq_some_iff.mp hx).1
    rw [View.contents_length] at this
    omega
  refine (Looks.of_wp (lg := []) (isSortedFrom_noWrite st.test_noWrite v _ _)
    (isSortedFrom_spec (st.fn o) (v := v) (i := 1) (n := v.len - 1) (Nat.le_refl _) (by omega))).mono ?_ ?_
  · rintro b ⟨lg, -, h2, h3⟩
    constructor
    · intro hb i x y hx hy
      have hi : i + 1 < v.len := by
        have := (List.getElem?_eq_some_iff.mp hy).1
        rwa [View.contents_length] at this
      rw [View.contents_get v hi] at hy
      rw [View.contents_get v (by omega)] at hx
      rw [← Option.some.inj hx, ← Option.some.inj hy]
      obtain ⟨d1, d, d2, g1, g2⟩ := (h2 hb).2 (i + 1) (by omega) (by omega)
      exact RelStyle.fn_ans h g2
    · intro hall
      cases b with
      | true => rfl
      | false =>
        obtain ⟨j, g1, g2, -, d1, d, d2, g3, g4⟩ := h3 rfl
        have := RelStyle.fn_ans h g4
        have h5 := hall (j - 1) _ _ (View.contents_get v (by omega)) (View.contents_get v (by omega))
        rw [show j - 1 + 1 = j by omega] at h5
        rw [h5] at this
        cases this
  · rintro e ⟨lg, -, h2, -⟩
    exact (h.noPanic h2).elim

/-- C96 for `partition_point` with any predicate. -/
theorem partition_points_at_once_safe (cfg : Cfg) (o : Oracle σ α Bool) (t : Tree View) (s : St α α Bool σ) :
    Always o (t.atOnce (partitionPoint cfg)) s
      (fun is m => m = s.mem ∧ List.Forall₂ (fun (v : View) i => i ≤ v.len) t.list is)
      (fun e m => m = s.mem ∧ e = .user ∧ ∃ q, rel o q none) := by
  refine (Looks.always (Looks.atOnce (E := fun _ e => e = .user ∧ ∃ q, rel o q none) fun v _ => ?_)).mono (fun _ _ h => h)
    (fun _ _ h => by obtain ⟨h1, _, _, h2⟩ := h; exact ⟨h1, h2⟩)
  refine (Looks.of_wp (lg := []) (partitionPoint_noWrite cfg v) (partitionPoint_spec o (v := v))).mono ?_ ?_
  · rintro i ⟨lg, -, -, h, -⟩
    exact h
  · rintro e ⟨lg, h1, h2, -⟩
    exact ⟨h1, h2⟩

/-- C96 for `contains` with any `==`: `true` only if `==` has said so about some element. -/
theorem contains_at_once_safe (o : Oracle σ (α × α) Bool) (t : Tree (View × α)) (s : St α (α × α) Bool σ) :
    Always o (t.atOnce fun j => contains j.1 j.2) s
      (fun bs m => m = s.mem ∧ List.Forall₂ (fun (j : View × α) b => (b = true → ∃ a ∈ j.1.contents s.mem, rel o (a, j.2) (some true)) ∧
        (b = false → ∀ a ∈ j.1.contents s.mem, rel o (a, j.2) (some false))) t.list bs)
      (fun e m => m = s.mem ∧ e = .user ∧ ∃ j ∈ t.list, ∃ a, rel o (a, j.2) none) := by
  refine (Looks.always (Looks.atOnce (E := fun j e => e = .user ∧ ∃ a, rel o (a, j.2) none) fun j _ => ?_)).mono (fun _ _ h => h)
    (fun _ _ h => by obtain ⟨h1, j, hj, h2, h3⟩ := h; exact ⟨h1, h2, j, hj, h3⟩)
  refine (Looks.of_wp (lg := []) (contains_noWrite j.1 j.2) (anyFrom_spec (eqFn o j.2) (v := j.1) (i := 0) (n := j.1.len) (by omega))).mono ?_ ?_
  · rintro b ⟨lg, -, h2, h3⟩
    refine ⟨fun hb => ?_, fun hb a ha => ?_⟩
    · obtain ⟨i, g1, g2, -, d1, d, d2, g3, rfl, he⟩ := h3 hb
      exact ⟨_, List.mem_of_getElem? (View.contents_get j.1 (by omega)), he⟩
    · obtain ⟨i, hi, rfl⟩ := List.mem_iff_getElem.mp ha
      have hi' : i < j.1.len := by rwa [View.contents_length] at hi
      obtain ⟨d1, d, d2, g3, rfl, he⟩ := (h2 hb).2 i (Nat.zero_le _) (by omega)
      have g := View.contents_get (m := s.mem) j.1 hi'
      rw [List.getElem?_eq_getElem hi] at g
      rw [Option.some.inj g]
      exact he
  · rintro e ⟨lg, h1, h2, -⟩
    exact ⟨h1, h2⟩

/-- C96 for `is_sorted*` with any user code. -/
theorem is_sorted_at_once_safe (st : RelStyle) (o : Oracle σ (st.Q α κ) (st.A κ)) (t : Tree View) (s : St α (st.Q α κ) (st.A κ) σ) :
    Always o (t.atOnce (isSorted st)) s
      (fun bs m => m = s.mem ∧ bs.length = t.list.length)
      (fun e m => m = s.mem ∧ e = .user ∧ ∃ x q, (o.ask x q).1 = none) := by
  refine (Looks.always (Looks.atOnce (Q := fun _ _ => True) (E := fun _ e => e = .user ∧ ∃ x q, (o.ask x q).1 = none) fun v _ => ?_)).mono
    (fun _ _ h => ⟨h.1, h.2.length_eq.symm⟩) (fun _ _ h => by obtain ⟨h1, _, _, h2⟩ := h; exact ⟨h1, h2⟩)
  by_cases hlen : v.len = 0
  · have e : (isSorted st v : Prog α (st.Q α κ) (st.A κ) Bool) = .ret true := by unfold isSorted isSortedBy; rw [hlen]; rfl
    rw [e]
    trivial
  refine (Looks.of_wp (lg := []) (isSortedFrom_noWrite st.test_noWrite v _ _)
    (isSortedFrom_spec (st.fn o) (v := v) (i := 1) (n := v.len - 1) (Nat.le_refl _) (by omega))).mono (fun _ _ => trivial) ?_
  rintro e ⟨lg, h1, h2, -⟩
  exact ⟨h1, h2⟩

/-! ### The hypotheses can be met -/

namespace Sample

/-- The same sorted array of 50 elements for two threads, its lower half and its elements upside down for two others. -/
def readers (T : Type) (x : T) : Tree (View × T) :=
  .both (.both (.one (sview, x)) (.one (sview, x))) (.both (.one (⟨3, 5, 25⟩, x)) (.one (⟨248, -5, 50⟩, x)))

theorem readers_agree (st : SearchStyle) : ∀ j ∈ (readers _ (target st)).list, st.Agrees (searchOracle st) j.2 (fun p => compare p 17) := by
  intro j hj
  have : j.2 = target st := by
    simp only [readers, Tree.list, List.cons_append, List.nil_append, List.mem_cons, List.not_mem_nil, or_false] at hj
    rcases hj with rfl | rfl | rfl | rfl <;> rfl
  rw [this]
  exact searchAgrees st

example (st : SearchStyle) := binary_searches_at_once st cfg (c := fun _ p => compare p 17) (readers_agree st) (searchState st)
example (st : SearchStyle) := binary_searches_at_once_correct st cfg (c := fun _ p => compare p 17) (readers_agree st) (searchState st)
example (st : SearchStyle) := binary_searches_at_once_safe st cfg (searchOracle st) (readers _ (target st)) (searchState st)
example := partition_points_at_once cfg (o := (⟨fun _ x => (some (decide (x < 17)), ()), fun _ => (true, ())⟩ : Oracle Unit Nat Bool))
  (f := fun x => decide (x < 17)) (fun _ _ => rfl) (.both (.one sview) (.both (.one bview) (.one sview))) ⟨smem, (), []⟩
example := contains_at_once (o := (⟨fun _ q => (some (q.1 == q.2), ()), fun _ => (true, ())⟩ : Oracle Unit (Nat × Nat) Bool))
  (eq := fun a x => a == x) (t := readers Nat 17) (fun _ _ _ _ => rfl) ⟨smem, (), []⟩
example (st : RelStyle) := is_sorted_at_once st (relAgrees st) (.both (.one sview) (.both (.one bview) (.one sview))) ⟨smem, (), []⟩

/-- User code which panics when asked about an element above 20, and otherwise answers at random. -/
def unsteady (ι : Type) (f : ι → Nat) : Oracle Nat ι Bool := ⟨fun n q => (if 20 < f q then none else some (n % 3 == 0), n + 1), fun n => (true, n)⟩

example := partition_points_at_once_safe cfg (unsteady Nat id) (.both (.one sview) (.both (.one bview) (.one sview))) ⟨smem, 0, []⟩
example := contains_at_once_safe (unsteady (Nat × Nat) Prod.fst) (readers Nat 17) ⟨smem, 0, []⟩
example := is_sorted_at_once_safe (κ := Nat) .rel (unsteady (Nat × Nat) Prod.fst) (.both (.one sview) (.both (.one bview) (.one sview))) ⟨smem, 0, []⟩

end Sample

end NdSlice
