import Verif.Model.Search
import Verif.Core.Tri
import Mathlib.Data.List.Basic
import Mathlib.Tactic.Ring

/-
The functions which only look at the array.  Here views may also have stride 0 (broadcast arrays).
-/

namespace NdSlice

variable {α κ ι ω σ β γ δ : Type}

/-- User code as the functions see it: a program for each argument, the questions and answers `d` it may take to return `b`, whether it may
panic, and how many questions it takes.  It never touches memory. -/
structure Fn (α ι ω δ β : Type) where
  R : ι → Option ω → Prop
  prog : δ → Prog α ι ω β
  ans : δ → β → List (ι × Option ω) → Prop
  pan : Prop
  cost : Nat
  ok : ∀ x (m : Mem α) lg, wp R (prog x) (fun _ => False)
    (fun b m' lg' => m' = m ∧ ∃ d, lg' = lg ++ d ∧ d.length = cost ∧ ans x b d)
    (fun e m' lg' => e = .user ∧ pan ∧ m' = m ∧ ∃ d q, lg' = lg ++ d ++ [(q, none)] ∧ d.length < cost) m lg

variable {R : ι → Option ω → Prop} {v : View} {m : Mem α} {lg : List (ι × Option ω)}

theorem View.mem_region (v : View) {i : Nat} (hi : i < v.len) : v.addr i ∈ v.region :=
  List.mem_of_getElem? (View.region_get v hi)

theorem View.contents_get (v : View) {i : Nat} (hi : i < v.len) : (v.contents m)[i]? = some (m (v.addr i)) := by
  unfold View.contents
  rw [List.getElem?_map, View.region_get v hi]; rfl

theorem wp_vget {i : Nat} {k : α → Prog α ι ω β} {Q : β → Mem α → List (ι × Option ω) → Prop} {E : Panic → Mem α → List (ι × Option ω) → Prop}
    (hi : i < v.len) (h : wp R (k (m (v.addr i))) (· ∈ v.region) Q E m lg) : wp R (v.get i >>= k) (· ∈ v.region) Q E m lg := by
  unfold View.get
  rw [if_pos hi]
  exact ⟨v.mem_region hi, h⟩

theorem wp_vidx {i : Nat} {k : α → Prog α ι ω β} {Q : β → Mem α → List (ι × Option ω) → Prop} {E : Panic → Mem α → List (ι × Option ω) → Prop}
    (hi : i < v.len) (h : wp R (k (m (v.addr i))) (· ∈ v.region) Q E m lg) : wp R (v.idx i >>= k) (· ∈ v.region) Q E m lg := by
  unfold View.idx
  rw [if_pos hi]
  exact ⟨v.mem_region hi, h⟩

theorem wp_fn (f : Fn α ι ω δ β) {x : δ} {k : β → Prog α ι ω γ} {F : Addr → Prop} {Q : γ → Mem α → List (ι × Option ω) → Prop}
    {E : Panic → Mem α → List (ι × Option ω) → Prop}
    (h : ∀ b d, f.ans x b d → d.length = f.cost → wp f.R (k b) F Q E m (lg ++ d))
    (hE : ∀ d q, f.pan → d.length < f.cost → E .user m (lg ++ d ++ [(q, none)])) : wp f.R (f.prog x >>= k) F Q E m lg := by
  refine wp_bind (wp_mono (f.ok x m lg) (fun _ h => h.elim) ?_ ?_)
  · rintro b _ _ ⟨rfl, d, rfl, h1, h2⟩
    exact h b d h2 h1
  · rintro e _ _ ⟨rfl, h1, rfl, d, q, rfl, h2⟩
    exact hE d q h1 h2

theorem wp_usub {cfg : Cfg} {a b : Nat} {k : Nat → Prog α ι ω β} {F : Addr → Prop} {Q : β → Mem α → List (ι × Option ω) → Prop}
    {E : Panic → Mem α → List (ι × Option ω) → Prop} (hab : b ≤ a) (h : wp R (k (a - b)) F Q E m lg) : wp R (usub cfg a b >>= k) F Q E m lg := by
  unfold usub
  rw [if_pos hab]
  exact h

theorem wp_debugAssert {cfg : Cfg} {c : Bool} {k : Unit → Prog α ι ω β} {F : Addr → Prop} {Q : β → Mem α → List (ι × Option ω) → Prop}
    {E : Panic → Mem α → List (ι × Option ω) → Prop} (hc : c = true) (h : wp R (k ()) F Q E m lg) : wp R (debugAssert cfg c >>= k) F Q E m lg := by
  subst hc
  unfold debugAssert
  simp only [Bool.not_true, Bool.and_false]
  exact h

/-- The log has grown from `lg` by at most `n` questions, the last of which was answered by a panic. -/
def Panicked (lg : List (ι × Option ω)) (n : Nat) (lg' : List (ι × Option ω)) : Prop :=
  ∃ d q, lg' = lg ++ d ++ [(q, none)] ∧ d.length < n

theorem Panicked.mono {lg lg' : List (ι × Option ω)} {n n' : Nat} (h : Panicked lg n lg') (hn : n ≤ n') : Panicked lg n' lg' := by
  obtain ⟨d, q, h1, h2⟩ := h
  exact ⟨d, q, h1, by omega⟩

theorem Panicked.append {lg lg' d : List (ι × Option ω)} {n : Nat} (h : Panicked (lg ++ d) n lg') : Panicked lg (d.length + n) lg' := by
  obtain ⟨d', q, h1, h2⟩ := h
  exact ⟨d ++ d', q, by rw [h1]; simp, by rw [List.length_append]; omega⟩

/-- The log has grown by `n` questions exactly. -/
def Grown (lg : List (ι × Option ω)) (n : Nat) (lg' : List (ι × Option ω)) : Prop := ∃ d, lg' = lg ++ d ∧ d.length = n

theorem Grown.refl (lg : List (ι × Option ω)) : Grown lg 0 lg := ⟨[], by simp, rfl⟩

theorem Grown.trans {l1 l2 l3 : List (ι × Option ω)} {a b : Nat} (h : Grown l1 a l2) (h' : Grown l2 b l3) : Grown l1 (a + b) l3 := by
  obtain ⟨d, rfl, h1⟩ := h
  obtain ⟨d', rfl, h2⟩ := h'
  exact ⟨d ++ d', by simp, by simp [h1, h2]⟩

theorem Panicked.of_grown {l1 l2 l3 : List (ι × Option ω)} {a b : Nat} (h : Grown l1 a l2) (h' : Panicked l2 b l3) :
    Panicked l1 (a + b) l3 := by
  obtain ⟨d, rfl, rfl⟩ := h
  exact h'.append

/-- What happened in calls of user code that return: in the log `lg'` after `lg` there is a call on `x` that returned `b`. -/
def Fn.Said (f : Fn α ι ω δ β) (lg : List (ι × Option ω)) (x : δ) (b : β) (lg' : List (ι × Option ω)) : Prop :=
  ∃ d1 d d2, lg' = lg ++ d1 ++ d ++ d2 ∧ f.ans x b d

theorem Fn.Said.grown {f : Fn α ι ω δ β} {lg l1 l2 : List (ι × Option ω)} {n : Nat} {x : δ} {b : β} (h : f.Said lg x b l1)
    (hg : Grown l1 n l2) : f.Said lg x b l2 := by
  obtain ⟨d1, d, d2, rfl, h1⟩ := h
  obtain ⟨d', rfl, -⟩ := hg
  exact ⟨d1, d, d2 ++ d', by simp, h1⟩

theorem Fn.Said.of_grown {f : Fn α ι ω δ β} {lg l1 l2 : List (ι × Option ω)} {n : Nat} {x : δ} {b : β} (hg : Grown lg n l1)
    (h : f.Said l1 x b l2) : f.Said lg x b l2 := by
  obtain ⟨d', rfl, -⟩ := hg
  obtain ⟨d1, d, d2, rfl, h1⟩ := h
  exact ⟨d' ++ d1, d, d2, by simp, h1⟩

/-! ### `is_sorted` -/

theorem isSortedFrom_spec (f : Fn α ι ω (α × α) Bool) {i n : Nat} (hi : 1 ≤ i) (hn : i + n ≤ v.len) :
    wp f.R (isSortedFrom (fun x y => f.prog (x, y)) v i n) (· ∈ v.region)
      (fun b m' lg' => m' = m ∧
        (b = true → Grown lg (f.cost * n) lg' ∧
          ∀ j, i ≤ j → j < i + n → f.Said lg (m (v.addr (j - 1)), m (v.addr j)) true lg') ∧
        (b = false → ∃ j, i ≤ j ∧ j < i + n ∧ Grown lg (f.cost * (j + 1 - i)) lg' ∧
          f.Said lg (m (v.addr (j - 1)), m (v.addr j)) false lg'))
      (fun e m' lg' => e = .user ∧ f.pan ∧ m' = m ∧ Panicked lg (f.cost * n) lg') m lg := by
  induction n generalizing i lg with
  | zero => exact ⟨rfl, fun _ => ⟨.refl _, fun j h1 h2 => by omega⟩, fun h => by cases h⟩
  | succ n ih =>
    unfold isSortedFrom
    refine wp_vidx (by omega) (wp_vidx (by omega) (wp_fn f ?_ ?_))
    · intro b d hb hl
      have hg : Grown lg f.cost (lg ++ d) := ⟨d, rfl, hl⟩
      have hs : f.Said lg (m (v.addr (i - 1)), m (v.addr i)) b (lg ++ d) := ⟨[], d, [], by simp, hb⟩
      cases b with
      | true =>
        refine wp_mono (ih (by omega) (by omega)) (fun _ h => h) ?_ ?_
        · rintro b _ lg'' ⟨rfl, h2, h3⟩
          refine ⟨rfl, fun hb' => ?_, fun hb' => ?_⟩
          · obtain ⟨h4, h5⟩ := h2 hb'
            refine ⟨by rw [Nat.mul_succ, Nat.add_comm]; exact hg.trans h4, fun j g1 g2 => ?_⟩
            by_cases hj : j = i
            · subst hj; exact hs.grown h4
            · exact .of_grown hg (h5 j (by omega) (by omega))
          · obtain ⟨j, g1, g2, g3, g4⟩ := h3 hb'
            refine ⟨j, by omega, by omega, ?_, .of_grown hg g4⟩
            rw [show j + 1 - i = (j + 1 - (i + 1)) + 1 by omega, Nat.mul_succ, Nat.add_comm]
            exact hg.trans g3
        · rintro e _ lg'' ⟨rfl, h1, rfl, h2⟩
          exact ⟨rfl, h1, rfl, by rw [Nat.mul_succ, Nat.add_comm]; exact .of_grown hg h2⟩
      | false =>
        refine ⟨rfl, fun h => absurd h (by decide), fun _ => ⟨i, by omega, by omega, ?_, hs⟩⟩
        rwa [show i + 1 - i = 1 by omega, Nat.mul_one]
    · intro d q hp hl
      exact ⟨rfl, hp, rfl, d, q, rfl, by rw [Nat.mul_succ]; omega⟩

/-! ### `contains` -/

theorem anyFrom_spec (f : Fn α ι ω α Bool) {i n : Nat} (hn : i + n ≤ v.len) :
    wp f.R (anyFrom f.prog v i n) (· ∈ v.region)
      (fun b m' lg' => m' = m ∧
        (b = false → Grown lg (f.cost * n) lg' ∧ ∀ j, i ≤ j → j < i + n → f.Said lg (m (v.addr j)) false lg') ∧
        (b = true → ∃ j, i ≤ j ∧ j < i + n ∧ Grown lg (f.cost * (j + 1 - i)) lg' ∧ f.Said lg (m (v.addr j)) true lg'))
      (fun e m' lg' => e = .user ∧ f.pan ∧ m' = m ∧ Panicked lg (f.cost * n) lg') m lg := by
  induction n generalizing i lg with
  | zero => exact ⟨rfl, fun _ => ⟨.refl _, fun j h1 h2 => by omega⟩, fun h => by cases h⟩
  | succ n ih =>
    unfold anyFrom
    refine wp_vget (by omega) (wp_fn f ?_ ?_)
    · intro b d hb hl
      have hg : Grown lg f.cost (lg ++ d) := ⟨d, rfl, hl⟩
      have hs : f.Said lg (m (v.addr i)) b (lg ++ d) := ⟨[], d, [], by simp, hb⟩
      cases b with
      | false =>
        refine wp_mono (ih (by omega)) (fun _ h => h) ?_ ?_
        · rintro b _ lg'' ⟨rfl, h2, h3⟩
          refine ⟨rfl, fun hb' => ?_, fun hb' => ?_⟩
          · obtain ⟨h4, h5⟩ := h2 hb'
            refine ⟨by rw [Nat.mul_succ, Nat.add_comm]; exact hg.trans h4, fun j g1 g2 => ?_⟩
            by_cases hj : j = i
            · subst hj; exact hs.grown h4
            · exact .of_grown hg (h5 j (by omega) (by omega))
          · obtain ⟨j, g1, g2, g3, g4⟩ := h3 hb'
            refine ⟨j, by omega, by omega, ?_, .of_grown hg g4⟩
            rw [show j + 1 - i = (j + 1 - (i + 1)) + 1 by omega, Nat.mul_succ, Nat.add_comm]
            exact hg.trans g3
        · rintro e _ lg'' ⟨rfl, h1, rfl, h2⟩
          exact ⟨rfl, h1, rfl, by rw [Nat.mul_succ, Nat.add_comm]; exact .of_grown hg h2⟩
      | true =>
        refine ⟨rfl, fun h => absurd h (by decide), fun _ => ⟨i, by omega, by omega, ?_, hs⟩⟩
        rwa [show i + 1 - i = 1 by omega, Nat.mul_one]
    · intro d q hp hl
      exact ⟨rfl, hp, rfl, d, q, rfl, by rw [Nat.mul_succ]; omega⟩

/-! ### `binary_search` -/

theorem wp_loop {s r : Type} {body : s → Prog α ι ω (s ⊕ r)} {F : Addr → Prop} {Inv : s → Mem α → List (ι × Option ω) → Prop}
    {μ : s → Nat} {Q : r → Mem α → List (ι × Option ω) → Prop} {E : Panic → Mem α → List (ι × Option ω) → Prop} {n : Nat} {x : s}
    (hI : Inv x m lg) (hn : μ x < n)
    (hb : ∀ x m lg, Inv x m lg → wp R (body x) F
      (fun o m lg => match o with
        | .inl x' => Inv x' m lg ∧ μ x' < μ x
        | .inr y => Q y m lg) E m lg) :
    wp R (Prog.loop body n x) F Q E m lg := by
  induction n generalizing x m lg with
  | zero => exact absurd hn (Nat.not_lt_zero _)
  | succ n ih =>
    refine wp_bind (wp_mono (hb x m lg hI) (fun _ h => h) ?_ (fun _ _ _ h => h))
    intro o m lg ho
    cases o with
    | inl x' => exact ih ho.1 (by have := ho.2; omega)
    | inr y => exact ho

/-- The number of calls allowed. -/
def searchCalls (len : Nat) : Nat := if len = 0 then 0 else Nat.log2 len + 1

/-- What `binary_search_by` knows: the answers at the positions asked. -/
structure SearchInv (f : Fn α ι ω α Ordering) (v : View) (m : Mem α) (l0 : List (ι × Option ω)) (size left right : Nat) (m' : Mem α)
    (lg : List (ι × Option ω)) : Prop where
  mem : m' = m
  siz : size = right - left
  le : left ≤ right
  len : right ≤ v.len
  less : 0 < left → f.Said l0 (m (v.addr (left - 1))) .lt lg
  greater : right < v.len → f.Said l0 (m (v.addr right)) .gt lg
  calls : ∃ k, Grown l0 (f.cost * k) lg ∧ k ≤ searchCalls v.len ∧ size * 2 ^ k ≤ v.len

/-- What is known after `binary_search_by`. -/
def SearchPost (f : Fn α ι ω α Ordering) (v : View) (m : Mem α) (l0 lg : List (ι × Option ω)) : Except Nat Nat → Prop
  | .ok i => i < v.len ∧ ∃ l d, lg = l0 ++ l ++ d ∧ f.ans (m (v.addr i)) .eq d
  | .error i => i ≤ v.len ∧ (0 < i → f.Said l0 (m (v.addr (i - 1))) .lt lg) ∧ (i < v.len → f.Said l0 (m (v.addr i)) .gt lg)

theorem binarySearchBy_spec {cfg : Cfg} (f : Fn α ι ω α Ordering) :
    wp f.R (binarySearchBy cfg f.prog v) (· ∈ v.region)
      (fun r m' lg' => m' = m ∧ (∃ k, k ≤ searchCalls v.len ∧ Grown lg (f.cost * k) lg') ∧ SearchPost f v m lg lg' r)
      (fun e m' lg' => e = .user ∧ f.pan ∧ m' = m ∧ Panicked lg (f.cost * searchCalls v.len) lg') m lg := by
  refine wp_loop (Inv := fun x => SearchInv f v m lg x.1 x.2.1 x.2.2) (μ := fun x => x.1) ?_ ?_ ?_
  · exact ⟨rfl, rfl, Nat.zero_le _, Nat.le_refl _, fun h => absurd h (Nat.lt_irrefl _), fun h => absurd h (Nat.lt_irrefl _), 0,
      .refl _, Nat.zero_le _, by simp⟩
  · exact Nat.lt_succ_self _
  · rintro ⟨size, left, right⟩ m' lg' hinv
    obtain ⟨rfl, h2, h3, h4, h5, h6, k, hk, hk', hsz⟩ := hinv
    simp only at h2 h3 h4 h5 h6 hsz ⊢
    unfold binarySearchBody
    by_cases hlr : left < right
    · simp only [hlr, if_true]
      have hpos : 0 < v.len := by omega
      have hk2 : 2 ^ k ≤ v.len := Nat.le_trans (Nat.le_mul_of_pos_left _ (by omega)) hsz
      have hkl : k ≤ Nat.log2 v.len := (Nat.le_log2 (by omega)).mpr hk2
      have hcalls : searchCalls v.len = Nat.log2 v.len + 1 := by simp [searchCalls]; omega
      have hcost : f.cost * k + f.cost ≤ f.cost * searchCalls v.len := by
        rw [hcalls, ← Nat.mul_succ]
        exact Nat.mul_le_mul_left _ (by omega)
      have half : ∀ s', s' ≤ size / 2 → s' * 2 ^ (k + 1) ≤ v.len := by
        intro s' hs'
        rw [Nat.pow_succ]
        refine Nat.le_trans ?_ hsz
        calc s' * (2 ^ k * 2) = (s' * 2) * 2 ^ k := by ring
          _ ≤ size * 2 ^ k := Nat.mul_le_mul_right _ (by omega)
      refine wp_vget (by omega) (wp_fn f ?_ ?_)
      · intro c d hc hl
        have hg : Grown lg' f.cost (lg' ++ d) := ⟨d, rfl, hl⟩
        have hl' : Grown lg (f.cost * (k + 1)) (lg' ++ d) := by rw [Nat.mul_succ]; exact hk.trans hg
        have hs : f.Said lg (m' (v.addr (left + size / 2))) c (lg' ++ d) := .of_grown hk ⟨[], d, [], by simp, hc⟩
        cases c with
        | lt =>
          refine wp_usub (by simp; omega)
            ⟨⟨rfl, rfl, by simp; omega, h4, fun _ => hs, fun h => (h6 h).grown hg, k + 1, hl', by omega, ?_⟩, ?_⟩
          · exact half _ (by simp; omega)
          · simp; omega
        | gt =>
          refine wp_usub (by simp)
            ⟨⟨rfl, rfl, by simp, by simp; omega, fun h => (h5 h).grown hg, fun _ => hs, k + 1, hl', by omega, ?_⟩, ?_⟩
          · exact half _ (by simp)
          · simp; omega
        | eq =>
          obtain ⟨d0, rfl, -⟩ := hk
          exact wp_debugAssert (by simp; omega) ⟨rfl, ⟨k + 1, by omega, hl'⟩, by omega, d0, d, rfl, hc⟩
      · intro d q hp hl
        exact ⟨rfl, hp, rfl, (Panicked.of_grown hk ⟨d, q, rfl, hl⟩).mono hcost⟩
    · simp only [hlr, if_false]
      refine wp_debugAssert (by simp; omega) ⟨rfl, ⟨k, hk', hk⟩, by omega, h5, ?_⟩
      intro h; exact (show left = right by omega) ▸ h6 (by omega)

end NdSlice
