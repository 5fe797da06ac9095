import Verif.Core.TriL
import Verif.Model.Cached
import Verif.Spec
import Mathlib.Logic.Equiv.Basic

/-
Correctness of the cached key sorts.
-/

namespace NdSlice

variable {α κ : Type} {R : KeyQ α κ → Option (κ × Bool) → Prop} {v : View}

/-! ### What is assumed about the sort of the standard library -/

/-- The order of pairs of a key and an index: keys first. -/
def PairLe (klt : κ → κ → Bool) (p q : κ × Nat) : Prop := klt p.1 q.1 = true ∨ (klt q.1 p.1 = false ∧ p.2 ≤ q.2)

/-- All questions are comparisons of keys. -/
def OnlyLt (d : List (KeyQ α κ × Option (κ × Bool))) : Prop := ∀ q ∈ d, ∃ k l, q.1 = .lt k l

/-- Key comparisons are answered consistently with `klt`. -/
def LtIs (R : KeyQ α κ → Option (κ × Bool) → Prop) (klt : κ → κ → Bool) : Prop :=
  ∀ k l c, R (.lt k l) (some c) → c.2 = klt k l

/-- How a sort of the pairs may panic: key comparisons do, or they do not form a total order, which the sort of the standard library is
free to punish by a panic. -/
def PairPanic (R : KeyQ α κ → Option (κ × Bool) → Prop) (e : Panic) : Prop :=
  (e = .user ∧ ∃ k l, R (.lt k l) none) ∨ (e = .check ∧ ¬ ∃ klt, SWO klt ∧ LtIs R klt)

/-- The documented behaviour of `sort_unstable` and `par_sort_unstable` on the pairs: they compare keys and do nothing else to the outside, the
result has the pairs that were given, and it is sorted if the key comparisons form a total order (of classes of equal keys). -/
def SortsPairs (srt : PairSort α κ) : Prop :=
  ∀ (R : KeyQ α κ → Option (κ × Bool) → Prop) (l : List (κ × Nat)), TriL R [] (srt l) []
    (fun l' _ d => OnlyLt d ∧ l'.Perm l ∧ ∀ klt, SWO klt → LtIs R klt → l'.Pairwise (PairLe klt))
    (fun e _ d => OnlyLt d ∧ PairPanic R e)

/-! ### The index type -/

theorem indexBits_spec {cfg : Cfg} {sz : Sizes} {n : Nat} (h : n ≤ 2 ^ cfg.bits) : n ≤ 2 ^ indexBits cfg sz n := by
  unfold indexBits
  have k : ∀ b : Nat, n ≤ (2 ^ b - 1) % 2 ^ cfg.bits → n ≤ 2 ^ b := fun b hb =>
    (hb.trans (Nat.mod_le _ _)).trans (Nat.sub_le _ _)
  split
  · exact k _ (by simp_all)
  split
  · exact k _ (by simp_all)
  split
  · exact k _ (by simp_all)
  exact h

/-! ### Computing the keys -/

/-- The questions and answers of the calls of the key function. -/
def keyLog (xs : List α) (as : List (κ × Bool)) : List (KeyQ α κ × Option (κ × Bool)) :=
  List.zipWith (fun x a => (.key x, some a)) xs as

theorem keyPair_spec {rg : List Addr} {xs : List α} {w i j : Nat} (hi : i < v.len) (hj : rg[j]? = some (v.addr i)) :
    TriL R rg (keyPair v w i) xs
      (fun p ys d => ys = xs ∧ ∃ x a, xs[j]? = some x ∧ R (.key x) (some a) ∧ p = (a.1, i % 2 ^ w) ∧ d = [(.key x, some a)])
      (fun e ys d => ys = xs ∧ e = .user ∧ ∃ x, xs[j]? = some x ∧ R (.key x) none ∧ d = [(.key x, none)]) := by
  unfold keyPair View.get
  rw [if_pos hi]
  refine TriL.get_cell hj fun x hx => TriL.call fun r hr => ?_
  cases r with
  | none => exact TriL.throw ⟨rfl, rfl, x, hx, hr, rfl⟩
  | some a => exact TriL.pure ⟨rfl, x, a, hx, hr, rfl, rfl⟩

theorem keyPairs_spec {xs : List α} {w i n : Nat} (hx : xs.length = v.len) (hn : i + n = v.len) (hw : v.len ≤ 2 ^ w) :
    TriL R v.region (keyPairs v w i n) xs
      (fun ps ys d => ys = xs ∧ ∃ as, List.Forall₂ (fun x a => R (.key x) (some a)) (xs.drop i) as ∧
        ps = (as.map (·.1)).zipIdx i ∧ d = keyLog (xs.drop i) as)
      (fun e ys d => ys = xs ∧ e = .user ∧ ∃ j x as, j < n ∧ xs[i + j]? = some x ∧ R (.key x) none ∧ as.length = j ∧
        d = keyLog ((xs.drop i).take j) as ++ [(.key x, none)]) := by
  induction n generalizing i with
  | zero =>
    have : xs.drop i = [] := List.drop_eq_nil_of_le (by omega)
    rw [this]
    exact TriL.pure ⟨rfl, [], .nil, rfl, rfl⟩
  | succ n ih =>
    have hi : i < v.len := by omega
    have hd : ∀ x, xs[i]? = some x → xs.drop i = x :: xs.drop (i + 1) := by
      intro x h
      rw [List.getElem?_eq_some_iff] at h
      obtain ⟨h1, rfl⟩ := h
      exact List.drop_eq_getElem_cons h1
    unfold keyPairs
    refine TriL.bind (keyPair_spec hi (View.region_get v hi)) ?_ ?_
    · rintro p xs _ _ ⟨rfl, x, a, h1, h2, rfl, rfl⟩
      rw [hd x h1]
      refine TriL.bind (TriL.mono (ih (i := i + 1) (by omega)) (fun _ _ _ _ h => h) (fun _ _ _ _ h => h)) ?_ ?_
      · rintro ps xs _ _ ⟨rfl, as, h3, rfl, rfl⟩
        refine TriL.pure ⟨rfl, a :: as, .cons h2 h3, ?_, ?_⟩
        · rw [Nat.mod_eq_of_lt (by omega)]; rfl
        · simp [keyLog]
      · rintro e xs _ ⟨rfl, he, j, y, as, hj, hy, hr, rfl, rfl⟩
        refine ⟨rfl, he, as.length + 1, y, a :: as, by omega, by rw [← hy]; congr 1; omega, hr, rfl, ?_⟩
        simp [keyLog]
    · rintro e xs _ ⟨rfl, he, x, hx, hr, rfl⟩
      exact ⟨rfl, he, 0, x, [], by omega, hx, hr, rfl, rfl⟩

/-! ### Moving the elements into place -/

/-- Following the indices `g` from `q` on while they are below `i` leads to `c`. -/
inductive Chase (g : Nat → Nat) (i : Nat) : Nat → Nat → Prop where
  | here {c : Nat} : i ≤ c → Chase g i c c
  | step {q c : Nat} : q < i → q < g q → Chase g i (g q) c → Chase g i q c

theorem Chase.le {g : Nat → Nat} {i q c : Nat} (h : Chase g i q c) : q ≤ c ∧ i ≤ c := by
  induction h with
  | here h => exact ⟨Nat.le_refl _, h⟩
  | step h1 h2 _ ih => omega

/-- The inner loop finds the end of the path. -/
theorem chase {l : List (κ × Nat)} {g : Nat → Nat} {i q c n : Nat} (hl : ∀ k, k < i → ∃ key, l[k]? = some (key, g k))
    (h : Chase g i q c) (hn : c < n + q) : (Prog.loop (chaseBody l i) n q : Prog α (KeyQ α κ) (κ × Bool) Nat) = pure c := by
  induction h generalizing n with
  | here h =>
    obtain ⟨n, rfl⟩ : ∃ m, n = m + 1 := ⟨n - 1, by omega⟩
    unfold Prog.loop chaseBody
    rw [if_neg (by omega)]
    rfl
  | step h1 h2 h3 ih =>
    have := h3.le
    obtain ⟨n, rfl⟩ : ∃ m, n = m + 1 := ⟨n - 1, by omega⟩
    obtain ⟨key, hk⟩ := hl _ h1
    unfold Prog.loop chaseBody pairAt
    rw [if_pos h1, hk]
    exact ih (by omega)

/-- A path goes on when position `i`, whose element moves to `c0`, points there. -/
theorem Chase.next {g : Nat → Nat} {i q c c0 : Nat} (h : Chase g i q c) (h0 : i ≤ c0) :
    Chase (fun k => if k = i then c0 else g k) (i + 1) q (if c = i then c0 else c) ∨ (c = i ∧ c0 = i) := by
  by_cases hc : c = i ∧ c0 = i
  · exact .inr hc
  refine .inl ?_
  induction h with
  | @here c h =>
    split
    · rename_i he
      subst he
      refine .step (by omega) ?_ ?_
      · simp; omega
      · simp only [if_true]
        exact .here (by omega)
    · exact .here (by omega)
  | @step q c h1 h2 h3 ih =>
    refine .step (by omega) ?_ ?_
    · rw [if_neg (by omega)]; exact h2
    · rw [if_neg (by omega)]; exact ih hc

/-- The state before round `i`: position `k` holds what was at `I k` in the beginning. -/
structure Placing (n i : Nat) (σ g I : Nat → Nat) (xs ys : List α) : Prop where
  now : ∀ k, k < n → ys[k]? = xs[I k]?
  lt : ∀ k, k < n → I k < n
  inj : ∀ k l, k < n → l < n → I k = I l → k = l
  surj : ∀ q, q < n → ∃ k, k < n ∧ I k = q
  placed : ∀ k, k < i → I k = σ k
  fresh : ∀ k, i ≤ k → k < n → g k = σ k
  path : ∀ c, i ≤ c → c < n → Chase g i (I c) c

theorem Placing.init {n : Nat} {σ : Nat → Nat} {xs : List α} : Placing n 0 σ σ id xs xs where
  now _ _ := rfl
  lt _ h := h
  inj _ _ _ _ h := h
  surj q h := ⟨q, h, rfl⟩
  placed _ h := absurd h (Nat.not_lt_zero _)
  fresh _ _ _ := rfl
  path _ _ _ := .here (Nat.zero_le _)

theorem Placing.target {n i : Nat} {σ g I : Nat → Nat} {xs ys : List α} (h : Placing n i σ g I xs ys) (hi : i < n)
    (hσ : ∀ k, k < n → σ k < n) (hσi : ∀ k l, k < n → l < n → σ k = σ l → k = l) : ∃ c, i ≤ c ∧ c < n ∧ I c = σ i ∧ Chase g i (g i) c := by
  obtain ⟨c, hc, he⟩ := h.surj (σ i) (hσ i hi)
  have hic : i ≤ c := by
    by_contra hlt
    have := hσi c i (by omega) hi ((h.placed c (by omega)).symm.trans he)
    omega
  refine ⟨c, hic, hc, he, ?_⟩
  rw [h.fresh i (Nat.le_refl _) hi, ← he]
  exact h.path c hic hc

theorem Placing.next {n i c : Nat} {σ g I : Nat → Nat} {xs ys : List α} (h : Placing n i σ g I xs ys) (hi : i < n) (hc : i ≤ c) (hcn : c < n)
    (he : I c = σ i) (hl : ys.length = n) {x y : α} (hx : ys[i]? = some x) (hy : ys[c]? = some y) :
    Placing n (i + 1) σ (fun k => if k = i then c else g k) (fun k => I (Equiv.swap i c k)) xs ((ys.set i y).set c x) := by
  have hs : ∀ k, k < n → Equiv.swap i c k < n := by
    intro k hk
    rw [Equiv.swap_apply_def]
    split
    · exact hcn
    split
    · exact hi
    exact hk
  constructor
  · intro k hk
    rw [← h.now _ (hs k hk), List.getElem?_set, List.getElem?_set, Equiv.swap_apply_def]
    by_cases h1 : k = c
    · subst h1
      rw [if_pos rfl, if_pos (by simp; omega)]
      by_cases h2 : k = i
      · subst h2; simp [hx]
      · rw [if_neg h2, if_pos rfl, hx]
    · rw [if_neg (by omega)]
      by_cases h2 : k = i
      · subst h2; rw [if_pos rfl, if_pos rfl, if_pos (by omega), hy]
      · rw [if_neg (by omega), if_neg h2, if_neg h1]
  · exact fun k hk => h.lt _ (hs k hk)
  · intro k l hk hl he
    exact (Equiv.swap i c).injective (h.inj _ _ (hs k hk) (hs l hl) he)
  · intro q hq
    obtain ⟨k, hk, rfl⟩ := h.surj q hq
    exact ⟨Equiv.swap i c k, hs k hk, by simp⟩
  · intro k hk
    by_cases hki : k = i
    · subst hki; simp [he]
    · rw [Equiv.swap_apply_of_ne_of_ne hki (by omega)]; exact h.placed k (by omega)
  · intro k hk hkn
    rw [if_neg (by omega)]; exact h.fresh k (by omega) hkn
  · intro k hk hkn
    by_cases hkc : k = c
    · subst hkc
      rw [Equiv.swap_apply_right]
      rcases (h.path i (Nat.le_refl _) hi).next hc with hp | hp
      · simpa using hp
      · omega
    · rw [Equiv.swap_apply_of_ne_of_ne (by omega) hkc]
      rcases (h.path k (by omega) hkn).next hc with hp | hp
      · rwa [if_neg (by omega)] at hp
      · omega

theorem placeAll_loop {n i r : Nat} {σ g I : Nat → Nat} {xs ys : List α} {l : List (κ × Nat)} (hn : n = v.len) (hr : i + r = n)
    (hy : ys.length = n) (hl : ∀ k, k < n → ∃ key, l[k]? = some (key, g k))
    (hσ : ∀ k, k < n → σ k < n) (hσi : ∀ k l, k < n → l < n → σ k = σ l → k = l) (h : Placing n i σ g I xs ys) :
    TriL R v.region (placeAll v i r l) ys (fun _ zs d => d = [] ∧ ∀ k, k < n → zs[k]? = xs[σ k]?) (fun _ _ _ => False) := by
  induction r generalizing i g I ys l with
  | zero =>
    obtain rfl : i = n := by omega
    refine TriL.pure ⟨rfl, fun k hk => ?_⟩
    rw [h.now k hk, h.placed k hk]
  | succ r ih =>
    have hi : i < n := by omega
    obtain ⟨c, hc, hcn, he, hp⟩ := h.target hi hσ hσi
    obtain ⟨key, hk⟩ := hl i hi
    unfold placeAll
    have e1 : (pairAt l i : Prog α (KeyQ α κ) (κ × Bool) (κ × Nat)) = pure (key, g i) := by unfold pairAt; rw [hk]
    rw [e1]
    refine TriL.pureB ?_
    have e2 := chase (α := α) (n := v.len + 1) (fun k hk => hl k (by omega)) hp (by omega)
    simp only
    rw [e2]
    refine TriL.pureB (TriL.vswap (by omega) (by omega) fun x y hx hy' => ?_)
    refine ih (by omega) (by simp [hy]) ?_ (h.next hi hc hcn he hy hx hy')
    intro k hkn
    by_cases hki : k = i
    · subst hki
      obtain ⟨hlt, _⟩ := List.getElem?_eq_some_iff.mp hk
      exact ⟨key, by rw [if_pos rfl, List.getElem?_set_self hlt]⟩
    · rw [if_neg hki, List.getElem?_set_ne (fun h => hki h.symm)]
      exact hl k hkn

theorem filterMap_pmap {xs : List α} {l : List (κ × Nat)} (h : ∀ p ∈ l, p.2 < xs.length) :
    l.filterMap (fun p => xs[p.2]?) = l.pmap (fun p (hp : p.2 < xs.length) => xs[p.2]) h := by
  induction l with
  | nil => rfl
  | cons p l ih =>
    rw [List.filterMap_cons_some (f := fun p : κ × Nat => xs[p.2]?) (List.getElem?_eq_getElem (h p List.mem_cons_self)), List.pmap_cons,
      ih fun q hq => h q (List.mem_cons_of_mem _ hq)]

/-- The elements end up in the order of the sorted indices. -/
theorem placeAll_spec {xs : List α} {l : List (κ × Nat)} (hx : xs.length = v.len) (hl : (l.map (·.2)).Perm (List.range v.len)) :
    TriL R v.region (placeAll v 0 v.len l) xs (fun _ ys d => d = [] ∧ ys = l.filterMap fun p => xs[p.2]?) (fun _ _ _ => False) := by
  have hlen : l.length = v.len := by simpa using hl.length_eq
  have nd : (l.map (·.2)).Nodup := hl.nodup_iff.mpr List.nodup_range
  have hmem : ∀ p ∈ l, p.2 < v.len := fun p hp => by
    have := hl.mem_iff (a := p.2) |>.mp (List.mem_map_of_mem hp)
    simpa using this
  let σ : Nat → Nat := fun k => if h : k < l.length then l[k].2 else 0
  have hσ : ∀ k (h : k < l.length), σ k = l[k].2 := fun k h => dif_pos h
  refine TriL.mono (placeAll_loop (xs := xs) (σ := σ) (g := σ) (I := id) (n := v.len) rfl (by omega) hx ?_ ?_ ?_ .init) ?_ (fun _ _ _ _ h => h)
  · intro k hk
    have hk : k < l.length := by omega
    exact ⟨l[k].1, by rw [hσ k hk, List.getElem?_eq_getElem hk]⟩
  · intro k hk
    have hk : k < l.length := by omega
    rw [hσ k hk]
    exact hmem _ (List.getElem_mem hk)
  · intro k j hk hj he
    have hk : k < l.length := by omega
    have hj : j < l.length := by omega
    rw [hσ k hk, hσ j hj] at he
    exact (List.Nodup.getElem_inj_iff nd (hi := by simpa using hk) (hj := by simpa using hj)).mp (by simpa using he)
  · rintro _ ys d hy ⟨rfl, h⟩
    refine ⟨rfl, ?_⟩
    have hml : ∀ p ∈ l, p.2 < xs.length := fun p hp => by have := hmem p hp; omega
    rw [filterMap_pmap hml]
    refine List.ext_getElem (by simp; omega) fun k h1 h2 => ?_
    have hk : k < l.length := by simpa using h2
    have hlt : l[k].2 < xs.length := by have := hmem _ (List.getElem_mem hk); omega
    have := h k (by omega)
    rw [hσ k hk, List.getElem?_eq_getElem h1, List.getElem?_eq_getElem hlt] at this
    rw [List.getElem_pmap]
    exact Option.some.inj this

/-! ### The stable sort -/

/-- Sorting pairs of keys and indices is sorting the elements stably. -/
theorem stable_of_pairs {xs : List α} {f : α → κ} {klt : κ → κ → Bool} (so : SWO klt) {l : List (κ × Nat)}
    (hl : l.Perm ((xs.map f).zipIdx)) (hs : l.Pairwise (PairLe klt)) :
    StableSortOf (fun x y => klt (f x) (f y)) xs (l.filterMap fun p => xs[p.2]?) := by
  let φ : α × Nat → κ × Nat := fun p => (f p.1, p.2)
  let ψ : κ × Nat → Option (α × Nat) := fun p => xs[p.2]?.map (·, p.2)
  have hz : (xs.map f).zipIdx = xs.zipIdx.map φ := by rw [List.zipIdx_map]; rfl
  have hmem : ∀ p ∈ l, ∃ x, xs[p.2]? = some x ∧ p.1 = f x := by
    intro p hp
    rw [hl.mem_iff, hz, List.mem_map] at hp
    obtain ⟨⟨x, i⟩, h1, rfl⟩ := hp
    exact ⟨x, by rw [List.mem_zipIdx_iff_getElem?] at h1; exact h1, rfl⟩
  -- the sorted pairs of elements and indices
  have hψ : (xs.zipIdx.map φ).filterMap ψ = xs.zipIdx := by
    rw [List.filterMap_map]
    have : ∀ t : List (α × Nat), (∀ q ∈ t, xs[q.2]? = some q.1) → t.filterMap (ψ ∘ φ) = t := by
      intro t ht
      induction t with
      | nil => rfl
      | cons q t ih =>
        have e : (ψ ∘ φ) q = some q := by
          show (xs[q.2]?).map (·, q.2) = some q
          rw [ht q List.mem_cons_self]; rfl
        rw [List.filterMap_cons_some e, ih fun q hq => ht q (List.mem_cons_of_mem _ hq)]
    exact this _ fun q hq => List.mem_zipIdx_iff_getElem?.mp hq
  have ht : (l.filterMap ψ).Perm xs.zipIdx := by
    have := hl.filterMap ψ
    rwa [hz, hψ] at this
  have hys : (l.filterMap fun p => xs[p.2]?) = (l.filterMap ψ).map (·.1) := by
    rw [List.map_filterMap]
    congr 1
    funext p
    show xs[p.2]? = ((xs[p.2]?).map (·, p.2)).map (·.1)
    cases xs[p.2]? <;> rfl
  have hp : (l.filterMap ψ).Pairwise (fun a b => PairLe klt (φ a) (φ b)) := by
    rw [List.pairwise_filterMap]
    refine hs.imp_of_mem ?_
    intro p q hp hq h a ha b hb
    obtain ⟨x, hx, ex⟩ := hmem p hp
    obtain ⟨y, hy, ey⟩ := hmem q hq
    simp only [ψ, hx, hy, Option.map_some, Option.some.injEq] at ha hb
    subst ha hb
    unfold PairLe at h ⊢
    rw [ex, ey] at h
    exact h
  rw [hys]
  refine ⟨?_, ?_, ?_⟩
  · unfold Sorted
    rw [List.pairwise_map]
    refine hp.imp ?_
    rintro a b (h | ⟨h, _⟩)
    · cases hb : klt (f b.1) (f a.1) with
      | false => exact hb
      | true => exact absurd (so.trans _ _ _ h hb) (by simp [φ, so.irrefl])
    · exact h
  · have := ht.map (·.1)
    rwa [List.zipIdx_map_fst] at this
  · intro x
    have e : ∀ t : List (α × Nat), (t.map (·.1)).filter (eqv (fun x y => klt (f x) (f y)) x) =
        (t.filter fun q => eqv (fun x y => klt (f x) (f y)) x q.1).map (·.1) := by
      intro t; rw [List.filter_map]; rfl
    have e2 : xs.filter (eqv (fun x y => klt (f x) (f y)) x) =
        (xs.zipIdx.filter fun q => eqv (fun x y => klt (f x) (f y)) x q.1).map (·.1) := by
      rw [← e, List.zipIdx_map_fst]
    rw [e, e2]
    congr 1
    refine List.Perm.eq_of_pairwise (le := fun a b : α × Nat => a.2 ≤ b.2) ?_ ?_ ?_ (ht.filter _)
    · intro a b ha hb h1 h2
      have ha := (ht.mem_iff.mp (List.mem_of_mem_filter ha))
      have hb := (List.mem_of_mem_filter hb)
      rw [List.mem_zipIdx_iff_getElem?] at ha hb
      have h : a.2 = b.2 := by omega
      rw [h, hb] at ha
      exact Prod.ext (Option.some.inj ha).symm h
    · refine (hp.filter _).imp_of_mem ?_
      intro a b ha hb h
      have ha := (List.mem_filter.mp ha).2
      have hb := (List.mem_filter.mp hb).2
      simp only [eqv, Bool.and_eq_true, Bool.not_eq_true'] at ha hb
      rcases h with h | ⟨_, h⟩
      · have := so.ntrans _ _ _ ha.2 hb.1
        rw [show klt (f a.1) (f b.1) = true from h] at this
        cases this
      · exact h
    · refine List.Pairwise.filter _ ?_
      have : (xs.zipIdx.map (·.2)).Pairwise (· ≤ ·) := by
        rw [List.zipIdx_map_snd]
        exact (List.pairwise_lt_range' (s := 0) (n := xs.length)).imp Nat.le_of_lt
      rwa [List.pairwise_map] at this

/-! ### `sort_by_cached_key` -/

theorem zipIdx_range {as : List κ} {n : Nat} (h : as.length = n) : (as.zipIdx.map (·.2)).Perm (List.range n) := by
  rw [List.zipIdx_map_snd, h, List.range_eq_range']

/-- What the cached key sorts do once the keys are known: sort the pairs and place the elements, by any program `pl` that does as `placeAll` does. -/
theorem place_sorted {srt : PairSort α κ} (hs : SortsPairs srt) {pl : List (κ × Nat) → Prog α (KeyQ α κ) (κ × Bool) Unit}
    (hpl : ∀ l, (l.map (·.2)).Perm (List.range v.len) → pl l = placeAll v 0 v.len l) {xs : List α} (hx : xs.length = v.len) {ks : List κ} (hk : ks.length = v.len)
    {l : List (κ × Nat)} (hl : l.Perm ks.zipIdx) :
    TriL R v.region (srt l >>= pl) xs
      (fun _ ys d => OnlyLt d ∧ ys.Perm xs ∧ ∀ f klt, ks = xs.map f → SWO klt → LtIs R klt → StableSortOf (fun x y => klt (f x) (f y)) xs ys)
      (fun e ys d => ys = xs ∧ OnlyLt d ∧ PairPanic R e) := by
  refine TriL.bind (TriL.untouched (hs R l)) ?_ (fun _ _ _ h => h)
  rintro l' xs d _ ⟨rfl, h1, h2, h3⟩
  have hp := h2.trans hl
  rw [hpl _ ((hp.map (·.2)).trans (zipIdx_range hk))]
  refine TriL.mono (placeAll_spec hx ((hp.map (·.2)).trans (zipIdx_range hk))) ?_ (fun _ _ _ _ h => h.elim)
  rintro _ ys d' hy ⟨rfl, rfl⟩
  refine ⟨by rwa [List.append_nil], ?_, ?_⟩
  · refine (hp.filterMap _).trans (List.Perm.of_eq ?_)
    have e : (fun p : κ × Nat => xs[p.2]?) = (fun i => xs[i]?) ∘ Prod.snd := rfl
    rw [e, ← List.filterMap_map, List.zipIdx_map_snd, hk, ← hx]
    have : ∀ (B A : List α), (List.range' A.length B.length).filterMap (fun i => (A ++ B)[i]?) = B := by
      intro B
      induction B with
      | nil => intro A; rfl
      | cons b B ih =>
        intro A
        rw [List.length_cons, List.range'_succ, List.filterMap_cons_some (b := b) (by simp)]
        have := ih (A ++ [b])
        rw [List.length_append, List.append_assoc] at this
        exact congrArg (b :: ·) this
    exact this xs []
  · rintro f klt rfl so hR
    exact stable_of_pairs so hp (h3 klt so hR)

/-- /repo/src/lib.rs:1838-1890, with any program for the placing of the elements. -/
def sortByCachedKeyWith (pl : List (κ × Nat) → Prog α (KeyQ α κ) (κ × Bool) Unit) (cfg : Cfg) (sz : Sizes) (srt : PairSort α κ) (v : View) :
    Prog α (KeyQ α κ) (κ × Bool) Unit :=
  if v.len < 2 then pure ()
  else do
    let l ← keyPairs v (indexBits cfg sz v.len) 0 v.len
    let l ← srt l
    pl l

theorem sortByCachedKeyWith_spec {cfg : Cfg} {sz : Sizes} {srt : PairSort α κ} (hs : SortsPairs srt)
    {pl : List (κ × Nat) → Prog α (KeyQ α κ) (κ × Bool) Unit} (hpl : ∀ l, (l.map (·.2)).Perm (List.range v.len) → pl l = placeAll v 0 v.len l) {xs : List α} (hx : xs.length = v.len)
    (hw : v.len ≤ 2 ^ cfg.bits) :
    TriL R v.region (sortByCachedKeyWith pl cfg sz srt v) xs
      (fun _ ys d => (v.len < 2 → ys = xs ∧ d = []) ∧ ys.Perm xs ∧
        (∀ (f : α → κ) klt, (∀ x a, R (.key x) (some a) → a.1 = f x) → SWO klt → LtIs R klt → StableSortOf (fun x y => klt (f x) (f y)) xs ys) ∧
        (2 ≤ v.len → ∃ as dl, List.Forall₂ (fun x a => R (.key x) (some a)) xs as ∧ OnlyLt dl ∧ d = keyLog xs as ++ dl))
      (fun e ys d => 2 ≤ v.len ∧ ys = xs ∧
        ((e = .user ∧ ∃ A x B as, xs = A ++ x :: B ∧ R (.key x) none ∧ as.length = A.length ∧ d = keyLog A as ++ [(.key x, none)]) ∨
        (PairPanic R e ∧ ∃ as dl, List.Forall₂ (fun x a => R (.key x) (some a)) xs as ∧ OnlyLt dl ∧ d = keyLog xs as ++ dl))) := by
  unfold sortByCachedKeyWith
  split
  · rename_i h
    refine TriL.pure ⟨fun _ => ⟨rfl, rfl⟩, .refl _, fun f klt _ so _ => ⟨?_, .refl _, fun _ => rfl⟩, fun h' => by omega⟩
    match xs with
    | [] => exact .nil
    | [x] => exact List.pairwise_singleton _ _
    | x :: y :: l => simp at hx; omega
  rename_i h
  refine TriL.bind (keyPairs_spec hx (by omega) (indexBits_spec hw)) ?_ ?_
  · rintro ps xs _ _ ⟨rfl, as, h1, rfl, rfl⟩
    rw [List.drop_zero] at *
    have hl := h1.length_eq
    refine TriL.mono (place_sorted hs hpl hx (ks := as.map (·.1)) (by simp; omega) (.refl _)) ?_ ?_
    · rintro _ ys d hy ⟨g1, g2, g3⟩
      refine ⟨fun h' => absurd h' h, g2, ?_, fun _ => ⟨as, d, h1, g1, rfl⟩⟩
      intro f klt hf so hlt
      refine g3 f klt ?_ so hlt
      have : ∀ (xs : List α) as, List.Forall₂ (fun x a => R (.key x) (some a)) xs as → as.map (·.1) = xs.map f := by
        intro xs as h
        induction h with
        | nil => rfl
        | cons h _ ih => rw [List.map_cons, List.map_cons, ih, hf _ _ h]
      exact this _ _ h1
    · rintro e ys d _ ⟨g1, g2, g3⟩
      exact ⟨by omega, g1, .inr ⟨g3, as, d, h1, g2, rfl⟩⟩
  · rintro e xs _ ⟨rfl, rfl, j, x, as, hj, hjx, hr, rfl, rfl⟩
    refine ⟨by omega, rfl, .inl ⟨rfl, xs.take as.length, x, xs.drop (as.length + 1), as, ?_, hr, by simp; omega, by simp⟩⟩
    rw [Nat.zero_add] at hjx
    obtain ⟨h1, rfl⟩ := List.getElem?_eq_some_iff.mp hjx
    rw [← List.drop_eq_getElem_cons h1, List.take_append_drop]

theorem sortByCachedKey_spec {cfg : Cfg} {sz : Sizes} {srt : PairSort α κ} (hs : SortsPairs srt) {xs : List α} (hx : xs.length = v.len)
    (hw : v.len ≤ 2 ^ cfg.bits) :
    TriL R v.region (sortByCachedKey cfg sz srt v) xs
      (fun _ ys d => (v.len < 2 → ys = xs ∧ d = []) ∧ ys.Perm xs ∧
        (∀ (f : α → κ) klt, (∀ x a, R (.key x) (some a) → a.1 = f x) → SWO klt → LtIs R klt → StableSortOf (fun x y => klt (f x) (f y)) xs ys) ∧
        (2 ≤ v.len → ∃ as dl, List.Forall₂ (fun x a => R (.key x) (some a)) xs as ∧ OnlyLt dl ∧ d = keyLog xs as ++ dl))
      (fun e ys d => 2 ≤ v.len ∧ ys = xs ∧
        ((e = .user ∧ ∃ A x B as, xs = A ++ x :: B ∧ R (.key x) none ∧ as.length = A.length ∧ d = keyLog A as ++ [(.key x, none)]) ∨
        (PairPanic R e ∧ ∃ as dl, List.Forall₂ (fun x a => R (.key x) (some a)) xs as ∧ OnlyLt dl ∧ d = keyLog xs as ++ dl))) :=
  sortByCachedKeyWith_spec hs (fun _ _ => rfl) hx hw

/-! ### `par_sort_by_cached_key` -/

/-- The pairs computed so far (from position `i` on) and the questions asked for them, in any order. -/
def SomePairs (R : KeyQ α κ → Option (κ × Bool) → Prop) : Nat → List α → List (Option (κ × Nat)) → List (KeyQ α κ × Option (κ × Bool)) → Prop
  | _, [], [], d => d = []
  | i, _ :: xs, none :: os, d => SomePairs R (i + 1) xs os d
  | i, x :: xs, some p :: os, d => ∃ a d', p = (a.1, i) ∧ R (.key x) (some a) ∧ d.Perm ((.key x, some a) :: d') ∧ SomePairs R (i + 1) xs os d'
  | _, _, _, _ => False

theorem SomePairs.perm {i : Nat} {xs : List α} {os : List (Option (κ × Nat))} {d d' : List (KeyQ α κ × Option (κ × Bool))}
    (h : SomePairs R i xs os d) (hd : d'.Perm d) : SomePairs R i xs os d' := by
  induction os generalizing i xs d d' with
  | nil =>
    cases xs with
    | nil => exact List.perm_nil.mp ((show d = [] from h) ▸ hd)
    | cons x xs => exact h
  | cons o os ih =>
    cases xs with
    | nil => cases o <;> exact h
    | cons x xs =>
      cases o with
      | none => exact ih (xs := xs) h hd
      | some p =>
        obtain ⟨a, d1, h1, h2, h3, h4⟩ := h
        exact ⟨a, d1, h1, h2, hd.trans h3, h4⟩

/-- Every element is asked about at most once. -/
def AtMostOnce (xs : List α) (d : List (KeyQ α κ × Option (κ × Bool))) : Prop := (d.map (·.1)).Subperm (xs.map .key)

theorem AtMostOnce.append {A B : List α} {d1 d2 d : List (KeyQ α κ × Option (κ × Bool))} (h1 : AtMostOnce A d1) (h2 : AtMostOnce B d2)
    (hd : d.Perm (d1 ++ d2)) : AtMostOnce (A ++ B) d := by
  unfold AtMostOnce at *
  rw [List.map_append]
  have := (hd.map (·.1)).subperm
  rw [List.map_append] at this
  obtain ⟨l1, p1, s1⟩ := h1
  obtain ⟨l2, p2, s2⟩ := h2
  exact this.trans ⟨l1 ++ l2, p1.append p2, s1.append s2⟩

theorem SomePairs.once {i : Nat} {xs : List α} {os : List (Option (κ × Nat))} {d : List (KeyQ α κ × Option (κ × Bool))}
    (h : SomePairs R i xs os d) : AtMostOnce xs d := by
  induction os generalizing i xs d with
  | nil =>
    cases xs with
    | nil => rw [show d = [] from h]; exact List.Subperm.refl _
    | cons x xs => exact h.elim
  | cons o os ih =>
    cases xs with
    | nil => cases o <;> exact h.elim
    | cons x xs =>
      cases o with
      | none => exact (ih (xs := xs) h).trans (List.sublist_cons_self _ _).subperm
      | some p =>
        obtain ⟨a, d1, h1, h2, h3, h4⟩ := h
        exact AtMostOnce.append (A := [x]) (d1 := [(.key x, some a)]) (List.Subperm.refl _) (ih h4) h3

theorem parKeyPairs_spec {w i n : Nat} {X : List α} (hn : i + n ≤ v.len) (hX : X.length = n) (hw : v.len ≤ 2 ^ w) :
    TriL R (v.sub i n).region (parKeyPairs v w i n) X
      (fun os ys d => ys = X ∧ SomePairs R i X os d)
      (fun e ys d => ys = X ∧ e = .user ∧ (∃ x ∈ X, R (.key x) none) ∧ AtMostOnce X d) := by
  induction n generalizing i X with
  | zero =>
    obtain rfl : X = [] := List.eq_nil_of_length_eq_zero hX
    exact TriL.pure ⟨rfl, rfl⟩
  | succ n ih =>
    obtain ⟨x, X, rfl⟩ : ∃ x Y, X = x :: Y := by cases X with | nil => simp at hX | cons x Y => exact ⟨x, Y, rfl⟩
    have hreg : (v.sub i (n + 1)).region = [v.addr i] ++ (v.sub (i + 1) n).region := by
      unfold View.region
      show (List.range (n + 1)).map _ = _ ++ (List.range n).map _
      rw [List.range_succ_eq_map, List.map_cons, List.map_map, View.sub_addr]
      refine congrArg (v.addr i :: ·) (List.map_congr_left fun k _ => ?_)
      show (v.sub i (n + 1)).addr (k + 1) = _
      rw [View.sub_addr, View.sub_addr]
      congr 1; omega
    unfold parKeyPairs
    rw [hreg]
    refine TriL.bind (Q' := fun r ys d => ys = x :: X ∧ SomePairs R i (x :: X) (r.1 :: r.2) d)
      (E' := fun e ys d => ys = x :: X ∧ e = .user ∧ (∃ y ∈ x :: X, R (.key y) none) ∧ AtMostOnce (x :: X) d) ?_ ?_ (fun _ _ _ h => h)
    · refine TriL.rayonJoin (A := [x]) (B := X) rfl
        (Q1 := fun o ys d => ys = [x] ∧ AtMostOnce [x] d ∧ ∀ d' os d'', SomePairs R (i + 1) X os d' → d''.Perm (d ++ d') → SomePairs R i (x :: X) (o :: os) d'')
        (E1 := fun e ys d => ys = [x] ∧ e = .user ∧ R (.key x) none ∧ AtMostOnce [x] d) ?_ (ih (i := i + 1) (by omega) (by simpa using hX)) ?_ ?_ ?_ ?_
      · refine TriL.choose fun late => ?_
        cases late with
        | true =>
          simp only [if_true]
          exact TriL.pure ⟨rfl, List.nil_subperm, fun d' os d'' h hd => SomePairs.perm (xs := X) h hd⟩
        | false =>
          simp only [Bool.false_eq_true, if_false]
          refine TriL.bind (keyPair_spec (rg := [v.addr i]) (j := 0) (by omega) rfl) ?_ ?_
          · rintro p ys _ _ ⟨rfl, y, a, h1, h2, rfl, rfl⟩
            obtain rfl : x = y := Option.some.inj h1
            refine TriL.pure ⟨rfl, List.Subperm.refl _, fun d' os d'' h hd => ⟨a, d', ?_, h2, hd, h⟩⟩
            rw [Nat.mod_eq_of_lt (by omega)]
          · rintro e ys _ ⟨rfl, rfl, y, h1, h2, rfl⟩
            obtain rfl : x = y := Option.some.inj h1
            exact ⟨rfl, rfl, h2, List.Subperm.refl _⟩
      · rintro o os _ _ d1 d2 d _ _ ⟨rfl, _, h1⟩ ⟨rfl, h2⟩ hd
        exact ⟨rfl, h1 _ _ _ h2 hd⟩
      · rintro e os _ _ d1 d2 d _ _ ⟨rfl, rfl, h1, h2⟩ ⟨rfl, h3⟩ hd
        exact ⟨rfl, rfl, ⟨x, List.mem_cons_self, h1⟩, h2.append h3.once hd⟩
      · rintro o e _ _ d1 d2 d _ _ ⟨rfl, h1, _⟩ ⟨rfl, rfl, ⟨y, hy, h2⟩, h3⟩ hd
        exact ⟨rfl, rfl, ⟨y, List.mem_cons_of_mem _ hy, h2⟩, h1.append h3 hd⟩
      · rintro e e' _ _ d1 d2 d _ _ ⟨rfl, rfl, h1, h2⟩ ⟨rfl, rfl, _, h3⟩ hd
        exact ⟨rfl, rfl, ⟨x, List.mem_cons_self, h1⟩, h2.append h3 hd⟩
    · rintro ⟨o, os⟩ ys d _ ⟨rfl, h⟩
      exact TriL.pure ⟨rfl, by rwa [List.append_nil]⟩

theorem latePairs_spec {w i : Nat} {xs : List α} {os : List (Option (κ × Nat))} {d0 : List (KeyQ α κ × Option (κ × Bool))}
    (hx : xs.length = v.len) (hw : v.len ≤ 2 ^ w) (hi : i ≤ v.len) (h : SomePairs R i (xs.drop i) os d0) :
    TriL R v.region (latePairs v w i os) xs
      (fun ps ys d => ys = xs ∧ ∃ as, List.Forall₂ (fun x a => R (.key x) (some a)) (xs.drop i) as ∧
        ps = (as.map (·.1)).zipIdx i ∧ (d0 ++ d).Perm (keyLog (xs.drop i) as))
      (fun e ys d => ys = xs ∧ e = .user ∧ (∃ x ∈ xs, R (.key x) none) ∧ AtMostOnce (xs.drop i) (d0 ++ d)) := by
  induction os generalizing i d0 with
  | nil =>
    cases hX : xs.drop i with
    | cons x X => rw [hX] at h; exact h.elim
    | nil =>
      rw [hX] at h
      rw [show d0 = [] from h]
      exact TriL.pure ⟨rfl, [], .nil, rfl, .refl _⟩
  | cons o os ih =>
    cases hX : xs.drop i with
    | nil => rw [hX] at h; cases o <;> exact h.elim
    | cons x X =>
      rw [hX] at h
      have hlt : i < xs.length := by
        by_contra hn
        rw [List.drop_eq_nil_of_le (by omega)] at hX
        cases hX
      have e := List.drop_eq_getElem_cons hlt
      rw [hX, List.cons.injEq] at e
      obtain ⟨e1, e2⟩ := e
      have hxi : xs[i]? = some x := by rw [List.getElem?_eq_getElem hlt, e1]
      rw [e2] at h
      cases o with
      | none =>
        unfold latePairs
        have h : SomePairs R (i + 1) (xs.drop (i + 1)) os d0 := h
        refine TriL.bind (keyPair_spec (by omega) (View.region_get v (by omega))) ?_ ?_
        · rintro p xs _ _ ⟨rfl, y, a, h1, h2, rfl, rfl⟩
          obtain rfl : x = y := Option.some.inj (hxi.symm.trans h1)
          refine TriL.bind (ih (by omega) h) ?_ ?_
          · rintro ps xs d _ ⟨rfl, as, h3, rfl, h4⟩
            refine TriL.pure ⟨rfl, a :: as, e2 ▸ .cons h2 h3, ?_, ?_⟩
            · rw [Nat.mod_eq_of_lt (by omega)]; rfl
            · simp only [List.append_nil, List.singleton_append]
              refine List.perm_middle.trans ?_
              rw [e2]
              exact h4.cons _
          · rintro e xs d ⟨rfl, rfl, h3, h4⟩
            refine ⟨rfl, rfl, h3, ?_⟩
            rw [e2]
            exact AtMostOnce.append (A := [x]) (d1 := [(.key x, some a)]) (List.Subperm.refl _) h4 List.perm_middle
        · rintro e xs _ ⟨rfl, rfl, y, h1, h2, rfl⟩
          obtain rfl : x = y := Option.some.inj (hxi.symm.trans h1)
          refine ⟨rfl, rfl, ⟨x, List.mem_of_getElem? h1, h2⟩, ?_⟩
          rw [e2]
          exact AtMostOnce.append (A := [x]) (d1 := [(.key x, none)]) (List.Subperm.refl _) h.once List.perm_append_comm
      | some p =>
        unfold latePairs
        obtain ⟨a, d1, rfl, h2, h3, h4⟩ := h
        refine TriL.bind (ih (by omega) h4) ?_ ?_
        · rintro ps xs d _ ⟨rfl, as, h5, rfl, h6⟩
          refine TriL.pure ⟨rfl, a :: as, e2 ▸ .cons h2 h5, rfl, ?_⟩
          rw [List.append_nil, e2]
          exact (h3.append_right _).trans (h6.cons _)
        · rintro e xs d ⟨rfl, rfl, h5, h6⟩
          refine ⟨rfl, rfl, h5, ?_⟩
          rw [e2]
          exact AtMostOnce.append (A := [x]) (d1 := [(.key x, some a)]) (List.Subperm.refl _) h6 (h3.append_right _)

theorem insertAny_spec {rg : List Addr} {xs : List α} {p : κ × Nat} {l : List (κ × Nat)} :
    TriL R rg (insertAny p l) xs (fun l' ys d => ys = xs ∧ d = [] ∧ l'.Perm (p :: l)) (fun _ _ _ => False) := by
  induction l with
  | nil => exact TriL.pure ⟨rfl, rfl, .refl _⟩
  | cons q l ih =>
    unfold insertAny
    refine TriL.choose fun b => ?_
    cases b with
    | true => simp only [if_true]; exact TriL.pure ⟨rfl, rfl, .refl _⟩
    | false =>
      simp only [Bool.false_eq_true, if_false]
      refine TriL.bind ih ?_ (fun _ _ _ h => h.elim)
      rintro l' xs _ _ ⟨rfl, rfl, h⟩
      exact TriL.pure ⟨rfl, rfl, (h.cons q).trans (.swap _ _ _)⟩

theorem collectAny_spec {rg : List Addr} {xs : List α} {l : List (κ × Nat)} :
    TriL R rg (collectAny l) xs (fun l' ys d => ys = xs ∧ d = [] ∧ l'.Perm l) (fun _ _ _ => False) := by
  induction l with
  | nil => exact TriL.pure ⟨rfl, rfl, .refl _⟩
  | cons p l ih =>
    unfold collectAny
    refine TriL.bind ih ?_ (fun _ _ _ h => h.elim)
    rintro l' xs _ _ ⟨rfl, rfl, h⟩
    refine TriL.mono insertAny_spec ?_ (fun _ _ _ _ h => h)
    rintro l'' ys _ _ ⟨rfl, rfl, h'⟩
    exact ⟨rfl, rfl, h'.trans (h.cons p)⟩

/-- /repo/src/lib.rs:1749-1808, with any program for the placing of the elements. -/
def parSortByCachedKeyWith (pl : List (κ × Nat) → Prog α (KeyQ α κ) (κ × Bool) Unit) (cfg : Cfg) (sz : Sizes) (srt : PairSort α κ) (v : View) :
    Prog α (KeyQ α κ) (κ × Bool) Unit :=
  if v.len < 2 then pure ()
  else do
    let w := indexBits cfg sz v.len
    let ps ← parKeyPairs v w 0 v.len
    let ps ← latePairs v w 0 ps
    let l ← collectAny ps
    let l ← srt l
    pl l

theorem parSortByCachedKeyWith_spec {cfg : Cfg} {sz : Sizes} {srt : PairSort α κ} (hs : SortsPairs srt)
    {pl : List (κ × Nat) → Prog α (KeyQ α κ) (κ × Bool) Unit} (hpl : ∀ l, (l.map (·.2)).Perm (List.range v.len) → pl l = placeAll v 0 v.len l) {xs : List α} (hx : xs.length = v.len)
    (hw : v.len ≤ 2 ^ cfg.bits) :
    TriL R v.region (parSortByCachedKeyWith pl cfg sz srt v) xs
      (fun _ ys d => (v.len < 2 → ys = xs ∧ d = []) ∧ ys.Perm xs ∧
        (∀ (f : α → κ) klt, (∀ x a, R (.key x) (some a) → a.1 = f x) → SWO klt → LtIs R klt → StableSortOf (fun x y => klt (f x) (f y)) xs ys) ∧
        (2 ≤ v.len → ∃ as dk dl, List.Forall₂ (fun x a => R (.key x) (some a)) xs as ∧ dk.Perm (keyLog xs as) ∧ OnlyLt dl ∧ d = dk ++ dl))
      (fun e ys d => 2 ≤ v.len ∧ ys = xs ∧
        ((e = .user ∧ (∃ x ∈ xs, R (.key x) none) ∧ AtMostOnce xs d) ∨
        (PairPanic R e ∧ ∃ as dk dl, List.Forall₂ (fun x a => R (.key x) (some a)) xs as ∧ dk.Perm (keyLog xs as) ∧ OnlyLt dl ∧ d = dk ++ dl))) := by
  unfold parSortByCachedKeyWith
  split
  · rename_i h
    refine TriL.pure ⟨fun _ => ⟨rfl, rfl⟩, .refl _, fun f klt _ so _ => ⟨?_, .refl _, fun _ => rfl⟩, fun h' => by omega⟩
    match xs with
    | [] => exact .nil
    | [x] => exact List.pairwise_singleton _ _
    | x :: y :: l => simp at hx; omega
  rename_i h
  have hwb := indexBits_spec (sz := sz) hw
  have h1 := parKeyPairs_spec (R := R) (v := v) (i := 0) (n := v.len) (X := xs) (by omega) hx hwb
  rw [View.sub_self] at h1
  refine TriL.bind h1 ?_ ?_
  · rintro os xs d1 _ ⟨rfl, h2⟩
    refine TriL.bind (latePairs_spec (i := 0) hx hwb (Nat.zero_le _) (by rwa [List.drop_zero])) ?_ ?_
    · rintro ps xs d2 _ ⟨rfl, as, h3, rfl, h4⟩
      rw [List.drop_zero] at h3 h4
      have hl := h3.length_eq
      refine TriL.bind collectAny_spec ?_ (fun _ _ _ h => h.elim)
      rintro l xs d3 _ ⟨rfl, rfl, h5⟩
      refine TriL.mono (place_sorted hs hpl hx (ks := as.map (·.1)) (by simp; omega) h5) ?_ ?_
      · rintro _ ys d hy ⟨g1, g2, g3⟩
        refine ⟨fun h' => absurd h' h, g2, ?_, fun _ => ⟨as, d1 ++ d2, d, h3, h4, g1, by simp⟩⟩
        intro f klt hf so hlt
        refine g3 f klt ?_ so hlt
        have : ∀ (xs : List α) as, List.Forall₂ (fun x a => R (.key x) (some a)) xs as → as.map (·.1) = xs.map f := by
          intro xs as h
          induction h with
          | nil => rfl
          | cons h _ ih => rw [List.map_cons, List.map_cons, ih, hf _ _ h]
        exact this _ _ h3
      · rintro e ys d _ ⟨g1, g2, g3⟩
        exact ⟨by omega, g1, .inr ⟨g3, as, d1 ++ d2, d, h3, h4, g2, by simp⟩⟩
    · rintro e xs d2 ⟨rfl, rfl, h3, h4⟩
      exact ⟨by omega, rfl, .inl ⟨rfl, h3, by rwa [List.drop_zero] at h4⟩⟩
  · rintro e xs d ⟨rfl, rfl, h2, h3⟩
    exact ⟨by omega, rfl, .inl ⟨rfl, h2, h3⟩⟩

theorem parSortByCachedKey_spec {cfg : Cfg} {sz : Sizes} {srt : PairSort α κ} (hs : SortsPairs srt) {xs : List α} (hx : xs.length = v.len)
    (hw : v.len ≤ 2 ^ cfg.bits) :
    TriL R v.region (parSortByCachedKey cfg sz srt v) xs
      (fun _ ys d => (v.len < 2 → ys = xs ∧ d = []) ∧ ys.Perm xs ∧
        (∀ (f : α → κ) klt, (∀ x a, R (.key x) (some a) → a.1 = f x) → SWO klt → LtIs R klt → StableSortOf (fun x y => klt (f x) (f y)) xs ys) ∧
        (2 ≤ v.len → ∃ as dk dl, List.Forall₂ (fun x a => R (.key x) (some a)) xs as ∧ dk.Perm (keyLog xs as) ∧ OnlyLt dl ∧ d = dk ++ dl))
      (fun e ys d => 2 ≤ v.len ∧ ys = xs ∧
        ((e = .user ∧ (∃ x ∈ xs, R (.key x) none) ∧ AtMostOnce xs d) ∨
        (PairPanic R e ∧ ∃ as dk dl, List.Forall₂ (fun x a => R (.key x) (some a)) xs as ∧ dk.Perm (keyLog xs as) ∧ OnlyLt dl ∧ d = dk ++ dl))) :=
  parSortByCachedKeyWith_spec hs (fun _ _ => rfl) hx hw

end NdSlice
