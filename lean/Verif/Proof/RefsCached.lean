import Verif.Model.RefsCached
import Verif.Proof.Cached

/-
Correctness of the cached key sorts if the key function changes elements.
-/

namespace NdSlice.Refs

variable {α κ : Type} {R : KeyQ α κ → Option (KeyA α κ) → Prop} {v : View}

/-- The state an element is in after a call of the key function: as the call left it. -/
def after (x : α) (r : Option (KeyA α κ)) : α := (r.map (·.1)).getD x

/-- The questions and answers of calls of the key function on `xs` that all gave a key: the new states are `(r.1)`, the keys `r.2.1`. -/
def gotLog (xs : List α) (rs : List (α × κ × Bool)) : List (KeyQ α κ × Option (KeyA α κ)) :=
  List.zipWith (fun x r => (.key x, some (r.1, some r.2))) xs rs

/-- Possible answers to calls of the key function on `xs`. -/
abbrev GotAll (R : KeyQ α κ → Option (KeyA α κ) → Prop) (xs : List α) (rs : List (α × κ × Bool)) : Prop :=
  List.Forall₂ (fun x r => R (.key x) (some (r.1, some r.2))) xs rs

theorem keyPair_spec {rg : List Addr} {xs : List α} {w i j : Nat} (hi : i < v.len) (hj : rg[j]? = some (v.addr i)) :
    TriL R rg (keyPair v w i) xs
      (fun p ys d => ∃ (x : α) (r : α × κ × Bool), xs[j]? = some x ∧ ys = xs.set j r.1 ∧ R (.key x) (some (r.1, some r.2)) ∧ p = (r.2.1, i % 2 ^ w) ∧
        d = [(.key x, some (r.1, some r.2))])
      (fun e ys d => e = .user ∧ ∃ x r, xs[j]? = some x ∧ ys = xs.set j (after x r) ∧ R (.key x) r ∧ plain r = none ∧ d = [(.key x, r)]) := by
  unfold keyPair uref callKeyAt
  rw [if_pos hi]
  refine TriL.get_cell hj fun x hx => TriL.call fun r hr => ?_
  have hs : xs.set j x = xs := by
    obtain ⟨h1, rfl⟩ := List.getElem?_eq_some_iff.mp hx
    exact List.set_getElem_self h1
  match r, hr with
  | none, hr => exact TriL.throw ⟨rfl, x, none, hx, hs.symm, hr, rfl, rfl⟩
  | some (x', none), hr => exact TriL.set_cell hj (TriL.throw ⟨rfl, x, _, hx, rfl, hr, rfl, rfl⟩)
  | some (x', some a), hr => exact TriL.set_cell hj (TriL.pure ⟨x, (x', a), hx, rfl, hr, rfl, rfl⟩)

theorem keyPairs_spec {P xs : List α} {w i n : Nat} (hx : P.length + xs.length = v.len) (hi : P.length = i) (hn : xs.length = n)
    (hw : v.len ≤ 2 ^ w) :
    TriL R v.region (keyPairs v w i n) (P ++ xs)
      (fun ps ys d => ∃ rs, GotAll R xs rs ∧ ys = P ++ rs.map (·.1) ∧ ps = (rs.map (·.2.1)).zipIdx i ∧ d = gotLog xs rs)
      (fun e ys d => e = .user ∧ ∃ A x B rs r, xs = A ++ x :: B ∧ GotAll R A rs ∧ R (.key x) r ∧ plain r = none ∧
        ys = P ++ rs.map (·.1) ++ after x r :: B ∧ d = gotLog A rs ++ [(.key x, r)]) := by
  induction n generalizing P xs i with
  | zero =>
    obtain rfl := List.eq_nil_of_length_eq_zero hn
    exact TriL.pure ⟨[], .nil, rfl, rfl, rfl⟩
  | succ n ih =>
    obtain ⟨x, xs, rfl⟩ : ∃ x Y, xs = x :: Y := by cases xs with | nil => simp at hn | cons x Y => exact ⟨x, Y, rfl⟩
    subst hi
    simp only [List.length_cons] at hx hn
    have hi : P.length < v.len := by omega
    have hP : (P ++ x :: xs)[P.length]? = some x := by simp
    have hset : ∀ y, (P ++ x :: xs).set P.length y = P ++ y :: xs := by intro y; simp
    unfold keyPairs
    refine TriL.bind (keyPair_spec hi (View.region_get v hi)) ?_ ?_
    · rintro p ys _ _ ⟨y, r, h1, rfl, h2, rfl, rfl⟩
      obtain rfl : x = y := Option.some.inj (hP.symm.trans h1)
      rw [hset]
      have e : P ++ r.1 :: xs = (P ++ [r.1]) ++ xs := by simp
      rw [e]
      refine TriL.bind (ih (P := P ++ [r.1]) (xs := xs) (by simp; omega) (by simp) (by omega)) ?_ ?_
      · rintro ps ys _ _ ⟨rs, h3, rfl, rfl, rfl⟩
        refine TriL.pure ⟨r :: rs, .cons h2 h3, by simp, ?_, by simp [gotLog]⟩
        rw [Nat.mod_eq_of_lt (by omega)]; rfl
      · rintro e ys _ ⟨he, A, y, B, rs, r', rfl, h3, h4, h5, rfl, rfl⟩
        exact ⟨he, x :: A, y, B, r :: rs, r', rfl, .cons h2 h3, h4, h5, by simp, by simp [gotLog]⟩
    · rintro e ys _ ⟨he, y, r, h1, rfl, h2, h3, rfl⟩
      obtain rfl : x = y := Option.some.inj (hP.symm.trans h1)
      rw [hset]
      exact ⟨he, [], x, xs, [], r, rfl, .nil, h2, h3, by simp, rfl⟩

/-- All questions are comparisons of keys. -/
def OnlyLt (d : List (KeyQ α κ × Option (KeyA α κ))) : Prop := ∀ q ∈ d, ∃ k l, q.1 = .lt k l

theorem onlyLt_of {d : List (KeyQ α κ × Option (KeyA α κ))} (h : NdSlice.OnlyLt (d.map (readAs plain))) : OnlyLt d := by
  intro q hq
  exact h _ (List.mem_map_of_mem (f := readAs plain) hq)

/-- What user code is like as far as keys are compared. -/
abbrev Plain (R : KeyQ α κ → Option (KeyA α κ) → Prop) : KeyQ α κ → Option (κ × Bool) → Prop := fun q r => ∃ r', R q r' ∧ plain r' = r

/-- How the objects with states and keys `rs` end up: in an order `rs'` which is sorted stably by keys if the comparisons of keys
are consistent. -/
def Placed (R : KeyQ α κ → Option (KeyA α κ) → Prop) (rs : List (α × κ × Bool)) (ys : List α) : Prop :=
  ∃ rs' : List (α × κ × Bool), ys = rs'.map (·.1) ∧ rs'.Perm rs ∧
    ∀ klt, SWO klt → LtIs (Plain R) klt → StableSortOf (fun p q => klt p.2.1 q.2.1) rs rs'

theorem sortAndPlace_spec {srt : PairSort α κ} (hs : SortsPairs srt) {rs : List (α × κ × Bool)} (hx : rs.length = v.len)
    {l : List (κ × Nat)} (hl : l.Perm (rs.map (·.2.1)).zipIdx) :
    TriL R v.region (sortAndPlace srt v l) (rs.map (·.1))
      (fun _ ys d => OnlyLt d ∧ Placed R rs ys)
      (fun e ys d => ys = rs.map (·.1) ∧ OnlyLt d ∧ PairPanic (Plain R) e) := by
  refine TriL.mono (TriL.mapAns (Q := fun _ ys d => NdSlice.OnlyLt d ∧ Placed R rs ys)
    (E := fun e ys d => ys = rs.map (·.1) ∧ NdSlice.OnlyLt d ∧ PairPanic (Plain R) e) ?_)
    (fun _ _ _ _ h => ⟨onlyLt_of h.1, h.2⟩) (fun _ _ _ _ h => ⟨h.1, onlyLt_of h.2.1, h.2.2⟩)
  refine TriL.bind (TriL.untouched (hs (Plain R) l)) ?_ (fun _ _ _ h => h)
  rintro l' ys d _ ⟨rfl, h1, h2, h3⟩
  have hp := h2.trans hl
  have hk : (rs.map (·.2.1)).length = v.len := by simpa using hx
  refine TriL.mono (placeAll_spec (xs := rs.map (·.1)) (by simpa using hx) ((hp.map (·.2)).trans (zipIdx_range hk))) ?_ (fun _ _ _ _ h => h.elim)
  rintro _ ys d' hy ⟨rfl, rfl⟩
  refine ⟨by rwa [List.append_nil], l'.filterMap fun p => rs[p.2]?, ?_, ?_, ?_⟩
  · rw [List.map_filterMap]
    congr 1
    funext p
    rw [List.getElem?_map]
  · refine (hp.filterMap _).trans (List.Perm.of_eq ?_)
    have e : (fun p : κ × Nat => rs[p.2]?) = (fun i => rs[i]?) ∘ Prod.snd := rfl
    rw [e, ← List.filterMap_map, List.zipIdx_map_snd, hk, ← hx]
    have : ∀ (B A : List (α × κ × Bool)), (List.range' A.length B.length).filterMap (fun i => (A ++ B)[i]?) = B := by
      intro B
      induction B with
      | nil => intro A; rfl
      | cons b B ih =>
        intro A
        rw [List.length_cons, List.range'_succ, List.filterMap_cons_some (b := b) (by simp)]
        have := ih (A ++ [b])
        rw [List.length_append, List.append_assoc] at this
        exact congrArg (b :: ·) this
    exact this rs []
  · intro klt so hR
    exact stable_of_pairs (f := fun p : α × κ × Bool => p.2.1) so hp (h3 klt so hR)

/-! ### `sort_by_cached_key` -/

theorem sortByCachedKey_spec {cfg : Cfg} {sz : Sizes} {srt : PairSort α κ} (hs : SortsPairs srt) {xs : List α} (hx : xs.length = v.len)
    (hw : v.len ≤ 2 ^ cfg.bits) :
    TriL R v.region (sortByCachedKey cfg sz srt v) xs
      (fun _ ys d => (v.len < 2 → ys = xs ∧ d = []) ∧
        (2 ≤ v.len → ∃ rs dl, GotAll R xs rs ∧ Placed R rs ys ∧ OnlyLt dl ∧ d = gotLog xs rs ++ dl))
      (fun e ys d => 2 ≤ v.len ∧
        ((e = .user ∧ ∃ A x B rs r, xs = A ++ x :: B ∧ GotAll R A rs ∧ R (.key x) r ∧ plain r = none ∧
          ys = rs.map (·.1) ++ after x r :: B ∧ d = gotLog A rs ++ [(.key x, r)]) ∨
        (PairPanic (Plain R) e ∧ ∃ rs dl, GotAll R xs rs ∧ ys = rs.map (·.1) ∧ OnlyLt dl ∧ d = gotLog xs rs ++ dl))) := by
  unfold sortByCachedKey
  split
  · exact TriL.pure ⟨fun _ => ⟨rfl, rfl⟩, fun h' => by omega⟩
  rename_i h
  refine TriL.bind (keyPairs_spec (P := []) (by simpa using hx) rfl hx (indexBits_spec hw)) ?_ ?_
  · rintro ps _ _ _ ⟨rs, h1, rfl, rfl, rfl⟩
    have hl := h1.length_eq
    rw [List.nil_append]
    refine TriL.mono (sortAndPlace_spec hs (by omega) (.refl _)) ?_ ?_
    · rintro _ ys d hy ⟨g1, g2⟩
      exact ⟨fun h' => absurd h' h, fun _ => ⟨rs, d, h1, g2, g1, rfl⟩⟩
    · rintro e _ d _ ⟨rfl, g1, g2⟩
      exact ⟨by omega, .inr ⟨g2, rs, d, h1, rfl, g1, rfl⟩⟩
  · rintro e _ _ ⟨he, A, x, B, rs, r, rfl, h1, h2, h3, rfl, rfl⟩
    exact ⟨by omega, .inl ⟨he, A, x, B, rs, r, rfl, h1, h2, h3, by simp, rfl⟩⟩

/-! ### `par_sort_by_cached_key` -/

/-- `Called xs ys d`: the key function was called on some of the elements `xs`, once on each of these; the calls were `d`, and left the
elements as in `ys`. -/
inductive Called : List α → List α → List (KeyQ α κ × Option (KeyA α κ)) → Prop
  | nil : Called [] [] []
  | skip {x xs ys d} : Called xs ys d → Called (x :: xs) (x :: ys) d
  | call {x xs ys d} (r) : Called xs ys d → Called (x :: xs) (after x r :: ys) ((.key x, r) :: d)

/-- Like `Called`, with the pairs that were computed (from position `i` on). -/
inductive Got (R : KeyQ α κ → Option (KeyA α κ) → Prop) :
    Nat → List α → List (Option (κ × Nat)) → List α → List (KeyQ α κ × Option (KeyA α κ)) → Prop
  | nil {i} : Got R i [] [] [] []
  | late {i x xs os ys d} : Got R (i + 1) xs os ys d → Got R i (x :: xs) (none :: os) (x :: ys) d
  | now {i x xs os ys d} (r : α × κ × Bool) : R (.key x) (some (r.1, some r.2)) → Got R (i + 1) xs os ys d →
      Got R i (x :: xs) (some (r.2.1, i) :: os) (r.1 :: ys) ((.key x, some (r.1, some r.2)) :: d)

theorem Got.called {i : Nat} {xs ys : List α} {os : List (Option (κ × Nat))} {d : List (KeyQ α κ × Option (KeyA α κ))}
    (h : Got R i xs os ys d) : Called xs ys d := by
  induction h with
  | nil => exact .nil
  | late _ ih => exact .skip ih
  | now r _ _ ih => exact .call (some (r.1, some r.2)) ih

theorem Called.cons {x y : α} {xs ys : List α} {d1 d2 : List (KeyQ α κ × Option (KeyA α κ))} (h1 : Called [x] [y] d1) (h2 : Called xs ys d2) :
    Called (x :: xs) (y :: ys) (d1 ++ d2) := by
  cases h1 with
  | skip h => cases h; exact .skip h2
  | call r h => cases h; exact .call r h2

/-- The calls of the key function after a panic: on each element at most one. -/
def CalledAny (xs ys : List α) (d : List (KeyQ α κ × Option (KeyA α κ))) : Prop := ∃ d', d.Perm d' ∧ Called xs ys d'

theorem parKeyPairs_spec {w i n : Nat} {X : List α} (hn : i + n ≤ v.len) (hX : X.length = n) (hw : v.len ≤ 2 ^ w) :
    TriL R (v.sub i n).region (parKeyPairs v w i n) X
      (fun os ys d => ∃ d', d.Perm d' ∧ Got R i X os ys d')
      (fun e ys d => e = .user ∧ (∃ x r, R (.key x) r ∧ plain r = none) ∧ CalledAny X ys d) := by
  induction n generalizing i X with
  | zero =>
    obtain rfl : X = [] := List.eq_nil_of_length_eq_zero hX
    exact TriL.pure ⟨[], .refl _, .nil⟩
  | succ n ih =>
    obtain ⟨x, X, rfl⟩ : ∃ x Y, X = x :: Y := by cases X with | nil => simp at hX | cons x Y => exact ⟨x, Y, rfl⟩
    have hreg : (v.sub i (n + 1)).region = [v.addr i] ++ (v.sub (i + 1) n).region := by
      unfold View.region
      show (List.range (n + 1)).map _ = _ ++ (List.range n).map _
      rw [List.range_succ_eq_map, List.map_cons, List.map_map, View.sub_addr]
      refine congrArg (v.addr i :: ·) (List.map_congr_left fun k _ => ?_)
      show (v.sub i (n + 1)).addr (k + 1) = _
      rw [View.sub_addr, View.sub_addr]
      congr 1; omega
    unfold parKeyPairs
    rw [hreg]
    refine TriL.bind (Q' := fun r ys d => ∃ d', d.Perm d' ∧ Got R i (x :: X) (r.1 :: r.2) ys d')
      (E' := fun e ys d => e = .user ∧ (∃ x r, R (.key x) r ∧ plain r = none) ∧ CalledAny (x :: X) ys d) ?_ ?_ (fun _ _ _ h => h)
    · refine TriL.rayonJoin (A := [x]) (B := X) rfl
        (Q1 := fun o ys d => (∃ y, ys = [y] ∧ Called [x] [y] d) ∧ ∀ d' Y os, Got R (i + 1) X os Y d' → Got R i (x :: X) (o :: os) (ys ++ Y) (d ++ d'))
        (E1 := fun e ys d => e = .user ∧ (∃ x r, R (.key x) r ∧ plain r = none) ∧ ∃ y, ys = [y] ∧ Called [x] [y] d) ?_
        (ih (i := i + 1) (by omega) (by simpa using hX)) ?_ ?_ ?_ ?_
      · refine TriL.choose fun late => ?_
        cases late with
        | true =>
          simp only [if_true]
          exact TriL.pure ⟨⟨x, rfl, .skip .nil⟩, fun d' Y os h => .late h⟩
        | false =>
          simp only [Bool.false_eq_true, if_false]
          refine TriL.bind (keyPair_spec (rg := [v.addr i]) (j := 0) (by omega) rfl) ?_ ?_
          · rintro p ys _ _ ⟨y, r, h1, rfl, h2, rfl, rfl⟩
            obtain rfl : x = y := Option.some.inj h1
            refine TriL.pure ⟨⟨r.1, rfl, .call (some (r.1, some r.2)) .nil⟩, fun d' Y os h => ?_⟩
            rw [Nat.mod_eq_of_lt (by omega)]
            exact .now r h2 h
          · rintro e ys _ ⟨he, y, r, h1, rfl, h2, h3, rfl⟩
            obtain rfl : x = y := Option.some.inj h1
            exact ⟨he, ⟨x, r, h2, h3⟩, _, rfl, .call r .nil⟩
      · rintro o os _ Y d1 d2 d _ _ ⟨_, h1⟩ ⟨d', h2, h3⟩ hd
        exact ⟨d1 ++ d', hd.trans (h2.append_left _), h1 _ _ _ h3⟩
      · rintro e os _ Y d1 d2 d _ _ ⟨he, h1, y, rfl, h2⟩ ⟨d', h3, h4⟩ hd
        exact ⟨he, h1, d1 ++ d', hd.trans (h3.append_left _), h2.cons h4.called⟩
      · rintro o e _ Y d1 d2 d _ _ ⟨⟨y, rfl, h2⟩, _⟩ ⟨he, h1, d', h3, h4⟩ hd
        exact ⟨he, h1, d1 ++ d', hd.trans (h3.append_left _), h2.cons h4⟩
      · rintro e e' _ Y d1 d2 d _ _ ⟨he, h1, y, rfl, h2⟩ ⟨_, _, d', h3, h4⟩ hd
        exact ⟨he, h1, d1 ++ d', hd.trans (h3.append_left _), h2.cons h4⟩
    · rintro ⟨o, os⟩ ys d _ ⟨d', h1, h2⟩
      exact TriL.pure ⟨d', by rwa [List.append_nil], h2⟩

theorem latePairs_spec {w i : Nat} {P xs ys : List α} {os : List (Option (κ × Nat))} {d0 : List (KeyQ α κ × Option (KeyA α κ))}
    (hx : P.length + xs.length = v.len) (hw : v.len ≤ 2 ^ w) (hi : P.length = i) (h : Got R i xs os ys d0) :
    TriL R v.region (latePairs v w i os) (P ++ ys)
      (fun ps zs d => ∃ rs, GotAll R xs rs ∧ zs = P ++ rs.map (·.1) ∧ ps = (rs.map (·.2.1)).zipIdx i ∧ (d0 ++ d).Perm (gotLog xs rs))
      (fun e zs d => e = .user ∧ (∃ x r, R (.key x) r ∧ plain r = none) ∧ ∃ Z, zs = P ++ Z ∧ CalledAny xs Z (d0 ++ d)) := by
  induction h generalizing P with
  | nil => exact TriL.pure ⟨[], .nil, rfl, rfl, .refl _⟩
  | @late i x xs os ys d h ih =>
    subst hi
    simp only [List.length_cons] at hx
    have hi : P.length < v.len := by omega
    have hP : (P ++ x :: ys)[P.length]? = some x := by simp
    have hset : ∀ y, (P ++ x :: ys).set P.length y = P ++ y :: ys := by intro y; simp
    unfold latePairs
    refine TriL.bind (keyPair_spec hi (View.region_get v hi)) ?_ ?_
    · rintro p _ _ _ ⟨y, r, h1, rfl, h2, rfl, rfl⟩
      obtain rfl : x = y := Option.some.inj (hP.symm.trans h1)
      rw [hset]
      have e : P ++ r.1 :: ys = (P ++ [r.1]) ++ ys := by simp
      rw [e]
      refine TriL.bind (ih (P := P ++ [r.1]) (by simp; omega) (by simp)) ?_ ?_
      · rintro ps _ d' _ ⟨rs, h3, rfl, rfl, h4⟩
        refine TriL.pure ⟨r :: rs, .cons h2 h3, by simp, ?_, ?_⟩
        · rw [Nat.mod_eq_of_lt (by omega)]; rfl
        · simp only [List.append_nil, List.singleton_append]
          exact List.perm_middle.trans (h4.cons _)
      · rintro e _ d' ⟨he, h3, Z, rfl, d'', h4, h5⟩
        refine ⟨he, h3, r.1 :: Z, by simp, (.key x, some (r.1, some r.2)) :: d'', ?_, .call (some (r.1, some r.2)) h5⟩
        simp only [List.singleton_append]
        exact List.perm_middle.trans (h4.cons _)
    · rintro e _ _ ⟨he, y, r, h1, rfl, h2, h3, rfl⟩
      obtain rfl : x = y := Option.some.inj (hP.symm.trans h1)
      rw [hset]
      refine ⟨he, ⟨x, r, h2, h3⟩, _, rfl, (.key x, r) :: d, List.perm_append_comm, .call r h.called⟩
  | @now i x xs os ys d r h2 h ih =>
    subst hi
    simp only [List.length_cons] at hx
    unfold latePairs
    have e : P ++ r.1 :: ys = (P ++ [r.1]) ++ ys := by simp
    rw [e]
    refine TriL.bind (ih (P := P ++ [r.1]) (by simp; omega) (by simp)) ?_ ?_
    · rintro ps _ d' _ ⟨rs, h3, rfl, rfl, h4⟩
      refine TriL.pure ⟨r :: rs, .cons h2 h3, by simp, rfl, ?_⟩
      rw [List.append_nil]
      exact h4.cons _
    · rintro e _ d' ⟨he, h3, Z, rfl, d'', h4, h5⟩
      exact ⟨he, h3, r.1 :: Z, by simp, _ :: d'', h4.cons _, .call (some (r.1, some r.2)) h5⟩

theorem parSortByCachedKey_spec {cfg : Cfg} {sz : Sizes} {srt : PairSort α κ} (hs : SortsPairs srt) {xs : List α} (hx : xs.length = v.len)
    (hw : v.len ≤ 2 ^ cfg.bits) :
    TriL R v.region (parSortByCachedKey cfg sz srt v) xs
      (fun _ ys d => (v.len < 2 → ys = xs ∧ d = []) ∧
        (2 ≤ v.len → ∃ rs dk dl, GotAll R xs rs ∧ Placed R rs ys ∧ OnlyLt dl ∧ dk.Perm (gotLog xs rs) ∧ d = dk ++ dl))
      (fun e ys d => 2 ≤ v.len ∧
        ((e = .user ∧ (∃ x r, R (.key x) r ∧ plain r = none) ∧ CalledAny xs ys d) ∨
        (PairPanic (Plain R) e ∧ ∃ rs dk dl, GotAll R xs rs ∧ ys = rs.map (·.1) ∧ OnlyLt dl ∧ dk.Perm (gotLog xs rs) ∧ d = dk ++ dl))) := by
  unfold parSortByCachedKey
  split
  · exact TriL.pure ⟨fun _ => ⟨rfl, rfl⟩, fun h' => by omega⟩
  rename_i h
  have hwb := indexBits_spec (sz := sz) hw
  have h1 := parKeyPairs_spec (R := R) (v := v) (i := 0) (n := v.len) (X := xs) (by omega) hx hwb
  rw [View.sub_self] at h1
  refine TriL.bind h1 ?_ ?_
  · rintro os ys d1 _ ⟨d', hd, h2⟩
    refine TriL.bind (latePairs_spec (P := []) (by simpa using hx) hwb rfl h2) ?_ ?_
    · rintro ps _ d2 _ ⟨rs, h3, rfl, rfl, h4⟩
      have hl := h3.length_eq
      rw [List.nil_append]
      refine TriL.bind (TriL.mapAns collectAny_spec) ?_ (fun _ _ _ h => h.elim)
      rintro l _ d3 _ ⟨rfl, hd3, h5⟩
      obtain rfl := List.map_eq_nil_iff.mp hd3
      refine TriL.mono (sortAndPlace_spec hs (by omega) h5) ?_ ?_
      · rintro _ zs d hy ⟨g1, g2⟩
        exact ⟨fun h' => absurd h' h, fun _ => ⟨rs, d1 ++ d2, d, h3, g2, g1, (hd.append_right _).trans h4, by simp⟩⟩
      · rintro e _ d _ ⟨rfl, g1, g2⟩
        exact ⟨by omega, .inr ⟨g2, rs, d1 ++ d2, d, h3, rfl, g1, (hd.append_right _).trans h4, by simp⟩⟩
    · rintro e _ d2 ⟨he, h3, Z, rfl, d'', h4, h5⟩
      exact ⟨by omega, .inl ⟨he, h3, d'', (hd.append_right _).trans h4, h5⟩⟩
  · rintro e ys d ⟨he, h2, h3⟩
    exact ⟨by omega, .inl ⟨he, h2, h3⟩⟩

end NdSlice.Refs
