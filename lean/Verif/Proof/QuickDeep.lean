import Verif.Proof.QuickSlow

/-
The parallel unstable sort calls itself as often, nested, as the adversary wants.
-/

namespace NdSlice

variable {α β γ : Type} [DecidableEq α] {K : Nat} {T : List α} {v w : View} {s : StA α} {cfg : Cfg} {n : Nat}

/-- With the adversary, if it decides for elements in the order of `T`, `p` runs out of its bound on nested calls. -/
def AD (K : Nat) (T : List α) (p : Prog α (α × α) Bool β) (s : StA α) : Prop :=
  (run (adv true K) p s).2.env <+: T → (run (adv true K) p s).1 = .diverge

namespace AD

theorem bind {p : Prog α (α × α) Bool β} {f : β → Prog α (α × α) Bool γ} {Q' : β → StA α → Prop}
    (h : AT true K T p v s n Q') (hf : ∀ b s', Q' b s' → AD K T (f b) s') : AD K T (p >>= f) s := by
  intro hT
  rw [run_bind] at hT ⊢
  rcases hp : run (adv true K) p s with ⟨r, s1⟩
  rw [hp] at hT
  have h1 : (run (adv true K) p s).2.env <+: T := by
    rw [hp]
    cases r with
    | ok b => exact (run_env_prefix (f b)).trans hT
    | panic => exact hT
    | ub => exact hT
    | diverge => exact hT
  obtain ⟨b, s', e1, e2, e3, e4⟩ := h h1
  rw [hp] at e1
  injection e1 with e5 e6
  subst e5 e6
  exact hf b s1 e4 hT

theorem first {p : Prog α (α × α) Bool β} {f : β → Prog α (α × α) Bool γ} (h : AD K T p s) : AD K T (p >>= f) s := by
  intro hT
  rw [run_bind] at hT ⊢
  rcases hp : run (adv true K) p s with ⟨r, s1⟩
  rw [hp] at hT
  have h1 : (run (adv true K) p s).2.env <+: T := by
    rw [hp]
    cases r with
    | ok b => exact (run_env_prefix (f b)).trans hT
    | panic => exact hT
    | ub => exact hT
    | diverge => exact hT
  have e1 := h h1
  rw [hp] at e1
  dsimp only at e1
  subst e1
  rfl

theorem rayonJoin {p : Prog α (α × α) Bool β} {q : Prog α (α × α) Bool γ} (h : AD K T p s) : AD K T (Prog.rayonJoin p q) s := by
  intro hT
  have h1 : (run (adv true K) p s).2.env <+: T := by
    refine List.IsPrefix.trans ?_ hT
    unfold Prog.rayonJoin
    simp only [run]
    rcases run (adv true K) p s with ⟨_ | _ | _ | _, s1⟩ <;> dsimp only
    · have := run_env_prefix (up := true) (K := K) (s := s1) q
      revert this
      rcases run (adv true K) q s1 with ⟨_ | _ | _ | _, s2⟩ <;> exact fun h => h
    · have := run_env_prefix (up := true) (K := K) (s := s1) q
      revert this
      rcases run (adv true K) q s1 with ⟨_ | _ | _ | _, s2⟩ <;> exact fun h => h
    · exact List.prefix_rfl
    · exact List.prefix_rfl
  have e1 := h h1
  unfold Prog.rayonJoin
  simp only [run]
  revert e1
  rcases run (adv true K) p s with ⟨_ | _ | _ | _, s1⟩ <;> intro e1 <;> first | rfl | cases e1

theorem env {p : Prog α (α × α) Bool β} (h : s.env <+: T → AD K T p s) : AD K T p s :=
  fun hT => h ((run_env_prefix p).trans hT) hT

omit [DecidableEq α] in
theorem usub_eq {a b : Nat} {k : Nat → Prog α (α × α) Bool β} (hab : b ≤ a) : (NdSlice.usub cfg a b >>= k) = k (a - b) := by
  unfold NdSlice.usub
  rw [if_pos hab]
  rfl

omit [DecidableEq α] in
theorem splitAt_eq {a : Nat} {k : View × View → Prog α (α × α) Bool β} (ha : a ≤ w.len) :
    (w.splitAt a >>= k) = k (w.sub 0 a, w.sub a (w.len - a)) := by
  unfold View.splitAt
  rw [if_pos ha]
  rfl

omit [DecidableEq α] in
theorem ref_eq {i : Nat} {k : Addr → Prog α (α × α) Bool β} (hi : i < w.len) : (w.ref i >>= k) = k (w.addr i) := by
  unfold View.ref
  rw [if_pos hi]
  rfl

end AD

/-- While enough elements are undecided, each call of `recurse` is followed by a nested one. -/
theorem recurse_AD (hT : T.length ≤ K) {d limit : Nat} (hl : limit ≠ 0) (hv : v.WF)
    (nd : (v.contents s.mem).Nodup) (hg : 2001 + 48 * d ≤ gas s.env (v.contents s.mem)) (hK : s.env.length + 50 * v.len ≤ K) :
    AD K T (recurse cfg lessO (some 2000) d v none limit) s := by
  induction d generalizing v s with
  | zero => exact fun _ => rfl
  | succ d ih =>
    have hgl : gas s.env (v.contents s.mem) ≤ v.len := by
      have := gas_le (e := s.env) (xs := v.contents s.mem)
      rwa [v.contents_length] at this
    unfold recurse Prog.loop
    refine AD.first ?_
    unfold quickStep
    dsimp only
    rw [if_neg (by omega), if_neg hl]
    rw [if_neg (by simp)]
    refine AD.bind (v := v) (n := 0) (Q' := fun l s' => l = limit ∧ s' = s) (AT.pure ⟨rfl, rfl⟩) ?_
    rintro limit s ⟨rfl, rfl⟩
    refine AD.bind (n := 0) ((AT.tri hT hv (choosePivot_spec (cfg := cfg) (ordCmp (relT true T)) (by omega)
      (v.contents_length s.mem)) (fun _ _ h => relT_pan true T h.2.1)).cost (choosePivot_cost lessO_asks)).grows ?_
    rintro ⟨pivot, likely⟩ s1 ⟨⟨⟨p1, hp⟩, v1⟩, e1⟩
    dsimp only at hp ⊢
    have nd1 := p1.nodup_iff.2 nd
    have g1 := gas_grow e1 nd
    have a1 := gas_perm (e := s1.env) p1
    refine AD.bind (v := v) (n := 0) (Q' := fun b s2 => (b = false ∧ (v.contents s2.mem).Perm (v.contents s1.mem) ∧
      s2.env.length ≤ s1.env.length + 35) ∧ s1.env <+: s2.env) (AT.grows ?_) ?_
    · split
      · unfold partialInsertionSort
        have := gas_le (e := s1.env) (xs := (v.contents s1.mem).take 1)
        have hl := List.length_take_le 1 (v.contents s1.mem)
        refine (partialInsertionLoop_AT (k := 1) hT hv (Nat.le_refl _) (by omega) nd1 (by omega) (by omega)).grows.mono (Nat.le_refl _) ?_
        rintro b s2 ⟨⟨p2, v2, h2⟩, e2⟩
        refine ⟨?_, p2, by omega⟩
        cases b with
        | false => rfl
        | true =>
          exfalso
          have h2 := h2 rfl
          have g2 := gas_grow e2 nd1
          rw [gas_perm p2] at h2
          omega
      · exact AT.pure ⟨rfl, .refl _, by omega⟩
    rintro _ s2 ⟨⟨rfl, p2, v2⟩, e2⟩
    have nd2 := p2.nodup_iff.2 nd1
    have g2 := gas_grow e2 nd1
    have a2 := gas_perm (e := s2.env) p2
    rw [if_neg (by simp)]
    show AD K T (quickSplit cfg lessO (some 2000) (recurse cfg lessO (some 2000) d) ⟨v, none, limit, true, true⟩ limit pivot) s2
    unfold quickSplit
    refine AD.bind (partition_AT hT hv nd2 hp).grows ?_
    rintro ⟨_, was⟩ s3 ⟨⟨p, A, B, h1, rfl, p3, hA, hB, v3, hp3, -⟩, e3⟩
    refine AD.env fun hT3 => ?_
    have g3 := gas_grow e3 nd2
    have a3 := gas_perm (e := s3.env) p3
    have nd3 := p3.nodup_iff.2 nd2
    obtain ⟨h4, h5⟩ := left_contents h1
    have el : s3.env.length < K := by omega
    have e0 : gas s3.env (v.contents s3.mem) = gas s3.env A + gas s3.env [p] + gas s3.env B := by
      rw [h1, show A ++ p :: B = A ++ ([p] ++ B) by simp, gas_append, gas_append]
      omega
    have hpe : p ∈ s3.env := by
      apply hp3 el
      by_contra hc
      have h6 : gas s3.env A = 0 := gas_zero fun x hx => by
        by_contra h
        exact hc ⟨x, by simp [hx], h⟩
      have h7 : gas s3.env B = 0 := gas_zero fun x hx => by
        by_contra h
        exact hc ⟨x, by simp [hx], h⟩
      have h8 := gas_le (e := s3.env) (xs := [p])
      simp only [List.length_cons, List.length_nil] at h8
      omega
    have hBg : gas s3.env B = 0 := gas_zero fun x hx => by
      by_contra h
      have := ltT_undecided hT3 hpe h
      rw [hB x hx] at this
      cases this
    have hpg : gas s3.env [p] = 0 := gas_zero (by simpa using hpe)
    have hAl := gas_le (e := s3.env) (xs := A)
    dsimp only
    rw [AD.usub_eq (by omega), AD.splitAt_eq (by omega)]
    dsimp only
    rw [AD.splitAt_eq (by simp; omega)]
    dsimp only
    rw [AD.ref_eq (by simp)]
    unfold quickDescend
    rw [if_neg (by simp [goesSeq]; omega)]
    refine AD.first (AD.rayonJoin (ih (v := v.sub 0 A.length) (View.sub_WF hv (by omega)) ?_ ?_ ?_))
    · rw [h4]
      rw [h1] at nd3
      exact nd3.of_append_left
    · rw [h4]; omega
    · rw [View.sub_len]; omega

end NdSlice
