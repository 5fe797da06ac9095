import Verif.Model.CachedBudget
import Verif.Proof.Cached
import Verif.Core.Sim
import Mathlib.Algebra.BigOperators.Intervals
import Mathlib.Algebra.Order.BigOperators.Group.Finset
import Mathlib.Tactic.Ring

/-
How often the inner loop of the cached key sorts runs: the iterations of one round follow the moves of one element, and each round moves one
element away from its place.
-/

namespace NdSlice

open Finset

variable {α κ : Type} {v : View}

/-- Following the indices `g` from `q` on while they are below `i` leads to `c` after `m` steps. -/
inductive ChaseN (g : Nat → Nat) (i : Nat) : Nat → Nat → Nat → Prop where
  | here {c : Nat} : i ≤ c → ChaseN g i 0 c c
  | step {m q c : Nat} : q < i → q < g q → ChaseN g i m (g q) c → ChaseN g i (m + 1) q c

theorem ChaseN.within {l : List (κ × Nat)} {g : Nat → Nat} {i q c m b : Nat} (hl : ∀ k, k < i → ∃ key, l[k]? = some (key, g k))
    (h : ChaseN g i m q c) (hb : m ≤ b) : (chaseWithin l i b q : Prog α (KeyQ α κ) (κ × Bool) (Nat × Nat)) = pure (c, b - m) := by
  induction h generalizing b with
  | here h =>
    cases b with
    | zero => unfold chaseWithin; rw [if_neg (by omega)]
    | succ b => unfold chaseWithin; rw [if_neg (by omega)]; rfl
  | step h1 h2 h3 ih =>
    obtain ⟨b, rfl⟩ : ∃ d, b = d + 1 := ⟨b - 1, by omega⟩
    obtain ⟨key, hk⟩ := hl _ h1
    unfold chaseWithin pairAt
    rw [if_pos h1, hk, Nat.add_sub_add_right]
    exact ih (by omega)

theorem ChaseN.chase {g : Nat → Nat} {i q c m : Nat} (h : ChaseN g i m q c) : Chase g i q c := by
  induction h with
  | here h => exact .here h
  | step h1 h2 _ ih => exact .step h1 h2 ih

/-- A path to `i` gets one step longer when position `i`, whose element moves to `c0`, points there. -/
theorem ChaseN.next {g : Nat → Nat} {i q c c0 m : Nat} (h : ChaseN g i m q c) (h0 : i ≤ c0) (hc : ¬ (c = i ∧ c0 = i)) :
    ChaseN (fun k => if k = i then c0 else g k) (i + 1) (if c = i then m + 1 else m) q (if c = i then c0 else c) := by
  induction h with
  | @here c h =>
    split
    · rename_i he
      subst he
      refine .step (by omega) ?_ ?_
      · simp; omega
      · simp only [if_true]
        exact .here (by omega)
    · exact .here (by omega)
  | @step m q c h1 h2 h3 ih =>
    have e : (if c = i then m + 1 + 1 else m + 1) = (if c = i then m + 1 else m) + 1 := by split <;> rfl
    have e' : (if q = i then c0 else g q) = g q := if_neg (by omega)
    rw [e]
    refine .step (by omega) ?_ ?_
    · show q < if q = i then c0 else g q
      rw [e']; exact h2
    · show ChaseN _ _ _ (if q = i then c0 else g q) _
      rw [e']; exact ih hc

theorem sum_moved {i c n : Nat} {L : Nat → Nat} (hi : i < n) (hc : i < c) (hcn : c < n) :
    ∑ k ∈ Ico (i + 1) n, (if k = c then L i + 1 else L k) + L c = ∑ k ∈ Ico i n, L k + 1 := by
  have hm : c ∈ Ico (i + 1) n := mem_Ico.mpr ⟨hc, hcn⟩
  rw [sum_eq_sum_Ico_succ_bot hi, ← add_sum_erase _ _ hm, ← add_sum_erase (Ico (i + 1) n) L hm, if_pos rfl]
  have e : ∑ k ∈ (Ico (i + 1) n).erase c, (if k = c then L i + 1 else L k) = ∑ k ∈ (Ico (i + 1) n).erase c, L k :=
    sum_congr rfl fun k hk => if_neg (ne_of_mem_erase hk)
  rw [e]
  ring

/-- Where the element that a round needs is, and where the ones not yet in place are, does not take more iterations than there is credit for: one
for each step on the paths to the elements, and one for each round but the last. -/
theorem placeWithin_loop {n i r b : Nat} {σ g I L : Nat → Nat} {xs ys : List Nat} {l : List (κ × Nat)} (hn : n = v.len) (hr : i + r = n)
    (hy : ys.length = n) (hl : ∀ k, k < n → ∃ key, l[k]? = some (key, g k))
    (hσ : ∀ k, k < n → σ k < n) (hσi : ∀ k l, k < n → l < n → σ k = σ l → k = l) (h : Placing n i σ g I xs ys)
    (hL : ∀ c, i ≤ c → c < n → ChaseN g i (L c) (I c) c) (hb : ∑ k ∈ Ico i n, L k + (n - 1 - i) ≤ b) :
    (placeWithin v b i r l : Prog α (KeyQ α κ) (κ × Bool) Unit) = placeAll v i r l := by
  induction r generalizing b i g I L ys l with
  | zero => cases b <;> rfl
  | succ r ih =>
    have hi : i < n := by omega
    obtain ⟨c, hc, hcn, he, hp⟩ := h.target hi hσ hσi
    obtain ⟨key, hk⟩ := hl i hi
    have hLc := hL c hc hcn
    rw [he, ← h.fresh i (Nat.le_refl _) hi] at hLc
    have hle : L c ≤ ∑ k ∈ Ico i n, L k := single_le_sum (f := L) (fun _ _ => Nat.zero_le _) (mem_Ico.mpr ⟨hc, hcn⟩)
    have e1 : (pairAt l i : Prog α (KeyQ α κ) (κ × Bool) (κ × Nat)) = pure (key, g i) := by unfold pairAt; rw [hk]
    have e2 := chase (α := α) (n := v.len + 1) (fun k hk => hl k (by omega)) hp (by omega)
    have e3 := hLc.within (α := α) (b := b) (fun k hk => hl k (by omega)) (by omega)
    have hx := List.getElem?_eq_getElem (l := ys) (i := i) (by omega)
    have hy' := List.getElem?_eq_getElem (l := ys) (i := c) (by omega)
    have key' : (placeWithin v (b - L c) (i + 1) r (l.set i (key, c)) : Prog α (KeyQ α κ) (κ × Bool) Unit) =
        placeAll v (i + 1) r (l.set i (key, c)) := by
      refine ih (L := fun k => if k = c then L i + 1 else L k) (by omega) (by simp [hy]) ?_ (h.next hi hc hcn he hy hx hy') ?_ ?_
      · intro k hkn
        by_cases hki : k = i
        · subst hki
          obtain ⟨hlt, _⟩ := List.getElem?_eq_some_iff.mp hk
          exact ⟨key, by rw [if_pos rfl, List.getElem?_set_self hlt]⟩
        · rw [if_neg hki, List.getElem?_set_ne (fun h => hki h.symm)]
          exact hl k hkn
      · intro k hk hkn
        by_cases hkc : k = c
        · subst hkc
          rw [Equiv.swap_apply_right, if_pos rfl]
          have := (hL i (Nat.le_refl _) hi).next hc (by omega)
          rwa [if_pos rfl, if_pos rfl] at this
        · rw [Equiv.swap_apply_of_ne_of_ne (by omega) hkc, if_neg hkc]
          have := (hL k (by omega) hkn).next hc (by omega)
          rwa [if_neg (by omega), if_neg (by omega)] at this
      · by_cases hci : c = i
        · subst hci
          have e : ∑ k ∈ Ico (c + 1) n, (if k = c then L c + 1 else L k) = ∑ k ∈ Ico (c + 1) n, L k :=
            sum_congr rfl fun k hk => if_neg (by have := (mem_Ico.mp hk).1; omega)
          rw [e]
          rw [sum_eq_sum_Ico_succ_bot hi] at hb
          omega
        · have := sum_moved (L := L) hi (by omega : i < c) hcn
          omega
    have u1 : (placeWithin v b i (r + 1) l : Prog α (KeyQ α κ) (κ × Bool) Unit) =
        (pairAt l i >>= fun p => chaseWithin l i b p.2 >>= fun q => v.swap i q.1 >>= fun _ => placeWithin v q.2 (i + 1) r (l.set i (p.1, q.1))) := by
      cases b <;> rfl
    have u2 : (placeAll v i (r + 1) l : Prog α (KeyQ α κ) (κ × Bool) Unit) =
        (pairAt l i >>= fun p => Prog.loop (chaseBody l i) (v.len + 1) p.2 >>= fun c => v.swap i c >>= fun _ => placeAll v (i + 1) r (l.set i (p.1, c))) := rfl
    rw [u1, u2, e1]
    show (chaseWithin l i b (g i) >>= fun q => v.swap i q.1 >>= fun _ => placeWithin v q.2 (i + 1) r (l.set i (key, q.1))) =
      (Prog.loop (chaseBody l i) (v.len + 1) (g i) >>= fun c => v.swap i c >>= fun _ => placeAll v (i + 1) r (l.set i (key, c)))
    rw [e2, e3]
    show (v.swap i c >>= fun _ => placeWithin v (b - L c) (i + 1) r (l.set i (key, c))) =
      (v.swap i c >>= fun _ => placeAll v (i + 1) r (l.set i (key, c)))
    rw [key']

/-- For each order of the indices the inner loop runs `len - 1` times at most. -/
theorem placeWithin_eq {l : List (κ × Nat)} (hl : (l.map (·.2)).Perm (List.range v.len)) :
    (placeWithin v (v.len - 1) 0 v.len l : Prog α (KeyQ α κ) (κ × Bool) Unit) = placeAll v 0 v.len l := by
  have hlen : l.length = v.len := by simpa using hl.length_eq
  have nd : (l.map (·.2)).Nodup := hl.nodup_iff.mpr List.nodup_range
  have hmem : ∀ p ∈ l, p.2 < v.len := fun p hp => by
    have := hl.mem_iff (a := p.2) |>.mp (List.mem_map_of_mem hp)
    simpa using this
  let σ : Nat → Nat := fun k => if h : k < l.length then l[k].2 else 0
  have hσ : ∀ k (h : k < l.length), σ k = l[k].2 := fun k h => dif_pos h
  refine placeWithin_loop (xs := List.replicate v.len 0) (ys := List.replicate v.len 0) (σ := σ) (g := σ) (I := id) (L := fun _ => 0) (n := v.len) rfl
    (by omega) (by simp) ?_ ?_ ?_ .init (fun c _ _ => .here (Nat.zero_le _)) (by simp)
  · intro k hk
    have hk : k < l.length := by omega
    exact ⟨l[k].1, by rw [hσ k hk, List.getElem?_eq_getElem hk]⟩
  · intro k hk
    have hk : k < l.length := by omega
    rw [hσ k hk]
    exact hmem _ (List.getElem_mem hk)
  · intro k j hk hj he
    have hk : k < l.length := by omega
    have hj : j < l.length := by omega
    rw [hσ k hk, hσ j hj] at he
    exact (List.Nodup.getElem_inj_iff nd (hi := by simpa using hk) (hj := by simpa using hj)).mp (by simpa using he)

/-! ### An order that needs that many -/

theorem run_swap {σ ι ω : Type} (o : Oracle σ ι ω) {i j : Nat} (hi : i < v.len) (hj : j < v.len) (s : St α ι ω σ) :
    ∃ s', run o (v.swap i j) s = (.ok (), s') := by
  unfold View.swap View.idx View.set
  simp only [if_pos hi, if_pos hj]
  exact ⟨_, rfl⟩

/-- The rounds from `i` on, if the last element of the beginning is at the end and the other ones were moved by one place. -/
theorem placeWithin_shift {σ : Type} (o : Oracle σ (KeyQ α κ) (κ × Bool)) {i r b : Nat} {l : List (κ × Nat)} (hr : i + 1 + r = v.len)
    (h1 : ∃ k, l[i]? = some (k, v.len - 1)) (h2 : ∀ j, i < j → j < v.len → ∃ k, l[j]? = some (k, j - 1)) (hb : b < r)
    (s : St α (KeyQ α κ) (κ × Bool) σ) : ∃ s', run o (placeWithin v b (i + 1) r l) s = (.diverge, s') := by
  induction r generalizing i b l s with
  | zero => omega
  | succ r ih =>
    obtain ⟨k1, h1⟩ := h1
    obtain ⟨k2, h3⟩ := h2 (i + 1) (by omega) (by omega)
    have e1 : (pairAt l (i + 1) : Prog α (KeyQ α κ) (κ × Bool) (κ × Nat)) = pure (k2, i) := by unfold pairAt; rw [h3]; rfl
    cases b with
    | zero =>
      refine ⟨s, ?_⟩
      unfold placeWithin
      rw [e1]
      show run o (chaseWithin l (i + 1) 0 i >>= _) s = _
      unfold chaseWithin
      rw [if_pos (by omega)]
      rfl
    | succ b =>
      have e2 : (chaseWithin l (i + 1) (b + 1) i : Prog α (KeyQ α κ) (κ × Bool) (Nat × Nat)) = pure (v.len - 1, b) := by
        unfold chaseWithin
        rw [if_pos (by omega)]
        unfold pairAt
        rw [h1]
        show chaseWithin l (i + 1) b (v.len - 1) = _
        cases b with
        | zero => unfold chaseWithin; rw [if_neg (by omega)]
        | succ b => unfold chaseWithin; rw [if_neg (by omega)]
      unfold placeWithin
      rw [e1]
      show ∃ s', run o (chaseWithin l (i + 1) (b + 1) i >>= _) s = _
      rw [e2]
      show ∃ s', run o (v.swap (i + 1) (v.len - 1) >>= fun _ => placeWithin v b (i + 1 + 1) r (l.set (i + 1) (k2, v.len - 1))) s = _
      obtain ⟨s1, hs⟩ := run_swap o (v := v) (i := i + 1) (j := v.len - 1) (by omega) (by omega) s
      rw [run_bind, hs]
      obtain ⟨hlt, _⟩ := List.getElem?_eq_some_iff.mp h3
      refine ih (by omega) ⟨k2, List.getElem?_set_self hlt⟩ ?_ (by omega) s1
      intro j hj hjn
      rw [List.getElem?_set_ne (by omega)]
      exact h2 j (by omega) hjn

theorem placeWithin_shifted {σ : Type} (o : Oracle σ (KeyQ α κ) (κ × Bool)) {b : Nat} {l : List (κ × Nat)} (h2 : 2 ≤ v.len)
    (hl : l.map (·.2) = (v.len - 1) :: List.range (v.len - 1)) (hb : b < v.len - 1)
    (s : St α (KeyQ α κ) (κ × Bool) σ) : ∃ s', run o (placeWithin v b 0 v.len l) s = (.diverge, s') := by
  obtain ⟨n, hn⟩ : ∃ n, v.len = n + 1 := ⟨v.len - 1, by omega⟩
  cases l with
  | nil => cases hl
  | cons p l =>
    rw [List.map_cons, List.cons.injEq] at hl
    obtain ⟨hp, hl⟩ := hl
    have e2 : (chaseWithin (p :: l) 0 b p.2 : Prog α (KeyQ α κ) (κ × Bool) (Nat × Nat)) = pure (v.len - 1, b) := by
      rw [hp]
      cases b with
      | zero => unfold chaseWithin; rw [if_neg (by omega)]
      | succ b => unfold chaseWithin; rw [if_neg (by omega)]
    have u : (placeWithin v b 0 (n + 1) (p :: l) : Prog α (KeyQ α κ) (κ × Bool) Unit) =
        (chaseWithin (p :: l) 0 b p.2 >>= fun q => v.swap 0 q.1 >>= fun _ => placeWithin v q.2 1 n ((p.1, q.1) :: l)) := by
      cases b <;> rfl
    rw [hn, u, e2]
    show ∃ s', run o (v.swap 0 (v.len - 1) >>= fun _ => placeWithin v b 1 n ((p.1, v.len - 1) :: l)) s = _
    obtain ⟨s1, hs⟩ := run_swap o (v := v) (i := 0) (j := v.len - 1) (by omega) (by omega) s
    rw [run_bind, hs]
    refine placeWithin_shift o (i := 0) (by omega) ⟨p.1, rfl⟩ ?_ (by omega) s1
    intro j hj hjn
    obtain ⟨j, rfl⟩ : ∃ i, j = i + 1 := ⟨j - 1, by omega⟩
    have hll : l.length = v.len - 1 := by simpa using congrArg List.length hl
    have hjl : j < l.length := by omega
    refine ⟨l[j].1, ?_⟩
    rw [List.getElem?_cons_succ, List.getElem?_eq_getElem hjl, Nat.add_sub_cancel]
    have e : (l.map (·.2))[j]'(by simpa using hjl) = j := by simp [hl]
    rw [List.getElem_map] at e
    conv_lhs => rw [← Prod.eta l[j], e]

end NdSlice
