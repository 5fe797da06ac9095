import Verif.Proof.SelectSlow
import Verif.Props.Sample

/-
How many comparisons selection makes.  The documentation says O(n) in the worst case (/repo/src/lib.rs:46-51).  That is false: with many equal
elements the fallback `median_of_medians` takes more than every polynomial number of comparisons (C52).
-/

namespace NdSlice

open Style

variable {α κ σ : Type} {cfg : Cfg}

theorem rank_swo (rank : α → Nat) : SWO (fun x y => decide (rank x < rank y)) where
  irrefl x := by simp
  trans x y z h1 h2 := by simp at *; omega
  ntrans x y z h1 h2 := by simp at *; omega

/-- C52 with more about the order: there are at most 240 classes of equal elements. -/
theorem select_nth_superpolynomial_few [DecidableEq α] (hd : cfg.dbg = false) (hz : cfg.zst = false) (j : Nat) :
    ∃ c N, ∀ (v : View) (m : Mem α), v.WF → N ≤ v.len → (v.contents m).Nodup →
      ∃ (rank : α → Nat) (o : Oracle Unit (Style.Q α κ .ord) (Style.A κ .ord)), (∀ x, rank x < 240) ∧
        Agrees .ord o (fun x y => decide (rank x < rank y)) ∧
        ∃ r s', run o (selectNthUnstable .ord cfg v (v.len - 2)) ⟨m, (), []⟩ = (.ok r, s') ∧ v.len ^ j ≤ c * s'.log.length := by
  obtain ⟨c, N, hg⟩ := slowBound_grows 239 j
  refine ⟨2 ^ j * c, 2 * N + 2 * (26 * 240 + 20), fun v m hv hN nd => ?_⟩
  -- the run against the adversary, and what it decides
  let s0 : StA α := ⟨m, [], []⟩
  let p : Prog α (α × α) Bool (View × Addr × View) := partitionAtIndex cfg lessO v (v.len - 2)
  generalize hT : (run (adv false 239) p s0).2.env = T
  obtain ⟨d, t1, t2⟩ := run_trace (o := adv (α := α) false 239) (fun _ => rfl) p s0
  have hK : T.length ≤ 239 := by
    rw [← hT]
    exact t2.env_le (by simp [s0])
  have main : AT false 239 T p v s0 (slowBound 239 j (v.len - 2 - 17 * (239 + 1))) (fun _ _ => True) := by
    show AT false 239 T (partitionAtIndex cfg lessO v (v.len - 2)) v s0 _ _
    unfold partitionAtIndex
    rw [if_neg (by omega), if_neg (by simp [hz])]
    refine (AT.bind (n2 := 0) (Q' := fun _ _ => True) (n1 := slowBound 239 j (v.len - 2 - 17 * (239 + 1))) ?_ ?_).mono
      (by omega) fun _ _ h => h
    · refine AT.usub (by omega) ?_
      rw [if_neg (by omega), if_neg (by omega)]
      exact selLoop_AT hK hd hz j (ρ := 17) rfl (by omega) hv nd (by omega) (by omega) (by intro a ha; cases ha) (by simp [s0])
    · rintro _ s1 - -
      refine AT.splitAt (by omega) ?_
      exact AT.splitAt (by simp; omega) (AT.vref (by simp) (AT.pure trivial))
  obtain ⟨r, s', e1, e2, -, -⟩ := main (by rw [hT])
  have hans := t2.answers (by rw [hT]) hK
  have hr := run_replay (f := fun q : α × α => ltT false T q.1 q.2) (o := adv (α := α) false 239) (fun _ => rfl) (p := p) (s := s0) (L := d) hans
    (by rw [t1])
  refine ⟨fun x => T.idxOf x, funOracle (fun q : α × α => ltT false T q.1 q.2), fun x => Nat.lt_succ_of_le (Nat.le_trans List.idxOf_le_length hK),
    fun _ _ _ => rfl, r, s'.forget, ?_, ?_⟩
  · have hl : (Style.less (κ := κ) .ord : α → α → Prog α (α × α) Bool Bool) = lessO := by
      funext x y
      show Prog.call (x, y) _ = Prog.call (x, y) _
      congr 1; funext r
      cases r <;> rfl
    rw [e1] at hr
    show run _ (partitionAtIndex cfg (Style.less (κ := κ) .ord : α → α → Prog α (α × α) Bool Bool) v (v.len - 2)) _ = _
    rw [hl]
    exact hr
  · have h1 := hg (v.len - 2 - 17 * (239 + 1)) (by omega)
    have e2 : slowBound 239 j (v.len - 2 - 17 * (239 + 1)) ≤ s'.log.length := by
      simpa [s0] using e2
    calc v.len ^ j ≤ (2 * (v.len - 2 - 17 * (239 + 1))) ^ j := Nat.pow_le_pow_left (by omega) _
      _ = 2 ^ j * (v.len - 2 - 17 * (239 + 1)) ^ j := Nat.mul_pow _ _ _
      _ ≤ 2 ^ j * (c * slowBound 239 j (v.len - 2 - 17 * (239 + 1))) := Nat.mul_le_mul_left _ h1
      _ ≤ 2 ^ j * (c * s'.log.length) := Nat.mul_le_mul_left _ (Nat.mul_le_mul_left _ e2)
      _ = 2 ^ j * c * s'.log.length := by rw [Nat.mul_assoc]

/-- C52: the number of comparisons of `select_nth_unstable` is not bounded by any polynomial, for no kind of layout and no kind of distinct elements:
for every power `j` there is a factor `c` such that on every long enough array there is a (consistent) strict weak order with which selecting
the element at `len - 2` takes at least `len ^ j / c` comparisons (release build). -/
theorem select_nth_superpolynomial [DecidableEq α] (hd : cfg.dbg = false) (hz : cfg.zst = false) (j : Nat) :
    ∃ c N, ∀ (v : View) (m : Mem α), v.WF → N ≤ v.len → (v.contents m).Nodup →
      ∃ (lt : α → α → Bool) (o : Oracle Unit (Style.Q α κ .ord) (Style.A κ .ord)), SWO lt ∧ Agrees .ord o lt ∧
        ∃ r s', run o (selectNthUnstable .ord cfg v (v.len - 2)) ⟨m, (), []⟩ = (.ok r, s') ∧ v.len ^ j ≤ c * s'.log.length := by
  obtain ⟨c, N, h⟩ := select_nth_superpolynomial_few (α := α) (κ := κ) hd hz j
  refine ⟨c, N, fun v m hv hN nd => ?_⟩
  obtain ⟨rank, o, -, ho, h⟩ := h v m hv hN nd
  exact ⟨_, o, rank_swo rank, ho, h⟩

/-- C52: no polynomial bounds the number of comparisons of `select_nth_unstable`, already for arrays of numbers. -/
theorem select_nth_no_polynomial (hd : cfg.dbg = false) (hz : cfg.zst = false) :
    ¬ ∃ c j, ∀ (v : View) (m : Mem Nat) (index : Nat) (lt : Nat → Nat → Bool) (o : Oracle Unit (Style.Q Nat κ .ord) (Style.A κ .ord)),
      v.WF → index < v.len → SWO lt → Agrees .ord o lt →
        (run o (selectNthUnstable .ord cfg v index) ⟨m, (), []⟩).2.log.length ≤ c * v.len ^ j := by
  rintro ⟨c, j, h⟩
  obtain ⟨c', N, h'⟩ := select_nth_superpolynomial (α := Nat) (κ := κ) hd hz (j + 1)
  let n := N + c' * c + 2
  obtain ⟨lt, o, so, ho, r, s', e1, e2⟩ := h' ⟨0, 1, n⟩ (fun a => a.toNat) (.inl (by simp)) (by show N ≤ N + c' * c + 2; omega) (by
    have e : View.contents ⟨0, 1, n⟩ (fun a : Addr => a.toNat) = List.range n := by
      unfold View.contents View.region
      rw [List.map_map]
      conv_rhs => rw [← List.map_id (List.range n)]
      refine List.map_congr_left fun i _ => ?_
      simp [View.addr]
    rw [e]
    exact List.nodup_range)
  have h1 := h ⟨0, 1, n⟩ (fun a => a.toNat) (n - 2) lt o (.inl (by simp)) (by show n - 2 < n; omega) so ho
  rw [show View.len ⟨0, 1, n⟩ - 2 = n - 2 from rfl] at e1
  rw [e1] at h1
  dsimp only at h1 e2
  have h2 : n ^ (j + 1) ≤ c' * (c * n ^ j) := Nat.le_trans e2 (Nat.mul_le_mul_left _ h1)
  rw [Nat.pow_succ, ← Nat.mul_assoc, Nat.mul_comm] at h2
  have := Nat.le_of_mul_le_mul_right h2 (Nat.pow_pos (by omega))
  omega

/-! ### The hypotheses can be met -/

/-- There are long arrays of distinct elements. -/
example : ∃ (v : View) (m : Mem Nat), v.WF ∧ 1000 ≤ v.len ∧ (v.contents m).Nodup :=
  ⟨⟨0, 3, 1000⟩, fun a => a.toNat, .inl (by decide), Nat.le_refl _, by
    unfold View.contents
    refine List.Nodup.map_on ?_ (View.region_nodup (.inl (by decide)))
    intro a ha b hb h
    simp only [View.region, View.addr, List.mem_map] at ha hb
    obtain ⟨i, -, rfl⟩ := ha
    obtain ⟨k, -, rfl⟩ := hb
    have h : ((0 : Int) + 3 * (i : Nat)).toNat = ((0 : Int) + 3 * (k : Nat)).toNat := h
    show (0 : Int) + 3 * (i : Nat) = 0 + 3 * (k : Nat)
    omega⟩

example := select_nth_superpolynomial (α := Nat) (κ := Nat) (cfg := ⟨false, 64, false⟩) rfl rfl 1000
example := select_nth_no_polynomial (κ := Nat) (cfg := ⟨false, 64, false⟩) rfl rfl

end NdSlice
