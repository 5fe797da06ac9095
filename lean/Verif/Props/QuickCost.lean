import Verif.Proof.QuickSlow
import Verif.Props.Sample

/-
How many comparisons the parallel unstable sort makes.  The documentation says O(n log n) in the worst case (/repo/src/lib.rs:509, 547, 607).  That is
false: `limit` is the number of unbalanced partitions after which heapsort is used, but `was_balanced` starts as `true` in every call of `recurse`, and
in the parallel part every partition is followed by new calls; so `limit` never decreases there (C54).
-/

namespace NdSlice

open Style

variable {α κ σ : Type} {cfg : Cfg}

/-- C54: the number of comparisons of `par_sort_unstable` is at least quadratic in the worst case, for every layout and every kind of distinct elements:
for every long enough array there is a (consistent) strict weak order with which sorting takes at least `len ^ 2 / 400` comparisons. -/
theorem par_sort_unstable_quadratic [DecidableEq α] (hz : cfg.zst = false) {v : View} {m : Mem α} (hv : v.WF) (hN : 8000 ≤ v.len)
    (nd : (v.contents m).Nodup) :
    ∃ (lt : α → α → Bool) (o : Oracle Unit (Style.Q α κ .ord) (Style.A κ .ord)), SWO lt ∧ Agrees .ord o lt ∧
      ∃ s', run o (parSortUnstable .ord cfg v) ⟨m, (), []⟩ = (.ok (), s') ∧ v.len ^ 2 ≤ 400 * s'.log.length := by
  let K := 50 * v.len
  let s0 : StA α := ⟨m, [], []⟩
  let p : Prog α (α × α) Bool Unit := parQuickSort cfg lessO v
  generalize hT : (run (adv true K) p s0).2.env = T
  obtain ⟨d, t1, t2⟩ := run_trace (o := adv (α := α) true K) (fun _ => rfl) p s0
  have hK : T.length ≤ K := by
    rw [← hT]
    exact t2.env_le (by simp [s0])
  have hg : gas s0.env (v.contents m) = v.len := by
    show gas [] (v.contents m) = _
    unfold gas
    rw [List.countP_eq_length.2 (by simp), v.contents_length]
  have main : AT true K T p v s0 (v.len / 96 * (v.len / 2)) (fun _ _ => True) := by
    show AT true K T (parQuickSort cfg lessO v) v s0 _ _
    unfold parQuickSort
    rw [if_neg (by simp [hz])]
    refine recurse_AT hK (by omega) (by omega) ?_ hv nd ?_ (by show 0 + 50 * v.len ≤ 50 * v.len; omega)
    · unfold bitLen
      rw [if_neg (by omega)]
      omega
    · show _ ≤ gas s0.env (v.contents m)
      omega
  obtain ⟨r, s', e1, e2, -, -⟩ := main (by rw [hT])
  have hans := t2.answers (by rw [hT]) hK
  have hr := run_replay (f := fun q : α × α => ltT true T q.1 q.2) (o := adv (α := α) true K) (fun _ => rfl) (p := p) (s := s0) (L := d) hans
    (by rw [t1])
  refine ⟨ltT true T, funOracle (fun q : α × α => ltT true T q.1 q.2), ltT_swo true T, fun _ _ _ => rfl, s'.forget, ?_, ?_⟩
  · have hl : (Style.less (κ := κ) .ord : α → α → Prog α (α × α) Bool Bool) = lessO := by
      funext x y
      show Prog.call (x, y) _ = Prog.call (x, y) _
      congr 1; funext r
      cases r <;> rfl
    rw [e1] at hr
    show run _ (parQuickSort cfg (Style.less (κ := κ) .ord : α → α → Prog α (α × α) Bool Bool) v) _ = _
    rw [hl]
    exact hr
  · have e2 : v.len / 96 * (v.len / 2) ≤ s'.log.length := by simpa [s0] using e2
    have h1 : v.len ≤ 98 * (v.len / 96) := by omega
    have h2 : v.len ≤ 4 * (v.len / 2) := by omega
    calc v.len ^ 2 = v.len * v.len := Nat.pow_two _
      _ ≤ 98 * (v.len / 96) * (4 * (v.len / 2)) := Nat.mul_le_mul h1 h2
      _ = 392 * (v.len / 96 * (v.len / 2)) := by ring
      _ ≤ 400 * s'.log.length := Nat.mul_le_mul (by omega) e2

theorem sq_le_two_pow (k : Nat) : (k + 4) ^ 2 ≤ 2 ^ (k + 4) := by
  induction k with
  | zero => decide
  | succ k ih =>
    rw [show k + 1 + 4 = k + 4 + 1 by omega, Nat.pow_succ 2]
    have : (k + 4 + 1) ^ 2 = (k + 4) ^ 2 + 2 * (k + 4) + 1 := by ring
    have h2 : (k + 4) ^ 2 = (k + 4) * (k + 4) := Nat.pow_two _
    have h3 : 4 * (k + 4) ≤ (k + 4) * (k + 4) := Nat.mul_le_mul_right _ (by omega)
    omega

/-- C54: so there is no bound in O(n log n), already for arrays of numbers. -/
theorem par_sort_unstable_not_n_log_n (hz : cfg.zst = false) :
    ¬ ∃ c, ∀ (v : View) (m : Mem Nat) (lt : Nat → Nat → Bool) (o : Oracle Unit (Style.Q Nat κ .ord) (Style.A κ .ord)),
      v.WF → 2 ≤ v.len → SWO lt → Agrees .ord o lt →
        (run o (parSortUnstable .ord cfg v) ⟨m, (), []⟩).2.log.length ≤ c * (v.len * Nat.log2 v.len) := by
  rintro ⟨c, h⟩
  let k := 400 * c + 16 + 4
  have hk : k ^ 2 ≤ 2 ^ k := sq_le_two_pow (400 * c + 16)
  have h20 : 2 ^ 20 ≤ 2 ^ k := Nat.pow_le_pow_right (by omega) (by show 20 ≤ 400 * c + 16 + 4; omega)
  obtain ⟨lt, o, so, ho, s', e1, e2⟩ := par_sort_unstable_quadratic (κ := κ) (v := ⟨0, 1, 2 ^ k⟩) (m := fun a => a.toNat) hz (.inl (by simp))
    (by show 8000 ≤ 2 ^ k; omega) (by
    have e : View.contents ⟨0, 1, 2 ^ k⟩ (fun a : Addr => a.toNat) = List.range (2 ^ k) := by
      unfold View.contents View.region
      rw [List.map_map]
      conv_rhs => rw [← List.map_id (List.range (2 ^ k))]
      refine List.map_congr_left fun i _ => ?_
      simp [View.addr]
    rw [e]
    exact List.nodup_range)
  have h1 := h ⟨0, 1, 2 ^ k⟩ (fun a => a.toNat) lt o (.inl (by simp)) (by show 2 ≤ 2 ^ k; omega) so ho
  rw [e1] at h1
  dsimp only at h1 e2
  rw [Nat.log2_two_pow] at h1
  have h2 : (2 ^ k) ^ 2 ≤ 400 * (c * (2 ^ k * k)) := Nat.le_trans e2 (Nat.mul_le_mul_left _ h1)
  have h3 : 2 ^ k * 2 ^ k ≤ 400 * c * k * 2 ^ k := by
    rw [Nat.pow_two] at h2
    calc _ ≤ _ := h2
      _ = _ := by ring
  have h4 := Nat.le_of_mul_le_mul_right h3 (by omega)
  have h5 : 400 * c * k < k * k := Nat.mul_lt_mul_of_pos_right (by show 400 * c < 400 * c + 16 + 4; omega) (by show 0 < 400 * c + 16 + 4; omega)
  rw [Nat.pow_two] at hk
  omega

/-! ### The hypotheses can be met -/

example : ∃ (v : View) (m : Mem Nat), v.WF ∧ 8000 ≤ v.len ∧ (v.contents m).Nodup :=
  ⟨⟨0, 3, 8000⟩, fun a => a.toNat, .inl (by decide), Nat.le_refl _, by
    unfold View.contents
    refine List.Nodup.map_on ?_ (View.region_nodup (.inl (by decide)))
    intro a ha b hb h
    simp only [View.region, View.addr, List.mem_map] at ha hb
    obtain ⟨i, -, rfl⟩ := ha
    obtain ⟨k, -, rfl⟩ := hb
    have h : ((0 : Int) + 3 * (i : Nat)).toNat = ((0 : Int) + 3 * (k : Nat)).toNat := h
    show (0 : Int) + 3 * (i : Nat) = 0 + 3 * (k : Nat)
    omega⟩

example := par_sort_unstable_not_n_log_n (κ := Nat) (cfg := ⟨false, 64, false⟩) rfl

end NdSlice
