import Verif.Proof.CostPar
import Verif.Proof.ParMergeSort
import Verif.Proof.Sequences
import Verif.Core.TriB

/-
How many comparisons the parallel stable sort makes on arrays which consist of few sorted or strictly descending sequences: chunks inside of one
sequence are concatenated, so there are few of them to be merged.
-/

namespace NdSlice

variable {α ι ω : Type} {C : Cmp α ι ω} {cfg : Cfg} {v buf : View} {c : Nat} {lt : α → α → Bool}

/-- Two chunks inside of one sequence are concatenated. -/
theorem joined_of_sequence (hg : C.Good lt) {p A B Y : List α} {res r : MergesortResult} {A' B' : List α} (hp : Sorted lt p ∨ StrictDesc lt p)
    (hs : (A ++ B).Sublist p) (hA : 2 ≤ A.length) (hB : 2 ≤ B.length) (h1 : Untouched C A res A') (h2 : Untouched C B r B') :
    joined lt res A' r (B' ++ Y) = true := by
  obtain ⟨A, z, rfl⟩ := snoc_of_pos (show 0 < A.length by omega)
  obtain ⟨x, B, rfl⟩ : ∃ x0 B0, B = x0 :: B0 := by
    cases B with
    | nil => simp at hB
    | cons x0 B0 => exact ⟨x0, B0, rfl⟩
  rcases hp with hp | hp
  · have hab := Sorted.append_iff.mp (hp.sublist hs)
    obtain ⟨rfl, rfl⟩ := (h1.1 lt hg hA).1 hab.1
    obtain ⟨rfl, rfl⟩ := (h2.1 lt hg hB).1 hab.2.1
    have := hab.2.2 z (by simp) x (by simp)
    unfold joined
    rw [List.getLast?_append]
    simp [this]
  · have hab := List.pairwise_append.mp (hp.sublist hs)
    obtain ⟨rfl, rfl⟩ := (h1.1 lt hg hA).2 hab.1
    obtain ⟨rfl, rfl⟩ := (h2.1 lt hg hB).2 hab.2.1
    have := hab.2.2 z (by simp) x (by simp)
    unfold joined
    rw [List.getLast?_append]
    simp [this]

/-- Each sequence accounts for at most two places where chunks are not concatenated: one in the chunk where it starts, one in the chunk where it ends. -/
theorem breaks_le (hg : C.Good lt) {rest : List (Nat × Nat × MergesortResult)} {i : Nat} {res : MergesortResult} {A0 A Y0 Y p : List α}
    {ps : List (List α)} (hlA : A.length = A0.length) (hlY : Y.length = Y0.length) (hA : A.length = min 2000 (A.length + Y.length))
    (hu : Untouched C A0 res A) (ho : OAdj C i (rest.map some) Y) (hk : Kept C (rest.map some) Y0 Y)
    (hps : A0 ++ Y0 = (p :: ps).flatten) (hm : ∀ q ∈ p :: ps, Sorted lt q ∨ StrictDesc lt q) :
    breaks lt res A rest Y + (if p.length ≤ A0.length then 1 else 0) ≤ 2 * (ps.length + 1) := by
  induction rest generalizing i res A0 A Y0 Y p ps with
  | nil =>
    unfold breaks
    split <;> omega
  | cons x rest ih =>
    obtain ⟨a, b, r⟩ := x
    obtain ⟨B, Y', rfl, hB, hpos, ho', hr⟩ := ho
    obtain ⟨rfl, rfl, -⟩ := hr _ rfl
    obtain ⟨hu', hk'⟩ := hk
    have hlen : (B ++ Y').length = B.length + Y'.length := by simp
    rw [hlen] at hB hlY hA
    dsimp only at hu'
    rw [take_block hB] at hu'
    rw [drop_block hB] at hk'
    unfold breaks
    rw [Nat.add_sub_cancel_left, List.take_left' rfl, List.drop_left' rfl]
    have hl1 : B.length = (Y0.take 2000).length := by simp; omega
    have hl2 : Y'.length = (Y0.drop 2000).length := by simp; omega
    have h1 : (if joined lt res A r (B ++ Y') then 0 else 1) ≤ 1 := by split <;> omega
    have hsplit : Y0.take 2000 ++ Y0.drop 2000 = Y0 := List.take_append_drop _ _
    rw [List.flatten_cons] at hps
    by_cases hp : p.length ≤ A0.length
    · rw [if_pos hp]
      have hY0 : Y0 = ps.flatten.drop (A0.length - p.length) := by
        have := congrArg (List.drop A0.length) hps
        rw [List.drop_left' rfl, List.drop_append, List.drop_of_length_le hp, List.nil_append] at this
        exact this
      obtain ⟨qs, g1, g2, g3⟩ := Sequences.drop (lt := lt) (k := ps.length) (xs := ps.flatten)
        ⟨ps, Nat.le_refl _, rfl, fun q hq => hm q (List.mem_cons_of_mem _ hq)⟩ (A0.length - p.length)
      rw [← hY0] at g2
      match qs, g1, g2, g3 with
      | [], _, g2, _ =>
        rw [g2, List.flatten_nil, List.length_nil] at hlY
        omega
      | q :: qs, g1, g2, g3 =>
        have := ih (i := i + 1) (res := r) hl1 hl2 hB hu' ho' hk' (hsplit.trans g2) g3
        have := Nat.le_trans (Nat.le_add_right _ _) this
        simp only [List.length_cons] at g1
        omega
    · rw [if_neg hp]
      have hA0 : A0 = p.take A0.length := by
        have := congrArg (List.take A0.length) hps
        rw [List.take_left' rfl, List.take_append_of_le_length (by omega)] at this
        exact this
      have hY0 : Y0 = p.drop A0.length ++ ps.flatten := by
        have := congrArg (List.drop A0.length) hps
        rw [List.drop_left' rfl, List.drop_append_of_le_length (by omega)] at this
        exact this
      have hpm := hm p (by simp)
      have := ih (i := i + 1) (res := r) (p := p.drop A0.length) (ps := ps) hl1 hl2 hB hu' ho' hk' (hsplit.trans hY0) (by
        intro q hq
        rcases List.mem_cons.mp hq with rfl | hq
        · rcases hpm with h | h
          · exact .inl (h.sublist (List.drop_sublist _ _))
          · exact .inr (h.sublist (List.drop_sublist _ _))
        · exact hm q (List.mem_cons_of_mem _ hq))
      by_cases hp' : (p.drop A0.length).length ≤ (Y0.take 2000).length
      · rw [if_pos hp'] at this
        omega
      · rw [if_neg hp'] at this
        have hl := congrArg List.length hY0
        rw [List.length_append] at hl
        have hl3 : Y0.length = B.length + Y'.length := by omega
        have hB2 : (Y0.take 2000).length = 2000 := by simp at hp' hl ⊢; omega
        have hj := joined_of_sequence (Y := Y') hg hpm (A := A0) (B := Y0.take 2000) (by
          conv => rhs; rw [← List.take_append_drop A0.length p]
          rw [← hA0]
          refine List.Sublist.append (List.Sublist.refl _) ?_
          rw [hY0, List.take_append_of_le_length (by omega)]
          exact List.take_sublist _ _) (by omega) (by omega) hu hu'
        rw [hj, if_pos rfl]
        omega

/-- The sort of more than one chunk. -/
theorem parMergeSortChunks_adaptive (hg : C.Good lt) (hl : Asks c C.less) {xs bs : List α} (hx : xs.length = v.len) (hlong : 2000 < v.len)
    (hb : v.len ≤ buf.len) (hbs : bs.length = v.len) {n : Nat} (hq : Sequences lt n xs) :
    TriB c C.R (v.region ++ (buf.sub 0 v.len).region) (parMergeSortChunks cfg C.less v buf) (xs ++ bs) (v.len * (2 * Nat.log2 n + 56))
      (fun _ _ _ => True) := by
  unfold parMergeSortChunks
  have hv : v.sub (2000 * 0) v.len = v := View.sub_self v
  have hbl : bs.length = (buf.sub 0 v.len).region.length := by simpa using hbs
  have hB : 51 * v.len + ((v.len + 1999) / 2000 + (2 * v.len * (Nat.log2 n + 2) + (v.len + 1999) / 2000)) ≤ v.len * (2 * Nat.log2 n + 56) := by
    rw [Nat.mul_add, Nat.mul_add, Nat.mul_assoc 2, Nat.mul_left_comm v.len 2]
    omega
  have h1 := chunkTasks_spec (C := C) (cfg := cfg) (v := v) (buf := buf) (i := 0) (X := xs) (n := (v.len + 1999) / 2000) (by omega) (by rw [hx])
  rw [hx, hv] at h1
  refine TriB.weaken (TriB.bind ((TriB.of_tri (h1 bs hbl) (chunkTasks_cost (i := 0) hl (by omega))).frame
    ((v.len + 1999) / 2000 + (2 * v.len * (Nat.log2 n + 2) + (v.len + 1999) / 2000))) ?_) hB
  rintro os _ _ _ ⟨r, rfl, ⟨ys, bs, hy, hbs, rfl, k1, t1, o1, q1⟩, c1, c2, c3⟩
  rw [Nat.mul_zero] at hbs
  have h2 := lateChunks_spec (C := C) (cfg := cfg) (v := v) (buf := buf) (i := 0) (X := ys) (os := os) (by omega) o1
  rw [hy, hx, hv] at h2
  refine TriB.bindN (n := r) (TriB.mono (TriB.of_tri (h2 bs hbs) ((lateChunks_cost hl c1).weaken c3)) (fun _ _ _ _ h => h)) (Nat.le_refl _) ?_
  rintro rs _ _ ⟨⟨zs, bs, hz, hbs, rfl, k2, t2, o2, q2⟩, d1, d2⟩
  have q3 := q2 xs q1
  cases rs with
  | nil => exact absurd (show v.len ≤ 2000 * 0 from d1) (by omega)
  | cons x rest =>
    obtain ⟨a, b, res⟩ := x
    obtain ⟨-, -, dr⟩ := d1
    have hcadj := o2.cadj
    obtain ⟨A, Y', rfl, hA, hpos, ho', hr⟩ := o2
    obtain ⟨e1, e2, hres⟩ := hr _ rfl
    dsimp only at e1 e2
    obtain rfl : a = 0 := by omega
    obtain rfl : b = A.length := by omega
    obtain ⟨hu, hk⟩ := q3
    dsimp only at hu
    have hlen : (A ++ Y').length = A.length + Y'.length := by simp
    rw [hlen] at hA hz
    rw [take_block hA] at hu
    rw [drop_block hA] at hk
    obtain ⟨ps, hp1, hp2, hp3⟩ := hq
    match ps, hp1, hp2, hp3 with
    | [], _, hp2, _ =>
      rw [hp2] at hx
      simp at hx
      omega
    | p :: ps, hp1, hp2, hp3 =>
      have hbrk := breaks_le (rest := rest) hg (Y0 := xs.drop 2000) (by simp; omega) (by simp; omega) hA hu ho' hk
        ((List.take_append_drop _ _).trans hp2) hp3
      have hbrk := Nat.le_trans (Nat.le_add_right _ _) hbrk
      simp only [List.length_cons] at hp1 d2
      have hc1 := concatChunks_spec (C := C) (cfg := cfg) (v := v) (rest := rest) (a := 0) (b := A.length) (res := res) (P := []) (A := A) (Y := Y')
        (by simp; omega) rfl (by omega) hpos hres (by
          obtain ⟨A2, Y2, u1, -, -, u2, -, u3⟩ := hcadj
          obtain ⟨rfl, rfl⟩ := List.append_inj u1 (by omega)
          rwa [show 2000 * 0 + A.length = A.length by omega] at u3)
      simp only [List.nil_append] at hc1
      refine TriB.bindN (n := (v.len + 1999) / 2000)
        (Q' := fun cs zs => 0 < cs.length ∧ cs.length ≤ (v.len + 1999) / 2000 ∧ Follow 0 cs v.len ∧ cs.length ≤ 2 * n + 1 ∧
          ∃ us bs, zs = us ++ bs ∧ us.length = v.len ∧ bs.length = v.len ∧ SAdj C 0 cs us) ?_ (Nat.le_refl _) ?_
      · refine TriB.mono (TriB.of_tri (TriS.of_tri hc1 bs hbs) ((concatChunks_cost (i := 0 + 1) hl (Nat.zero_le _) (by omega) dr).weaken (by omega))) ?_
        rintro cs _ _ _ ⟨⟨us, bs, l1, l2, rfl, ⟨c0, cb, -⟩, -, Z, -, rfl, -, hs⟩, f1, f2, f3⟩
        have := cb lt hg
        exact ⟨f1, by omega, f3, by omega, us, bs, rfl, by omega, by simpa using l2, hs⟩
      · rintro cs _ _ ⟨g1, g2, g3, g4, us, bs, rfl, hu, hbs, hs⟩
        have := parRecurse_spec (C := C) (cfg := cfg) (v := v) (buf := buf) (k := cs.length) (cs := cs) (ib := false) (s := 0) (n := v.len) (X := us)
          (W := bs) (Nat.le_refl _) g1 hs hu (by simpa using hbs) (by omega) (by omega)
        unfold recRegion at this
        rw [View.sub_self] at this
        have hlog : n < 2 ^ (Nat.log2 n + 1) := Nat.lt_log2_self
        refine TriB.mono (TriB.of_tri this ((parRecurse_cost (d := Nat.log2 n + 2) hl g1 g3 ?_).weaken (by rw [Nat.sub_zero]; omega))) fun _ _ _ _ _ => trivial
        rw [Nat.pow_succ]
        omega

/-- `par_merge_sort` on an array of at most `n` sequences. -/
theorem parMergeSort_adaptive (hg : C.Good lt) (hl : Asks c C.less) {xs bs : List α} (hx : xs.length = v.len) (hz : cfg.zst = false)
    (hb : buf.len = v.len) (hbs : bs.length = v.len) {n : Nat} (hq : Sequences lt n xs) :
    TriB c C.R (v.region ++ buf.region) (parMergeSort cfg C.less v buf) (xs ++ bs) (v.len * (2 * Nat.log2 n + 56)) (fun _ _ _ => True) := by
  by_cases hlong : 2000 < v.len
  · have := parMergeSortChunks_adaptive (cfg := cfg) (buf := buf) hg hl hx hlong (by omega) hbs hq
    rw [show buf.sub 0 v.len = buf by rw [← hb]; exact View.sub_self buf] at this
    unfold parMergeSort
    rw [if_neg (by simp [hz]), if_neg (by omega), if_neg (by omega)]
    exact this
  · have hB : 51 * v.len ≤ v.len * (2 * Nat.log2 n + 56) := by
      rw [Nat.mul_comm]
      exact Nat.mul_le_mul_left _ (by omega)
    refine TriB.mono (TriB.of_tri (parMergeSort_spec (cfg := cfg) (C := C) hx (by simp [hz]) hb bs (by simpa [hb] using hbs))
      (Cost.weaken (B := 51 * v.len) (Q := fun _ _ => True) ?_ hB)) fun _ _ _ _ _ => trivial
    unfold parMergeSort
    rw [if_neg (by simp [hz])]
    split
    · rename_i h20
      split
      · rename_i h2
        refine Cost.weaken (B := (v.len - 1) * (v.len - 1)) (Cost.mono (Cost.forDown (Inv := fun i B => i * (v.len - 1) ≤ B) (by rw [Nat.zero_add]) ?_) fun _ _ _ => trivial) ?_
        · intro i B h1 h3 hB
          rw [Nat.succ_mul] at hB
          refine Cost.slice (by omega) fun _ => ?_
          refine Cost.weaken (B := (v.len - 1) + i * (v.len - 1)) ?_ (by omega)
          refine Cost.mono (((parInsertHead_cost hl).weaken (B' := v.len - 1) (by show v.len - i - 1 ≤ _; omega)).frame (i * (v.len - 1))) ?_
          rintro _ _ ⟨r, rfl, -⟩
          omega
        · exact Nat.mul_le_mul (by omega) (by omega)
      · exact Cost.pure trivial
    · rw [if_pos (by omega)]
      refine Cost.bind (Q' := fun _ _ => True) (parMergeSortSeq_cost hl (H := 10) (fun h hf => fib_chunk (n := v.len) (by omega) hf) (Nat.le_refl _)) fun res _ _ => ?_
      split
      · exact Cost.silent reverse_silent fun _ => trivial
      · exact Cost.pure trivial

end NdSlice
