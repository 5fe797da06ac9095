import Verif.Proof.CostMerge
import Verif.Proof.InMerge
import Verif.Proof.ParMergeSeq

/-
How many comparisons the parallel stable sort makes at most, whatever is answered.
-/

namespace NdSlice

variable {α ι ω β : Type} {cfg : Cfg} {less : α → α → Prog α ι ω Bool} {c : Nat} {v buf : View}

/-! ### Finding runs -/

theorem parInsertHeadLoop_cost (hl : Asks c less) {tmp : α} {d n : Nat} : Cost c (parInsertHeadLoop less v tmp d n) n (fun _ _ => True) := by
  induction n generalizing d with
  | zero => exact Cost.silent Silent.vset fun _ => trivial
  | succ n ih =>
    refine Cost.silentB Silent.vidx fun x => ?_
    refine Cost.bind (Cost.onPanic (Cost.less (B := n) (Q := fun _ r => r = n) hl fun _ => rfl) Silent.vset) ?_
    rintro b _ rfl
    split
    · exact Cost.silent Silent.vset fun _ => trivial
    · exact Cost.silentB Silent.vcset fun _ => ih

theorem parInsertHead_cost (hl : Asks c less) : Cost c (parInsertHead less v) (v.len - 1) (fun _ _ => True) := by
  unfold parInsertHead
  split
  · rename_i h2
    rw [show v.len - 1 = (v.len - 2) + 1 by omega]
    refine Cost.silentB Silent.vidx fun x => Cost.silentB Silent.vidx fun y => Cost.lessB hl fun b => ?_
    split
    · exact Cost.silentB Silent.vidx fun _ => Cost.silentB Silent.vidx fun _ => Cost.silentB Silent.vcset fun _ => parInsertHeadLoop_cost hl
    · exact Cost.pure trivial
  · exact Cost.pure trivial

theorem parStreak_cost (hl : Asks c less) {rev : Bool} {s B : Nat} (hB : s ≤ B) :
    Cost c (parStreak less v rev s) B (fun s' r => s' ≤ s ∧ B ≤ r + (s - s') + 1) := by
  induction s generalizing B with
  | zero => exact Cost.pure ⟨Nat.le_refl _, by omega⟩
  | succ s ih =>
    obtain ⟨B, rfl⟩ : ∃ B', B = B' + 1 := ⟨B - 1, by omega⟩
    refine Cost.silentB Silent.vget fun x => Cost.silentB Silent.vget fun y => Cost.lessB hl fun b => ?_
    split
    · refine Cost.mono (ih (by omega)) ?_
      rintro e' r ⟨h1, h2⟩
      exact ⟨by omega, by omega⟩
    · exact Cost.pure ⟨Nat.le_refl _, by omega⟩

theorem parExtend_cost (hl : Asks c less) {s e B : Nat} (hs : s < e) (hB : 9 * s ≤ B) :
    Cost c (parExtend less v e s) B (fun s' r => s' ≤ s ∧ (s' + 10 ≤ e ∨ s' = 0) ∧ B ≤ r + 9 * (s - s')) := by
  induction s generalizing B with
  | zero => exact Cost.pure ⟨Nat.le_refl _, .inr rfl, by omega⟩
  | succ s ih =>
    unfold parExtend
    split
    · rename_i h
      refine Cost.slice (by omega) fun _ => ?_
      refine Cost.bindN (n := 9) (B' := B - 9) (Q' := fun _ => True) ((parInsertHead_cost hl).weaken (by show e - s - 1 ≤ 9; omega)) (by omega) fun _ _ => ?_
      refine (ih (by omega) (by omega)).mono ?_
      rintro s' r ⟨h1, h2, h3⟩
      exact ⟨by omega, h2, by omega⟩
    · exact Cost.pure ⟨Nat.le_refl _, .inl (by omega), by omega⟩

theorem parNextRun_cost (hl : Asks c less) {e B : Nat} (h0 : 0 < e) (hB : 10 * e ≤ B) :
    Cost c (parNextRun cfg less v e) B (fun o r => match o with
      | .inl _ => True
      | .inr s => s < e ∧ (s + 10 ≤ e ∨ s = 0) ∧ B ≤ r + 10 * (e - s)) := by
  have ext : ∀ {s r}, s < e → B ≤ r + (e - s) → Cost c (parExtend less v e s >>= fun s => Pure.pure (.inr s)) r (fun (o : MergesortResult ⊕ Nat) r => match o with
      | .inl _ => True
      | .inr s => s < e ∧ (s + 10 ≤ e ∨ s = 0) ∧ B ≤ r + 10 * (e - s)) := by
    intro s r hs hr
    refine Cost.bind (parExtend_cost hl hs (by omega)) ?_
    rintro s' r' ⟨h1, h2, h3⟩
    exact Cost.pure ⟨by omega, h2, by omega⟩
  unfold parNextRun
  split
  · rename_i h1
    obtain ⟨B, rfl⟩ : ∃ B', B = B' + 1 := ⟨B - 1, by omega⟩
    refine Cost.silentB Silent.vget fun x => Cost.silentB Silent.vget fun y => Cost.lessB hl fun b => ?_
    split
    · refine Cost.bind (parStreak_cost hl (by omega)) ?_
      rintro s r ⟨h2, h3⟩
      split
      · exact Cost.pure trivial
      · exact Cost.silentB Silent.slice fun _ => Cost.silentB reverse_silent fun _ => ext (by omega) (by omega)
    · refine Cost.bind (parStreak_cost hl (by omega)) ?_
      rintro s r ⟨h2, h3⟩
      split
      · exact Cost.pure trivial
      · exact ext (by omega) (by omega)
  · exact ext (by omega) (by omega)

/-! ### The stack of runs: as that of the sequential sort, read from the end of the slice -/

/-- A run in the reversed slice of length `n`. -/
def mirror (n : Nat) (r : TimRun) : TimRun := ⟨r.len, n - (r.start + r.len)⟩

theorem RChain.mirror {n e s : Nat} {rs : List TimRun} (h : RChain e rs s) (he : e ≤ n) : Chain (n - e) (rs.map (mirror n)) (n - s) := by
  induction rs generalizing e with
  | nil =>
    have h : e = s := h
    rw [h]
    rfl
  | cons r rs ih =>
    obtain ⟨h1, h2, h3⟩ := h
    refine ⟨by show n - (r.start + r.len) = n - e; rw [h1], h2, ?_⟩
    show Chain (n - e + r.len) _ _
    rw [show n - e + r.len = n - r.start by omega]
    exact ih h3 (by omega)

theorem runLen_mirror {n i : Nat} {rs : List TimRun} : runLen (rs.map (mirror n)) i = runLen rs i := by
  unfold runLen
  rw [List.getElem?_map]
  cases rs[i]? <;> rfl

theorem parCollapse_mirror {n s : Nat} {rs : List TimRun} (h : RChain n rs s) : parCollapse rs = collapse (rs.map (mirror n)) n := by
  unfold parCollapse collapse
  simp only [runLen_mirror, List.length_map]
  have e : 2 ≤ rs.length → (runStart rs (rs.length - 1) == 0) =
      (runStart (rs.map (mirror n)) (rs.length - 1) + runLen rs (rs.length - 1) == n) := by
    intro hl
    obtain ⟨r, hr⟩ : ∃ r, rs[rs.length - 1]? = some r := ⟨_, List.getElem?_eq_getElem (by omega)⟩
    have h1 : runStart rs (rs.length - 1) = r.start := by unfold runStart; rw [hr]; rfl
    have h2 : runLen rs (rs.length - 1) = r.len := by unfold runLen; rw [hr]; rfl
    have h3 : runStart (rs.map (mirror n)) (rs.length - 1) = n - (r.start + r.len) := by
      unfold runStart
      rw [List.getElem?_map, hr]
      rfl
    have h4 := h.mem (List.mem_of_getElem? hr)
    rw [h1, h2, h3, Bool.eq_iff_iff, beq_iff_eq, beq_iff_eq]
    omega
  by_cases hl : 2 ≤ rs.length
  · rw [e hl]
  · simp [hl]

/-- One iteration of the merging loop: what it costs. -/
theorem parCollapseBody_cost (hl : Asks c less) {rs : List TimRun} {e B : Nat} (h2 : RChain v.len rs e)
    (h3 : WeakInv (rs.map (mirror v.len))) (hpay : Paid v (v.len - e) (rs.map (mirror v.len)) B) {F : Nat} :
    Cost c (parCollapseBody cfg less v buf rs) (B + F) (fun o r => ∃ B', r = B' + F ∧ match o with
      | .inl rs' => RChain v.len rs' e ∧ WeakInv (rs'.map (mirror v.len)) ∧ Paid v (v.len - e) (rs'.map (mirror v.len)) B' ∧
          (∀ q ∈ rs', ∃ p ∈ rs, p.len ≤ q.len)
      | .inr rs' => rs' = rs ∧ B' = B ∧ TimInv (rs.map (mirror v.len)) ∧ slack (rs.map (mirror v.len)) = 0) := by
  have hch : Chain 0 (rs.map (mirror v.len)) (v.len - e) := by
    have := h2.mirror (Nat.le_refl v.len)
    rwa [Nat.sub_self] at this
  have hev' := h2.le
  unfold parCollapseBody
  cases hc : parCollapse rs with
  | none =>
    rw [parCollapse_mirror h2] at hc
    exact Cost.pure ⟨B, rfl, rfl, rfl, (collapse_none hc h3 (fun r hr => (hch.mem hr).2.2)).1, slack_none hc⟩
  | some r =>
    have hr0 := parCollapse_lt hc
    rw [parCollapse_mirror h2] at hc
    obtain ⟨hr1, hr2⟩ := collapse_lt hc
    obtain ⟨pre, b, a, post, rfl, hpre, hb', ha, hpost⟩ := split_two hr0
    obtain ⟨m, c1, c2, c3, c4, c5, c6⟩ := rchain_append.mp h2
    have hle1 := c1.le
    have hle := c6.le
    have hrs : ((pre ++ b :: a :: post).set r ⟨a.len + b.len, a.start⟩).eraseIdx (r + 1) = pre ++ ⟨a.len + b.len, a.start⟩ :: post := by
      subst hpre
      simp [List.set_append_right, List.eraseIdx_append_of_length_le]
    have hmap : (pre ++ b :: a :: post).map (mirror v.len) =
        pre.map (mirror v.len) ++ mirror v.len b :: mirror v.len a :: post.map (mirror v.len) := by simp
    have hmap' : (pre ++ (⟨a.len + b.len, a.start⟩ : TimRun) :: post).map (mirror v.len) =
        pre.map (mirror v.len) ++ mirror v.len ⟨a.len + b.len, a.start⟩ :: post.map (mirror v.len) := by simp
    have hm : (mirror v.len ⟨a.len + b.len, a.start⟩).len = (mirror v.len b).len + (mirror v.len a).len := Nat.add_comm _ _
    rw [hmap] at hc hpay h3 hch
    have hlast := hch.last (by simp)
    have hc : collapse (pre.map (mirror v.len) ++ mirror v.len b :: mirror v.len a :: post.map (mirror v.len)) v.len = some (pre.map (mirror v.len)).length := by
      rw [hc, List.length_map, hpre]
    have eb : (mirror v.len b).len = b.len := rfl
    have ea : (mirror v.len a).len = a.len := rfl
    have hcost : a.len + b.len ≤ B := by
      rcases hpay with ⟨hev, hp⟩ | ⟨hev, hp⟩
      · have := collapse_pay hm hc (by rw [hlast]; omega)
        have hd := depthSum_merge (i := 0) (pre := pre.map (mirror v.len)) (post := post.map (mirror v.len)) hm
        have hsl := slack_le (rs := pre.map (mirror v.len) ++ mirror v.len ⟨a.len + b.len, a.start⟩ :: post.map (mirror v.len))
        omega
      · rw [List.length_append, List.length_cons, List.length_cons] at hp
        have : 1 * v.len ≤ ((pre.map (mirror v.len)).length + ((post.map (mirror v.len)).length + 1 + 1)) * v.len := Nat.mul_le_mul_right _ (by omega)
        omega
    simp only [runAt_eq ha, runAt_eq hb']
    refine Cost.pureB (Cost.pureB (Cost.slice (by omega) fun _ => ?_))
    rw [show b.start + b.len - a.start = a.len + b.len by omega]
    refine Cost.bindN (n := a.len + b.len) (B' := B - (a.len + b.len) + F) (Q' := fun _ => True)
      (merge_cost hl (fun _ _ => Silent.vidx) (v := v.sub a.start (a.len + b.len)) (by show _ ≤ a.len + b.len; omega)) (by omega) fun _ _ => ?_
    rw [hrs]
    refine Cost.pure ⟨_, rfl, ?_, ?_, ?_, ?_⟩
    · refine rchain_append.mpr ⟨m, c1, ?_, by show 0 < a.len + b.len; omega, c6⟩
      show a.start + (a.len + b.len) = m
      omega
    · rw [hmap']
      exact h3.merge (by rw [List.length_map]; simp at hr2 hpost; omega)
    · rw [hmap']
      rcases hpay with ⟨hev, hp⟩ | ⟨hev, hp⟩
      · left
        have := collapse_pay hm hc (by rw [hlast]; omega)
        have hd := depthSum_merge (i := 0) (pre := pre.map (mirror v.len)) (post := post.map (mirror v.len)) hm
        exact ⟨hev, by omega⟩
      · right
        refine ⟨hev, ?_⟩
        rw [List.length_append, List.length_cons, List.length_cons] at hp
        rw [List.length_append, List.length_cons]
        rw [← Nat.add_assoc, Nat.succ_mul] at hp
        omega
    · intro q hq
      rcases List.mem_append.mp hq with hq | hq
      · exact ⟨q, by simp [hq], Nat.le_refl _⟩
      rcases List.mem_cons.mp hq with rfl | hq
      · exact ⟨a, by simp, Nat.le_add_right _ _⟩
      · exact ⟨q, by simp [hq], Nat.le_refl _⟩

/-- The merging loop. -/
theorem parCollapseLoop_cost (hl : Asks c less) {rs : List TimRun} {e B n : Nat} (h2 : RChain v.len rs e)
    (h3 : WeakInv (rs.map (mirror v.len))) (h10 : 0 < e → ∀ q ∈ rs, 10 ≤ q.len) (hpay : Paid v (v.len - e) (rs.map (mirror v.len)) B) {F : Nat} :
    Cost c (Prog.loop (parCollapseBody cfg less v buf) n rs) (B + F) (fun rs' r => ∃ B', r = B' + F ∧ RChain v.len rs' e ∧
      TimInv (rs'.map (mirror v.len)) ∧ (0 < e → ∀ q ∈ rs', 10 ≤ q.len) ∧ (0 < e → 3 * depthSum 0 (rs'.map (mirror v.len)) ≤ B')) := by
  have hle := h2.le
  refine Cost.loop (Inv := fun rs' r => ∃ B', r = B' + F ∧ RChain v.len rs' e ∧ WeakInv (rs'.map (mirror v.len)) ∧
    Paid v (v.len - e) (rs'.map (mirror v.len)) B' ∧ (0 < e → ∀ q ∈ rs', 10 ≤ q.len)) ⟨B, rfl, h2, h3, hpay, h10⟩ ?_
  rintro rs' _ ⟨B', rfl, h2, h3, hpay, h10⟩
  refine Cost.mono (parCollapseBody_cost hl h2 h3 hpay) ?_
  rintro (rs'' | rs'') r ⟨B'', rfl, h⟩
  · obtain ⟨g2, g3, g4, g5⟩ := h
    refine ⟨B'', rfl, g2, g3, g4, fun hlt q hq => ?_⟩
    obtain ⟨p, hp, hpq⟩ := g5 q hq
    have := h10 hlt p hp
    omega
  · obtain ⟨rfl, rfl, g3, g4⟩ := h
    refine ⟨B'', rfl, h2, g3, h10, fun hlt => ?_⟩
    rcases hpay with ⟨_, hp⟩ | ⟨hp, _⟩
    · omega
    · omega

/-- The loop state, with what is still to be paid; `H` is a bound of the height of the stack. -/
structure ParRunsPaid (v : View) (H : Nat) (x : Nat × List TimRun) (B : Nat) : Prop where
  chain : RChain v.len x.2 x.1
  tim : TimInv (x.2.map (mirror v.len))
  long : 0 < x.1 → ∀ q ∈ x.2, 10 ≤ q.len
  paid : 0 < x.1 → 3 * depthSum 0 (x.2.map (mirror v.len)) + (10 + 3 * H) * x.1 + (H + 1) * v.len ≤ B

theorem parMergeSortBody_cost (hl : Asks c less) {H B : Nat} {x : Nat × List TimRun}
    (hH : ∀ h, 10 * (Nat.fib (h + 2) - 1) < v.len → h ≤ H) (h : ParRunsPaid v H x B) :
    Cost c (parMergeSortBody cfg less v buf x) B (fun o r => match o with
      | .inl x' => ParRunsPaid v H x' r
      | .inr _ => True) := by
  obtain ⟨e, rs⟩ := x
  obtain ⟨h2, h3, h5, h6⟩ := h
  dsimp only at h2 h3 h5 h6
  have hle := h2.le
  unfold parMergeSortBody
  dsimp only
  split
  · rename_i hs
    have hch : Chain 0 (rs.map (mirror v.len)) (v.len - e) := by
      have := h2.mirror (Nat.le_refl v.len)
      rwa [Nat.sub_self] at this
    have hh : rs.length ≤ H := hH _ (by
      have := h3.height hch (by
        intro q hq
        obtain ⟨p, hp, rfl⟩ := List.mem_map.mp hq
        exact h5 hs p hp)
      rw [List.length_map] at this
      omega)
    have hB := h6 hs
    rw [Nat.add_mul] at hB
    refine Cost.bind (parNextRun_cost hl hs (by omega)) ?_
    rintro (res | s) r hr
    · exact Cost.pure trivial
    obtain ⟨g1, g3, g4⟩ := hr
    dsimp only
    have hc : RChain v.len (rs ++ [(⟨e - s, s⟩ : TimRun)]) s :=
      rchain_append.mpr ⟨e, h2, by show s + (e - s) = e; omega, by show 0 < e - s; omega, rfl⟩
    have hlong : 0 < s → ∀ q ∈ rs ++ [(⟨e - s, s⟩ : TimRun)], 10 ≤ q.len := by
      intro he q hq
      rcases List.mem_append.mp hq with hq | hq
      · exact h5 (by omega) q hq
      · rw [List.mem_singleton.mp hq]
        show 10 ≤ e - s
        omega
    have hmap : (rs ++ [(⟨e - s, s⟩ : TimRun)]).map (mirror v.len) = rs.map (mirror v.len) ++ [mirror v.len ⟨e - s, s⟩] := by simp
    have hweak : WeakInv ((rs ++ [(⟨e - s, s⟩ : TimRun)]).map (mirror v.len)) := by
      rw [hmap]
      exact h3.push _
    have hd : depthSum 0 ((rs ++ [(⟨e - s, s⟩ : TimRun)]).map (mirror v.len)) = depthSum 0 (rs.map (mirror v.len)) + rs.length * (e - s) := by
      rw [hmap, depthSum_append]
      simp [depthSum, mirror]
    have hm : rs.length * (e - s) ≤ H * (e - s) := Nat.mul_le_mul_right _ hh
    have hsplit : 3 * H * e = 3 * H * s + 3 * H * (e - s) := by rw [← Nat.mul_add]; congr 1; omega
    have h3H : 3 * H * (e - s) = 3 * (H * (e - s)) := Nat.mul_assoc _ _ _
    by_cases he : 0 < s
    · refine Cost.weaken (B := 3 * depthSum 0 ((rs ++ [(⟨e - s, s⟩ : TimRun)]).map (mirror v.len)) + ((10 + 3 * H) * s + (H + 1) * v.len)) ?_ ?_
      · refine Cost.bind (parCollapseLoop_cost hl hc hweak hlong (.inl ⟨by omega, by omega⟩)) ?_
        rintro rs' _ ⟨B', rfl, k2, k3, k5, k6⟩
        refine Cost.pure ⟨k2, k3, k5, fun he => ?_⟩
        have := k6 he
        dsimp only
        omega
      · rw [hd, Nat.add_mul 10]
        omega
    · refine Cost.bind (parCollapseLoop_cost (F := 0) hl hc hweak hlong (.inr ⟨by omega, ?_⟩)) ?_
      · have : (rs.length + 1) * v.len ≤ (H + 1) * v.len := Nat.mul_le_mul_right _ (by omega)
        rw [List.length_map, List.length_append, List.length_singleton]
        omega
      · rintro rs' _ ⟨B', rfl, k2, k3, k5, k6⟩
        exact Cost.pure ⟨k2, k3, k5, fun h => absurd h he⟩
  · exact Cost.pure trivial

/-- The sequential sort of a chunk. -/
theorem parMergeSortSeq_cost (hl : Asks c less) {H B : Nat} (hH : ∀ h, 10 * (Nat.fib (h + 2) - 1) < v.len → h ≤ H) (hB : (11 + 4 * H) * v.len ≤ B) :
    Cost c (parMergeSortSeq cfg less v buf) B (fun _ _ => True) := by
  unfold parMergeSortSeq
  refine Cost.bind (Q' := fun _ _ => True) (Cost.loop (Inv := fun x B => ParRunsPaid v H x B) ?_ ?_) ?_
  · refine ⟨rfl, .nil, by simp, fun _ => ?_⟩
    simp only [depthSum, List.map_nil, Nat.add_mul, Nat.one_mul, Nat.mul_assoc] at hB ⊢
    omega
  · rintro x B h
    refine Cost.mono (parMergeSortBody_cost hl hH h) ?_
    rintro (x | x) r h <;> exact h
  · rintro (res | rs) r -
    · exact Cost.pure trivial
    · dsimp only
      split
      · refine Cost.silentB ?_ fun _ => Cost.debugAssert (Cost.pure trivial)
        unfold runAt
        split
        · exact Silent.pure
        · exact Silent.throw
      · exact Cost.pure trivial

/-! ### Merging in parallel -/

variable {left right dest src : View}

theorem copyUp_silent {s d n : Nat} : Silent (copyUp src dest s d n : Prog α ι ω Unit) :=
  Silent.forUp fun _ => Silent.bind Silent.vidx fun _ => Silent.vcset

theorem stateDrop_silent {l r d : Nat} : Silent (stateDrop cfg left right dest l r d : Prog α ι ω Unit) :=
  Silent.bind Silent.usub fun _ => Silent.bind copyUp_silent fun _ => Silent.bind Silent.usub fun _ => copyUp_silent

theorem splitForMerge_cost (hl : Asks c less) {B : Nat} (h1 : left.len < 2 ^ B) (h2 : right.len < 2 ^ B) :
    Cost c (splitForMerge less left right) B (fun x _ => (left.len / 2 ≤ x.1 ∧ x.1 ≤ left.len - left.len / 2 ∧ right.len ≤ left.len) ∨
      (right.len / 2 ≤ x.2 ∧ x.2 ≤ right.len - right.len / 2 ∧ left.len ≤ right.len)) := by
  unfold splitForMerge
  split
  · rename_i h
    refine Cost.bind (Q' := fun _ _ => True) (Cost.loop (Inv := fun x B => x.2 - x.1 < 2 ^ B) h2 ?_) ?_
    · rintro ⟨a, b⟩ B hB
      unfold splitRightBody
      dsimp only at hB ⊢
      split
      · cases B with
        | zero => simp at hB; omega
        | succ B =>
          refine Cost.silentB Silent.vidx fun x => Cost.silentB Silent.vidx fun y => Cost.lessB hl fun d => Cost.pure ?_
          rw [Nat.pow_succ] at hB
          cases d <;> simp <;> omega
      · exact Cost.pure trivial
    · rintro a r -
      exact Cost.pure (.inl ⟨Nat.le_refl _, by dsimp only; omega, h⟩)
  · rename_i h
    refine Cost.bind (Q' := fun _ _ => True) (Cost.loop (Inv := fun x B => x.2 - x.1 < 2 ^ B) h1 ?_) ?_
    · rintro ⟨a, b⟩ B hB
      unfold splitLeftBody
      dsimp only at hB ⊢
      split
      · cases B with
        | zero => simp at hB; omega
        | succ B =>
          refine Cost.silentB Silent.vidx fun x => Cost.silentB Silent.vidx fun y => Cost.lessB hl fun d => Cost.pure ?_
          rw [Nat.pow_succ] at hB
          cases d <;> simp <;> omega
      · exact Cost.pure trivial
    · rintro a r -
      exact Cost.pure (.inr ⟨Nat.le_refl _, by dsimp only; omega, by omega⟩)

theorem log2_quarter {n a : Nat} (h : n / 4 ≤ a) (hn : 4 ≤ n) : Nat.log2 n ≤ Nat.log2 a + 2 := by
  have ha : a ≠ 0 := by omega
  have h1 : a < 2 ^ (Nat.log2 a + 1) := Nat.lt_log2_self
  have h2 : n < 2 ^ (Nat.log2 a + 1 + 2) := by
    rw [Nat.pow_add]
    omega
  have := (Nat.log2_lt (by omega)).2 h2
  omega

theorem two_log2_le (n : Nat) : 2 * Nat.log2 n ≤ n + 1 := by
  by_cases hn : n = 0
  · subst hn; decide
  · have h1 : 2 ^ Nat.log2 n ≤ n := Nat.log2_self_le hn
    have h2 : ∀ k : Nat, 2 * k ≤ 2 ^ k := by
      intro k
      induction k with
      | zero => decide
      | succ k ih =>
        rw [Nat.pow_succ]
        have : 1 ≤ 2 ^ k := Nat.one_le_two_pow
        by_cases hk : k = 0
        · subst hk; decide
        · have : 2 ≤ 2 ^ k := by omega
          omega
    have := h2 (Nat.log2 n)
    omega

theorem parMerge_cost (hl : Asks c less) {n : Nat} :
    Cost c (parMerge cfg less n left right dest) (2 * (left.len + right.len) + 1 - 2 * Nat.log2 (left.len + right.len)) (fun _ _ => True) := by
  induction n generalizing left right dest with
  | zero => exact Cost.diverge
  | succ n ih =>
    have hlog := two_log2_le (left.len + right.len)
    unfold parMerge
    split
    · refine Cost.bind (Q' := fun _ _ => True) (Cost.loop (Inv := fun x B => left.len - x.1 + (right.len - x.2.1) ≤ B)
        (by show left.len - 0 + (right.len - 0) ≤ _; omega) ?_) ?_
      · rintro ⟨l, r, d⟩ B hB
        unfold parMergeBody
        dsimp only at hB ⊢
        split
        · rename_i hc
          rw [Bool.and_eq_true, decide_eq_true_eq, decide_eq_true_eq] at hc
          obtain ⟨B, rfl⟩ : ∃ B', B = B' + 1 := ⟨B - 1, by omega⟩
          refine Cost.silentB Silent.vidx fun x => Cost.silentB Silent.vidx fun y => ?_
          refine Cost.bind (Cost.onPanic (Cost.less (B := B) (Q := fun _ r => r = B) hl fun _ => rfl) stateDrop_silent) ?_
          rintro b _ rfl
          cases b
          · refine Cost.silentB Silent.vidx fun z => Cost.silentB Silent.vcset fun _ => Cost.pure ?_
            dsimp only
            omega
          · refine Cost.silentB Silent.vidx fun z => Cost.silentB Silent.vcset fun _ => Cost.pure ?_
            dsimp only
            omega
        · exact Cost.pure trivial
      · rintro ⟨l, r, d⟩ B -
        exact Cost.silent stateDrop_silent fun _ => trivial
    · rename_i hc
      simp only [Bool.or_eq_true, beq_iff_eq, decide_eq_true_eq, not_or, Nat.not_lt] at hc
      obtain ⟨-, hn⟩ := hc
      have h12 : 12 ≤ Nat.log2 (left.len + right.len) := by
        rw [Nat.le_log2 (by omega)]
        omega
      have hpow : left.len + right.len < 2 ^ (Nat.log2 (left.len + right.len) + 1) := Nat.lt_log2_self
      refine Cost.bindN (n := Nat.log2 (left.len + right.len) + 1) (B' := 2 * (left.len + right.len) - 3 * Nat.log2 (left.len + right.len))
        (Q' := fun x : View × View × View × View => x.1.len + x.2.2.1.len + (x.2.1.len + x.2.2.2.len) = left.len + right.len ∧
          (left.len + right.len) / 4 ≤ x.1.len + x.2.2.1.len ∧ (left.len + right.len) / 4 ≤ x.2.1.len + x.2.2.2.len) ?_ (by omega) ?_
      · refine Cost.onPanic ?_ stateDrop_silent
        refine Cost.bind (splitForMerge_cost hl (by omega) (by omega)) ?_
        rintro ⟨p, q⟩ r h
        dsimp only at h ⊢
        refine Cost.splitAt fun hp => Cost.splitAt fun hq => Cost.pure ?_
        show p + q + (left.len - p + (right.len - q)) = _ ∧ _ ≤ p + q ∧ _ ≤ left.len - p + (right.len - q)
        omega
      · rintro ⟨ll, lr, rl, rr⟩ ⟨e1, e2, e3⟩
        dsimp only at e1 e2 e3 ⊢
        refine Cost.silentB Silent.splitAt fun ⟨dl, dr⟩ => ?_
        have l1 := log2_quarter e2 (by omega)
        have l2 := log2_quarter e3 (by omega)
        have t1 := two_log2_le (ll.len + rl.len)
        have t2 := two_log2_le (lr.len + rr.len)
        refine Cost.weaken (B := _ + _) (Cost.bind (Q' := fun _ _ => True) (Cost.rayonJoin rfl ih ih (fun _ _ _ _ _ _ => trivial)) fun _ _ _ => Cost.pure trivial) ?_
        omega

/-- `recurse`. -/
theorem parRecurse_cost (hl : Asks c less) {k d : Nat} {cs : List (Nat × Nat)} {ib : Bool} {s e : Nat} (hc : 0 < cs.length) (h : Follow s cs e)
    (hd : cs.length ≤ 2 ^ d) : Cost c (parRecurse cfg less v buf k cs ib) (2 * (e - s) * d + (cs.length - 1)) (fun _ _ => True) := by
  induction k generalizing cs ib s e d with
  | zero => exact Cost.diverge
  | succ k ih =>
    unfold parRecurse
    refine Cost.debugAssert ?_
    have hse := h.le
    by_cases hlen : (cs.length == 1) = true
    · rw [if_pos hlen]
      cases ib with
      | false => exact Cost.pure trivial
      | true =>
        refine Cost.silentB ?_ fun x => Cost.silent copyUp_silent fun _ => trivial
        unfold chunkAt
        split
        · exact Silent.pure
        · exact Silent.throw
    · rw [if_neg hlen]
      simp only [beq_iff_eq] at hlen
      have hsplit : cs = cs.take (cs.length / 2) ++ cs.drop (cs.length / 2) := (List.take_append_drop _ _).symm
      have h' := h
      rw [hsplit] at h'
      obtain ⟨m, c1, c2⟩ := h'.append
      obtain ⟨e0, he0⟩ := h.head hc
      obtain ⟨e1, he1⟩ := c2.head (by simp; omega)
      obtain ⟨e2, he2⟩ := h.last hc
      rw [List.getElem?_drop, Nat.add_zero] at he1
      rw [chunkAt_some he0, chunkAt_some he1]
      refine Cost.pureB (Cost.pureB (Cost.usub (by omega) ?_))
      rw [chunkAt_some he2]
      refine Cost.pureB (Cost.usub hse ?_)
      have hsm := c1.le
      have hme := c2.le
      cases d with
      | zero => simp at hd; omega
      | succ d =>
        rw [Nat.pow_succ] at hd
        have l1 : (cs.take (cs.length / 2)).length = cs.length / 2 := by simp; omega
        have l2 : (cs.drop (cs.length / 2)).length = cs.length - cs.length / 2 := by simp
        have i1 := ih (cs := cs.take (cs.length / 2)) (ib := !ib) (d := d) (by omega) c1 (by omega)
        have i2 := ih (cs := cs.drop (cs.length / 2)) (ib := !ib) (d := d) (by omega) c2 (by omega)
        rw [l1] at i1
        rw [l2] at i2
        have hm : 2 * (m - s) * d + 2 * (e - m) * d = 2 * (e - s) * d := by
          rw [← Nat.add_mul]
          congr 1
          omega
        refine Cost.bindN (n := _ + _) (B' := 2 * (m - s + (e - m)) + 1) (Q' := fun _ => True)
          (Cost.onPanic (Cost.rayonJoin rfl i1 i2 (fun _ _ _ _ _ _ => trivial)) copyUp_silent) ?_ fun _ _ => ?_
        · rw [Nat.mul_add (2 * (e - s)), Nat.mul_one]
          omega
        · refine Cost.slice hsm fun _ => Cost.slice hme fun _ => Cost.silentB Silent.slice fun dd => ?_
          exact (parMerge_cost hl).weaken (Nat.sub_le _ _)

/-! ### The chunks -/

theorem fib_chunk {h n : Nat} (hn : n ≤ 2000) (hf : 10 * (Nat.fib (h + 2) - 1) < n) : h ≤ 10 := by
  by_contra hc
  have h2 : Nat.fib 13 ≤ Nat.fib (h + 2) := Nat.fib_mono (by omega)
  have : Nat.fib 13 = 233 := by decide
  omega

theorem chunkTask_cost (hl : Asks c less) {i : Nat} :
    Cost c (chunkTask cfg less v buf i) (51 * min 2000 (v.len - 2000 * i)) (fun r _ => IsChunk v i r) := by
  unfold chunkTask
  dsimp only
  refine Cost.bind (Q' := fun _ _ => True) (parMergeSortSeq_cost hl (H := 10) (fun h hf => fib_chunk (n := min 2000 (v.len - 2000 * i)) (by omega) hf) (Nat.le_refl _))
    fun _ _ _ => Cost.pure ⟨rfl, rfl⟩

/-- What is to be paid for the missing chunks. -/
def lateCost (v : View) : Nat → List (Option (Nat × Nat × MergesortResult)) → Nat
  | _, [] => 0
  | i, some _ :: os => lateCost v (i + 1) os
  | i, none :: os => 51 * min 2000 (v.len - 2000 * i) + lateCost v (i + 1) os

theorem chunkTasks_cost (hl : Asks c less) {i n : Nat} (hn : n = (v.len - 2000 * i + 1999) / 2000) :
    Cost c (chunkTasks cfg less v buf i n) (51 * (v.len - 2000 * i)) (fun os r => ChunksFrom v i os ∧ os.length = n ∧ lateCost v i os ≤ r) := by
  induction n generalizing i with
  | zero =>
    unfold chunkTasks
    exact Cost.pure ⟨by show v.len ≤ 2000 * i; omega, rfl, Nat.zero_le _⟩
  | succ n ih =>
    unfold chunkTasks
    have hi : 2000 * i < v.len := by omega
    refine Cost.bind (Cost.rayonJoin (B1 := 51 * min 2000 (v.len - 2000 * i)) (B2 := 51 * (v.len - 2000 * (i + 1))) (by omega)
      (Q1 := fun o r => (∀ r, o = some r → IsChunk v i r) ∧ (o = none → 51 * min 2000 (v.len - 2000 * i) ≤ r))
      (Q := fun x r => (∀ r, x.1 = some r → IsChunk v i r) ∧ ChunksFrom v (i + 1) x.2 ∧ x.2.length = n ∧ lateCost v i (x.1 :: x.2) ≤ r) ?_ (ih (by omega)) ?_) ?_
    · intro b
      cases b
      · refine Cost.bind (chunkTask_cost hl) fun r _ h => Cost.pure ⟨fun r' e => by cases e; exact h, fun e => by cases e⟩
      · exact Cost.pure ⟨fun r e => (by cases e), fun _ => Nat.le_refl _⟩
    · rintro o os r t ⟨h1, h2⟩ ⟨h3, h4, h5⟩
      refine ⟨h1, h3, h4, ?_⟩
      cases o with
      | some r => exact Nat.le_trans h5 (by omega)
      | none =>
        have := h2 rfl
        show _ + lateCost v (i + 1) os ≤ _
        omega
    · rintro ⟨o, os⟩ r ⟨h1, h2, h3, h4⟩
      exact Cost.pure ⟨⟨hi, h1, h2⟩, by simp at h3 ⊢; omega, h4⟩

theorem lateChunks_cost (hl : Asks c less) {i : Nat} {os : List (Option (Nat × Nat × MergesortResult))} (h : ChunksFrom v i os) :
    Cost c (lateChunks cfg less v buf i os) (lateCost v i os) (fun rs _ => ChunksFrom v i (rs.map some) ∧ rs.length = os.length) := by
  induction os generalizing i with
  | nil =>
    unfold lateChunks
    exact Cost.pure ⟨h, rfl⟩
  | cons o os ih =>
    cases o with
    | some r =>
      unfold lateChunks
      exact Cost.bind (ih h.2.2) fun rs _ hrs => Cost.pure ⟨⟨h.1, fun r' e => h.2.1 r' e, hrs.1⟩, by simp [hrs.2]⟩
    | none =>
      unfold lateChunks
      refine Cost.bindN (B' := lateCost v (i + 1) os) (chunkTask_cost hl) (Nat.le_refl _) fun r hr => ?_
      exact Cost.bind (ih h.2.2) fun rs _ hrs => Cost.pure ⟨⟨h.1, fun r' e => by cases e; exact hr, hrs.1⟩, by simp [hrs.2]⟩

theorem finishChunk_silent {a b : Nat} {res : MergesortResult} : Silent (finishChunk cfg v a b res : Prog α ι ω Unit) := by
  unfold finishChunk
  exact Silent.ite (Silent.bind Silent.slice fun _ => reverse_silent) Silent.pure

theorem canConcat_cost (hl : Asks c less) {res r : MergesortResult} {x : Nat} : Cost c (canConcat cfg less v res x r) 1 (fun _ _ => True) := by
  unfold canConcat
  split
  · exact Cost.silentB Silent.usub fun _ => Cost.silentB Silent.vidx fun _ => Cost.silentB Silent.vidx fun _ => Cost.lessB hl fun _ => Cost.pure trivial
  · exact Cost.pure trivial

theorem concatChunks_cost (hl : Asks c less) {a b i : Nat} {res : MergesortResult} {rest : List (Nat × Nat × MergesortResult)}
    (hab : a ≤ b) (hb : b = min (2000 * i) v.len) (h : ChunksFrom v i (rest.map some)) :
    Cost c (concatChunks cfg less v a b res rest) rest.length (fun cs _ => 0 < cs.length ∧ cs.length ≤ rest.length + 1 ∧ Follow a cs v.len) := by
  induction rest generalizing a b i res with
  | nil =>
    unfold concatChunks
    have h : v.len ≤ 2000 * i := h
    exact Cost.silentB finishChunk_silent fun _ => Cost.pure ⟨Nat.succ_pos _, Nat.le_refl _, rfl, hab, by show b = v.len; omega⟩
  | cons r rest ih =>
    rcases r with ⟨x, y, r⟩
    obtain ⟨hi, hr, h⟩ := h
    obtain ⟨h1, h2⟩ := hr _ rfl
    dsimp only at h1 h2
    unfold concatChunks
    refine Cost.bindN (n := 1) (B' := rest.length) (Q' := fun _ => True) (canConcat_cost hl) (by simp; omega) fun cc _ => ?_
    split
    · refine (ih (by omega) (by omega) h).mono ?_
      rintro cs r ⟨g1, g2, g3⟩
      exact ⟨g1, by simp; omega, g3⟩
    · refine Cost.silentB finishChunk_silent fun _ => Cost.bind (ih (by omega) (by omega) h) ?_
      rintro cs r ⟨g1, g2, g3⟩
      refine Cost.pure ⟨Nat.succ_pos _, by simp; omega, rfl, hab, ?_⟩
      rw [show x = b by omega] at g3
      exact g3

theorem parMergeSortChunks_cost (hl : Asks c less) (h : 2000 < v.len) :
    Cost c (parMergeSortChunks cfg less v buf) (8 * (v.len * Nat.log2 v.len)) (fun _ _ => True) := by
  have hL : 10 ≤ Nat.log2 v.len := by
    rw [Nat.le_log2 (by omega)]
    omega
  obtain ⟨d, hd⟩ : ∃ d, Nat.log2 v.len = d + 9 := ⟨Nat.log2 v.len - 9, by omega⟩
  have hpow : v.len < 2 ^ (Nat.log2 v.len + 1) := Nat.lt_log2_self
  have hpd : (v.len + 1999) / 2000 ≤ 2 ^ d := by
    rw [hd, show d + 9 + 1 = d + 10 by omega, Nat.pow_add] at hpow
    have : 2 ≤ 2 ^ d := by
      calc 2 = 2 ^ 1 := rfl
        _ ≤ 2 ^ d := Nat.pow_le_pow_right (by omega) (by omega)
    omega
  have hB : 51 * v.len + ((v.len + 1999) / 2000 + (2 * v.len * d + (v.len + 1999) / 2000)) ≤ 8 * (v.len * Nat.log2 v.len) := by
    rw [hd, Nat.mul_add, Nat.mul_assoc 2]
    have : 1 ≤ d := by omega
    have : v.len * 1 ≤ v.len * d := Nat.mul_le_mul_left _ (by omega)
    omega
  unfold parMergeSortChunks
  refine Cost.weaken (Cost.bind ((chunkTasks_cost (i := 0) hl (by omega)).frame ((v.len + 1999) / 2000 + (2 * v.len * d + (v.len + 1999) / 2000))) ?_) hB
  rintro os _ ⟨r, rfl, h1, h2, h3⟩
  refine Cost.bindN (n := r) (B' := (v.len + 1999) / 2000 + (2 * v.len * d + (v.len + 1999) / 2000)) (Q' := fun rs => ChunksFrom v 0 (rs.map some) ∧ rs.length = os.length)
    ((lateChunks_cost hl h1).weaken h3) (Nat.le_refl _) ?_
  rintro rs ⟨g1, g2⟩
  cases rs with
  | nil => exact absurd (show v.len ≤ 2000 * 0 from g1) (by omega)
  | cons x rest =>
    rcases x with ⟨a, b, res⟩
    obtain ⟨_, hr, h⟩ := g1
    obtain ⟨k1, k2⟩ := hr _ rfl
    dsimp only at k1 k2
    simp only [List.length_cons] at g2
    dsimp only
    obtain rfl : a = 0 := by omega
    refine Cost.bindN (n := (v.len + 1999) / 2000) (B' := 2 * v.len * d + (v.len + 1999) / 2000)
      (Q' := fun cs => 0 < cs.length ∧ cs.length ≤ (v.len + 1999) / 2000 ∧ Follow 0 cs v.len) ?_ (Nat.le_refl _) ?_
    · refine Cost.mono (Cost.weaken (concatChunks_cost (i := 0 + 1) hl (by omega) (by omega) h) (by omega)) ?_
      rintro cs r ⟨q1, q2, q3⟩
      exact ⟨q1, by omega, q3⟩
    · rintro cs ⟨q1, q2, q3⟩
      exact (parRecurse_cost (d := d) hl q1 q3 (by omega)).weaken (by rw [Nat.sub_zero]; omega)

theorem parMergeSort_cost (hl : Asks c less) : Cost c (parMergeSort cfg less v buf) (8 * (v.len * Nat.log2 v.len)) (fun _ _ => True) := by
  unfold parMergeSort
  split
  · exact Cost.pure trivial
  split
  · rename_i h20
    split
    · rename_i h2
      refine Cost.weaken (B := (v.len - 1) * (v.len - 1)) (Cost.mono (Cost.forDown (Inv := fun i B => i * (v.len - 1) ≤ B) (by rw [Nat.zero_add]) ?_) fun _ _ _ => trivial) ?_
      · intro i B h1 h3 hB
        rw [Nat.succ_mul] at hB
        refine Cost.slice (by omega) fun _ => ?_
        refine Cost.weaken (B := (v.len - 1) + i * (v.len - 1)) ?_ (by omega)
        refine Cost.mono (((parInsertHead_cost hl).weaken (B' := v.len - 1) (by show v.len - i - 1 ≤ _; omega)).frame (i * (v.len - 1))) ?_
        rintro _ _ ⟨r, rfl, -⟩
        omega
      · have h1 : v.len - 1 ≤ 8 * Nat.log2 v.len := by
          have h1 : 1 ≤ Nat.log2 v.len := by rw [Nat.le_log2 (by omega)]; omega
          have h3 : 9 < v.len → 3 ≤ Nat.log2 v.len := fun h => by rw [Nat.le_log2 (by omega)]; omega
          omega
        calc (v.len - 1) * (v.len - 1) ≤ v.len * (8 * Nat.log2 v.len) := Nat.mul_le_mul (by omega) h1
          _ = 8 * (v.len * Nat.log2 v.len) := by rw [Nat.mul_left_comm]
    · exact Cost.pure trivial
  · rename_i h20
    split
    · have h4 : 4 ≤ Nat.log2 v.len := by
        rw [Nat.le_log2 (by omega)]; omega
      have : (11 + 4 * (2 * Nat.log2 v.len - 3)) * v.len ≤ (8 * Nat.log2 v.len) * v.len := Nat.mul_le_mul_right _ (by omega)
      rw [Nat.mul_comm v.len, ← Nat.mul_assoc]
      refine Cost.bind (Q' := fun _ _ => True) (parMergeSortSeq_cost hl (fun h hf => height_log (by omega) hf) this) fun res _ _ => ?_
      split
      · exact Cost.silent reverse_silent fun _ => trivial
      · exact Cost.pure trivial
    · exact parMergeSortChunks_cost hl (by omega)

end NdSlice
