import Verif.Core.TriB
import Verif.Core.Scratch
import Verif.Proof.CostMerge

/-
How many comparisons merge sort makes on an array which consists of few sorted sequences.

The potential of the stack is that of `Verif/Proof/CostMerge.lean`, but a new run has to pay for its height only after the smaller
runs below it have been merged, which takes time linear in its length.  Then the height is at most logarithmic in the ratio of
the length of the array to that of the run.
-/

namespace NdSlice

variable {α ι ω β : Type} {cfg : Cfg} {less : α → α → Prog α ι ω Bool} {c : Nat}

/-! ### The height of the stack -/

theorem TimInv.fib_of {g : Nat} {r : TimRun} {rs : List TimRun} (h : TimInv (r :: rs)) (hg : ∀ q ∈ r :: rs, g ≤ q.len) :
    g * Nat.fib (rs.length + 1) ≤ r.len := by
  suffices H : ∀ (n : Nat) (r : TimRun) (rs : List TimRun), rs.length = n → TimInv (r :: rs) → (∀ q ∈ r :: rs, g ≤ q.len) →
      g * Nat.fib (n + 1) ≤ r.len from H _ r rs rfl h hg
  intro n
  induction n using Nat.strong_induction_on with
  | _ n ih =>
    intro r rs hn h hg
    match rs, hn with
    | [], hn =>
      subst hn
      have := hg r (by simp)
      simpa using this
    | [a], hn =>
      subst hn
      have := hg r (by simp)
      simpa using this
    | a :: b :: rs, hn =>
      subst hn
      have h2 := h.2 0 (by simp)
      simp only [runLen, List.getElem?_cons_zero, List.getElem?_cons_succ, Option.getD_some] at h2
      have ia := ih (rs.length + 1) (by simp) a (b :: rs) (by simp) h.tail (fun q hq => hg q (List.mem_cons_of_mem _ hq))
      have ib := ih rs.length (by simp only [List.length_cons]; omega) b rs rfl h.tail.tail
        (fun q hq => hg q (List.mem_cons_of_mem _ (List.mem_cons_of_mem _ hq)))
      have : Nat.fib (rs.length + 3) = Nat.fib (rs.length + 1) + Nat.fib (rs.length + 2) := Nat.fib_add_two
      simp only [List.length_cons]
      rw [show rs.length + 1 + 1 + 1 = rs.length + 3 by omega, this, Nat.mul_add]
      rw [show rs.length + 1 + 1 = rs.length + 2 by omega] at ia
      omega

theorem TimInv.height_of {g : Nat} {rs : List TimRun} {s e : Nat} (h : TimInv rs) (hc : Chain s rs e) (hg : ∀ q ∈ rs, g ≤ q.len) :
    s + g * Nat.fib (rs.length + 2) ≤ e + g := by
  induction rs generalizing s with
  | nil => simp [Chain] at hc; simp [hc]
  | cons r rs ih =>
    obtain ⟨-, -, h3⟩ := hc
    have i1 := ih h.tail h3 (fun q hq => hg q (List.mem_cons_of_mem _ hq))
    have i2 := h.fib_of hg
    have : Nat.fib (rs.length + 3) = Nat.fib (rs.length + 1) + Nat.fib (rs.length + 2) := Nat.fib_add_two
    simp only [List.length_cons]
    rw [show rs.length + 1 + 2 = rs.length + 3 by omega, this, Nat.mul_add]
    omega

/-- A stack of runs of at least `g` elements each. -/
theorem height_log_of {n g h : Nat} (hg : 0 < g) (hf : g * Nat.fib (h + 2) ≤ n + g) : h ≤ 2 * Nat.log2 (n / g) + 2 := by
  by_contra hc
  have h6 : n < g * (n / g) + g := by
    have := Nat.div_add_mod n g
    have := Nat.mod_lt n hg
    omega
  generalize n / g = q at hc h6
  have h1 : 2 ^ (Nat.log2 q + 2) ≤ Nat.fib (2 * (Nat.log2 q + 2) + 1) := pow_le_fib_two_mul _
  have h2 : Nat.fib (2 * (Nat.log2 q + 2) + 1) ≤ Nat.fib (h + 2) := Nat.fib_mono (by omega)
  have h3 : q < 2 ^ (Nat.log2 q + 1) := Nat.lt_log2_self
  have h4 : 2 ^ (Nat.log2 q + 2) = 2 * 2 ^ (Nat.log2 q + 1) := by
    rw [show Nat.log2 q + 2 = Nat.log2 q + 1 + 1 by omega, pow_succ]; omega
  have h5 : g * (q + 2) ≤ g * Nat.fib (h + 2) := Nat.mul_le_mul_left _ (by omega)
  rw [Nat.mul_add] at h5
  omega

/-- `r log (n / r)` lies below each of its tangents. -/
theorem log_tangent {n r k : Nat} (hr : 0 < r) (hrn : r ≤ n) (hk : 0 < k) : r * Nat.log2 (n / r) ≤ r * Nat.log2 k + n / k := by
  have h1 : 2 ^ Nat.log2 (n / r) ≤ n / r := Nat.log2_self_le (Nat.ne_of_gt (Nat.div_pos hrn hr))
  have h2 : r * 2 ^ Nat.log2 (n / r) ≤ n := (Nat.mul_le_mul_left r h1).trans (Nat.mul_div_le n r)
  generalize Nat.log2 (n / r) = q at h1 h2
  rcases Nat.le_total q (Nat.log2 k) with h | h
  · exact (Nat.mul_le_mul_left r h).trans (Nat.le_add_right _ _)
  obtain ⟨j, rfl⟩ := Nat.exists_eq_add_of_le h
  rw [Nat.mul_add]
  refine Nat.add_le_add_left ((Nat.le_div_iff_mul_le hk).mpr ?_) _
  have h3 : k < 2 ^ (Nat.log2 k + 1) := Nat.lt_log2_self
  have h4 : j * 2 ≤ 2 ^ j := by
    clear h h1 h2
    match j with
    | 0 => simp
    | j + 1 =>
      rw [pow_succ]
      exact Nat.mul_le_mul_right 2 (by have := Nat.lt_two_pow_self (n := j); omega)
  calc r * j * k ≤ r * j * 2 ^ (Nat.log2 k + 1) := Nat.mul_le_mul_left _ (by omega)
    _ = r * 2 ^ Nat.log2 k * (j * 2) := by rw [pow_succ]; ring
    _ ≤ r * 2 ^ Nat.log2 k * 2 ^ j := Nat.mul_le_mul_left _ h4
    _ = r * 2 ^ (Nat.log2 k + j) := by rw [pow_add]; ring
    _ ≤ n := h2

/-! ### The smaller runs -/

/-- The sum of the lengths of the runs shorter than `d`. -/
def small (d : Nat) : List TimRun → Nat
  | [] => 0
  | r :: rs => (if r.len < d then r.len else 0) + small d rs

theorem small_append {d : Nat} {as bs : List TimRun} : small d (as ++ bs) = small d as + small d bs := by
  induction as with
  | nil => simp [small]
  | cons a as ih =>
    simp only [List.cons_append, small, ih]
    omega

theorem small_le_total {d : Nat} {rs : List TimRun} : small d rs ≤ total rs := by
  induction rs with
  | nil => exact Nat.le_refl _
  | cons r rs ih =>
    simp only [small, total]
    split <;> omega

theorem total_append {as bs : List TimRun} : total (as ++ bs) = total as + total bs := by
  induction as with
  | nil => simp [total]
  | cons a as ih =>
    simp only [List.cons_append, total, ih]
    omega

theorem TimInv.total_le {a : TimRun} {rs : List TimRun} (h : TimInv (a :: rs)) :
    total (a :: rs) ≤ 3 * a.len ∧ ∀ b rs', rs = b :: rs' → total (a :: rs) ≤ 2 * a.len + b.len := by
  induction rs generalizing a with
  | nil => exact ⟨by simp only [total]; omega, by simp⟩
  | cons b rs ih =>
    have i := (ih h.tail).2
    have h1 := h.1 0 (by simp)
    simp only [runLen, List.getElem?_cons_zero, List.getElem?_cons_succ, Option.getD_some] at h1
    have key : total (a :: b :: rs) ≤ 2 * a.len + b.len := by
      match rs, i with
      | [], _ => simp only [total]; omega
      | d :: rs, i =>
        have i := i d rs rfl
        have h2 := h.2 0 (by simp)
        simp only [runLen, List.getElem?_cons_zero, List.getElem?_cons_succ, Option.getD_some] at h2
        rw [total]
        omega
    refine ⟨by omega, ?_⟩
    rintro b' rs' h
    cases h
    exact key

theorem TimInv.small_le {d : Nat} {rs : List TimRun} (h : TimInv rs) : small d rs ≤ 3 * d := by
  induction rs with
  | nil => exact Nat.zero_le _
  | cons a rs ih =>
    by_cases ha : a.len < d
    · have h1 := h.total_le.1
      have h2 := small_le_total (d := d) (rs := a :: rs)
      omega
    · simp only [small, if_neg ha]
      have := ih h.tail
      omega

theorem TimInv.left {as bs : List TimRun} (h : TimInv (as ++ bs)) : TimInv as := by
  constructor
  · intro i hi
    have := h.1 i (by rw [List.length_append]; omega)
    rwa [runLen_append (by omega), runLen_append (by omega)] at this
  · intro i hi
    have := h.2 i (by rw [List.length_append]; omega)
    rwa [runLen_append (by omega), runLen_append (by omega), runLen_append (by omega)] at this

/-- The topmost run is the shortest one. -/
theorem TimInv.top {as : List TimRun} {a : TimRun} (h : TimInv (as ++ [a])) : ∀ q ∈ as ++ [a], a.len ≤ q.len := by
  induction as with
  | nil => simp
  | cons b as ih =>
    have i := ih (TimInv.tail h)
    intro q hq
    rcases List.mem_cons.mp hq with rfl | hq
    · have h1 := h.1 0 (by simp)
      match as, i, h1 with
      | [], _, h1 =>
        simp only [List.cons_append, List.nil_append, runLen, List.getElem?_cons_zero, List.getElem?_cons_succ, Option.getD_some] at h1
        omega
      | d :: as, i, h1 =>
        have := i d (by simp)
        simp only [List.cons_append, runLen, List.getElem?_cons_zero, List.getElem?_cons_succ, Option.getD_some] at h1
        omega
    · exact i q hq

/-! ### Merging -/

/-- The new run `d` has not been merged yet. -/
structure Fresh2 (v : View) (e : Nat) (rs : List TimRun) (B : Nat) (init : List TimRun) (d : TimRun) : Prop where
  eq : rs = init ++ [d]
  tim : TimInv init.dropLast
  pos : 0 < d.len
  paid : 3 * depthSum 0 init + small d.len init.dropLast + 3 * ((2 * Nat.log2 (v.len / d.len) + 3) * d.len) +
    (if e = v.len then total init else 0) ≤ B

/-- Whether the budget suffices for merging. -/
def Paid2 (v : View) (e : Nat) (rs : List TimRun) (B : Nat) : Prop :=
  (∃ init d, Fresh2 v e rs B init d) ∨ (e < v.len ∧ 3 * depthSum 0 rs ≤ B + slack rs) ∨
    (e = v.len ∧ 3 * depthSum 0 rs + total rs.dropLast ≤ B)

/-- No smaller run is to be merged before the new one. -/
theorem Fresh2.done {v : View} {e B : Nat} {rs init : List TimRun} {d : TimRun} (h : Fresh2 v e rs B init d) (hc : Chain 0 rs e)
    (he : e ≤ v.len) (ht : 3 ≤ rs.length → d.len ≤ runLen rs (rs.length - 3)) :
    (e < v.len ∧ 3 * depthSum 0 rs ≤ B + slack rs) ∨ (e = v.len ∧ 3 * depthSum 0 rs + total rs.dropLast ≤ B) := by
  obtain ⟨rfl, h1, h2, h3⟩ := h
  have hl : init.length ≤ 2 * Nat.log2 (v.len / d.len) + 3 := by
    rcases List.eq_nil_or_concat init with rfl | ⟨i2, b, rfl⟩
    · simp
    rw [List.concat_eq_append] at *
    rcases List.eq_nil_or_concat i2 with rfl | ⟨i3, a, rfl⟩
    · simp
    rw [List.concat_eq_append] at *
    rw [List.dropLast_concat] at h1
    have hlen : (i3 ++ [a] ++ [b] ++ [d]).length = i3.length + 3 := by simp
    have ha := ht (by omega)
    rw [hlen, show i3.length + 3 - 3 = i3.length by omega, List.append_assoc, List.append_assoc, List.singleton_append, List.singleton_append,
      runLen_at rfl] at ha
    obtain ⟨m, c1, c2⟩ := chain_append.mp (show Chain 0 ((i3 ++ [a]) ++ ([b] ++ [d])) e by simpa using hc)
    have := h1.height_of c1 (fun q hq => ha.trans (h1.top q hq))
    have hm := c2.le
    have := height_log_of h2 (n := v.len) (h := (i3 ++ [a]).length) (by omega)
    rw [List.length_append, List.length_singleton]
    omega
  have hd : depthSum 0 (init ++ [d]) = depthSum 0 init + init.length * d.len := by
    rw [depthSum_append]
    simp [depthSum]
  have hm : init.length * d.len ≤ (2 * Nat.log2 (v.len / d.len) + 3) * d.len := Nat.mul_le_mul_right _ hl
  rcases Nat.lt_or_ge e v.len with hlt | hge
  · left
    exact ⟨hlt, by omega⟩
  · right
    rw [if_pos (by omega)] at h3
    rw [List.dropLast_concat]
    exact ⟨by omega, by omega⟩

theorem dropLast_two {pre : List TimRun} {a b : TimRun} : (pre ++ [a, b]).dropLast = pre ++ [a] := by
  rw [show pre ++ [a, b] = (pre ++ [a]) ++ [b] by simp, List.dropLast_concat]

/-- Which runs are merged. -/
theorem collapse_some {pre post : List TimRun} {a b : TimRun} {stop : Nat} (h : collapse (pre ++ a :: b :: post) stop = some pre.length) :
    (post = [] ∧ (1 ≤ pre.length → b.len ≤ runLen pre (pre.length - 1))) ∨ ∃ d, post = [d] ∧ a.len < d.len := by
  have hlt := collapse_lt h
  rw [List.length_append, List.length_cons, List.length_cons] at hlt
  match post, hlt with
  | [], _ =>
    refine .inl ⟨rfl, fun hp => ?_⟩
    unfold collapse at h
    have l1 : (pre ++ [a, b]).length = pre.length + 2 := by simp
    have b1 : runLen (pre ++ [a, b]) (pre.length + 1) = b.len := by
      rw [show pre ++ [a, b] = (pre ++ [a]) ++ [b] by simp]; exact runLen_at (by simp)
    simp only [l1, Bool.and_eq_true, Bool.or_eq_true, decide_eq_true_eq, beq_iff_eq] at h
    rw [show pre.length + 2 - 1 = pre.length + 1 by omega, show pre.length + 2 - 3 = pre.length - 1 by omega, b1,
      runLen_append (i := pre.length - 1) (by omega)] at h
    split at h
    · split at h
      · have := Option.some.inj h
        omega
      · omega
    · cases h
  | [d], _ =>
    refine .inr ⟨d, rfl, ?_⟩
    unfold collapse at h
    have l1 : (pre ++ [a, b, d]).length = pre.length + 3 := by simp
    have d1 : runLen (pre ++ [a, b, d]) (pre.length + 2) = d.len := by
      rw [show pre ++ [a, b, d] = (pre ++ [a, b]) ++ [d] by simp]; exact runLen_at (by simp)
    have a1 : runLen (pre ++ [a, b, d]) pre.length = a.len := runLen_at rfl
    simp only [l1, Bool.and_eq_true, Bool.or_eq_true, decide_eq_true_eq, beq_iff_eq] at h
    rw [show pre.length + 3 - 1 = pre.length + 2 by omega, show pre.length + 3 - 3 = pre.length by omega, a1, d1] at h
    split at h
    · split at h
      · rename_i hd
        omega
      · have := Option.some.inj h
        omega
    · cases h
  | d :: d' :: post, hlt => simp at hlt

/-- What the next merge costs has been paid. -/
theorem Paid2.merge {v : View} {e B : Nat} {pre post : List TimRun} {a b m : TimRun} (h : Paid2 v e (pre ++ a :: b :: post) B)
    (hm : m.len = a.len + b.len) (hc : Chain 0 (pre ++ a :: b :: post) e) (he : e ≤ v.len)
    (hs : collapse (pre ++ a :: b :: post) v.len = some pre.length) :
    a.len + b.len ≤ B ∧ Paid2 v e (pre ++ m :: post) (B - (a.len + b.len)) := by
  have later : (e < v.len ∧ 3 * depthSum 0 (pre ++ a :: b :: post) ≤ B + slack (pre ++ a :: b :: post)) ∨
      (e = v.len ∧ 3 * depthSum 0 (pre ++ a :: b :: post) + total (pre ++ a :: b :: post).dropLast ≤ B) →
      a.len + b.len ≤ B ∧ Paid2 v e (pre ++ m :: post) (B - (a.len + b.len)) := by
    have hd := depthSum_merge (i := 0) (pre := pre) (post := post) (a := a) (b := b) (m := m) hm
    rintro (⟨hlt, h⟩ | ⟨heq, h⟩)
    · have hlast := hc.last (by simp)
      have := collapse_pay hm hs (by rw [hlast]; omega)
      have hsl := slack_le (rs := pre ++ m :: post)
      exact ⟨by omega, .inr (.inl ⟨hlt, by omega⟩)⟩
    · rcases collapse_some hs with ⟨rfl, _⟩ | ⟨d, rfl, hlt⟩
      · rw [dropLast_two, total_append] at h
        simp only [total] at h hd
        refine ⟨by omega, .inr (.inr ⟨heq, ?_⟩)⟩
        rw [List.dropLast_concat]
        omega
      · rw [show pre ++ [a, b, d] = (pre ++ [a, b]) ++ [d] by simp, List.dropLast_concat, total_append] at h
        simp only [List.append_assoc, List.cons_append, List.nil_append, total] at h hd
        refine ⟨by omega, .inr (.inr ⟨heq, ?_⟩)⟩
        rw [dropLast_two, total_append]
        simp only [total]
        omega
  rcases h with ⟨init, d, h⟩ | h
  · rcases collapse_some hs with ⟨rfl, ht⟩ | ⟨d', rfl, hlt⟩
    · refine later (h.done hc he fun h3 => ?_)
      have heq := h.eq
      rw [show pre ++ [a, b] = (pre ++ [a]) ++ [b] by simp] at heq
      obtain ⟨-, hbd⟩ := List.append_inj' heq rfl
      cases hbd
      have l1 : (pre ++ [a, b]).length = pre.length + 2 := by simp
      rw [l1] at h3
      rw [l1, show pre.length + 2 - 3 = pre.length - 1 by omega, runLen_append (by omega)]
      exact ht (by omega)
    · obtain ⟨h1, h2, h3, h4⟩ := h
      rw [show pre ++ [a, b, d'] = (pre ++ [a, b]) ++ [d'] by simp] at h1
      obtain ⟨rfl, hbd⟩ := List.append_inj' h1 rfl
      cases hbd
      have hd := depthSum_merge (i := 0) (pre := pre) (post := []) (a := a) (b := b) (m := m) hm
      rw [dropLast_two] at h2 h4
      rw [small_append, total_append] at h4
      simp only [small, total, if_pos hlt] at h4 hd
      refine ⟨by omega, .inl ⟨pre ++ [m], d, by simp, ?_, h3, ?_⟩⟩
      · rw [List.dropLast_concat]
        exact h2.left
      · rw [List.dropLast_concat, total_append]
        simp only [total, hm]
        split at h4
        · rename_i hev
          rw [if_pos hev]
          omega
        · rename_i hev
          rw [if_neg hev]
          omega
  · exact later h

/-- Nothing is to be merged. -/
theorem Paid2.none {v : View} {e B : Nat} {rs : List TimRun} (h : Paid2 v e rs B) (hc : Chain 0 rs e) (he : e ≤ v.len)
    (hs : collapse rs v.len = none) : 3 * depthSum 0 rs ≤ B := by
  have hsl := slack_none hs
  have later : (e < v.len ∧ 3 * depthSum 0 rs ≤ B + slack rs) ∨ (e = v.len ∧ 3 * depthSum 0 rs + total rs.dropLast ≤ B) →
      3 * depthSum 0 rs ≤ B := by
    rintro (⟨_, h⟩ | ⟨_, h⟩) <;> omega
  rcases h with ⟨init, d, h⟩ | h
  · refine later (h.done hc he fun h3 => ?_)
    have heq := h.eq
    have hd : runLen rs (rs.length - 1) = d.len := by
      rw [heq]
      exact runLen_at (by simp)
    unfold collapse at hs
    simp only at hs
    split at hs
    · split at hs <;> cases hs
    rename_i hc
    simp only [Bool.and_eq_true, Bool.or_eq_true, decide_eq_true_eq, beq_iff_eq] at hc
    omega
  · exact later h

/-- One iteration of the merging loop: what it costs. -/
theorem collapseBody_cost2 (hl : Asks c less) {v buf : View} {rv : RunVec} {rs : List TimRun} {e B : Nat} (h1 : rv.Holds rs)
    (h2 : Chain 0 rs e) (h3 : WeakInv rs) (he : e ≤ v.len) (hpay : Paid2 v e rs B) {F : Nat} :
    Cost c (collapseBody cfg less v buf rv) (B + F) (fun o r => ∃ B', r = B' + F ∧ match o with
      | .inl rv' => ∃ rs', rv'.Holds rs' ∧ Chain 0 rs' e ∧ WeakInv rs' ∧ Paid2 v e rs' B'
      | .inr rv' => rv' = rv ∧ TimInv rs ∧ 3 * depthSum 0 rs ≤ B') := by
  unfold collapseBody
  rw [h1.asSlice]
  refine Cost.pureB ?_
  cases hc : collapse rs v.len with
  | none =>
    have hcn := collapse_none hc h3 (fun r hr => (h2.mem hr).2.2)
    exact Cost.pure ⟨B, rfl, rfl, hcn.1, hpay.none h2 he hc⟩
  | some r =>
    obtain ⟨hr1, hr2⟩ := collapse_lt hc
    obtain ⟨pre, a, b, post, rfl, hpre, ha, hb', hpost⟩ := split_two hr1
    subst hpre
    obtain ⟨m, c1, c2, c3, c4, c5, c6⟩ := chain_append.mp h2
    have hle := c6.le
    obtain ⟨rv1, e1, g1⟩ := h1.setIdx (α := α) (ι := ι) (ω := ω) hr1 ⟨a.len + b.len, a.start⟩
    obtain ⟨rv2, e2, g2⟩ := g1.remove (α := α) (ι := ι) (ω := ω) (i := pre.length) (by simp)
    have hrs : ((pre ++ a :: b :: post).set (pre.length + 1) ⟨a.len + b.len, a.start⟩).eraseIdx pre.length =
        pre ++ ⟨a.len + b.len, a.start⟩ :: post := by
      simp [List.set_append_right, List.eraseIdx_append_of_length_le]
    rw [hrs] at g2
    obtain ⟨hcost, hpay'⟩ := hpay.merge (m := ⟨a.len + b.len, a.start⟩) rfl h2 he hc
    refine Cost.bindN (n := a.len + b.len) (B' := B - (a.len + b.len) + F) (Q' := fun rv' => rv' = rv2) ?_ (by omega) ?_
    · refine Cost.onPanic ?_ RunVec.drop_silent
      rw [h1.idx ha]
      refine Cost.pureB ?_
      rw [h1.idx hb']
      refine Cost.pureB (Cost.slice (by omega) fun _ => ?_)
      rw [show b.start + b.len - a.start = a.len + b.len by omega]
      refine Cost.bind (Q' := fun _ _ => True) (merge_cost hl (fun _ _ => Silent.vget) (v := v.sub a.start (a.len + b.len)) (by show _ ≤ a.len + b.len; omega)) fun _ _ _ => ?_
      rw [e1]
      refine Cost.pureB ?_
      rw [e2]
      exact Cost.pure rfl
    · rintro rv' rfl
      refine Cost.pure ⟨_, rfl, _, g2, ?_, h3.merge (by omega), hpay'⟩
      refine chain_append.mpr ⟨m, c1, c2, by show 0 < a.len + b.len; omega, ?_⟩
      show Chain (m + (a.len + b.len)) post e
      rwa [← Nat.add_assoc]

/-- The merging loop. -/
theorem collapseLoop_cost2 (hl : Asks c less) {v buf : View} {rv : RunVec} {rs : List TimRun} {e B n : Nat} (h1 : rv.Holds rs)
    (h2 : Chain 0 rs e) (h3 : WeakInv rs) (he : e ≤ v.len) (hpay : Paid2 v e rs B) {F : Nat} :
    Cost c (Prog.loop (collapseBody cfg less v buf) n rv) (B + F) (fun rv' r => ∃ B' rs', r = B' + F ∧ rv'.Holds rs' ∧ Chain 0 rs' e ∧
      TimInv rs' ∧ 3 * depthSum 0 rs' ≤ B') := by
  refine Cost.loop (Inv := fun rv r => ∃ B' rs', r = B' + F ∧ rv.Holds rs' ∧ Chain 0 rs' e ∧ WeakInv rs' ∧ Paid2 v e rs' B')
    ⟨B, rs, rfl, h1, h2, h3, hpay⟩ ?_
  rintro rv _ ⟨B', rs', rfl, h1, h2, h3, hpay⟩
  refine Cost.mono (collapseBody_cost2 hl h1 h2 h3 he hpay) ?_
  rintro (rv' | rv') r ⟨B'', rfl, h⟩
  · obtain ⟨rs'', g1, g2, g3, g4⟩ := h
    exact ⟨B'', rs'', rfl, g1, g2, g3, g4⟩
  · obtain ⟨rfl, g3, g4⟩ := h
    exact ⟨B'', rs', rfl, h1, h2, g3, g4⟩

/-! ### The main loop -/

/-- The loop state of `merge_sort`, with what is still to be paid if `k` of `n` sequences are left. -/
structure RunsPaid2 (v : View) (n k : Nat) (x : Nat × RunVec) (B : Nat) (rs : List TimRun) : Prop where
  holds : x.2.Holds rs
  chain : Chain 0 rs x.1
  tim : TimInv rs
  le : x.1 ≤ v.len
  paid : 3 * depthSum 0 rs + (22 + 6 * Nat.log2 n) * (v.len - x.1) + 6 * (v.len / n) * k + (if x.1 < v.len then v.len else 0) ≤ B

theorem mergeSortBody_cost2 (hl : Asks c less) {watch : RunVec → Prog α ι ω Unit} (hw : ∀ rv, Silent (watch rv)) {al : Alloc} {v buf : View}
    {n k B : Nat} {x : Nat × RunVec} {rs : List TimRun} (hn : 0 < n) (h : RunsPaid2 v n (k + 1) x B rs) :
    Cost c (mergeSortBody cfg less watch al v buf x) B (fun o r => match o with
      | .inl x' => ∃ rs', RunsPaid2 v n k x' r rs'
      | .inr _ => True) := by
  obtain ⟨s, rv⟩ := x
  obtain ⟨h1, h2, h3, h4, h6⟩ := h
  dsimp only at h1 h2 h4 h6
  unfold mergeSortBody
  dsimp only
  split
  · rename_i hs
    rw [if_pos hs, Nat.mul_succ] at h6
    have h10 : 10 * (v.len - s) ≤ (22 + 6 * Nat.log2 n) * (v.len - s) := Nat.mul_le_mul_right _ (by omega)
    refine Cost.bind (Cost.onPanic (nextRun_cost hl hs (by omega)) RunVec.drop_silent) ?_
    rintro e r ⟨g1, g2, g3, g4⟩
    refine Cost.usub (by omega) (RunVec.push_cost h1 fun rv' h1' => ?_)
    have hc : Chain 0 (rs ++ [(⟨e - s, s⟩ : TimRun)]) e :=
      chain_append.mpr ⟨s, h2, rfl, by show 0 < e - s; omega, by show s + (e - s) = e; omega⟩
    have hsm : small (e - s) rs.dropLast ≤ 3 * (e - s) := by
      rcases List.eq_nil_or_concat rs with rfl | ⟨i, b, rfl⟩
      · exact Nat.zero_le _
      · rw [List.concat_eq_append] at h3 ⊢
        rw [List.dropLast_concat]
        exact h3.left.small_le
    have htd : TimInv rs.dropLast := by
      rcases List.eq_nil_or_concat rs with rfl | ⟨i, b, rfl⟩
      · exact .nil
      · rw [List.concat_eq_append] at h3 ⊢
        rw [List.dropLast_concat]
        exact h3.left
    have hlog := log_tangent (n := v.len) (r := e - s) (k := n) (by omega) (by omega) hn
    have hL : 3 * ((2 * Nat.log2 (v.len / (e - s)) + 3) * (e - s)) ≤ 6 * ((e - s) * Nat.log2 n) + 6 * (v.len / n) + 9 * (e - s) := by
      have : (2 * Nat.log2 (v.len / (e - s)) + 3) * (e - s) = 2 * ((e - s) * Nat.log2 (v.len / (e - s))) + 3 * (e - s) := by ring
      omega
    have hsplit : (22 + 6 * Nat.log2 n) * (v.len - s) = (22 + 6 * Nat.log2 n) * (v.len - e) + (22 * (e - s) + 6 * ((e - s) * Nat.log2 n)) := by
      rw [show v.len - s = (v.len - e) + (e - s) by omega]; ring
    have htot := h2.total
    refine Cost.weaken (B := (3 * depthSum 0 rs + small (e - s) rs.dropLast + 3 * ((2 * Nat.log2 (v.len / (e - s)) + 3) * (e - s)) +
      (if e = v.len then total rs else 0)) + ((22 + 6 * Nat.log2 n) * (v.len - e) + 6 * (v.len / n) * k + (if e < v.len then v.len else 0))) ?_ ?_
    · refine Cost.bind (collapseLoop_cost2 hl h1' hc (h3.push _) g2 (.inl ⟨rs, ⟨e - s, s⟩, rfl, htd, by dsimp only; omega, Nat.le_refl _⟩)) ?_
      rintro rv'' _ ⟨B', rs', rfl, k1, k2, k3, k4⟩
      refine Cost.silentB (hw _) fun _ => Cost.pure ⟨rs', ⟨k1, k2, k3, g2, ?_⟩⟩
      dsimp only
      omega
    · rcases Nat.lt_or_ge e v.len with he | he
      · rw [if_neg (by omega), if_pos he]
        omega
      · rw [if_pos (by omega), if_neg (by omega)]
        omega
  · exact Cost.pure trivial

/-- `merge_sort` on at most `n` sequences. -/
theorem mergeSort_adaptive {C : Cmp α ι ω} {lt : α → α → Bool} (hg : C.Good lt) (hl : Asks c C.less) {al : Alloc} {v buf : View}
    (hal : al.Grows v.len) (hz : cfg.zst = false) {xs bs : List α} (hx : xs.length = v.len) (hbs : bs.length = buf.region.length)
    (hb : v.len / 2 ≤ buf.len) {n : Nat} (hn : 0 < n) (hq : Sequences lt n xs) :
    TriB c C.R (v.region ++ buf.region) (mergeSort cfg C.less al v buf) (xs ++ bs) (v.len * (6 * Nat.log2 n + 29)) (fun _ _ _ => True) := by
  unfold mergeSort
  by_cases h20 : v.len ≤ 20
  · refine (TriB.of_tri (mergeSortWatch_spec (C := C) (cfg := cfg) hal hz hx hb (fun _ _ _ _ _ _ _ _ => rfl) bs hbs)
      (Q2 := fun _ _ => True) ?_).mono fun _ _ _ _ _ => trivial
    unfold mergeSortWatch
    refine Cost.debugAssert ?_
    rw [if_pos h20]
    split
    · refine Cost.weaken (insertionSortShiftLeft_cost hl) ?_
      exact Nat.mul_le_mul (by omega) (by omega)
    · exact Cost.pure trivial
  · unfold mergeSortWatch
    have hda : ∀ {β : Type} (k : Unit → Prog α ι ω β), (debugAssert cfg (!cfg.zst) >>= k) = k () := by
      intro β k
      unfold debugAssert
      simp only [hz, Bool.not_false, Bool.not_true, Bool.and_false, Bool.false_eq_true, if_false]
      rfl
    rw [hda, if_neg h20]
    cases he : al.elem with
    | false => exact fun m lg _ _ => Nat.le_add_right _ _
    | true =>
      cases hr : al.run 16 with
      | false => exact fun m lg _ _ => Nat.le_add_right _ _
      | true =>
        simp only [Bool.not_true, Bool.false_eq_true, if_false]
        refine TriB.bind (Q' := fun rv zs _ => ∃ ys bs rs, zs = ys ++ bs ∧ LoopOk C v.len xs rv ys rs) ?_ ?_
        · refine TriB.loop (Inv := fun (x : Nat × RunVec) zs B => ∃ ys bs k rs rs', zs = ys ++ bs ∧ ys.length = v.len ∧ bs.length = buf.region.length ∧
            LoopOk C x.1 xs x.2 ys rs ∧ Sequences lt k (xs.drop x.1) ∧ RunsPaid2 v n k x B rs') (μ := fun x => v.len - x.1) ?_
            (by show v.len - 0 < _; omega) ?_
          · refine ⟨xs, bs, n, [], [], rfl, hx, hbs, ⟨⟨RunVec.new_holds, rfl, fun i hi => by simp at hi, ⟨.refl _, fun _ _ => ⟨.refl _, by simp⟩⟩,
              by simp, rfl⟩, .nil, Nat.zero_le _, fun h => by simp⟩, hq, ⟨RunVec.new_holds, rfl, .nil, Nat.zero_le _, ?_⟩⟩
            have h1 : 6 * (v.len / n) * n ≤ 6 * v.len := by
              rw [Nat.mul_assoc]
              exact Nat.mul_le_mul_left _ (Nat.div_mul_le_self _ _)
            have h2 : v.len * (6 * Nat.log2 n + 29) = (22 + 6 * Nat.log2 n) * v.len + 7 * v.len := by ring
            rw [if_pos (by show 0 < v.len; omega)]
            simp only [depthSum, Nat.sub_zero]
            omega
          · rintro ⟨e, rv⟩ zs B _ ⟨ys, bs, k, rs, rs', rfl, hy, hbs, h1, h2, h3⟩
            by_cases hlt : e < v.len
            · obtain ⟨k, rfl⟩ : ∃ k', k = k' + 1 := by
                cases k with
                | zero =>
                  have := congrArg List.length h2.zero
                  simp at this
                  omega
                | succ k => exact ⟨k, rfl⟩
              refine (TriB.of_tri (mergeSortBody_spec (C := C) (cfg := cfg) hal hx hy hb (by omega) h1 (fun _ _ _ _ _ _ _ _ => rfl) bs hbs)
                (mergeSortBody_cost2 hl (fun _ => Silent.pure) hn h3)).mono ?_
              rintro (x | rv') zs t _ ⟨⟨ys', bs', g1, g2, rfl, g4⟩, g5⟩
              · obtain ⟨rs'', g5⟩ := g5
                obtain ⟨⟨rs3, g6⟩, g7, g8⟩ := g4
                exact ⟨⟨ys', bs', k, rs3, rs'', rfl, by omega, g2, g6, g8 lt hg k h2, g5⟩, g7⟩
              · obtain ⟨rs3, g4⟩ := g4
                exact ⟨ys', bs', rs3, rfl, g4⟩
            · unfold mergeSortBody
              simp only [hlt, if_false]
              refine TriB.pure ⟨ys, bs, rs, rfl, ?_⟩
              rw [show v.len = e by have := h3.le; dsimp only at this; omega]
              exact h1
        · rintro rv _ t _ ⟨ys, bs, rs, rfl, ⟨⟨h1, h2, -, -, -, -⟩, -, -, hfin⟩⟩
          have hf := hfin hx.symm
          match rs, h2, hf with
          | [], h2, _ => simp [Chain] at h2; omega
          | [r], h2, _ =>
            obtain ⟨c1, c2, c3⟩ := h2
            simp only [Chain] at c3
            rw [h1.drop]
            cases cfg.dbg with
            | false => exact TriB.pure trivial
            | true =>
              simp only [if_true]
              rw [h1.idx (i := 0) rfl]
              have := h1.len
              simp at this
              have hd : (rv.len == 1 && r.start == 0 && r.len == v.len) = true := by
                simp [← this, c1]
                omega
              show TriB c C.R _ (debugAssert cfg (rv.len == 1 && r.start == 0 && r.len == v.len) >>= fun _ => pure ()) _ _ _
              rw [hd]
              unfold debugAssert
              simp only [Bool.not_true, Bool.and_false, Bool.false_eq_true, if_false]
              exact TriB.pure trivial

end NdSlice
