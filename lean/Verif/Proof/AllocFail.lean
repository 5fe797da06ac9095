import Verif.Proof.AlreadySorted

/-
What `merge_sort` does if the stack of runs cannot be made larger: runs which only read and end in undefined behaviour.
-/

namespace NdSlice

variable {α ι ω σ β γ : Type} {R : ι → Option ω → Prop} {m : Mem α} {cfg : Cfg} {less : α → α → Prog α ι ω Bool} {lt : α → α → Bool} {c : Nat}
  {v : View}

/-- With memory `m` the program writes nothing, makes no choices, starts no tasks and ends in undefined behaviour, whatever is
answered (as long as `R` allows it). -/
def Doomed (R : ι → Option ω → Prop) (m : Mem α) : Prog α ι ω β → Prop
  | .ub => True
  | .get a k => Doomed R m (k (m a))
  | .call q k => ∀ r, R q r → Doomed R m (k r)
  | _ => False

namespace Doomed

theorem bind {p : Prog α ι ω β} {f : β → Prog α ι ω γ} (h : Doomed R m p) : Doomed R m (p >>= f) := by
  show Doomed R m (p.bind f)
  induction p with
  | ub => trivial
  | get a k ih => exact ih _ h
  | call q k ih => exact fun r hr => ih r (h r hr)
  | ret => exact h.elim
  | set => exact h.elim
  | choose => exact h.elim
  | throw => exact h.elim
  | diverge => exact h.elim
  | join => exact h.elim

theorem seq {p : Prog α ι ω β} {f : β → Prog α ι ω γ} {b : β} (h : ∃ n, Path R m p b n) (hf : Doomed R m (f b)) : Doomed R m (p >>= f) := by
  obtain ⟨n, h⟩ := h
  show Doomed R m (p.bind f)
  induction p generalizing n with
  | ret b' => obtain ⟨rfl, -⟩ := h; exact hf
  | get a k ih => exact ih _ hf _ h
  | call q k ih =>
    obtain ⟨n', rfl, h⟩ := h
    exact fun r hr => ih r hf _ (h r hr)
  | ub => exact h.elim
  | set => exact h.elim
  | choose => exact h.elim
  | throw => exact h.elim
  | diverge => exact h.elim
  | join => exact h.elim

theorem run {o : Oracle σ ι ω} (ho : o.Sat R) {p : Prog α ι ω β} {s : St α ι ω σ} (h : Doomed R s.mem p) :
    ∃ s', NdSlice.run o p s = (.ub, s') ∧ s'.mem = s.mem := by
  induction p generalizing s with
  | ub => exact ⟨s, rfl, rfl⟩
  | get a k ih => exact ih _ h
  | call q k ih =>
    exact ih (o.ask s.env q).1 (s := { s with env := (o.ask s.env q).2, log := s.log ++ [(q, (o.ask s.env q).1)] }) (h _ (ho _ _))
  | ret => exact h.elim
  | set => exact h.elim
  | choose => exact h.elim
  | throw => exact h.elim
  | diverge => exact h.elim
  | join => exact h.elim

end Doomed

/-! ### Finding a run -/

section streak

variable (hl : Answers R m less lt c)
include hl

/-- `w` is in order up to position `q`, where it is not, or where it ends. -/
theorem streakLoop_stops {e n q : Nat} (h1 : 1 ≤ e) (hn : e + n = v.len) (hq : e ≤ q) (hq' : q ≤ v.len)
    (ha : ∀ i, 1 ≤ i → i < q → lt (m (v.addr i)) (m (v.addr (i - 1))) = false)
    (hd : q < v.len → lt (m (v.addr q)) (m (v.addr (q - 1))) = true) : ∃ k, Path R m (streakLoop less v false e n) q k := by
  induction n generalizing e with
  | zero => exact ⟨0, by rw [show q = e by omega]; exact .pure⟩
  | succ n ih =>
    unfold streakLoop
    by_cases h : e = q
    · refine ⟨_, .seq (.vget (by omega)) (.seq (.vget (by omega)) (.seq (hl _ _) (k := 0) ?_ rfl) rfl) rfl⟩
      subst h
      rw [hd (by omega)]
      exact .pure
    · obtain ⟨k, hk⟩ := ih (e := e + 1) (by omega) (by omega) (by omega)
      refine ⟨_, .seq (.vget (by omega)) (.seq (.vget (by omega)) (.seq (hl _ _) (k := k) ?_ rfl) rfl) rfl⟩
      rw [ha _ (by omega) (by omega)]
      exact hk

theorem findStreak_stops {q : Nat} (h1 : 1 ≤ q) (hq' : q ≤ v.len) (h2 : q < v.len → 2 ≤ q)
    (ha : ∀ i, 1 ≤ i → i < q → lt (m (v.addr i)) (m (v.addr (i - 1))) = false)
    (hd : q < v.len → lt (m (v.addr q)) (m (v.addr (q - 1))) = true) : ∃ k, Path R m (findStreak less v) (q, false) k := by
  unfold findStreak
  by_cases h : v.len < 2
  · rw [if_pos h]
    exact ⟨0, by rw [show q = v.len by omega]; exact .pure⟩
  · rw [if_neg h]
    obtain ⟨k, hk⟩ := streakLoop_stops hl (v := v) (e := 2) (n := v.len - 2) (q := q) (by omega) (by omega) (by omega) hq' ha hd
    refine ⟨_, .seq (.vget (by omega)) (.seq (.vget (by omega)) (.seq (hl _ _) (k := k + 0) ?_ rfl) rfl) rfl⟩
    rw [ha 1 (by omega) (by omega)]
    exact .seq hk .pure rfl

/-- From position `s` on the array is in order up to `e`, where it is not, or where it ends. -/
theorem nextRun_stops {s e : Nat} (hs : s < e) (he : e ≤ v.len) (h10 : e < v.len → s + 10 ≤ e)
    (ha : ∀ i, s < i → i < e → lt (m (v.addr i)) (m (v.addr (i - 1))) = false)
    (hd : e < v.len → lt (m (v.addr e)) (m (v.addr (e - 1))) = true) : ∃ k, Path R m (nextRun cfg less v s) e k := by
  obtain ⟨k, hk⟩ := findStreak_stops hl (v := v.sub s (v.len - s)) (q := e - s) (by omega) (by rw [View.sub_len]; omega)
    (by rw [View.sub_len]; omega)
    (fun i h1 h2 => by
      have := ha (s + i) (by omega) (by omega)
      rw [View.sub_addr, View.sub_addr, show s + (i - 1) = s + i - 1 by omega]
      exact this)
    (fun h => by
      rw [View.sub_len] at h
      have := hd (by omega)
      rw [View.sub_addr, View.sub_addr, show s + (e - s) = e by omega, show s + (e - s - 1) = e - 1 by omega]
      exact this)
  unfold nextRun
  refine ⟨_, .seq (.slice (by omega) (by omega)) (.seq hk (k := 0) ?_ rfl) rfl⟩
  dsimp only
  rw [if_neg (by decide), show s + (e - s) = e by omega]
  unfold provideSortedBatch
  refine .seq (.assertP (by simp; omega)) (k := 0) ?_ (by omega)
  refine .seq (.usub (by omega)) (k := 0) ?_ (by omega)
  rw [if_neg (by simp; omega)]
  exact .pure

end streak

/-! ### The lengths of the runs -/

/-- Where the `k`-th run from the bottom begins if the stack will have `h` runs. -/
def runBegin (h : Nat) : Nat → Nat
  | 0 => 0
  | k + 1 => runBegin h k + need (h - k)

theorem runBegin_cover {h k : Nat} (hk : k ≤ h) : runBegin h k + cover (h - k) = cover h := by
  induction k with
  | zero => simp [runBegin]
  | succ k ih =>
    have := ih (by omega)
    obtain ⟨d, rfl⟩ : ∃ d, h = k + 1 + d := ⟨h - (k + 1), by omega⟩
    rw [show k + 1 + d - k = d + 1 by omega] at this
    rw [show k + 1 + d - (k + 1) = d by omega]
    show runBegin (k + 1 + d) k + need (k + 1 + d - k) + cover d = _
    rw [show k + 1 + d - k = d + 1 by omega]
    have e : cover (d + 1) = cover d + need (d + 1) := rfl
    omega

theorem runBegin_mono {h j k : Nat} (hjk : j ≤ k) : runBegin h j ≤ runBegin h k := by
  induction k with
  | zero => rw [show j = 0 by omega]
  | succ k ih =>
    by_cases h' : j = k + 1
    · rw [h']
    · have := ih (by omega)
      show _ ≤ runBegin h k + need (h - k)
      omega

/-- The first `k` runs. -/
def firstRuns (h k : Nat) : List TimRun := (List.range k).map fun i => ⟨need (h - i), runBegin h i⟩

theorem firstRuns_succ (h k : Nat) : firstRuns h (k + 1) = firstRuns h k ++ [⟨need (h - k), runBegin h k⟩] := by
  unfold firstRuns
  rw [List.range_succ, List.map_append]
  rfl

theorem firstRuns_length (h k : Nat) : (firstRuns h k).length = k := by simp [firstRuns]

theorem firstRuns_len {h k i : Nat} (hi : i < k) : runLen (firstRuns h k) i = need (h - i) := by
  simp [runLen, firstRuns, hi]

theorem firstRuns_start {h k i : Nat} (hi : i < k) : runStart (firstRuns h k) i = runBegin h i := by
  simp [runStart, firstRuns, hi]

theorem firstRuns_collapse {h k stop : Nat} (hk : k ≤ h) (hs : cover h < stop) : collapse (firstRuns h k) stop = none := by
  unfold collapse
  rw [firstRuns_length]
  dsimp only
  rw [if_neg]
  intro hc
  rw [Bool.and_eq_true] at hc
  obtain ⟨h2, hc⟩ := hc
  have h2 : k ≥ 2 := of_decide_eq_true h2
  simp only [Bool.or_eq_true, Bool.and_eq_true, decide_eq_true_eq, beq_iff_eq] at hc
  obtain ⟨k, rfl⟩ := Nat.exists_eq_add_of_le' h2
  rw [firstRuns_start (by omega), firstRuns_len (by omega), firstRuns_len (by omega), show k + 2 - 1 = k + 1 by omega, show k + 2 - 2 = k by omega] at hc
  rcases hc with ((hc | hc) | hc) | hc
  · have : runBegin h (k + 2) = runBegin h (k + 1) + need (h - (k + 1)) := rfl
    have := runBegin_cover (h := h) (k := k + 2) hk
    omega
  · have := need_lt (k := h - (k + 1)) (by omega)
    rw [show h - (k + 1) + 1 = h - k by omega] at this
    omega
  · obtain ⟨h3, hc⟩ := hc
    obtain ⟨k, rfl⟩ := Nat.exists_eq_add_of_le' (show 1 ≤ k by omega)
    rw [firstRuns_len (by omega), show k + 1 + 2 - 3 = k by omega] at hc
    obtain ⟨d, rfl⟩ : ∃ d, h = k + 2 + d := ⟨h - (k + 2), by omega⟩
    rw [show k + 2 + d - k = d + 2 by omega, show k + 2 + d - (k + 1) = d + 1 by omega, show k + 2 + d - (k + 1 + 1) = d by omega] at hc
    have : need (d + 2) = need (d + 1) + need d + 1 := rfl
    omega
  · obtain ⟨h3, hc⟩ := hc
    obtain ⟨k, rfl⟩ := Nat.exists_eq_add_of_le' (show 2 ≤ k by omega)
    rw [firstRuns_len (by omega), firstRuns_len (by omega), show k + 2 + 2 - 4 = k by omega, show k + 2 + 2 - 3 = k + 1 by omega] at hc
    obtain ⟨d, rfl⟩ : ∃ d, h = k + 2 + d := ⟨h - (k + 2), by omega⟩
    rw [show k + 2 + d - k = d + 2 by omega, show k + 2 + d - (k + 1) = d + 1 by omega, show k + 2 + d - (k + 2) = d by omega] at hc
    have : need (d + 2) = need (d + 1) + need d + 1 := rfl
    omega

/-! ### The stack of runs -/

theorem RunVec.Holds.push_cap {rv : RunVec} {rs : List TimRun} (h : rv.Holds rs) {al : Alloc} (hal : rv.len < rv.cap ∨ al.run (rv.cap * 2) = true) (r : TimRun) :
    ∃ rv', (rv.push al r : Prog α ι ω RunVec) = pure rv' ∧ rv'.Holds (rs ++ [r]) ∧ rv'.cap = if rv.len = rv.cap then rv.cap * 2 else rv.cap := by
  have hw : ∀ {rv rv' : RunVec} {r : TimRun}, rv.write r = some rv' → rv'.cap = rv.cap := by
    intro rv rv' r h
    unfold RunVec.write at h
    split at h
    · cases h
    · split at h
      · cases h; rfl
      · cases h
  by_cases hl : rv.len = rv.cap
  · have ha : al.run (rv.cap * 2) = true := by
      rcases hal with h | h
      · omega
      · exact h
    obtain ⟨rv1, g1, g2, g3, g4⟩ := h.grow
    obtain ⟨rv2, w1, w2⟩ := g2.write (by have := h.cap_le; omega) r
    exact ⟨rv2, by simp [RunVec.push, hl, ha, g1, w1], w2, by rw [if_pos hl, hw w1, g3]⟩
  · obtain ⟨rv2, w1, w2⟩ := h.write (by have := h.fits; omega) r
    exact ⟨rv2, by simp [RunVec.push, hl, w1], w2, by rw [if_neg hl, hw w1]⟩

/-- If there is no memory for a larger stack, the drop frees the old one with the wrong capacity. -/
theorem RunVec.Holds.push_fails {rv : RunVec} {rs : List TimRun} (h : rv.Holds rs) {al : Alloc} (hl : rv.len = rv.cap) (hal : al.run (rv.cap * 2) = false)
    (r : TimRun) : (rv.push al r : Prog α ι ω RunVec) = .ub := by
  obtain ⟨cells, h1, -, -⟩ := h.block
  have := h.cap_le
  unfold RunVec.push
  rw [if_pos (by simp [hl]), if_neg (by simp [hal])]
  unfold RunVec.drop RunVec.dropHeap RunVec.dealloc
  dsimp only
  rw [h1]
  dsimp only
  rw [if_neg (by simp; omega)]
  rfl

/-! ### The main loop -/

/-- The array is made for failure: it begins with `h` runs whose lengths do not make `merge_sort` merge them, and goes on with one more run. -/
structure Trap (lt : α → α → Bool) (m : Mem α) (v : View) (h : Nat) : Prop where
  long : cover h < v.len
  up : ∀ k, k < h → ∀ i, runBegin h k < i → i < runBegin h (k + 1) → lt (m (v.addr i)) (m (v.addr (i - 1))) = false
  down : ∀ k, k < h → lt (m (v.addr (runBegin h (k + 1)))) (m (v.addr (runBegin h (k + 1) - 1))) = true
  rest : ∀ i, cover h < i → i < v.len → lt (m (v.addr i)) (m (v.addr (i - 1))) = false

/-- The allocator gives memory for stacks of up to `16 * 2 ^ j` runs, but no more. -/
structure Alloc.Stops (al : Alloc) (j : Nat) : Prop where
  elem : al.elem = true
  run : ∀ i, i ≤ j → al.run (16 * 2 ^ i) = true
  stop : al.run (16 * 2 ^ (j + 1)) = false

theorem mergeSortLoop_doomed (hl : Answers R m less lt c) {al : Alloc} {j : Nat} (hal : al.Stops j) {h : Nat} (hh : h = 16 * 2 ^ j)
    (ht : Trap lt m v h) {buf : View} {watch : RunVec → Prog α ι ω Unit} (hw : ∀ rv, watch rv = pure ()) {k d n : Nat} (hk : k + d = h) (hn : d < n) {rv : RunVec} (hr : rv.Holds (firstRuns h k))
    {i : Nat} (hi : i ≤ j) (hcap : rv.cap = 16 * 2 ^ i) :
    Doomed R m (Prog.loop (mergeSortBody cfg less watch al v buf) n (runBegin h k, rv)) := by
  induction d generalizing k n rv i with
  | zero =>
    obtain ⟨n, rfl⟩ := Nat.exists_eq_add_of_le' (show 1 ≤ n by omega)
    have hlen : rv.len = h := by rw [← hr.len, firstRuns_length]; omega
    have hij : i = j := by
      rcases Nat.lt_or_ge i j with h' | h'
      · have h1 := hr.fits
        have : 2 ^ i < 2 ^ j := Nat.pow_lt_pow_right (by omega) h'
        omega
      · omega
    subst hij
    obtain rfl : k = h := by omega
    have hb := runBegin_cover (Nat.le_refl k)
    rw [Nat.sub_self] at hb
    have hb : runBegin k k = cover k := hb
    unfold Prog.loop
    refine Doomed.bind ?_
    unfold mergeSortBody
    dsimp only
    rw [hb, if_pos ht.long]
    obtain ⟨q, hq⟩ := nextRun_stops (cfg := cfg) hl (v := v) (s := cover k) (e := v.len) ht.long (Nat.le_refl _) (by omega)
      (fun i h1 h2 => ht.rest i h1 h2) (by omega)
    refine Doomed.seq ⟨q, hq.onPanic⟩ ?_
    refine Doomed.seq ⟨_, .usub (by have := ht.long; omega)⟩ ?_
    refine Doomed.bind ?_
    rw [hr.push_fails (by omega) (by rw [hcap, Nat.mul_assoc, ← Nat.pow_succ]; exact hal.stop)]
    trivial
  | succ d ih =>
    obtain ⟨n, rfl⟩ := Nat.exists_eq_add_of_le' (show 1 ≤ n by omega)
    have hb := runBegin_cover (h := h) (k := k + 1) (by omega)
    have hb' : runBegin h (k + 1) = runBegin h k + need (h - k) := rfl
    have h10 := need_pos (k := h - k) (by omega)
    have hlong := ht.long
    have hlen : rv.len = k := by rw [← hr.len, firstRuns_length]
    have hfits := hr.fits
    obtain ⟨rv', p1, p2, p3⟩ := hr.push_cap (α := α) (ι := ι) (ω := ω) (al := al) (by
      rcases Nat.lt_or_ge rv.len rv.cap with h' | h'
      · exact .inl h'
      · refine .inr ?_
        have hij : i < j := by
          rcases Nat.lt_or_ge i j with h'' | h''
          · exact h''
          · obtain rfl : i = j := by omega
            omega
        rw [hcap, Nat.mul_assoc, ← Nat.pow_succ]
        exact hal.run _ hij) ⟨runBegin h (k + 1) - runBegin h k, runBegin h k⟩
    rw [show runBegin h (k + 1) - runBegin h k = need (h - k) by omega, ← firstRuns_succ] at p2
    unfold Prog.loop
    refine Doomed.seq (b := .inl (runBegin h (k + 1), rv')) ?_ ?_
    · unfold mergeSortBody
      dsimp only
      rw [if_pos (by omega)]
      obtain ⟨q, hq⟩ := nextRun_stops (cfg := cfg) hl (v := v) (s := runBegin h k) (e := runBegin h (k + 1)) (by omega) (by omega) (by omega)
        (fun i h1 h2 => ht.up k (by omega) i h1 h2) (fun _ => ht.down k (by omega))
      refine ⟨_, .seq hq.onPanic (.seq (.usub (by omega)) (k := 0) ?_ rfl) rfl⟩
      rw [p1]
      refine .seq .pure (k := 0) ?_ rfl
      refine .seq (b := rv') (n := 0) (k := 0) ?_ (by rw [hw]; exact .seq .pure .pure rfl) rfl
      unfold Prog.loop
      refine .seq (b := .inr rv') (n := 0) (k := 0) ?_ .pure rfl
      unfold collapseBody
      rw [p2.asSlice]
      refine .seq .pure (k := 0) ?_ rfl
      rw [firstRuns_collapse (by omega) hlong]
      exact .pure
    · by_cases hg : rv.len = rv.cap
      · rw [if_pos hg] at p3
        have hij : i < j := by
          rcases Nat.lt_or_ge i j with h'' | h''
          · exact h''
          · obtain rfl : i = j := by omega
            omega
        exact ih (by omega) (by omega) p2 (i := i + 1) hij (by rw [p3, hcap, Nat.mul_assoc, ← Nat.pow_succ])
      · rw [if_neg hg] at p3
        exact ih (by omega) (by omega) p2 hi (by rw [p3, hcap])

theorem stableSort_doomed (hl : Answers R m less lt c) (hz : cfg.zst = false) {al : Alloc} {j : Nat} (hal : al.Stops j) (ht : Trap lt m v (16 * 2 ^ j)) (buf : View) :
    Doomed R m (stableSort cfg less al v buf) := by
  have h1 : 0 < 2 ^ j := Nat.two_pow_pos j
  have h2 := le_cover (16 * 2 ^ j)
  have h3 := ht.long
  unfold stableSort
  rw [hz, if_neg (by decide)]
  unfold mergeSort mergeSortWatch
  refine Doomed.seq ⟨_, .debugAssert (by simp [hz])⟩ ?_
  rw [if_neg (by omega), if_neg (by simp [hal.elem]), if_neg (by have := hal.run 0 (by omega); simpa using this)]
  refine Doomed.bind ?_
  exact mergeSortLoop_doomed hl hal rfl ht (fun _ => rfl) (k := 0) (d := 16 * 2 ^ j) (by omega) (by omega) RunVec.new_holds (i := 0) (by omega) rfl

end NdSlice
