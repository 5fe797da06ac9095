import Verif.Proof.CostFew
import Verif.Props.Numbers
import Verif.Props.Time

/-
C70: with few different values the unstable sorts are fast: at most `n (32 k + 19)` comparisons for `n` elements with `k` different values, both
sequentially and in parallel (for which the documented bound `O(n log n)` is false in general, C54).  Selection is not: it takes more than
any polynomial number of comparisons on arrays which can be sorted with a linear number of them (C52).
-/

namespace NdSlice

open Style

variable {α κ σ : Type} {st : Style} {cfg : Cfg} {v : View}

/-- There are at most `k` different values: every element is equal (neither less nor greater) to one of `k`. -/
def FewValues (lt : α → α → Bool) (k : Nat) (xs : List α) : Prop :=
  ∃ reps : List α, reps.length ≤ k ∧ ∀ x ∈ xs, ∃ r ∈ reps, lt x r = false ∧ lt r x = false

theorem chain_le {lt : α → α → Bool} (so : SWO lt) (l reps : List α) (hr : ∀ x ∈ l, ∃ r ∈ reps, lt x r = false ∧ lt r x = false)
    (hl : l.Pairwise (fun x y => lt x y = true)) : l.length ≤ reps.length := by
  induction l generalizing reps with
  | nil => simp
  | cons x l ih =>
    obtain ⟨r, hr1, hr2, hr3⟩ := hr x (by simp)
    obtain ⟨a, b, rfl⟩ := List.append_of_mem hr1
    rw [List.pairwise_cons] at hl
    have := ih (a ++ b) (by
      intro y hy
      obtain ⟨r', h1, h2, h3⟩ := hr y (by simp [hy])
      rw [List.mem_append, List.mem_cons] at h1
      rcases h1 with h1 | rfl | h1
      · exact ⟨r', by simp [h1], h2, h3⟩
      · have := so.ntrans _ _ _ hr2 h3
        rw [hl.1 y hy] at this
        cases this
      · exact ⟨r', by simp [h1], h2, h3⟩) hl.2
    simp at this ⊢
    omega

theorem FewValues.chain {lt : α → α → Bool} (so : SWO lt) {k : Nat} {xs : List α} (h : FewValues lt k xs) (l : List α) (h1 : ∀ x ∈ l, x ∈ xs)
    (h2 : l.Pairwise (fun x y => lt x y = true)) : l.length ≤ k := by
  obtain ⟨reps, h3, h4⟩ := h
  exact Nat.le_trans (chain_le so l reps (fun x hx => h4 x (h1 x hx)) h2) h3

/-- C70: `sort_unstable*` makes at most `n (32 k + 19)` comparisons on `n` elements with at most `k` different values. -/
theorem sort_unstable_few_values {o : Oracle σ (st.Q α κ) (st.A κ)} {lt : α → α → Bool} (ho : Agrees st o lt) (so : SWO lt) (hv : v.WF) {k : Nat}
    {s s' : St α (st.Q α κ) (st.A κ) σ} {p' : Prog α (st.Q α κ) (st.A κ) Unit} (hk : FewValues lt k (v.contents s.mem))
    (h : Steps o (sortUnstable st cfg v) s p' s') : s'.log.length ≤ s.log.length + st.calls * (v.len * (32 * k + 19)) :=
  TriB.steps (rel_sat o) hv (quickSort_few (C := st.toCmp (rel o)) (good_of_agrees ho so) Style.asks (v.contents_length s.mem) (hk.chain so)) h

/-- C70: `par_sort_unstable*` likewise; the comparisons of all tasks together, at every moment of every schedule. -/
theorem par_sort_unstable_few_values {o : Oracle σ (st.Q α κ) (st.A κ)} {lt : α → α → Bool} (ho : Agrees st o lt) (so : SWO lt) (hv : v.WF) {k : Nat}
    {s s' : St α (st.Q α κ) (st.A κ) σ} {p' : Prog α (st.Q α κ) (st.A κ) Unit} (hk : FewValues lt k (v.contents s.mem))
    (h : Steps o (parSortUnstable st cfg v) s p' s') : s'.log.length ≤ s.log.length + st.calls * (v.len * (32 * k + 19)) :=
  TriB.steps (rel_sat o) hv (parQuickSort_few (C := st.toCmp (rel o)) (good_of_agrees ho so) Style.asks (v.contents_length s.mem) (hk.chain so)) h

/-- C70: the number of steps is linear as well. -/
theorem sort_unstable_few_values_time {o : Oracle σ (st.Q α κ) (st.A κ)} {lt : α → α → Bool} (ho : Agrees st o lt) (so : SWO lt) (hv : v.WF) {k n : Nat}
    {s s' : St α (st.Q α κ) (st.A κ) σ} {p' : Prog α (st.Q α κ) (st.A κ) Unit} (hk : FewValues lt k (v.contents s.mem))
    (h : StepsN o n (sortUnstable st cfg v) s p' s' ∨ StepsN o n (parSortUnstable st cfg v) s p' s') :
    n ≤ 2 * v.len + 24 + 13 * (st.calls * (v.len * (32 * k + 19))) := by
  rcases h with h | h
  · have h1 := sort_unstable_steps o h
    have h2 := sort_unstable_few_values ho so hv hk h.steps
    omega
  · have h1 := par_sort_unstable_steps o h
    have h2 := par_sort_unstable_few_values ho so hv hk h.steps
    omega

theorem fewValues_bytes {k : Nat} {xs : List Nat} (h : ∀ x ∈ xs, x < k) : FewValues (fun x y => decide (x < y)) k xs :=
  ⟨List.range k, by simp, fun x hx => ⟨x, by simpa using h x hx, by simp, by simp⟩⟩

/-- C70: there are arrays of numbers less than 240 which `sort_unstable*` and `par_sort_unstable*` sort with a linear number of comparisons, but on
which `select_nth_unstable*` takes more than any polynomial number of them (release build). -/
theorem sorting_beats_selecting (st : Style) (hd : cfg.dbg = false) (hz : cfg.zst = false) (j : Nat) :
    ∃ c N, ∀ v : View, v.WF → N ≤ v.len → ∃ (m : Mem Nat) (o : Oracle Unit (st.Q Nat Nat) (st.A Nat)), (∀ a, m a < 240) ∧
      Agrees st o (fun x y => decide (x < y)) ∧
        v.len ^ j ≤ c * (run o (selectNthUnstable st cfg v (v.len - 2)) ⟨m, (), []⟩).2.log.length ∧
        (∀ p' s', Steps o (sortUnstable st cfg v) ⟨m, (), []⟩ p' s' → s'.log.length ≤ st.calls * (7699 * v.len)) ∧
        (∀ p' s', Steps o (parSortUnstable st cfg v) ⟨m, (), []⟩ p' s' → s'.log.length ≤ st.calls * (7699 * v.len)) := by
  obtain ⟨c, N, h⟩ := select_nth_bytes_superpolynomial (cfg := cfg) st hd hz j
  refine ⟨c, N, fun v hv hN => ?_⟩
  obtain ⟨m, o, hm, ho, r, s', e1, e2⟩ := h v hv hN
  have hk : FewValues (fun x y => decide (x < y)) 240 (v.contents m) := fewValues_bytes (by
    intro x hx
    obtain ⟨a, -, rfl⟩ := List.mem_map.mp hx
    exact hm a)
  refine ⟨m, o, hm, ho, by rw [e1]; exact e2, fun p' s' h => ?_, fun p' s' h => ?_⟩
  · have := sort_unstable_few_values ho (rank_swo id) hv (s := ⟨m, (), []⟩) hk h
    rwa [List.length_nil, Nat.zero_add, Nat.mul_comm v.len] at this
  · have := par_sort_unstable_few_values ho (rank_swo id) hv (s := ⟨m, (), []⟩) hk h
    rwa [List.length_nil, Nat.zero_add, Nat.mul_comm v.len] at this

/-! ### The hypotheses can be met -/

/-- The values of the sample are less than 23. -/
theorem fewValues_sample (v : View) : FewValues Sample.lt 23 (v.contents Sample.mem) := fewValues_bytes (by
  intro x hx
  obtain ⟨a, -, rfl⟩ := List.mem_map.mp hx
  exact Nat.mod_lt _ (by decide))

example (st : Style) := fun p' s' => sort_unstable_few_values (st := st) (cfg := Sample.cfg) (v := ⟨7, -2, 100000⟩) (p' := p') (s' := s') (Sample.agrees st)
  Sample.swo (.inl (by decide)) (s := Sample.state st) (fewValues_sample _)
example (st : Style) := fun p' s' => par_sort_unstable_few_values (st := st) (cfg := Sample.cfg) (v := ⟨7, -2, 100000⟩) (p' := p') (s' := s') (Sample.agrees st)
  Sample.swo (.inl (by decide)) (s := Sample.state st) (fewValues_sample _)
example (st : Style) := fun n p' s' => sort_unstable_few_values_time (st := st) (cfg := Sample.cfg) (v := ⟨7, -2, 100000⟩) (n := n) (p' := p') (s' := s')
  (Sample.agrees st) Sample.swo (.inl (by decide)) (s := Sample.state st) (fewValues_sample _)
example := sorting_beats_selecting (cfg := Sample.release) .key rfl rfl 100

end NdSlice
