import Verif.Proof.Depth
import Verif.Proof.QuickDeep
import Verif.Model.Api
import Verif.Props.Sample

/-
How deep the recursions go (C66, C67).  A recursive function of the model gets a bound on the number of nested calls of itself and ends in
`diverge` if it needs more.  C66: logarithmic bounds give the very same programs (which never end in `diverge`, C01 to C12).  C67: for the
parallel unstable sort no bound less than linear is enough.
-/

namespace NdSlice

open Style

variable {α κ σ ι ω : Type} {st : Style} {cfg : Cfg} {v : View} {less : α → α → Prog α ι ω Bool}

/-! ### C66 -/

/-- C66: `select_many_nth_unstable*` with less than `2 ^ d` indices needs at most `d + 1` nested calls of `partition_at_indices`. -/
theorem select_many_depth {indices : List Nat} {d : Nat} (h : indices.length < 2 ^ d) :
    selectManyNthUnstable (α := α) (κ := κ) st cfg v indices = partitionAtIndices cfg st.less (d + 1) v 0 indices :=
  partitionAtIndices_depth Nat.lt_two_pow_self h

/-- C66: the same with the user code of the collection. -/
theorem select_many_extend_depth {indices : List Nat} {d : Nat} (h : indices.length < 2 ^ d) :
    selectManyExt (α := α) (κ := κ) st cfg v indices = partitionAtIndicesExt cfg st.less (d + 1) v 0 indices [] :=
  partitionAtIndicesExt_depth Nat.lt_two_pow_self h

/-- C66: the same for `par_select_many_nth_unstable*`. -/
theorem par_select_many_depth {indices : List Nat} {extra d : Nat} (h : indices.length < 2 ^ d) :
    parSelectManyNthUnstable (α := α) (κ := κ) st cfg v indices extra =
      parPartitionAtIndices cfg st.less (d + 1) v 0 indices 0 (indices.length + extra) :=
  parPartitionAtIndices_depth Nat.lt_two_pow_self h

/-- C66: `median_of_medians` on less than `11 * 12 ^ d` elements needs at most `d + 1` nested calls of itself. -/
theorem median_of_medians_depth {d k : Nat} (h : v.len < 11 * 12 ^ d) :
    medianOfMedians cfg less (Nat.log2 v.len + 1) v k = medianOfMedians cfg less (d + 1) v k := by
  refine medianOfMedians_depth ?_ h
  have h1 : v.len < 2 ^ (Nat.log2 v.len + 1) := Nat.lt_log2_self
  have h2 : 2 ^ Nat.log2 v.len ≤ 12 ^ Nat.log2 v.len := Nat.pow_le_pow_left (by decide) _
  rw [Nat.pow_succ] at h1
  omega

/-- C66: `par_merge` of runs of at most `2 ^ a` and `2 ^ b` elements needs at most `a + b + 1` nested calls of itself. -/
theorem par_merge_depth {left right dest : View} {a b : Nat} (hl : left.len ≤ 2 ^ a) (hr : right.len ≤ 2 ^ b) :
    parMerge cfg less (left.len + right.len + 1) left right dest = parMerge cfg less (a + b + 1) left right dest :=
  parMerge_depth ⟨left.len, right.len, Nat.le_of_lt Nat.lt_two_pow_self, Nat.le_of_lt Nat.lt_two_pow_self, by omega⟩ ⟨a, b, hl, hr, by omega⟩

/-- C66: `par_sort` of at most `2000 * 2 ^ d` and at most `2 ^ a` elements needs at most `d + 1` nested calls of `recurse`, and in each of these at most
`2 * a + 1` nested calls of `par_merge`. -/
theorem par_sort_depth {buf : View} {a d : Nat} (h0 : 2000 < v.len) (hv : v.len ≤ 2 ^ a) (hb : buf.len ≤ 2 ^ a) (hd : v.len ≤ 2000 * 2 ^ d) (o : Oracle σ ι ω)
    (s : St α ι ω σ) :
    run o (parMergeSortChunks cfg less v buf) s = run o (do
      let rs ← chunkTasks cfg less v buf 0 ((v.len + 1999) / 2000)
      let rs ← lateChunks cfg less v buf 0 rs
      let cs ← match rs with
        | [] => pure []
        | (a, b, res) :: rest => concatChunks cfg less v a b res rest
      parRecurseAt cfg less (2 * a + 1) v buf (d + 1) cs false) s := by
  unfold parMergeSortChunks
  refine Gives.congr chunkTasks_gives fun rs s hrs => Gives.congr lateChunks_gives fun ts s hts => ?_
  cases ts with
  | nil =>
    rw [List.length_nil] at hts
    omega
  | cons t ts =>
    refine Gives.congr concatChunks_gives fun cs s hcs => ?_
    rw [List.length_cons] at hts
    dsimp only
    rw [← parRecurseAt_eq hv hb]
    obtain ⟨k, hk⟩ : ∃ k, cs.length = k + 1 := ⟨cs.length - 1, by omega⟩
    have hk2 : k < 2 ^ k := Nat.lt_two_pow_self
    rw [hk, parRecurse_depth (d := k) (d' := d) (by omega) (by omega)]

/-! ### C67 -/

/-- C67: the number of nested calls of `recurse` in `par_sort_unstable` is linear in the worst case, for every layout and every kind of distinct
elements: there is a (consistent) strict weak order with which `d` nested calls are not enough, if only `48 * d + 2001 ≤ len`. -/
theorem par_sort_unstable_deep [DecidableEq α] {m : Mem α} (hv : v.WF) (nd : (v.contents m).Nodup) {d : Nat} (hd : 48 * d + 2001 ≤ v.len) :
    ∃ (lt : α → α → Bool) (o : Oracle Unit (Style.Q α κ .ord) (Style.A κ .ord)), SWO lt ∧ Agrees .ord o lt ∧
      (run o (recurse cfg (Style.less (κ := κ) .ord) (some 2000) d v none (bitLen v.len)) ⟨m, (), []⟩).1 = .diverge := by
  let K := 50 * v.len
  let s0 : StA α := ⟨m, [], []⟩
  let p : Prog α (α × α) Bool Unit := recurse cfg lessO (some 2000) d v none (bitLen v.len)
  generalize hT : (run (adv true K) p s0).2.env = T
  obtain ⟨l, t1, t2⟩ := run_trace (o := adv (α := α) true K) (fun _ => rfl) p s0
  have hK : T.length ≤ K := by
    rw [← hT]
    exact t2.env_le (by simp [s0])
  have hg : gas s0.env (v.contents m) = v.len := by
    show gas [] (v.contents m) = _
    unfold gas
    rw [List.countP_eq_length.2 (by simp), v.contents_length]
  have main : AD K T p s0 := by
    refine recurse_AD hK ?_ hv nd ?_ (by show 0 + 50 * v.len ≤ 50 * v.len; omega)
    · unfold bitLen
      rw [if_neg (by omega)]
      omega
    · show _ ≤ gas s0.env (v.contents m)
      omega
  have e1 := main (by rw [hT])
  have hans := t2.answers (by rw [hT]) hK
  have hr := run_replay (f := fun q : α × α => ltT true T q.1 q.2) (o := adv (α := α) true K) (fun _ => rfl) (p := p) (s := s0) (L := l) hans
    (by rw [t1])
  refine ⟨ltT true T, funOracle (fun q : α × α => ltT true T q.1 q.2), ltT_swo true T, fun _ _ _ => rfl, ?_⟩
  have hl : (Style.less (κ := κ) .ord : α → α → Prog α (α × α) Bool Bool) = lessO := by
    funext x y
    show Prog.call (x, y) _ = Prog.call (x, y) _
    congr 1; funext r
    cases r <;> rfl
  rw [hl]
  rw [← e1]
  exact congrArg Prod.fst hr

/-! ### The hypotheses can be met -/

example : selectManyNthUnstable (α := Nat) (κ := Nat) .cmp Sample.cfg Sample.view [3, 9, 20, 31, 40, 41, 59] =
    partitionAtIndices Sample.cfg (Style.less (κ := Nat) .cmp) 4 Sample.view 0 [3, 9, 20, 31, 40, 41, 59] := select_many_depth (d := 3) (by decide)

example : parSelectManyNthUnstable (α := Nat) (κ := Nat) .key Sample.cfg Sample.view [3, 9, 20] 5 =
    parPartitionAtIndices Sample.cfg (Style.less (κ := Nat) .key) 3 Sample.view 0 [3, 9, 20] 0 8 := par_select_many_depth (d := 2) (by decide)

example : selectManyExt (α := Nat) (κ := Nat) .ord Sample.cfg Sample.view [3, 9, 20] =
    partitionAtIndicesExt Sample.cfg (Style.less (κ := Nat) .ord) 3 Sample.view 0 [3, 9, 20] [] := select_many_extend_depth (d := 2) (by decide)

/-- Six nested calls are enough for two million elements. -/
example (less : Nat → Nat → Prog Nat ι ω Bool) : medianOfMedians cfg less (Nat.log2 2000000 + 1) ⟨0, 1, 2000000⟩ 5 =
    medianOfMedians cfg less 6 ⟨0, 1, 2000000⟩ 5 := median_of_medians_depth (v := ⟨0, 1, 2000000⟩) (d := 5) (by decide)

example (less : Nat → Nat → Prog Nat ι ω Bool) : parMerge cfg less (4000 + 7000 + 1) ⟨0, 1, 4000⟩ ⟨4000, 1, 7000⟩ ⟨11000, 1, 11000⟩ =
    parMerge cfg less 26 ⟨0, 1, 4000⟩ ⟨4000, 1, 7000⟩ ⟨11000, 1, 11000⟩ :=
  par_merge_depth (left := ⟨0, 1, 4000⟩) (right := ⟨4000, 1, 7000⟩) (a := 12) (b := 13) (by decide) (by decide)

example (less : Nat → Nat → Prog Nat ι ω Bool) (o : Oracle σ ι ω) (s : St Nat ι ω σ) :=
  par_sort_depth (cfg := cfg) (less := less) (v := ⟨0, -1, 100000⟩) (buf := ⟨1, 1, 100000⟩) (a := 17) (d := 6) (by decide) (by decide) (by decide)
    (by decide) o s

/-- Two million elements in reverse in memory, 40000 nested calls are not enough. -/
example : ∃ (lt : Nat → Nat → Bool) (o : Oracle Unit (Style.Q Nat Nat .ord) (Style.A Nat .ord)), SWO lt ∧ Agrees .ord o lt ∧
    (run o (recurse cfg (Style.less (κ := Nat) .ord) (some 2000) 40000 ⟨2000000, -1, 2000000⟩ none (bitLen 2000000))
      ⟨fun a => a.toNat, (), []⟩).1 = .diverge :=
  par_sort_unstable_deep (v := ⟨2000000, -1, 2000000⟩) (m := fun a => a.toNat) (.inl (by decide)) (by
    unfold View.contents
    refine List.Nodup.map_on ?_ (View.region_nodup (.inl (by decide)))
    intro a ha b hb h
    simp only [View.region, View.addr, List.mem_map, List.mem_range] at ha hb
    obtain ⟨i, hi, rfl⟩ := ha
    obtain ⟨k, hk, rfl⟩ := hb
    have h : ((2000000 : Int) + -1 * (i : Nat)).toNat = ((2000000 : Int) + -1 * (k : Nat)).toNat := h
    show (2000000 : Int) + -1 * (i : Nat) = 2000000 + -1 * (k : Nat)
    omega) (by decide)

end NdSlice
