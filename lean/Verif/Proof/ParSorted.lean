import Verif.Core.PathP
import Verif.Proof.Descending
import Verif.Model.ParMerge

/-
What the parallel merge sort does with a sorted or a strictly descending array.
-/

namespace NdSlice

variable {α ι ω : Type} {R : ι → Option ω → Prop} {m m1 : Mem α} {cfg : Cfg} {less : α → α → Prog α ι ω Bool} {lt : α → α → Bool} {c : Nat}
  {v buf : View} {rev : Bool}

/-- The view shows a sorted (`rev = false`) or strictly descending array, in terms of neighbours. -/
def Trend (m : Mem α) (lt : α → α → Bool) (rev : Bool) (v : View) : Prop :=
  ∀ i, i + 1 < v.len → lt (m (v.addr (i + 1))) (m (v.addr i)) = rev

theorem Trend.sub (h : Trend m lt rev v) {a n : Nat} (ha : a + n ≤ v.len) : Trend m lt rev (v.sub a n) := by
  intro i hi
  rw [View.sub_len] at hi
  rw [View.sub_addr, View.sub_addr]
  exact h (a + i) (by omega)

theorem InOrder.trend (h : InOrder m lt v) : Trend m lt false v := fun i hi => h _ _ (by omega) hi

theorem Falling.trend (h : Falling m lt v) : Trend m lt true v := fun i hi => h _ _ (by omega) hi

theorem Path.idx {i : Nat} (hi : i < v.len) : Path (ι := ι) (ω := ω) R m (v.idx i) (m (v.addr i)) 0 := by
  unfold View.idx
  rw [if_pos hi]
  exact ⟨rfl, rfl⟩

/-- The result of a chunk which needs no change. -/
def trendResult : Bool → MergesortResult
  | true => .descending
  | false => .nonDescending

section

variable (hl : Answers R m less lt c) (hs : Trend m lt rev v)
include hl hs

theorem parStreak_trend {n : Nat} (hn : n < v.len) : Path R m (parStreak less v rev n) 0 (n * c) := by
  induction n with
  | zero => rw [Nat.zero_mul]; exact .pure
  | succ n ih =>
    unfold parStreak
    have e : (n + 1) * c = n * c + c := Nat.succ_mul _ _
    refine .seq (.vget (by omega)) (k := (n + 1) * c) ?_ (by omega)
    refine .seq (.vget (by omega)) (k := (n + 1) * c) ?_ (by omega)
    refine .seq (hl _ _) (k := n * c) ?_ (by omega)
    rw [hs _ (by omega), if_pos (by simp)]
    exact ih (by omega)

theorem parNextRun_trend (h2 : 2 ≤ v.len) : Path R m (parNextRun cfg less v v.len) (.inl (trendResult rev)) ((v.len - 1) * c) := by
  unfold parNextRun
  have e : (v.len - 1) * c = (v.len - 2) * c + c := by rw [show v.len - 1 = v.len - 2 + 1 by omega, Nat.succ_mul]
  rw [if_pos (by omega)]
  dsimp only
  refine .seq (.vget (by omega)) (k := (v.len - 1) * c) ?_ (by omega)
  refine .seq (.vget (by omega)) (k := (v.len - 1) * c) ?_ (by omega)
  refine .seq (hl _ _) (k := (v.len - 2) * c) ?_ (by omega)
  rw [hs _ (by omega)]
  cases rev with
  | true =>
    rw [if_pos rfl]
    refine .seq (parStreak_trend hl hs (by omega)) (k := 0) ?_ (by omega)
    rw [if_pos (by simp)]
    exact .pure
  | false =>
    rw [if_neg (by decide)]
    refine .seq (parStreak_trend hl hs (by omega)) (k := 0) ?_ (by omega)
    rw [if_pos (by simp)]
    exact .pure

theorem parMergeSortSeq_trend (h2 : 2 ≤ v.len) : Path R m (parMergeSortSeq cfg less v buf) (trendResult rev) ((v.len - 1) * c) := by
  unfold parMergeSortSeq
  refine .seq (b := .inl (trendResult rev)) (n := (v.len - 1) * c) (k := 0) ?_ .pure (by omega)
  unfold Prog.loop
  refine .seq (b := .inr (.inl (trendResult rev))) (n := (v.len - 1) * c) (k := 0) ?_ .pure (by omega)
  unfold parMergeSortBody
  dsimp only
  rw [if_pos (by omega)]
  exact .seq (parNextRun_trend hl hs h2) (k := 0) .pure (by omega)

end

/-- The task for chunk `i` ends with this. -/
def trendChunk (rev : Bool) (len i : Nat) : Nat × Nat × MergesortResult := (2000 * i, 2000 * i + min 2000 (len - 2000 * i), trendResult rev)

/-- The comparisons of the chunks `i` to `i + n - 1`. -/
def chunksCount (len : Nat) : Nat → Nat → Nat
  | _, 0 => 0
  | i, n + 1 => (min 2000 (len - 2000 * i) - 1) + chunksCount len (i + 1) n

/-- The comparisons of those chunks (from `i` on) which are still to be done. -/
def missingCount (len : Nat) : Nat → List (Option (Nat × Nat × MergesortResult)) → Nat
  | _, [] => 0
  | i, some _ :: os => missingCount len (i + 1) os
  | i, none :: os => (min 2000 (len - 2000 * i) - 1) + missingCount len (i + 1) os

/-- Chunks from `i` on, done or still to be done. -/
def TrendChunks (rev : Bool) (len : Nat) : Nat → List (Option (Nat × Nat × MergesortResult)) → Prop
  | _, [] => True
  | i, o :: os => (o = none ∨ o = some (trendChunk rev len i)) ∧ TrendChunks rev len (i + 1) os

section

variable (hl : Answers R m less lt c) (hs : Trend m lt rev v)
include hl hs

theorem chunkTask_trend {i : Nat} (h2 : 2 ≤ min 2000 (v.len - 2000 * i)) :
    Path R m (chunkTask cfg less v buf i) (trendChunk rev v.len i) ((min 2000 (v.len - 2000 * i) - 1) * c) := by
  unfold chunkTask
  dsimp only
  exact .seq (parMergeSortSeq_trend hl (hs.sub (by omega)) (by rw [View.sub_len]; omega)) (k := 0) .pure (by rw [View.sub_len]; omega)

theorem chunkTasks_trend {i n : Nat} (h2 : ∀ j, i ≤ j → j < i + n → 2 ≤ min 2000 (v.len - 2000 * j)) :
    PathP R (chunkTasks cfg less v buf i n) false m fun os k _ =>
      os.length = n ∧ TrendChunks rev v.len i os ∧ k + missingCount v.len i os * c = chunksCount v.len i n * c := by
  induction n generalizing i with
  | zero => exact ⟨rfl, trivial, by simp [missingCount, chunksCount]⟩
  | succ n ih =>
    unfold chunkTasks
    refine PathP.bind (Q := fun x k _ => (x.1 = none ∧ k + missingCount v.len (i + 1) x.2 * c = chunksCount v.len (i + 1) n * c ∨
      x.1 = some (trendChunk rev v.len i) ∧ k + missingCount v.len (i + 1) x.2 * c = (min 2000 (v.len - 2000 * i) - 1) * c + chunksCount v.len (i + 1) n * c) ∧
      x.2.length = n ∧ TrendChunks rev v.len (i + 1) x.2) ?_ ?_
    · refine PathP.rayonJoin (P1 := fun x k _ => x = none ∧ k = 0 ∨ x = some (trendChunk rev v.len i) ∧ k = (min 2000 (v.len - 2000 * i) - 1) * c)
        ?_ (ih fun j h h' => h2 j (by omega) (by omega)) ?_
      · rintro (_ | _)
        · exact PathP.bind (.of_path (chunkTask_trend hl hs (h2 i (by omega) (by omega)))) (by
            rintro b n m' ⟨rfl, rfl, rfl⟩
            exact .inr ⟨rfl, rfl⟩)
        · exact .inl ⟨rfl, rfl⟩
      · rintro b os n1 n2 (⟨rfl, rfl⟩ | ⟨rfl, rfl⟩) ⟨h1, h2, h3⟩
        · exact ⟨.inl ⟨rfl, by dsimp only; omega⟩, h1, h2⟩
        · exact ⟨.inr ⟨rfl, by dsimp only; omega⟩, h1, h2⟩
    · rintro ⟨b, os⟩ k m' ⟨(⟨rfl, h3⟩ | ⟨rfl, h3⟩), h1, h2⟩
      · refine ⟨by simpa using h1, ⟨.inl rfl, h2⟩, ?_⟩
        simp only [missingCount, chunksCount, Nat.add_mul]
        dsimp only at h3
        omega
      · refine ⟨by simpa using h1, ⟨.inr rfl, h2⟩, ?_⟩
        simp only [missingCount, chunksCount, Nat.add_mul]
        dsimp only at h3
        omega

theorem lateChunks_trend {i : Nat} {os : List (Option (Nat × Nat × MergesortResult))} (ho : TrendChunks rev v.len i os)
    (h2 : ∀ j, i ≤ j → j < i + os.length → 2 ≤ min 2000 (v.len - 2000 * j)) :
    Path R m (lateChunks cfg less v buf i os) ((List.range' i os.length).map (trendChunk rev v.len)) (missingCount v.len i os * c) := by
  induction os generalizing i with
  | nil => unfold lateChunks missingCount; rw [Nat.zero_mul]; exact .pure
  | cons o os ih =>
    have h2' : ∀ j, i + 1 ≤ j → j < i + 1 + os.length → 2 ≤ min 2000 (v.len - 2000 * j) := fun j h h' =>
      h2 j (by omega) (by rw [List.length_cons]; omega)
    obtain ⟨rfl | rfl, ho⟩ := ho
    · unfold lateChunks missingCount
      rw [Nat.add_mul]
      refine .seq (chunkTask_trend hl hs (h2 i (by omega) (by rw [List.length_cons]; omega))) ?_ rfl
      exact .seq (ih ho h2') (k := 0) .pure (by omega)
    · unfold lateChunks missingCount
      exact .seq (ih ho h2') (k := 0) .pure (by omega)

theorem canConcat_trend {x : Nat} (h1 : 0 < x) (hx : x < v.len) :
    Path R m (canConcat cfg less v (trendResult rev) x (trendResult rev)) true c := by
  unfold canConcat
  rw [if_pos (by cases rev <;> rfl)]
  refine .seq (.usub (by omega)) (k := c) ?_ (by omega)
  refine .seq (.idx hx) (k := c) ?_ (by omega)
  refine .seq (.idx (by omega)) (k := c) ?_ (by omega)
  refine .seq (hl _ _) (k := 0) ?_ (by omega)
  have := hs (x - 1) (by omega)
  rw [show x - 1 + 1 = x by omega] at this
  rw [this]
  cases rev <;> exact .pure

/-- All chunks are concatenated. -/
theorem concatChunks_trend (hr : PathP R (finishChunk cfg v 0 v.len (trendResult rev)) rev m fun _ n m' => n = 0 ∧ m' = m1) {b i n : Nat} (hb : n = 0 → b = v.len)
    (hi : 0 < i) (hn : n ≠ 0 → 2000 * (i + n - 1) < v.len ∧ v.len ≤ 2000 * (i + n)) :
    PathP R (concatChunks cfg less v 0 b (trendResult rev) ((List.range' i n).map (trendChunk rev v.len))) rev m fun cs k m' =>
      cs = [(0, v.len)] ∧ k = n * c ∧ m' = m1 := by
  induction n generalizing i b with
  | zero =>
    rw [hb rfl]
    unfold concatChunks
    exact PathP.bind hr fun _ n m' h => ⟨rfl, by omega, h.2⟩
  | succ n ih =>
    have hn := hn (by omega)
    rw [List.range'_succ, List.map_cons]
    unfold trendChunk concatChunks
    have e : (n + 1) * c = n * c + c := Nat.succ_mul _ _
    refine PathP.bind (.of_path (canConcat_trend hl hs (by omega) (by omega))) ?_
    rintro _ _ _ ⟨rfl, rfl, rfl⟩
    rw [if_pos rfl]
    refine (ih (fun h => ?_) (by omega) (fun h => ⟨by omega, by omega⟩)).mono fun cs k m' h => ⟨h.1, by omega, h.2.2⟩
    subst h
    omega

omit hl hs in
theorem chunksCount_eq {len i n : Nat} (hn : n ≠ 0 → 2000 * (i + n - 1) < len) :
    chunksCount len i n + n = min (2000 * n) (len - 2000 * i) := by
  induction n generalizing i with
  | zero => simp [chunksCount]
  | succ n ih =>
    have hn := hn (by omega)
    have := ih (i := i + 1) (fun _ => by omega)
    unfold chunksCount
    omega

theorem parMergeSortChunks_trend (h2000 : 2000 < v.len) (h1 : v.len % 2000 ≠ 1)
    (hr : PathP R (finishChunk cfg v 0 v.len (trendResult rev)) rev m fun _ n m' => n = 0 ∧ m' = m1) :
    PathP R (parMergeSortChunks cfg less v buf) rev m fun _ k m' => k = (v.len - 1) * c ∧ m' = m1 := by
  unfold parMergeSortChunks
  obtain ⟨n, hn⟩ : ∃ n, (v.len + 1999) / 2000 = n + 1 := ⟨(v.len + 1999) / 2000 - 1, by omega⟩
  have h2 : ∀ j, 0 ≤ j → j < 0 + (n + 1) → 2 ≤ min 2000 (v.len - 2000 * j) := fun j _ hj => by omega
  rw [hn]
  refine PathP.bind (chunkTasks_trend hl hs h2).weaken ?_
  rintro os k m' ⟨⟨h3, h4, h5⟩, rfl⟩
  refine PathP.bind (.of_path (lateChunks_trend hl hs h4 (by rwa [h3]))) ?_
  rintro rs k' m' ⟨rfl, rfl, rfl⟩
  rw [h3, List.range'_succ, List.map_cons]
  refine PathP.bind (concatChunks_trend hl hs hr (b := 0 + min 2000 v.len) (i := 1) (n := n) (by omega) (by omega) (by omega)) ?_
  rintro cs k'' m' ⟨rfl, rfl, rfl⟩
  have e := chunksCount_eq (len := v.len) (i := 0) (n := n + 1) (by omega)
  refine (PathP.of_path (b := ()) (n := 0) ?_).mono ?_
  · unfold parRecurse
    exact .seq (.debugAssert rfl) (k := 0) .pure rfl
  · rintro _ k3 m' ⟨-, rfl, rfl⟩
    refine ⟨?_, rfl⟩
    have : v.len - 1 = chunksCount v.len 0 (n + 1) + n := by omega
    rw [this, Nat.add_mul]
    omega

omit hl hs in
theorem finishChunk_trend (hr : PathP R (if rev then reverse cfg v else pure () : Prog α ι ω Unit) rev m fun _ n m' => n = 0 ∧ m' = m1) :
    PathP R (finishChunk cfg v 0 v.len (trendResult rev)) rev m fun _ n m' => n = 0 ∧ m' = m1 := by
  unfold finishChunk
  cases rev with
  | true =>
    rw [if_pos (by decide)]
    refine PathP.bind (.of_path (.slice (by omega) (by omega))) ?_
    rintro _ _ _ ⟨rfl, rfl, rfl⟩
    rw [Nat.sub_zero, show v.sub 0 v.len = v by simp [View.sub, View.addr]]
    exact hr.mono fun _ _ _ h => ⟨by omega, h.2⟩
  | false => exact hr

/-- A sorted array of any length (but `2000 n + 1`), a descending one of more than 20 elements. -/
theorem parMergeSort_trend (hz : cfg.zst = false) (h20 : rev = true → 20 < v.len) (h1 : v.len % 2000 ≠ 1 ∨ v.len ≤ 2000)
    (hr : PathP R (if rev then reverse cfg v else pure () : Prog α ι ω Unit) rev m fun _ n m' => n = 0 ∧ m' = m1) :
    PathP R (parMergeSort cfg less v buf) rev m fun _ k m' => k = (v.len - 1) * c ∧ m' = m1 := by
  unfold parMergeSort
  rw [if_neg (by simp [hz])]
  by_cases hs20 : v.len ≤ 20
  · rw [if_pos hs20]
    cases rev with
    | true => exact absurd (h20 rfl) (by omega)
    | false =>
      have hm : m = m1 := hr.2
      subst hm
      suffices h : Path R m (if v.len ≥ 2 then Prog.forDown (fun i => do
          let w ← v.slice i v.len
          parInsertHead less w) 0 (v.len - 1) else Pure.pure ()) () ((v.len - 1) * c) from
        (PathP.of_path h).mono fun _ _ _ h => ⟨h.2.1, h.2.2⟩
      by_cases h2 : v.len ≥ 2
      · rw [if_pos h2]
        have main : ∀ n, n < v.len → Path R m (Prog.forDown (fun i => do
            let w ← v.slice i v.len
            parInsertHead less w) 0 n) () (n * c) := by
          intro n
          induction n with
          | zero => intro _; rw [Nat.zero_mul]; exact .pure
          | succ n ih =>
            intro hn
            unfold Prog.forDown
            refine .seq (b := ()) (n := c) (k := n * c) ?_ (ih (by omega)) (by rw [Nat.succ_mul]; omega)
            refine .seq (.slice (by omega) (by omega)) (k := c) ?_ (by omega)
            unfold parInsertHead
            have hw : (v.sub (0 + n) (v.len - (0 + n))).len = v.len - n := by rw [View.sub_len]; omega
            rw [if_pos (by omega)]
            refine .seq (.idx (by omega)) (k := c) ?_ (by omega)
            refine .seq (.idx (by omega)) (k := c) ?_ (by omega)
            refine .seq (hl _ _) (k := 0) ?_ (by omega)
            rw [(hs.sub (a := 0 + n) (n := v.len - (0 + n)) (by omega)) 0 (by omega)]
            exact .pure
        exact main _ (by omega)
      · rw [if_neg h2, show v.len - 1 = 0 by omega, Nat.zero_mul]
        exact .pure
  · rw [if_neg hs20]
    by_cases hs2000 : v.len ≤ 2000
    · rw [if_pos hs2000]
      refine PathP.bind (.of_path (parMergeSortSeq_trend hl hs (by omega))) ?_
      rintro _ _ _ ⟨rfl, rfl, rfl⟩
      cases rev with
      | true => exact hr.mono fun _ _ _ h => ⟨by omega, h.2⟩
      | false => exact ⟨rfl, hr.2⟩
    · rw [if_neg hs2000]
      exact parMergeSortChunks_trend hl hs (by omega) (by omega) (finishChunk_trend hr)

end

end NdSlice
