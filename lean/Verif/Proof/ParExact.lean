import Verif.Core.ExactLog
import Verif.Proof.ParMergeSort
import Verif.Props.Base

/-
The result of the parallel merge sort with pure user code does not depend on the schedule, nor on which tasks start late, and neither do the
questions it asks.
-/

namespace NdSlice

open Prog

variable {α ι ω : Type} {C : Cmp α ι ω} {cfg : Cfg} {v buf : View} {f : ι → Option ω} {c : Bool}

/-- Array and buffer do not overlap. -/
structure Apart (v buf : View) : Prop where
  len : buf.len = v.len
  injV : ∀ i j, i < v.len → j < v.len → v.addr i = v.addr j → i = j
  injB : ∀ i j, i < v.len → j < v.len → buf.addr i = buf.addr j → i = j
  apart : ∀ i j, i < v.len → j < v.len → v.addr i ≠ buf.addr j

theorem nodup_inj {w : View} (h : w.region.Nodup) {i j : Nat} (hi : i < w.len) (hj : j < w.len) (he : w.addr i = w.addr j) : i = j :=
  (List.getElem?_inj (by simpa using hi) h).mp (by rw [View.region_get w hi, View.region_get w hj, he])

theorem mem_region {w : View} {a : Addr} : a ∈ w.region ↔ ∃ i, i < w.len ∧ w.addr i = a := by
  simp [View.region]

theorem Apart.of_nodup (h : (v.region ++ buf.region).Nodup) (hl : buf.len = v.len) : Apart v buf := by
  rw [List.nodup_append] at h
  obtain ⟨h1, h2, h3⟩ := h
  exact ⟨hl, fun i j hi hj he => nodup_inj h1 hi hj he, fun i j hi hj he => nodup_inj h2 (by omega) (by omega) he,
    fun i j hi hj => h3 _ (mem_region.mpr ⟨i, hi, rfl⟩) _ (mem_region.mpr ⟨j, by omega, rfl⟩)⟩

/-- The cells of chunk `i`, in the array and in the buffer. -/
def Foot (v buf : View) (i : Nat) (a : Addr) : Prop :=
  ∃ k, 2000 * i ≤ k ∧ k < 2000 * i + 2000 ∧ k < v.len ∧ (v.addr k = a ∨ buf.addr k = a)

/-- The cells of the `n` chunks from `i` on. -/
def Feet (v buf : View) (i n : Nat) (a : Addr) : Prop := ∃ j, i ≤ j ∧ j < i + n ∧ Foot v buf j a

theorem Foot.disjoint (hA : Apart v buf) {i j : Nat} {a : Addr} (h1 : Foot v buf i a) (h2 : Foot v buf j a) : i = j := by
  obtain ⟨k, a1, a2, a3, a4⟩ := h1
  obtain ⟨l, b1, b2, b3, b4⟩ := h2
  have : k = l := by
    rcases a4 with rfl | rfl <;> rcases b4 with b4 | b4
    · exact hA.injV _ _ a3 b3 b4.symm
    · exact (hA.apart _ _ a3 b3 b4.symm).elim
    · exact (hA.apart _ _ b3 a3 b4).elim
    · exact hA.injB _ _ a3 b3 b4.symm
  omega

theorem mem_foot {i : Nat} {a : Addr} :
    a ∈ (v.sub (2000 * i) (min 2000 (v.len - 2000 * i))).region ++ (buf.sub (2000 * i) (min 2000 (v.len - 2000 * i))).region ↔ Foot v buf i a := by
  rw [List.mem_append, mem_region, mem_region]
  constructor
  · rintro (⟨k, hk, rfl⟩ | ⟨k, hk, rfl⟩) <;>
    · simp only [View.sub_len] at hk
      rw [View.sub_addr]
      exact ⟨2000 * i + k, by omega, by omega, by omega, by simp⟩
  · rintro ⟨k, h1, h2, h3, rfl | rfl⟩
    · exact .inl ⟨k - 2000 * i, by simp only [View.sub_len]; omega, by rw [View.sub_addr]; congr 1; omega⟩
    · exact .inr ⟨k - 2000 * i, by simp only [View.sub_len]; omega, by rw [View.sub_addr]; congr 1; omega⟩

/-- What the task for chunk `i` does to memory `m`, run on its own. -/
def chunkRun (f : ι → Option ω) (c : Bool) (cfg : Cfg) (less : α → α → Prog α ι ω Bool) (v buf : View) (m : Mem α) (i : Nat) :
    Out (Nat × Nat × MergesortResult) × Mem α :=
  runOut (.pure f c) (chunkTask cfg less v buf i) ⟨m, (), []⟩

/-- Chunk `i` has not been touched (`none`), or it is sorted with this result. -/
def ChunkDone (f : ι → Option ω) (c : Bool) (cfg : Cfg) (less : α → α → Prog α ι ω Bool) (v buf : View) (m0 : Mem α) (i : Nat)
    (m : Mem α) : Option (Nat × Nat × MergesortResult) → Prop
  | none => ∀ a, Foot v buf i a → m a = m0 a
  | some r => (chunkRun f c cfg less v buf m0 i).1 = .ok r ∧ ∀ a, Foot v buf i a → m a = (chunkRun f c cfg less v buf m0 i).2 a

/-- What the task for chunk `i` asks, run on its own on memory `m`. -/
def chunkAsks (f : ι → Option ω) (c : Bool) (cfg : Cfg) (less : α → α → Prog α ι ω Bool) (v buf : View) (m : Mem α) (i : Nat) : List (ι × Option ω) :=
  (run (.pure f c) (chunkTask cfg less v buf i) ⟨m, (), []⟩).2.log

/-- What the tasks for the chunks from `i` on ask, of those that have been run. -/
def doneAsks (f : ι → Option ω) (c : Bool) (cfg : Cfg) (less : α → α → Prog α ι ω Bool) (v buf : View) (m : Mem α) :
    Nat → List (Option (Nat × Nat × MergesortResult)) → List (ι × Option ω)
  | _, [] => []
  | i, none :: os => doneAsks f c cfg less v buf m (i + 1) os
  | i, some _ :: os => chunkAsks f c cfg less v buf m i ++ doneAsks f c cfg less v buf m (i + 1) os

/-- What the tasks for the `n` chunks from `i` on ask. -/
def allAsks (f : ι → Option ω) (c : Bool) (cfg : Cfg) (less : α → α → Prog α ι ω Bool) (v buf : View) (m : Mem α) : Nat → Nat → List (ι × Option ω)
  | _, 0 => []
  | i, n + 1 => chunkAsks f c cfg less v buf m i ++ allAsks f c cfg less v buf m (i + 1) n

theorem ChunkDone.congr {less : α → α → Prog α ι ω Bool} {m0 m m' : Mem α} {i : Nat} {o : Option (Nat × Nat × MergesortResult)}
    (h : ChunkDone f c cfg less v buf m0 i m o) (he : ∀ a, Foot v buf i a → m' a = m a) : ChunkDone f c cfg less v buf m0 i m' o := by
  cases o with
  | none => exact fun a ha => (he a ha).trans (h a ha)
  | some r => exact ⟨h.1, fun a ha => (he a ha).trans (h.2 a ha)⟩

section
variable (hR : C.R = fun q r => r = f q) (hn : ∀ x y, NoChoose (C.less x y)) (hA : Apart v buf) {m0 : Mem α}
include hR hn hA

theorem chunkTask_exact {i : Nat} (hi : 2000 * i < v.len) {m : Mem α} {lg : List (ι × Option ω)} (hm : ∀ a, Foot v buf i a → m a = m0 a) :
    wp (fun q r => r = f q) (chunkTask cfg C.less v buf i) (Foot v buf i)
      (fun r m' l => ChunkDone f c cfg C.less v buf m0 i m' (some r) ∧ ∃ d, l = lg ++ d ∧ d.Perm (chunkAsks f c cfg C.less v buf m0 i))
      (fun e _ _ => e = .user ∧ (chunkRun f c cfg C.less v buf m0 i).1 = .panic .user) m lg := by
  set n := min 2000 (v.len - 2000 * i) with hn'
  have h := (chunkTask_spec (C := C) (cfg := cfg) (v := v) (buf := buf) (i := i) (n := n) (A := (v.sub (2000 * i) n).contents m) hn' (by omega)
    (View.contents_length _ _)).contents
  rw [hR] at h
  have nd : ((v.sub (2000 * i) n).region ++ (buf.sub (2000 * i) n).region).Nodup := by
    refine List.nodup_append.mpr ⟨?_, ?_, ?_⟩
    · unfold View.region
      refine List.Nodup.map_on (fun k hk l hl he => ?_) List.nodup_range
      simp only [View.sub_len, List.mem_range] at hk hl
      rw [View.sub_addr, View.sub_addr] at he
      have := hA.injV _ _ (by omega) (by omega) he
      omega
    · unfold View.region
      refine List.Nodup.map_on (fun k hk l hl he => ?_) List.nodup_range
      simp only [View.sub_len, List.mem_range] at hk hl
      rw [View.sub_addr, View.sub_addr] at he
      have := hA.injB _ _ (by omega) (by omega) he
      omega
    · intro a ha b hb
      obtain ⟨k, hk, rfl⟩ := mem_region.mp ha
      obtain ⟨l, hl, rfl⟩ := mem_region.mp hb
      simp only [View.sub_len] at hk hl
      rw [View.sub_addr, View.sub_addr]
      exact hA.apart _ _ (by omega) (by omega)
  have w := h m lg nd rfl
  have fr := run_frame (R := fun q r => r = f q) (c := c) (fun q => rfl) w (s1 := ⟨m0, (), []⟩) (s2 := ⟨m, (), []⟩)
    (fun a ha => (hm a (mem_foot.mp ha)).symm) (fun _ _ => rfl)
  obtain ⟨d0, fl1, fl2⟩ := run_frame_log (R := fun q r => r = f q) (c := c) (fun q => rfl) w (s1 := ⟨m0, (), []⟩) (s2 := ⟨m, (), []⟩)
    (fun a ha => (hm a (mem_foot.mp ha)).symm) (fun _ _ => rfl)
  refine wp_mono (wp_exact_log (c := c) (NoChoose.chunkTask hn) w) (fun a ha => mem_foot.mp ha) ?_ ?_
  · rintro r m' l ⟨-, he, d, hl, hd⟩
    unfold runOut at he
    obtain ⟨e1, e2⟩ := Prod.mk.inj he
    refine ⟨⟨fr.1.trans e1, fun a ha => ?_⟩, d, hl, by unfold chunkAsks; rw [fl1, ← fl2]; exact hd⟩
    show m' a = (run (.pure f c) (chunkTask cfg C.less v buf i) ⟨m0, (), []⟩).2.mem a
    rw [fr.2.1 a (mem_foot.mpr ha), e2]
  · rintro e m' l ⟨⟨rfl, -⟩, he, -⟩
    unfold runOut at he
    exact ⟨rfl, fr.1.trans (Prod.mk.inj he).1⟩

theorem chunkTasks_exact {i n : Nat} (hi : n ≠ 0 → 2000 * (i + n - 1) < v.len) {m : Mem α} {lg : List (ι × Option ω)}
    (hm : ∀ a, Feet v buf i n a → m a = m0 a) :
    wp (fun q r => r = f q) (chunkTasks cfg C.less v buf i n) (Feet v buf i n)
      (fun os m' l => (os.length = n ∧ ∀ k o, os[k]? = some o → ChunkDone f c cfg C.less v buf m0 (i + k) m' o) ∧
        ∃ d, l = lg ++ d ∧ d.Perm (doneAsks f c cfg C.less v buf m0 i os))
      (fun e _ _ => e = .user ∧ ∃ j, i ≤ j ∧ j < i + n ∧ (chunkRun f c cfg C.less v buf m0 j).1 = .panic .user) m lg := by
  induction n generalizing i m lg with
  | zero => exact ⟨⟨rfl, by simp⟩, [], by simp, .refl _⟩
  | succ n ih =>
    unfold chunkTasks
    have h1 := chunkTask_exact (cfg := cfg) (c := c) hR hn hA (i := i) (m := m) (lg := []) (m0 := m0) (by have := hi (by omega); omega)
      (fun a ha => hm a ⟨i, Nat.le_refl _, by omega, ha⟩)
    have h2 := ih (i := i + 1) (m := m) (lg := []) (fun _ => by have := hi (by omega); omega)
      (fun a ⟨j, hj1, hj2, ha⟩ => hm a ⟨j, by omega, by omega, ha⟩)
    refine wp_bind ?_
    unfold Prog.rayonJoin
    refine ⟨Foot v buf i, Feet v buf (i + 1) n, fun a ha => ⟨i, Nat.le_refl _, by omega, ha⟩,
      fun a ⟨j, hj1, hj2, ha⟩ => ⟨j, by omega, by omega, ha⟩,
      fun a ha ⟨j, hj1, hj2, ha'⟩ => by have := Foot.disjoint hA ha ha'; omega,
      fun r m1 l1 => match r with
        | .ok o => ChunkDone f c cfg C.less v buf m0 i m1 o ∧ l1.Perm (doneAsks f c cfg C.less v buf m0 i [o])
        | .panic e => e = .user ∧ (chunkRun f c cfg C.less v buf m0 i).1 = .panic .user,
      fun r m1 l1 => match r with
        | .ok os => (os.length = n ∧ ∀ k o, os[k]? = some o → ChunkDone f c cfg C.less v buf m0 (i + 1 + k) m1 o) ∧
          ∃ d, l1 = [] ++ d ∧ d.Perm (doneAsks f c cfg C.less v buf m0 (i + 1) os)
        | .panic e => e = .user ∧ ∃ j, i + 1 ≤ j ∧ j < i + 1 + n ∧ (chunkRun f c cfg C.less v buf m0 j).1 = .panic .user,
      ?_, h2, ?_⟩
    · intro b
      cases b with
      | true => exact ⟨fun a ha => hm a ⟨i, Nat.le_refl _, by omega, ha⟩, .refl _⟩
      | false =>
        refine wp_bind (wp_mono h1 (fun _ h => h) ?_ (fun _ _ _ h => h))
        rintro r m' l ⟨x1, d, rfl, x2⟩
        exact ⟨x1, by simpa [doneAsks] using x2⟩
    · rintro (o | e) (os | e') m1 m2 l1 l2 hP1 hP2 m' d a1 a2 a3 hd
      · obtain ⟨hP1, hL1⟩ := hP1
        obtain ⟨hP2, d2, rfl, hL2⟩ := hP2
        refine ⟨⟨by simpa using hP2.1, ?_⟩, d, rfl, hd.trans ?_⟩
        rotate_left
        · cases o with
          | none => simpa [doneAsks] using hL1.append hL2
          | some r => simpa [doneAsks] using hL1.append hL2
        intro k o' hk
        cases k with
        | zero =>
          simp only [List.getElem?_cons_zero, Option.some.injEq] at hk
          subst hk
          exact ChunkDone.congr hP1 a1
        | succ k =>
          rw [List.getElem?_cons_succ] at hk
          have hlt : k < n := by
            rw [← hP2.1]
            exact (List.getElem?_eq_some_iff.mp hk).1
          have := hP2.2 k o' hk
          rw [show i + 1 + k = i + (k + 1) by omega] at this
          exact ChunkDone.congr this (fun a ha => a2 a ⟨i + (k + 1), by omega, by omega, ha⟩)
      · obtain ⟨rfl, j, h1, h2, h3⟩ := hP2
        exact ⟨rfl, j, by omega, by omega, h3⟩
      · exact ⟨hP1.1, i, Nat.le_refl _, by omega, hP1.2⟩
      · exact ⟨hP1.1, i, Nat.le_refl _, by omega, hP1.2⟩

theorem lateChunks_exact {i : Nat} {os : List (Option (Nat × Nat × MergesortResult))} (hi : os ≠ [] → 2000 * (i + os.length - 1) < v.len)
    {m : Mem α} {lg : List (ι × Option ω)} (hm : ∀ k o, os[k]? = some o → ChunkDone f c cfg C.less v buf m0 (i + k) m o) :
    wp (fun q r => r = f q) (lateChunks cfg C.less v buf i os) (Feet v buf i os.length)
      (fun rs m' l => (rs.length = os.length ∧ ∀ k r, rs[k]? = some r → ChunkDone f c cfg C.less v buf m0 (i + k) m' (some r)) ∧
        ∃ d, l = lg ++ d ∧ (doneAsks f c cfg C.less v buf m0 i os ++ d).Perm (allAsks f c cfg C.less v buf m0 i os.length))
      (fun e _ _ => e = .user ∧ ∃ j, i ≤ j ∧ j < i + os.length ∧ (chunkRun f c cfg C.less v buf m0 j).1 = .panic .user) m lg := by
  induction os generalizing i m lg with
  | nil => exact ⟨⟨rfl, by simp⟩, [], by simp, .refl _⟩
  | cons o os ih =>
    have hi' := hi (by simp)
    simp only [List.length_cons] at hi'
    have rest : ∀ (m : Mem α) lg r, ChunkDone f c cfg C.less v buf m0 i m (some r) →
        (∀ k o, os[k]? = some o → ChunkDone f c cfg C.less v buf m0 (i + 1 + k) m o) →
        wp (fun q r => r = f q) (lateChunks cfg C.less v buf (i + 1) os >>= fun rs => (pure (r :: rs) : Prog α ι ω _)) (Feet v buf i (o :: os).length)
          (fun rs m' l => (rs.length = (o :: os).length ∧ ∀ k r, rs[k]? = some r → ChunkDone f c cfg C.less v buf m0 (i + k) m' (some r)) ∧
            ∃ d, l = lg ++ d ∧ (doneAsks f c cfg C.less v buf m0 (i + 1) os ++ d).Perm (allAsks f c cfg C.less v buf m0 (i + 1) os.length))
          (fun e _ _ => e = .user ∧ ∃ j, i ≤ j ∧ j < i + (o :: os).length ∧ (chunkRun f c cfg C.less v buf m0 j).1 = .panic .user) m lg := by
      intro m lg r hr hos
      refine wp_bind (wp_mono (wp_unchanged (ih (i := i + 1) (m := m) (lg := lg) (fun h => by omega) hos)) ?_ ?_ ?_)
      · rintro a ⟨j, h1, h2, h3⟩
        exact ⟨j, by omega, by simp only [List.length_cons]; omega, h3⟩
      · rintro rs m' l ⟨⟨⟨h1, h2⟩, hd⟩, hu⟩
        refine ⟨⟨by simpa using h1, ?_⟩, hd⟩
        intro k r' hk
        cases k with
        | zero =>
          simp only [List.getElem?_cons_zero, Option.some.injEq] at hk
          subst hk
          exact ChunkDone.congr hr (fun a ha => hu a (fun ⟨j, hj1, hj2, ha'⟩ => by have := Foot.disjoint hA ha ha'; omega))
        | succ k =>
          rw [List.getElem?_cons_succ] at hk
          have := h2 k r' hk
          rwa [show i + 1 + k = i + (k + 1) by omega] at this
      · rintro e m' l ⟨⟨h1, j, h2, h3, h4⟩, -⟩
        exact ⟨h1, j, by omega, by simp only [List.length_cons]; omega, h4⟩
    have hm0 : ChunkDone f c cfg C.less v buf m0 i m o := hm 0 o rfl
    have hm1 : ∀ k o, os[k]? = some o → ChunkDone f c cfg C.less v buf m0 (i + 1 + k) m o := by
      intro k o' hk
      have := hm (k + 1) o' (by rw [List.getElem?_cons_succ]; exact hk)
      rwa [show i + (k + 1) = i + 1 + k by omega] at this
    cases o with
    | some r =>
      refine wp_mono (rest m lg r hm0 hm1) (fun _ h => h) ?_ (fun _ _ _ h => h)
      rintro rs m' l ⟨x1, d, rfl, x2⟩
      refine ⟨x1, d, rfl, ?_⟩
      simp only [doneAsks, List.length_cons, allAsks, List.append_assoc]
      exact x2.append_left _
    | none =>
      unfold lateChunks
      refine wp_bind (wp_mono (wp_unchanged (chunkTask_exact (cfg := cfg) (c := c) hR hn hA (i := i) (by omega) hm0)) ?_ ?_ ?_)
      · intro a ha
        exact ⟨i, Nat.le_refl _, by simp, ha⟩
      · rintro r m' l ⟨⟨h1, d1, rfl, hd1⟩, hu⟩
        refine wp_mono (rest m' _ r h1 ?_) (fun _ h => h) ?_ (fun _ _ _ h => h)
        rotate_left
        · rintro rs m'' l ⟨x1, d, rfl, x2⟩
          refine ⟨x1, d1 ++ d, by simp, ?_⟩
          simp only [doneAsks, List.length_cons, allAsks]
          refine (List.Perm.append_left _ List.perm_append_comm).trans ?_
          rw [← List.append_assoc]
          exact (x2.append hd1).trans List.perm_append_comm
        intro k o' hk
        exact ChunkDone.congr (hm1 k o' hk) (fun a ha => hu a (fun ha' => by have := Foot.disjoint hA ha ha'; omega))
      · rintro e m' l ⟨⟨h1, h2⟩, -⟩
        exact ⟨h1, i, Nat.le_refl _, by simp, h2⟩

/-- Whatever the schedule: the same result, and the same memory unless a task panicked. -/
theorem parMergeSortChunks_exact (h0 : 0 < v.len) (nd : (v.region ++ buf.region).Nodup) (m0 : Mem α) :
    ∃ (out : Out Unit) (fin : Mem α) (asks : List (ι × Option ω)), ∀ lg,
      wp (fun q r => r = f q) (parMergeSortChunks cfg C.less v buf) (· ∈ v.region ++ buf.region)
      (fun b m' l => out = .ok b ∧ m' = fin ∧ ∃ d, l = lg ++ d ∧ d.Perm asks) (fun e _ _ => out = .panic e) m0 lg := by
  set n := (v.len + 1999) / 2000 with hn'
  have hsub : ∀ a, Feet v buf 0 n a → a ∈ v.region ++ buf.region := by
    rintro a ⟨j, -, -, k, -, -, hk, rfl | rfl⟩
    · exact List.mem_append_left _ (mem_region.mpr ⟨k, hk, rfl⟩)
    · exact List.mem_append_right _ (mem_region.mpr ⟨k, by rw [hA.len]; exact hk, rfl⟩)
  -- the tasks
  let first : Prog α ι ω (List (Nat × Nat × MergesortResult)) := do
    let rs ← chunkTasks cfg C.less v buf 0 n
    lateChunks cfg C.less v buf 0 rs
  have hfirst : ∀ lg, wp (fun q r => r = f q) first (Feet v buf 0 n)
      (fun rs m' l => ((rs.length = n ∧ ∀ k r, rs[k]? = some r → ChunkDone f false cfg C.less v buf m0 k m' (some r)) ∧
        ∃ d, l = lg ++ d ∧ d.Perm (allAsks f false cfg C.less v buf m0 0 n)) ∧ ∀ a, ¬ Feet v buf 0 n a → m' a = m0 a)
      (fun e m' _ => (e = .user ∧ ∃ j, j < n ∧ (chunkRun f false cfg C.less v buf m0 j).1 = .panic .user) ∧
        ∀ a, ¬ Feet v buf 0 n a → m' a = m0 a) m0 lg := by
    intro lg
    refine wp_unchanged (wp_bind ?_)
    refine wp_mono (chunkTasks_exact (cfg := cfg) (c := false) hR hn hA (i := 0) (n := n) (fun _ => by omega) (fun _ _ => rfl)) (fun _ h => h) ?_ ?_
    · rintro os m' l ⟨⟨h1, h2⟩, d1, rfl, hd1⟩
      refine wp_mono (lateChunks_exact (cfg := cfg) (c := false) hR hn hA (i := 0) (os := os) (fun _ => by omega) h2) (by rw [h1]; exact fun _ h => h) ?_ ?_
      · rintro rs m'' l' ⟨⟨h3, h4⟩, d, rfl, hd⟩
        exact ⟨⟨by omega, fun k r hk => by have := h4 k r hk; rwa [Nat.zero_add] at this⟩, d1 ++ d, by simp,
          (hd1.append_right d).trans (by rw [← h1]; exact hd)⟩
      · rintro e m'' l' ⟨h3, j, h4, h5, h6⟩
        exact ⟨h3, j, by omega, h6⟩
    · rintro e m'' l' ⟨h3, j, h4, h5, h6⟩
      exact ⟨h3, j, by omega, h6⟩
  let rest : List (Nat × Nat × MergesortResult) → Prog α ι ω Unit := fun rs => do
    let cs ← match rs with
      | [] => pure []
      | (a, b, res) :: rest => concatChunks cfg C.less v a b res rest
    parRecurse cfg C.less v buf cs.length cs false
  have hrest : ∀ rs, NoChoose (rest rs) := by
    intro rs
    rcases rs with _ | ⟨⟨a, b, r⟩, rs⟩
    · exact NoChoose.bind (NoChoose.pure (b := [])) (fun _ => NoChoose.parRecurse hn)
    · exact NoChoose.bind (NoChoose.concatChunks hn) (fun _ => NoChoose.parRecurse hn)
  have hassoc : ∀ {F Q E} {m : Mem α} {lg}, wp (fun q r => r = f q) (parMergeSortChunks cfg C.less v buf) F Q E m lg ↔
      wp (fun q r => r = f q) (first.bind rest) F Q E m lg := by
    intro F Q E m lg
    constructor
    · intro h
      exact wp_bind (wp_bind (wp_mono (wp_bind_inv h) (fun _ h => h) (fun _ _ _ h => wp_bind_inv h) (fun _ _ _ h => h)))
    · intro h
      exact wp_bind (wp_mono (wp_bind_inv (wp_bind_inv h)) (fun _ h => h) (fun _ _ _ h => wp_bind h) (fun _ _ _ h => h))
  have hsafe := (parMergeSortChunks_spec (C := C) (cfg := cfg) (v := v) (buf := buf) (v.contents_length m0) h0 (by rw [hA.len]))
  rw [← hA.len, View.sub_self, hR] at hsafe
  have hsafe := wp_bind_inv (hassoc.mp (hsafe.contents m0 [] nd rfl))
  have ho : (Oracle.pure f false).Sat (fun q r => r = f q) := Oracle.pure_sat fun q => rfl
  by_cases hp : ∃ j, j < n ∧ (chunkRun f false cfg C.less v buf m0 j).1 = .panic .user
  · -- a task panics
    obtain ⟨j, hj, hp⟩ := hp
    refine ⟨.panic .user, m0, [], fun lg => hassoc.mpr (wp_bind (wp_mono (hfirst lg) hsub ?_ ?_))⟩
    · rintro rs m' l ⟨⟨⟨h1, h2⟩, -⟩, -⟩
      have := (h2 j rs[j] (List.getElem?_eq_getElem (by omega))).1
      rw [hp] at this
      cases this
    · rintro e m' l ⟨⟨rfl, -⟩, -⟩
      rfl
  · -- no task panics
    rcases run_sound ho (s := ⟨m0, (), []⟩) (hfirst []) with ⟨rs0, s0, hr, ⟨⟨k1, k2⟩, -⟩, k3⟩ | ⟨e, s0, hr, ⟨-, hj⟩, -⟩
    · have hw : ∃ Q E l, wp (fun q r => r = f q) (rest rs0) (· ∈ v.region ++ buf.region) Q E s0.mem l := by
        rcases run_sound ho (s := ⟨m0, (), []⟩) hsafe with ⟨rs1, s1, hr1, hw⟩ | ⟨e, s1, hr1, -⟩
        · rw [hr] at hr1
          cases hr1
          exact ⟨_, _, _, hw⟩
        · rw [hr] at hr1
          cases hr1
      obtain ⟨_, _, l0, hw⟩ := hw
      refine ⟨(runOut (.pure f false) (rest rs0) ⟨s0.mem, (), []⟩).1, (runOut (.pure f false) (rest rs0) ⟨s0.mem, (), []⟩).2,
        allAsks f false cfg C.less v buf m0 0 n ++ (run (.pure f false) (rest rs0) ⟨s0.mem, (), []⟩).2.log, fun lg => hassoc.mpr (wp_bind (wp_mono (hfirst lg) hsub ?_ ?_))⟩
      · rintro rs m' l ⟨⟨⟨h1, h2⟩, d1, rfl, hd1⟩, h3⟩
        obtain rfl : rs = rs0 := by
          apply List.ext_getElem? 
          intro k
          by_cases hk : k < n
          · have e1 := h2 k rs[k] (List.getElem?_eq_getElem (by omega))
            have e2 := k2 k rs0[k] (List.getElem?_eq_getElem (by omega))
            rw [List.getElem?_eq_getElem (by omega), List.getElem?_eq_getElem (by omega)]
            have := e1.1.symm.trans e2.1
            injection this with this
            rw [this]
          · rw [List.getElem?_eq_none (by omega), List.getElem?_eq_none (by omega)]
        obtain rfl : m' = s0.mem := by
          funext a
          by_cases ha : Feet v buf 0 n a
          · obtain ⟨j, -, hj, ha⟩ := ha
            have e1 := h2 j rs[j] (List.getElem?_eq_getElem (by omega))
            have e2 := k2 j rs[j] (List.getElem?_eq_getElem (by omega))
            rw [e1.2 a ha, e2.2 a ha]
          · rw [h3 a ha, k3 a ha]
        have := wp_log (l0 := l0) (l1 := lg ++ d1) (lg := []) (by rw [List.append_nil]; exact wp_exact_log (c := false) (hrest rs) hw)
        rw [List.append_nil] at this
        refine wp_mono this (fun _ h => h) ?_ ?_
        · rintro b m'' l' ⟨d2, rfl, -, h, d, hd, hd2⟩
          rw [h]
          obtain rfl := List.append_cancel_left hd
          exact ⟨rfl, rfl, d1 ++ d2, by simp, hd1.append hd2⟩
        · rintro e m'' l' ⟨_, _, _, h, -⟩
          rw [h]
      · rintro e m' l ⟨⟨-, hj⟩, -⟩
        exact (hp hj).elim
    · exact (hp hj).elim

theorem parMergeSort_exact (hz : cfg.zst = true → Subsingleton α) (nd : (v.region ++ buf.region).Nodup) (m0 : Mem α) :
    ∃ (out : Out Unit) (fin : Mem α) (asks : List (ι × Option ω)), ∀ lg,
      wp (fun q r => r = f q) (parMergeSort cfg C.less v buf) (· ∈ v.region ++ buf.region)
      (fun b m' l => out = .ok b ∧ m' = fin ∧ ∃ d, l = lg ++ d ∧ d.Perm asks) (fun e _ _ => out = .panic e) m0 lg := by
  by_cases h : v.len ≤ 2000 ∨ cfg.zst = true
  · have hsafe := parMergeSort_spec (C := C) (cfg := cfg) (v := v) (buf := buf) (v.contents_length m0) hz hA.len
    rw [hR] at hsafe
    have hnc : NoChoose (parMergeSort cfg C.less v buf) := by
      rcases h with h | h
      · exact NoChoose.parMergeSort hn h
      · unfold parMergeSort
        rw [if_pos h]
        exact NoChoose.pure
    refine ⟨(runOut (.pure f false) (parMergeSort cfg C.less v buf) ⟨m0, (), []⟩).1, (runOut (.pure f false) (parMergeSort cfg C.less v buf) ⟨m0, (), []⟩).2,
      (run (.pure f false) (parMergeSort cfg C.less v buf) ⟨m0, (), []⟩).2.log, fun lg => wp_mono (wp_exact_log (c := false) hnc (hsafe.contents m0 lg nd rfl)) (fun _ h => h) ?_ ?_⟩
    · rintro b m' l ⟨-, h, hd⟩
      rw [h]
      exact ⟨rfl, rfl, hd⟩
    · rintro e m' l ⟨-, h, -⟩
      rw [h]
  · have h1 : ¬ v.len ≤ 2000 := fun h' => h (.inl h')
    unfold parMergeSort
    rw [if_neg (fun h' => h (.inr h')), if_neg (by omega), if_neg h1]
    exact parMergeSortChunks_exact hR hn hA (by omega) nd m0
end

end NdSlice
