import Verif.Props.Stable
import Verif.Props.ParStable
import Verif.Props.Unstable

/-
Several arrays sorted at the same time by different threads (C95), for example the rows or the columns of a matrix: the views may lie between
each other in memory as long as they have no element in common.
-/

namespace NdSlice

open Style

variable {α κ σ ι ω : Type}

/-- The sort a thread calls. -/
inductive SortKind where
  | stable
  | unstable
  | par
  | parUnstable
  deriving DecidableEq, Repr

/-- The stable ones. -/
def SortKind.isStable : SortKind → Bool
  | .stable => true
  | .par => true
  | _ => false

/-- A call of a sort: the array, the sort, and the address of the buffer it allocates, if any. -/
structure Job where
  view : View
  kind : SortKind
  heap : Addr

/-- The number of elements the buffer has room for (/repo/src/merge_sort.rs:243, /repo/src/par/merge_sort.rs:846). -/
def Job.room (j : Job) : Nat :=
  match j.kind with
  | .stable => j.view.len / 2
  | .par => j.view.len
  | _ => 0

/-- The memory a call needs for itself: the array and the buffer. -/
def Job.cells (j : Job) : List Addr := j.view.region ++ (scratch j.heap j.room).region

/-- The call: /repo/src/lib.rs:1810-1837, 1719-1748 and the unstable sorts. -/
def Job.prog (st : Style) (cfg : Cfg) (al : Alloc) (j : Job) : Prog α (st.Q α κ) (st.A κ) Unit :=
  match j.kind with
  | .stable => sortStable st cfg j.view al j.heap
  | .unstable => sortUnstable st cfg j.view
  | .par => parSortStable st cfg j.view j.heap
  | .parUnstable => parSortUnstable st cfg j.view

/-- Calls made at the same time, as `rayon::join` nests them (`par_iter` over the rows splits them like this, too).  User code; not part of /repo. -/
inductive Jobs where
  | one (j : Job)
  | both (l r : Jobs)

namespace Jobs

/-- All the calls. -/
def list : Jobs → List Job
  | one j => [j]
  | both l r => l.list ++ r.list

/-- All the memory they need. -/
def cells : Jobs → List Addr
  | one j => j.cells
  | both l r => l.cells ++ r.cells

/-- The program. -/
def prog (st : Style) (cfg : Cfg) (al : Alloc) : Jobs → Prog α (st.Q α κ) (st.A κ) Unit
  | one j => j.prog st cfg al
  | both l r => do
    let _ ← Prog.rayonJoin (l.prog st cfg al) (r.prog st cfg al)
    pure ()

/-- `P` about each array, `xs` and `ys` being the contents of `cells` before and after. -/
def Each (P : Job → List α → List α → Prop) : Jobs → List α → List α → Prop
  | one j, xs, ys => P j (xs.take j.view.len) (ys.take j.view.len)
  | both l r, xs, ys => l.Each P (xs.take l.cells.length) (ys.take l.cells.length) ∧ r.Each P (xs.drop l.cells.length) (ys.drop l.cells.length)

theorem Each.mono {P P' : Job → List α → List α → Prop} {t : Jobs} {xs ys : List α} (h : t.Each P xs ys) (hP : ∀ j xs ys, P j xs ys → P' j xs ys) :
    t.Each P' xs ys := by
  induction t generalizing xs ys with
  | one j => exact hP _ _ _ h
  | both l r ihl ihr => exact ⟨ihl h.1, ihr h.2⟩

theorem Each.get {P : Job → List α → List α → Prop} {t : Jobs} {m m' : Mem α} (h : t.Each P (t.cells.map m) (t.cells.map m')) :
    ∀ j ∈ t.list, P j (j.view.contents m) (j.view.contents m') := by
  induction t with
  | one i =>
    intro j hj
    rw [list, List.mem_singleton] at hj
    subst hj
    unfold Each cells Job.cells at h
    rwa [View.contents_eq_take, View.contents_eq_take] at h
  | both l r ihl ihr =>
    intro j hj
    unfold Each at h
    rw [show (both l r).cells = l.cells ++ r.cells from rfl, List.map_append, List.map_append, List.take_left' (by simp), List.take_left' (by simp), List.drop_left' (by simp), List.drop_left' (by simp)] at h
    rcases List.mem_append.mp hj with hj | hj
    · exact ihl h.1 j hj
    · exact ihr h.2 j hj

end Jobs

/-- What a sort does to its array. -/
def JobOk (C : Cmp α ι ω) (j : Job) (xs ys : List α) : Prop :=
  ys.Perm xs ∧ ∀ lt, C.Good lt → Sorted lt ys ∧ (j.kind.isStable = true → StableArr lt xs ys)

theorem Job.tri (st : Style) (R : st.Q α κ → Option (st.A κ) → Prop) {cfg : Cfg} {al : Alloc} (hal : al.Succeeds) (hz : cfg.zst = true → Subsingleton α)
    (j : Job) {xs : List α} (hx : xs.length = j.view.len) :
    TriS R j.view.region (scratch j.heap j.room).region (j.prog st cfg al) xs (fun _ ys => JobOk (st.toCmp R) j xs ys) (EP (st.toCmp R) xs) := by
  obtain ⟨v, k, heap⟩ := j
  cases k with
  | stable =>
    refine (stableSort_spec (C := st.toCmp R) (cfg := cfg) (v := v) (buf := scratch heap (v.len / 2)) (hal.grows _) hz hx (Nat.le_refl _)).mono
      (fun _ ys _ h => ⟨h.1, fun lt hg => ⟨(h.2 lt hg).1, fun _ => (h.2 lt hg).2⟩⟩) (fun e ys _ h => ?_)
    rcases h with h | ⟨-, -, h | h, -⟩
    · exact h
    · rw [hal.1] at h; cases h
    · rw [hal.2] at h; cases h
  | unstable =>
    exact TriS.of_tri ((quickSort_spec (C := st.toCmp R) (cfg := cfg) (v := v) hz hx).mono
      (fun _ ys _ h => ⟨h.1, fun lt hg => ⟨h.2 lt hg, fun h => by cases h⟩⟩) (fun _ _ _ h => h))
  | par =>
    exact (parMergeSort_spec (C := st.toCmp R) (cfg := cfg) (v := v) (buf := scratch heap v.len) hx hz rfl).mono
      (fun _ ys _ h => ⟨h.1, fun lt hg => ⟨(h.2 lt hg).1, fun _ => (h.2 lt hg).2⟩⟩) (fun _ _ _ h => h)
  | parUnstable =>
    exact TriS.of_tri ((parQuickSort_spec (C := st.toCmp R) (cfg := cfg) (v := v) hz hx).mono
      (fun _ ys _ h => ⟨h.1, fun lt hg => ⟨h.2 lt hg, fun h => by cases h⟩⟩) (fun _ _ _ h => h))

theorem Jobs.tri (st : Style) (R : st.Q α κ → Option (st.A κ) → Prop) {cfg : Cfg} {al : Alloc} (hal : al.Succeeds) (hz : cfg.zst = true → Subsingleton α)
    (t : Jobs) {xs : List α} (hx : xs.length = t.cells.length) :
    Tri R t.cells (t.prog st cfg al) xs (fun _ ys => t.Each (JobOk (st.toCmp R)) xs ys)
      (fun e ys => e = .user ∧ (st.toCmp R).pan ∧ t.Each (fun _ xs ys => ys.Perm xs) xs ys) := by
  induction t generalizing xs with
  | one j =>
    have hl : j.view.len ≤ xs.length := by rw [hx, cells, Job.cells]; simp
    have h := Job.tri st R hal hz j (xs := xs.take j.view.len) (by simp [hl]) (xs.drop j.view.len) (by rw [List.length_drop, hx, cells, Job.cells]; simp)
    rw [List.take_append_drop] at h
    refine h.mono ?_ ?_
    · rintro _ _ _ ⟨ys, bs, h1, h2, rfl, h3⟩
      unfold Each
      rwa [List.take_left' (by rw [h1]; simp [hl])]
    · rintro _ _ _ ⟨ys, bs, h1, h2, rfl, h3⟩
      refine ⟨h3.1, h3.2.1, ?_⟩
      unfold Each
      rw [List.take_left' (by rw [h1]; simp [hl])]
      exact h3.2.2
  | both l r ihl ihr =>
    rw [cells, List.length_append] at hx
    have hl : (xs.take l.cells.length).length = l.cells.length := by rw [List.length_take]; omega
    have hr : (xs.drop l.cells.length).length = r.cells.length := by rw [List.length_drop]; omega
    have join : ∀ {P : Job → List α → List α → Prop} {A' B' : List α}, A'.length = (xs.take l.cells.length).length →
        l.Each P (xs.take l.cells.length) A' → r.Each P (xs.drop l.cells.length) B' → (both l r).Each P xs (A' ++ B') := by
      intro P A' B' h h1 h2
      unfold Each
      rw [List.take_left' (by rw [h, hl]), List.drop_left' (by rw [h, hl])]
      exact ⟨h1, h2⟩
    have perm : ∀ {t : Jobs} {A B : List α}, t.Each (JobOk (st.toCmp R)) A B → t.Each (fun _ xs ys => ys.Perm xs) A B :=
      fun h => h.mono fun _ _ _ h => h.1
    have h := Tri.rayonJoin (Q := fun _ ys => (both l r).Each (JobOk (st.toCmp R)) xs ys)
      (E := fun e ys => e = .user ∧ (st.toCmp R).pan ∧ (both l r).Each (fun _ xs ys => ys.Perm xs) xs ys) hl (ihl hl) (ihr hr)
      (fun _ _ A' B' h1 _ h3 h4 => join h1 h3 h4)
      (fun _ _ A' B' h1 _ h3 h4 => ⟨h3.1, h3.2.1, join h1 h3.2.2 (perm h4)⟩)
      (fun _ _ A' B' h1 _ h3 h4 => ⟨h4.1, h4.2.1, join h1 (perm h3) h4.2.2⟩)
      (fun _ _ A' B' h1 _ h3 h4 => ⟨h3.1, h3.2.1, join h1 h3.2.2 h4.2.2⟩)
    rw [List.take_append_drop] at h
    exact h.bind fun _ _ _ h => Tri.pure h

theorem Jobs.always (st : Style) (o : Oracle σ (st.Q α κ) (st.A κ)) {cfg : Cfg} {al : Alloc} (hal : al.Succeeds) (hz : cfg.zst = true → Subsingleton α)
    {t : Jobs} (nd : t.cells.Nodup) (s : St α (st.Q α κ) (st.A κ) σ) :
    Always o (t.prog st cfg al) s
      (fun _ m => (∀ j ∈ t.list, JobOk (st.toCmp (rel o)) j (j.view.contents s.mem) (j.view.contents m)) ∧ ∀ a, a ∉ t.cells → m a = s.mem a)
      (fun e m => e = .user ∧ (st.toCmp (rel o)).pan ∧ (∀ j ∈ t.list, (j.view.contents m).Perm (j.view.contents s.mem)) ∧
        ∀ a, a ∉ t.cells → m a = s.mem a) := by
  refine ⟨fun p' s' hs => ?_, sched_terminates o _⟩
  obtain ⟨h1, h2, h3, h4⟩ := sched_sound (rel_sat o) hs (Jobs.tri st (rel o) hal hz t (xs := t.cells.map s.mem) (by simp) s.mem s.log nd rfl)
  refine ⟨h1, h2, ?_⟩
  rcases h4 with h4 | ⟨b, lg, rfl, _, h4⟩ | ⟨e, lg, rfl, _, h4⟩
  · exact .inl h4
  · exact .inr (.inl ⟨b, rfl, h4.get, h3⟩)
  · exact .inr (.inr ⟨e, rfl, h4.1, h4.2.1, h4.2.2.get, h3⟩)

/-- C95: sorts called at the same time on arrays without a common element, with buffers of their own: on every schedule there is neither a race nor
undefined behaviour nor a deadlock, each array ends up sorted, stably by the stable sorts, and nothing else is changed but the buffers. -/
theorem sorts_at_once (st : Style) {cfg : Cfg} {lt : α → α → Bool} (so : SWO lt) {o : Oracle σ (st.Q α κ) (st.A κ)} (ho : Agrees st o lt)
    {al : Alloc} (hal : al.Succeeds) (hz : cfg.zst = true → Subsingleton α) {t : Jobs} (nd : t.cells.Nodup) (s : St α (st.Q α κ) (st.A κ) σ) :
    Always o (t.prog st cfg al) s
      (fun _ m => (∀ j ∈ t.list, Sorted lt (j.view.contents m) ∧ (j.view.contents m).Perm (j.view.contents s.mem) ∧
          (j.kind.isStable = true → StableSortOf lt (j.view.contents s.mem) (j.view.contents m))) ∧ ∀ a, a ∉ t.cells → m a = s.mem a)
      (fun _ _ => False) := by
  refine (Jobs.always st o hal hz nd s).mono (fun _ m h => ⟨fun j hj => ?_, h.2⟩) (fun _ _ h => pan_iff (noPanic_of_agrees ho) h.2.1)
  obtain ⟨h1, h2⟩ := h.1 j hj
  obtain ⟨h3, h4⟩ := h2 lt (good_of_agrees ho so)
  exact ⟨h3, h1, fun hs => ⟨h3, h1, h4 hs⟩⟩

/-- C95 with any user code: the arrays stay permutations of themselves, also those sorted by other threads when a call of user code panics. -/
theorem sorts_at_once_safe (st : Style) {cfg : Cfg} (o : Oracle σ (st.Q α κ) (st.A κ)) {al : Alloc} (hal : al.Succeeds)
    (hz : cfg.zst = true → Subsingleton α) {t : Jobs} (nd : t.cells.Nodup) (s : St α (st.Q α κ) (st.A κ) σ) :
    Always o (t.prog st cfg al) s
      (fun _ m => (∀ j ∈ t.list, (j.view.contents m).Perm (j.view.contents s.mem)) ∧ ∀ a, a ∉ t.cells → m a = s.mem a)
      (fun e m => e = .user ∧ ¬ NoPanic o ∧ (∀ j ∈ t.list, (j.view.contents m).Perm (j.view.contents s.mem)) ∧ ∀ a, a ∉ t.cells → m a = s.mem a) :=
  (Jobs.always st o hal hz nd s).mono (fun _ _ h => ⟨fun j hj => (h.1 j hj).1, h.2⟩)
    (fun _ _ h => ⟨h.1, fun hn => pan_iff hn h.2.1, h.2.2.1, h.2.2.2⟩)

/-! ### The hypotheses can be met -/

namespace Sample

/-- The columns of a matrix with 30 rows and 4 columns in row-major order, the last one upwards; one sort each. -/
def columns : Jobs :=
  .both (.both (.one ⟨⟨0, 4, 30⟩, .stable, 1000⟩) (.one ⟨⟨1, 4, 30⟩, .unstable, 0⟩))
    (.both (.one ⟨⟨2, 4, 30⟩, .par, 2000⟩) (.one ⟨⟨119, -4, 30⟩, .parUnstable, 0⟩))

set_option maxRecDepth 100000 in
theorem columns_nodup : columns.cells.Nodup := by decide

example (st : Style) := sorts_at_once (cfg := cfg) st swo (agrees st) alloc_succeeds notZst columns_nodup (state st)
example (st : Style) := sorts_at_once_safe (cfg := cfg) st (nonsense st) alloc_succeeds notZst columns_nodup (nstate st)

end Sample

end NdSlice
