import Verif.Props.Rows
import Verif.Props.SelectRows

/-
Sorts and selections at the same time, in any mixture (C98), see also Verif/Props/Rows.lean and Verif/Props/SelectRows.lean.
-/

namespace NdSlice

open Style

variable {α κ σ : Type}

/-- The method a thread calls. -/
inductive Op where
  | sort (kind : SortKind) (heap : Addr)
  | nth (k : Nat)
  | many (is : List Nat)
  | parMany (is : List Nat) (extra : Nat)

namespace Op

/-- The buffer of the call, if any. -/
def buffer (v : View) : Op → List Addr
  | sort kind heap => (scratch heap (Job.room ⟨v, kind, heap⟩)).region
  | nth _ => []
  | many _ => []
  | parMany _ _ => []

/-- The call, without its result: the methods of `Job.prog`, /repo/src/lib.rs:1719-1748, 1810-1837, 1892-1946, and the selections, 1972-2133. -/
def prog (st : Style) (cfg : Cfg) (al : Alloc) (v : View) : Op → Prog α (st.Q α κ) (st.A κ) Unit
  | sort kind heap => Job.prog st cfg al ⟨v, kind, heap⟩
  | nth k => do
    let _ ← selectNthUnstable st cfg v k
    pure ()
  | many is => do
    let _ ← selectManyNthUnstable st cfg v is
    pure ()
  | parMany is extra => do
    let _ ← parSelectManyNthUnstable st cfg v is extra
    pure ()

/-- The arguments are good. -/
def Good (n : Nat) : Op → Prop
  | sort _ _ => True
  | nth k => k < n
  | many is => GoodIndices n is
  | parMany is _ => GoodIndices n is

/-- What the method promises: `xs` and `ys` are the contents of the array before and after. -/
def Done (lt : α → α → Bool) (xs ys : List α) : Op → Prop
  | sort kind _ => Sorted lt ys ∧ (kind.isStable = true → StableSortOf lt xs ys)
  | nth k => SelectedAt lt k ys
  | many is => ∀ i ∈ is, SelectedAt lt i ys
  | parMany is _ => ∀ i ∈ is, SelectedAt lt i ys

/-- How a call may panic. -/
def MayPanic (noPanic : Prop) (cfg : Cfg) (n : Nat) (e : Panic) (op : Op) : Prop :=
  (e = .user ∧ ¬ noPanic) ∨ (e = .debugAssert ∧ cfg.dbg = true ∧ ∀ kind heap, op ≠ sort kind heap) ∨
    (¬ op.Good n ∧ (e = .index ∨ (e = .overflow ∧ cfg.dbg = true)))

end Op

theorem Op.tri (st : Style) (o : Oracle σ (st.Q α κ) (st.A κ)) {cfg : Cfg} {al : Alloc} (hal : al.Succeeds) (hz : cfg.zst = true → Subsingleton α) {v : View}
    (hb : 2 * v.len ≤ 2 ^ cfg.bits) (op : Op) {xs : List α} (hx : xs.length = (v.region ++ op.buffer v).length) :
    Tri (rel o) (v.region ++ op.buffer v) (op.prog st cfg al v) xs
      (fun _ ys => (ys.take v.len).Perm (xs.take v.len) ∧ op.Good v.len ∧
        ∀ lt, SWO lt → Agrees st o lt → op.Done lt (xs.take v.len) (ys.take v.len))
      (fun e ys => op.MayPanic (NoPanic o) cfg v.len e ∧ (ys.take v.len).Perm (xs.take v.len)) := by
  cases op with
  | sort kind heap =>
    have hl : v.len ≤ xs.length := by rw [hx]; simp
    have h := Job.tri st (rel o) hal hz ⟨v, kind, heap⟩ (xs := xs.take v.len) (by simp [hl]) (xs.drop v.len)
      (by rw [List.length_drop, hx, Op.buffer]; simp)
    rw [List.take_append_drop] at h
    refine h.mono ?_ ?_
    · rintro _ _ _ ⟨ys, bs, h1, h2, rfl, h3, h4⟩
      rw [List.take_left' (by rw [h1]; simp [hl])]
      exact ⟨h3, trivial, fun lt so ho => ⟨(h4 lt (good_of_agrees ho so)).1, fun hs => ⟨(h4 lt (good_of_agrees ho so)).1, h3, (h4 lt (good_of_agrees ho so)).2 hs⟩⟩⟩
    · rintro _ _ _ ⟨ys, bs, h1, h2, rfl, h3⟩
      rw [List.take_left' (by rw [h1]; simp [hl])]
      exact ⟨.inl ⟨h3.1, fun hn => pan_iff hn h3.2.1⟩, h3.2.2⟩
  | nth k =>
    rw [Op.buffer, List.append_nil] at hx ⊢
    have hl : xs.length = v.len := by rw [hx]; simp
    by_cases hk : k < v.len
    · refine ((partitionAtIndex_spec (st.toCmp (rel o)) (cfg := cfg) (v := v) hz hl hk).mono (Q' := fun _ ys => ys.length = xs.length ∧ ys.Perm xs ∧
        ∀ lt, (st.toCmp (rel o)).Good lt → SelectedAt lt k ys) (fun _ _ hl' h => ⟨hl', h.2⟩) (fun e ys hl' h => ?_)).bind fun _ ys _ h => Tri.pure ?_
      · rw [List.take_of_length_le (by omega), List.take_of_length_le (by omega)]
        refine ⟨?_, h.2⟩
        rcases h.1 with h | h
        · exact .inl ⟨h.1, fun hn => pan_iff hn h.2⟩
        · exact .inr (.inl ⟨h.1, h.2, fun _ _ h => by cases h⟩)
      · rw [List.take_of_length_le (by omega), List.take_of_length_le (by omega)]
        exact ⟨h.2.1, hk, fun lt so ho => h.2.2 lt (good_of_agrees ho so)⟩
    · rw [Op.prog]
      unfold selectNthUnstable partitionAtIndex
      rw [if_pos (Nat.le_of_not_lt hk)]
      exact Tri.throw ⟨.inr (.inr ⟨hk, .inl rfl⟩), .refl _⟩
  | many is =>
    rw [Op.buffer, List.append_nil] at hx ⊢
    have hl : xs.length = v.len := by rw [hx]; simp
    refine ((selectMany_spec (st.toCmp (rel o)) (cfg := cfg) (v := v) hz (is := is) hl hb).mono (Q' := fun _ ys => ys.length = xs.length ∧ ValidIdx 0 v.len is ∧ ys.Perm xs ∧
        ∀ lt, (st.toCmp (rel o)).Good lt → ∀ i ∈ is, SelectedAt lt i ys) (fun _ _ hl' h => ⟨hl', h.1, h.2.2⟩) (fun e ys hl' h => ?_)).bind fun _ ys _ h => Tri.pure ?_
    · rw [List.take_of_length_le (by omega), List.take_of_length_le (by omega)]
      refine ⟨?_, h.1⟩
      rcases h.2 with h | h | h
      · exact .inl ⟨h.1, fun hn => pan_iff hn h.2⟩
      · exact .inr (.inl ⟨h.1, h.2, fun _ _ h => by cases h⟩)
      · exact .inr (.inr ⟨fun hg => h.1 (validIdx_iff.mpr hg), h.2⟩)
    · rw [List.take_of_length_le (by omega), List.take_of_length_le (by omega)]
      exact ⟨h.2.2.1, validIdx_iff.mp h.2.1, fun lt so ho => h.2.2.2 lt (good_of_agrees ho so)⟩
  | parMany is extra =>
    rw [Op.buffer, List.append_nil] at hx ⊢
    have hl : xs.length = v.len := by rw [hx]; simp
    refine ((parSelectMany_spec (st.toCmp (rel o)) (cfg := cfg) (v := v) hz (is := is) hl hb (Nat.le_add_right is.length extra)).mono
      (Q' := fun _ ys => ys.length = xs.length ∧ ValidIdx 0 v.len is ∧ ys.Perm xs ∧ ∀ lt, (st.toCmp (rel o)).Good lt → ∀ i ∈ is, SelectedAt lt i ys)
      (fun _ _ hl' h => ⟨hl', h.1, h.2.2⟩) (fun e ys hl' h => ?_)).bind fun _ ys _ h => Tri.pure ?_
    · rw [List.take_of_length_le (by omega), List.take_of_length_le (by omega)]
      refine ⟨?_, h.1⟩
      rcases h.2 with h | h | h
      · exact .inl ⟨h.1, fun hn => pan_iff hn h.2⟩
      · exact .inr (.inl ⟨h.1, h.2, fun _ _ h => by cases h⟩)
      · exact .inr (.inr ⟨fun hg => h.1 (validIdx_iff.mpr hg), h.2⟩)
    · rw [List.take_of_length_le (by omega), List.take_of_length_le (by omega)]
      exact ⟨h.2.2.1, validIdx_iff.mp h.2.1, fun lt so ho => h.2.2.2 lt (good_of_agrees ho so)⟩

/-- C98 in all builds with any user code and any indices: sorts and selections called at the same time, in any mixture, on arrays without a common element, with buffers
of their own.  On every schedule there is neither a race nor undefined behaviour nor a deadlock.  Each array stays a permutation of itself, also when some call
panics, and nothing else is changed but the buffers.  At a normal end the indices were good, and with a consistent comparator each method has done what it promises. -/
theorem mixture_at_once_safe (st : Style) {cfg : Cfg} (o : Oracle σ (st.Q α κ) (st.A κ)) {al : Alloc} (hal : al.Succeeds) (hz : cfg.zst = true → Subsingleton α)
    {t : Tree (View × Op)} (nd : (t.cells fun j => j.1.region ++ j.2.buffer j.1).Nodup) (hb : ∀ j ∈ t.list, 2 * j.1.len ≤ 2 ^ cfg.bits)
    (s : St α (st.Q α κ) (st.A κ) σ) :
    Always o (t.atOnce fun j => j.2.prog st cfg al j.1) s
      (fun _ m => (∀ j ∈ t.list, (j.1.contents m).Perm (j.1.contents s.mem) ∧ j.2.Good j.1.len ∧
          ∀ lt, SWO lt → Agrees st o lt → j.2.Done lt (j.1.contents s.mem) (j.1.contents m)) ∧
        ∀ a, a ∉ t.cells (fun j => j.1.region ++ j.2.buffer j.1) → m a = s.mem a)
      (fun e m => (∃ j ∈ t.list, j.2.MayPanic (NoPanic o) cfg j.1.len e) ∧ (∀ j ∈ t.list, (j.1.contents m).Perm (j.1.contents s.mem)) ∧
        ∀ a, a ∉ t.cells (fun j => j.1.region ++ j.2.buffer j.1) → m a = s.mem a) := by
  have hc : ∀ (j : View × Op) (m : Mem α), ((j.1.region ++ j.2.buffer j.1).map m).take j.1.len = j.1.contents m := by
    intro j m
    rw [List.map_append, List.take_left' (by simp), View.contents]
  refine ⟨fun p' s' hs => ?_, sched_terminates o _⟩
  obtain ⟨h1, h2, h3, h4⟩ := sched_sound (rel_sat o) hs
    (Tree.tri (rg := fun j : View × Op => j.1.region ++ j.2.buffer j.1) (I := fun j xs ys => (ys.take j.1.len).Perm (xs.take j.1.len)) (fun _ _ _ _ h => h.1)
      (fun j hj xs hx => Op.tri st o hal hz (hb j hj) j.2 hx) (xs := (t.cells fun j => j.1.region ++ j.2.buffer j.1).map s.mem) (by simp) s.mem s.log nd rfl)
  refine ⟨h1, h2, ?_⟩
  rcases h4 with h4 | ⟨b, lg, rfl, _, h4⟩ | ⟨e, lg, rfl, _, h5, us, h6⟩
  · exact .inl h4
  · refine .inr (.inl ⟨b, rfl, fun j hj => ?_, h3⟩)
    obtain ⟨i, hi, rfl⟩ := List.mem_iff_getElem.mp hj
    have h6 := h4.get
    have h7 := h6.get (i := i) hi (by rw [← h6.length_eq]; exact hi)
    rwa [hc, hc] at h7
  · refine .inr (.inr ⟨e, rfl, h5, fun j hj => ?_, h3⟩)
    obtain ⟨i, hi, rfl⟩ := List.mem_iff_getElem.mp hj
    have h6 := h6.get
    have h7 := h6.get (i := i) hi (by rw [← h6.length_eq]; exact hi)
    rwa [hc, hc] at h7

/-- C98 (release builds) with a consistent comparator and good indices: no call panics, and each method does what it promises. -/
theorem mixture_at_once (st : Style) {cfg : Cfg} {lt : α → α → Bool} (so : SWO lt) {o : Oracle σ (st.Q α κ) (st.A κ)} (ho : Agrees st o lt) {al : Alloc}
    (hal : al.Succeeds) (hz : cfg.zst = true → Subsingleton α) (hdbg : cfg.dbg = false) {t : Tree (View × Op)}
    (nd : (t.cells fun j => j.1.region ++ j.2.buffer j.1).Nodup) (hb : ∀ j ∈ t.list, 2 * j.1.len ≤ 2 ^ cfg.bits) (hg : ∀ j ∈ t.list, j.2.Good j.1.len)
    (s : St α (st.Q α κ) (st.A κ) σ) :
    Always o (t.atOnce fun j => j.2.prog st cfg al j.1) s
      (fun _ m => (∀ j ∈ t.list, (j.1.contents m).Perm (j.1.contents s.mem) ∧ j.2.Done lt (j.1.contents s.mem) (j.1.contents m)) ∧
        ∀ a, a ∉ t.cells (fun j => j.1.region ++ j.2.buffer j.1) → m a = s.mem a)
      (fun _ _ => False) := by
  refine (mixture_at_once_safe st o hal hz nd hb s).mono (fun _ m h => ⟨fun j hj => ⟨(h.1 j hj).1, (h.1 j hj).2.2 lt so ho⟩, h.2⟩) ?_
  rintro e m ⟨⟨j, hj, h | h | h⟩, -⟩
  · exact h.2 (noPanic_of_agrees ho)
  · rw [hdbg] at h; exact Bool.false_ne_true h.2.1
  · exact h.1 (hg j hj)

/-! ### The hypotheses can be met -/

namespace Sample

/-- The columns of a matrix with 30 rows and 5 columns in row-major order, the last one upwards; each treated by another method. -/
def mixture : Tree (View × Op) :=
  .both (.both (.one (⟨0, 5, 30⟩, .sort .stable 1000)) (.one (⟨1, 5, 30⟩, .nth 15)))
    (.both (.both (.one (⟨2, 5, 30⟩, .many [3, 15, 29])) (.one (⟨3, 5, 30⟩, .sort .par 2000))) (.one (⟨149, -5, 30⟩, .parMany [0, 7] 3)))

set_option maxRecDepth 100000 in
theorem mixture_nodup : (mixture.cells fun j => j.1.region ++ j.2.buffer j.1).Nodup := by decide

theorem mixture_all {P : View × Op → Prop} (h1 : P (⟨0, 5, 30⟩, .sort .stable 1000)) (h2 : P (⟨1, 5, 30⟩, .nth 15)) (h3 : P (⟨2, 5, 30⟩, .many [3, 15, 29]))
    (h4 : P (⟨3, 5, 30⟩, .sort .par 2000)) (h5 : P (⟨149, -5, 30⟩, .parMany [0, 7] 3)) : ∀ j ∈ mixture.list, P j := by
  intro j hj
  simp only [mixture, Tree.list, List.cons_append, List.nil_append, List.mem_cons, List.not_mem_nil, or_false] at hj
  rcases hj with rfl | rfl | rfl | rfl | rfl <;> assumption

theorem mixture_small {cfg : Cfg} (h : cfg.bits = 64) : ∀ j ∈ mixture.list, 2 * j.1.len ≤ 2 ^ cfg.bits := by
  rw [h]
  exact mixture_all (P := fun j => 2 * j.1.len ≤ 2 ^ 64) (by decide) (by decide) (by decide) (by decide) (by decide)

theorem mixture_good : ∀ j ∈ mixture.list, j.2.Good j.1.len :=
  mixture_all (P := fun j => j.2.Good j.1.len) trivial (by show 15 < 30; decide) (by show GoodIndices 30 _; unfold GoodIndices; decide) trivial
    (by show GoodIndices 30 _; unfold GoodIndices; decide)

example (st : Style) := mixture_at_once_safe (cfg := cfg) st (nonsense st) alloc_succeeds notZst mixture_nodup (mixture_small rfl) (nstate st)
example (st : Style) := mixture_at_once (cfg := release) st swo (agrees st) alloc_succeeds notZst rfl mixture_nodup (mixture_small rfl) mixture_good (state st)

end Sample

end NdSlice
