import Verif.Props.SelectRows
import Verif.Props.Cached

/-
Several arrays sorted at the same time by `sort_by_cached_key` and `par_sort_by_cached_key` (C95), see also Verif/Props/Rows.lean.
-/

namespace NdSlice

open Style

variable {α κ σ : Type}

/-- A call of `par_sort_by_cached_key` or, if not `par`, of `sort_by_cached_key`: /repo/src/lib.rs:1749-1808 and 1838-1890. -/
def cachedSort (cfg : Cfg) (sz : Sizes) (srt : PairSort α κ) (v : View) (par : Bool) : Prog α (KeyQ α κ) (κ × Bool) Unit :=
  if par then parSortByCachedKey cfg sz srt v else sortByCachedKey cfg sz srt v

theorem cachedSort_spec {cfg : Cfg} {sz : Sizes} {srt : PairSort α κ} (hs : SortsPairs srt) {R : KeyQ α κ → Option (κ × Bool) → Prop} {v : View} {par : Bool}
    {xs : List α} (hx : xs.length = v.len) (hw : v.len ≤ 2 ^ cfg.bits) :
    Tri R v.region (cachedSort cfg sz srt v par) xs
      (fun _ ys => ys.Perm xs ∧
        ∀ (f : α → κ) klt, (∀ x a, R (.key x) (some a) → a.1 = f x) → SWO klt → LtIs R klt → StableSortOf (fun x y => klt (f x) (f y)) xs ys)
      (fun e ys => ys = xs ∧ ((e = .user ∧ ∃ x ∈ xs, R (.key x) none) ∨ PairPanic R e)) := by
  unfold cachedSort
  cases par with
  | true =>
    refine TriL.tri ((parSortByCachedKey_spec hs hx hw).mono (fun _ _ _ _ h => ⟨h.2.1, h.2.2.1⟩) (fun _ _ _ _ h => ⟨h.2.1, ?_⟩))
    exact h.2.2.imp (fun h => ⟨h.1, h.2.1⟩) (fun h => h.1)
  | false =>
    refine TriL.tri ((sortByCachedKey_spec hs hx hw).mono (fun _ _ _ _ h => ⟨h.2.1, h.2.2.1⟩) (fun _ _ _ _ h => ⟨h.2.1, ?_⟩))
    refine h.2.2.imp (fun h => ⟨h.1, ?_⟩) (fun h => h.1)
    obtain ⟨A, x, B, as, rfl, h3, -⟩ := h.2
    exact ⟨x, by simp, h3⟩

/-- C95: `sort_by_cached_key` and `par_sort_by_cached_key`, in any mixture, called at the same time on arrays without a common element: on every schedule there is
neither a race nor undefined behaviour nor a deadlock, each array ends up sorted stably, and nothing else is changed. -/
theorem cached_sorts_at_once {cfg : Cfg} {sz : Sizes} {srt : PairSort α κ} (hs : SortsPairs srt) {o : Oracle σ (KeyQ α κ) (κ × Bool)} {f : α → κ}
    {klt : κ → κ → Bool} (ho : KeyAgrees o f klt) (so : SWO klt) {t : Tree (View × Bool)} (nd : (t.cells fun j => j.1.region).Nodup)
    (hw : ∀ j ∈ t.list, j.1.len ≤ 2 ^ cfg.bits) (s : St α (KeyQ α κ) (κ × Bool) σ) :
    Always o (t.atOnce fun j => cachedSort cfg sz srt j.1 j.2) s
      (fun _ m => (∀ j ∈ t.list, StableSortOf (fun x y => klt (f x) (f y)) (j.1.contents s.mem) (j.1.contents m)) ∧
        ∀ a, a ∉ t.cells (fun j => j.1.region) → m a = s.mem a)
      (fun _ _ => False) := by
  refine (Tree.always (vw := Prod.fst) (I := fun _ _ _ => True) (E := fun _ _ => False)
    (Q := fun _ _ xs ys => StableSortOf (fun x y => klt (f x) (f y)) xs ys)
    (fun _ _ _ _ _ => trivial) nd (fun j hj xs hx => ?_) s).mono (fun us m h => ⟨fun j hj => ?_, h.2⟩) (fun _ _ h => by obtain ⟨⟨_, _, h⟩, -⟩ := h; exact h)
  · refine (cachedSort_spec hs hx (hw j hj)).mono (fun _ _ _ h => h.2 f klt (fun x a h => ho.rel_key h) so ho.ltIs) (fun _ _ _ h => ?_)
    rcases h.2 with ⟨-, x, -, e, he⟩ | h
    · exact (ho.noPanic e _ he).elim
    · exact (not_pairPanic ho so h).elim
  · obtain ⟨i, hi, rfl⟩ := List.mem_iff_getElem.mp hj
    exact h.1.get (i := i) hi (by rw [← h.1.length_eq]; exact hi)

/-- C95 with any user code: each array stays a permutation of itself; if a call panics, this is a panic of user code or of the sort of the keys. -/
theorem cached_sorts_at_once_safe {cfg : Cfg} {sz : Sizes} {srt : PairSort α κ} (hs : SortsPairs srt) (o : Oracle σ (KeyQ α κ) (κ × Bool))
    {t : Tree (View × Bool)} (nd : (t.cells fun j => j.1.region).Nodup) (hw : ∀ j ∈ t.list, j.1.len ≤ 2 ^ cfg.bits) (s : St α (KeyQ α κ) (κ × Bool) σ) :
    Always o (t.atOnce fun j => cachedSort cfg sz srt j.1 j.2) s
      (fun _ m => (∀ j ∈ t.list, (j.1.contents m).Perm (j.1.contents s.mem)) ∧ ∀ a, a ∉ t.cells (fun j => j.1.region) → m a = s.mem a)
      (fun e m => ((e = .user ∧ ∃ x, rel o (.key x) none) ∨ PairPanic (rel o) e) ∧
        (∀ j ∈ t.list, (j.1.contents m).Perm (j.1.contents s.mem)) ∧ ∀ a, a ∉ t.cells (fun j => j.1.region) → m a = s.mem a) := by
  refine (Tree.always (vw := Prod.fst) (I := fun _ xs ys => ys.Perm xs) (E := fun _ e => (e = .user ∧ ∃ x, rel o (.key x) none) ∨ PairPanic (rel o) e)
    (Q := fun _ _ xs ys => ys.Perm xs)
    (fun _ _ _ _ h => h) nd (fun j hj xs hx => ?_) s).mono (fun us m h => ⟨fun j hj => ?_, h.2⟩) (fun _ _ h => by obtain ⟨⟨_, _, h1⟩, h2⟩ := h; exact ⟨h1, h2⟩)
  · refine (cachedSort_spec hs hx (hw j hj)).mono (fun _ _ _ h => h.1) (fun _ _ _ h => ⟨?_, h.1 ▸ .refl _⟩)
    exact h.2.imp (fun h => ⟨h.1, h.2.imp fun _ h => h.2⟩) id
  · obtain ⟨i, hi, rfl⟩ := List.mem_iff_getElem.mp hj
    exact h.1.get (i := i) hi (by rw [← h.1.length_eq]; exact hi)

/-! ### The hypotheses can be met -/

namespace Sample

/-- The columns of a matrix with 30 rows and 3 columns in row-major order, the last one upwards; one of the sorts is not parallel. -/
def cachedColumns : Tree (View × Bool) := .both (.one (⟨0, 3, 30⟩, true)) (.both (.one (⟨1, 3, 30⟩, false)) (.one (⟨89, -3, 30⟩, true)))

theorem cachedColumns_nodup : (cachedColumns.cells fun j => j.1.region).Nodup := threeColumns_nodup ()

theorem cachedColumns_small : ∀ j ∈ cachedColumns.list, j.1.len ≤ 2 ^ cfg.bits := by
  intro j hj
  simp only [cachedColumns, Tree.list, List.cons_append, List.nil_append, List.mem_cons, List.not_mem_nil, or_false] at hj
  rcases hj with rfl | rfl | rfl <;> decide

example := cached_sorts_at_once (cfg := cfg) (sz := sizes) pairSort_sorts keyAgrees swo cachedColumns_nodup cachedColumns_small keyState
example := cached_sorts_at_once_safe (cfg := cfg) (sz := sizes) pairSort_sorts (nonsense .key) cachedColumns_nodup cachedColumns_small (nstate .key)

end Sample

end NdSlice
