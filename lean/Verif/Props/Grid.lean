import Verif.Props.Rows

/-
The rows of a matrix sorted, then its columns (C101): the rows stay sorted.
-/

namespace NdSlice

open Style

variable {α κ κ' σ σ' : Type}

/-- A matrix with any strides, as `ArrayViewMut2` of ndarray. -/
structure Grid where
  off : Int
  rowStride : Int
  colStride : Int
  rows : Nat
  cols : Nat

namespace Grid

/-- The cell in row `r` and column `c`. -/
def cell (g : Grid) (r c : Nat) : Addr := g.off + g.rowStride * r + g.colStride * c

/-- Row `r` as a view. -/
def row (g : Grid) (r : Nat) : View := ⟨g.off + g.rowStride * r, g.colStride, g.cols⟩

/-- Column `c` as a view. -/
def col (g : Grid) (c : Nat) : View := ⟨g.off + g.colStride * c, g.rowStride, g.rows⟩

theorem row_addr (g : Grid) (r c : Nat) : (g.row r).addr c = g.cell r c := rfl

theorem col_addr (g : Grid) (r c : Nat) : (g.col c).addr r = g.cell r c := by
  unfold View.addr col cell
  exact Int.add_right_comm _ _ _

theorem row_get (g : Grid) (m : Mem α) {r c : Nat} (hc : c < g.cols) : ((g.row r).contents m)[c]? = some (m (g.cell r c)) := by
  rw [View.contents, List.getElem?_map, View.region_get (g.row r) (i := c) hc]
  rfl

theorem col_get (g : Grid) (m : Mem α) {r c : Nat} (hr : r < g.rows) : ((g.col c).contents m)[r]? = some (m (g.cell r c)) := by
  rw [View.contents, List.getElem?_map, View.region_get (g.col c) (i := r) hr, col_addr]
  rfl

end Grid

/-! ### Sorting keeps one sequence below another one -/

theorem countP_le_of_below {lt : α → α → Bool} (so : SWO lt) (x : α) {A B : List α} (h : List.Forall₂ (fun a b => lt b a = false) A B) :
    A.countP (lt x) ≤ B.countP (lt x) := by
  induction h with
  | nil => exact Nat.le_refl _
  | @cons a b A B hab _ ih =>
    rw [List.countP_cons, List.countP_cons]
    cases hb : lt x b with
    | true => cases lt x a <;> simp <;> omega
    | false => rw [so.ntrans _ _ _ hb hab]; simpa using ih

/-- If no element of `B` is less than the one of `A` at the same position, then so it is after sorting both. -/
theorem sorted_below {lt : α → α → Bool} (so : SWO lt) {A B A' B' : List α} (h : List.Forall₂ (fun a b => lt b a = false) A B)
    (pA : A'.Perm A) (pB : B'.Perm B) (sA : Sorted lt A') (sB : Sorted lt B') {i : Nat} {x y : α} (hx : B'[i]? = some x) (hy : A'[i]? = some y) :
    lt x y = false := by
  by_contra hlt
  rw [Bool.not_eq_false] at hlt
  obtain ⟨hiB, rfl⟩ := List.getElem?_eq_some_iff.mp hx
  obtain ⟨hiA, rfl⟩ := List.getElem?_eq_some_iff.mp hy
  have hle := countP_le_of_below so B'[i] h
  rw [← pA.countP_eq, ← pB.countP_eq] at hle
  have hlen : A'.length = B'.length := by rw [pA.length_eq, pB.length_eq, h.length_eq]
  -- all of `A'` from position `i` on is greater
  have h1 : (A'.drop i).countP (lt B'[i]) = A'.length - i := by
    rw [List.countP_eq_length.mpr, List.length_drop]
    intro z hz
    rw [List.drop_eq_getElem_cons hiA] at hz
    have hs : Sorted lt (A'.drop i) := List.Pairwise.sublist (List.drop_sublist _ _) sA
    rw [List.drop_eq_getElem_cons hiA] at hs
    have hzy : lt z A'[i] = false := by
      rcases List.mem_cons.mp hz with rfl | hz
      · exact so.irrefl _
      · exact (List.pairwise_cons.mp hs).1 z hz
    cases hxz : lt B'[i] z with
    | true => rfl
    | false => rw [so.ntrans _ _ _ hxz hzy] at hlt; cases hlt
  -- nothing of `B'` up to position `i` is
  have h2 : (B'.take (i + 1)).countP (lt B'[i]) = 0 := by
    rw [List.countP_eq_zero]
    intro z hz
    rw [List.take_succ_eq_append_getElem hiB] at hz
    have hs : Sorted lt (B'.take (i + 1)) := List.Pairwise.sublist (List.take_sublist _ _) sB
    rw [List.take_succ_eq_append_getElem hiB] at hs
    rcases List.mem_append.mp hz with hz | hz
    · rw [(List.pairwise_append.mp hs).2.2 z hz _ (List.mem_singleton.mpr rfl)]
      exact Bool.false_ne_true
    · rw [List.mem_singleton.mp hz, so.irrefl]
      exact Bool.false_ne_true
  have h3 : A'.countP (lt B'[i]) ≥ A'.length - i := by
    rw [← h1]
    exact List.Sublist.countP_le (List.drop_sublist _ _)
  have h4 : B'.countP (lt B'[i]) ≤ B'.length - (i + 1) := by
    have h5 : ∀ p : α → Bool, B'.countP p = (B'.take (i + 1)).countP p + (B'.drop (i + 1)).countP p := fun p => by
      rw [← List.countP_append, List.take_append_drop]
    rw [h5, h2, Nat.zero_add]
    exact List.countP_le_length.trans (by rw [List.length_drop])
  omega

/-- C101: the rows of a matrix sorted at the same time, then its columns at the same time, each by any of the sorts: on every schedule of both, in the end both
the columns and the rows are sorted; neither step loses an element.  The calls of the second step may have another flavour and their own user code. -/
theorem rows_then_columns (st st' : Style) {cfg : Cfg} {lt : α → α → Bool} (so : SWO lt) {o : Oracle σ (st.Q α κ) (st.A κ)} (ho : Agrees st o lt)
    {o' : Oracle σ' (st'.Q α κ') (st'.A κ')} (ho' : Agrees st' o' lt) {al : Alloc} (hal : al.Succeeds) (hz : cfg.zst = true → Subsingleton α)
    (g : Grid) {t t' : Jobs} (nd : t.cells.Nodup) (nd' : t'.cells.Nodup) (ht : t.list.map Job.view = (List.range g.rows).map g.row)
    (ht' : t'.list.map Job.view = (List.range g.cols).map g.col) (s : St α (st.Q α κ) (st.A κ) σ) :
    Always o (t.prog st cfg al) s
      (fun _ m1 => (∀ r < g.rows, Sorted lt ((g.row r).contents m1) ∧ ((g.row r).contents m1).Perm ((g.row r).contents s.mem)) ∧
        ∀ s2 : St α (st'.Q α κ') (st'.A κ') σ', s2.mem = m1 →
          Always o' (t'.prog st' cfg al) s2
            (fun _ m2 => (∀ c < g.cols, Sorted lt ((g.col c).contents m2) ∧ ((g.col c).contents m2).Perm ((g.col c).contents m1)) ∧
              ∀ r < g.rows, Sorted lt ((g.row r).contents m2))
            (fun _ _ => False))
      (fun _ _ => False) := by
  refine (sorts_at_once st so ho hal hz nd s).mono (fun _ m1 h1 => ?_) (fun _ _ h => h)
  have hrow : ∀ r < g.rows, Sorted lt ((g.row r).contents m1) ∧ ((g.row r).contents m1).Perm ((g.row r).contents s.mem) := by
    intro r hr
    have : g.row r ∈ t.list.map Job.view := by rw [ht]; exact List.mem_map_of_mem (List.mem_range.mpr hr)
    obtain ⟨j, hj, e⟩ := List.mem_map.mp this
    have := h1.1 j hj
    rw [e] at this
    exact ⟨this.1, this.2.1⟩
  refine ⟨hrow, fun s2 e2 => (sorts_at_once st' so ho' hal hz nd' s2).mono (fun _ m2 h2 => ?_) (fun _ _ h => h)⟩
  have hcol : ∀ c < g.cols, Sorted lt ((g.col c).contents m2) ∧ ((g.col c).contents m2).Perm ((g.col c).contents m1) := by
    intro c hc
    have : g.col c ∈ t'.list.map Job.view := by rw [ht']; exact List.mem_map_of_mem (List.mem_range.mpr hc)
    obtain ⟨j, hj, e⟩ := List.mem_map.mp this
    have := h2.1 j hj
    rw [e, e2] at this
    exact ⟨this.1, this.2.1⟩
  refine ⟨hcol, fun r hr => ?_⟩
  unfold Sorted
  rw [List.pairwise_iff_getElem]
  intro c d hc hd hcd
  have hc : c < g.cols := by rw [View.contents_length] at hc; exact hc
  have hd : d < g.cols := by rw [View.contents_length] at hd; exact hd
  have e1 : ((g.row r).contents m2)[c] = m2 (g.cell r c) := (List.getElem?_eq_some_iff.mp (g.row_get m2 hc)).2
  have e2 : ((g.row r).contents m2)[d] = m2 (g.cell r d) := (List.getElem?_eq_some_iff.mp (g.row_get m2 hd)).2
  rw [e1, e2]
  refine sorted_below so ?_ (hcol c hc).2 (hcol d hd).2 (hcol c hc).1 (hcol d hd).1 (g.col_get m2 hr) (g.col_get m2 hr)
  rw [List.forall₂_iff_get]
  refine ⟨by rw [View.contents_length, View.contents_length]; rfl, fun i hi hi' => ?_⟩
  have hi : i < g.rows := by rw [View.contents_length] at hi; exact hi
  have e3 : ((g.col c).contents m1)[i] = m1 (g.cell i c) := (List.getElem?_eq_some_iff.mp (g.col_get m1 hi)).2
  have e4 : ((g.col d).contents m1)[i] = m1 (g.cell i d) := (List.getElem?_eq_some_iff.mp (g.col_get m1 hi)).2
  show lt ((g.col d).contents m1)[i] ((g.col c).contents m1)[i] = false
  rw [e3, e4]
  have hp := (hrow i hi).1
  unfold Sorted at hp
  rw [List.pairwise_iff_getElem] at hp
  have hp := hp c d (by rw [View.contents_length]; exact hc) (by rw [View.contents_length]; exact hd) hcd
  have e5 : ((g.row i).contents m1)[c]'(by rw [View.contents_length]; exact hc) = m1 (g.cell i c) := (List.getElem?_eq_some_iff.mp (g.row_get m1 hc)).2
  have e6 : ((g.row i).contents m1)[d]'(by rw [View.contents_length]; exact hd) = m1 (g.cell i d) := (List.getElem?_eq_some_iff.mp (g.row_get m1 hd)).2
  rwa [e5, e6] at hp

/-! ### The hypotheses can be met -/

namespace Sample

/-- A matrix with 4 rows, the last one first in memory, and 25 columns, every second one of those in memory. -/
def grid : Grid := ⟨150, -50, 2, 4, 25⟩

def gridRows : Jobs :=
  .both (.both (.one ⟨grid.row 0, .stable, 1000⟩) (.one ⟨grid.row 1, .unstable, 0⟩)) (.both (.one ⟨grid.row 2, .par, 2000⟩) (.one ⟨grid.row 3, .parUnstable, 0⟩))

/-- One task for each column, stable sorts. -/
def gridCols : Nat → Jobs
  | 0 => .one ⟨grid.col 0, .stable, 1000⟩
  | n + 1 => .both (gridCols n) (.one ⟨grid.col (n + 1), .stable, 1000 + 2 * (n + 1)⟩)

set_option maxRecDepth 100000 in
theorem gridRows_nodup : gridRows.cells.Nodup := by decide

set_option maxRecDepth 100000 in
theorem gridCols_nodup : (gridCols 24).cells.Nodup := by decide

example (st st' : Style) := rows_then_columns (cfg := cfg) st st' swo (agrees st) (agrees st') alloc_succeeds notZst grid gridRows_nodup gridCols_nodup
  (by rfl) (by rfl) (state st)

end Sample

end NdSlice
