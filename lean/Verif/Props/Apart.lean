import Verif.Core.Apart
import Verif.Props.ParStable
import Verif.Props.Parallel
import Verif.Props.Select
import Verif.Props.Cached

/-
C64: the tasks of the parallel methods never share an element.  Two tasks that run side by side touch different elements from their fork to their join; so
references to an element are never used by two threads at the same time, and `A: Send` is enough (the elements need not be `Sync`, they may have `Cell`s
which comparisons look at).
-/

namespace NdSlice

variable {α κ ι ω σ β : Type} {st : Style} {cfg : Cfg} {v : View}

theorem Tri.apart {R : ι → Option ω → Prop} {o : Oracle σ ι ω} (ho : o.Sat R) {p : Prog α ι ω β} {v : View} (hv : v.WF) {s : St α ι ω σ}
    {Q : β → List α → Prop} {E : Panic → List α → Prop} (h : Tri R v.region p (v.contents s.mem) Q E) : NeverShare o p s :=
  wp_apart ho (h s.mem s.log (View.region_nodup hv) rfl)

theorem TriL.apart {R : ι → Option ω → Prop} {o : Oracle σ ι ω} (ho : o.Sat R) {p : Prog α ι ω β} {v : View} (hv : v.WF) {s : St α ι ω σ}
    {Q : β → List α → List (ι × Option ω) → Prop} {E : Panic → List α → List (ι × Option ω) → Prop} (h : TriL R v.region p (v.contents s.mem) Q E) :
    NeverShare o p s :=
  wp_apart ho (h s.mem s.log (View.region_nodup hv) rfl)

theorem TriS.apart {R : ι → Option ω → Prop} {o : Oracle σ ι ω} (ho : o.Sat R) {p : Prog α ι ω β} {v buf : View} (hv : v.WF)
    (hb : buf.WF) (hf : Fresh v buf) {s : St α ι ω σ} {Q : β → List α → Prop} {E : Panic → List α → Prop}
    (h : TriS R v.region buf.region p (v.contents s.mem) Q E) : NeverShare o p s :=
  wp_apart ho (h.contents s.mem s.log (hf.nodup hv hb) rfl)

/-- C64, `par_sort*`. -/
theorem par_sort_apart (o : Oracle σ (st.Q α κ) (st.A κ)) (hz : cfg.zst = true → Subsingleton α) (hv : v.WF) {heap : Addr}
    (hf : Fresh v (scratch heap v.len)) (s : St α (st.Q α κ) (st.A κ) σ) : NeverShare o (parSortStable st cfg v heap) s :=
  TriS.apart (Style.rel_sat o) hv scratch_wf hf
    (parMergeSort_spec (C := st.toCmp (Style.rel o)) (cfg := cfg) (v := v) (v.contents_length s.mem) hz rfl)

/-- C64, `par_sort_unstable*`. -/
theorem par_sort_unstable_apart (o : Oracle σ (st.Q α κ) (st.A κ)) (hz : cfg.zst = true → Subsingleton α) (hv : v.WF)
    (s : St α (st.Q α κ) (st.A κ) σ) : NeverShare o (parSortUnstable st cfg v) s :=
  Tri.apart (Style.rel_sat o) hv (parQuickSort_spec (C := st.toCmp (Style.rel o)) (cfg := cfg) (v := v) hz (v.contents_length s.mem))

/-- C64, `par_select_many_nth_unstable*`. -/
theorem par_select_many_apart (o : Oracle σ (st.Q α κ) (st.A κ)) (hz : cfg.zst = true → Subsingleton α) (hv : v.WF) (hb : 2 * v.len ≤ 2 ^ cfg.bits)
    (is : List Nat) (extra : Nat) (s : St α (st.Q α κ) (st.A κ) σ) : NeverShare o (parSelectManyNthUnstable st cfg v is extra) s :=
  Tri.apart (Style.rel_sat o) hv (parSelectMany_spec (st.toCmp (Style.rel o)) (cfg := cfg) (v := v) hz (is := is) (v.contents_length s.mem) hb
    (Nat.le_add_right is.length extra))

/-- C64, `par_sort_by_cached_key`. -/
theorem par_sort_by_cached_key_apart {sz : Sizes} {srt : PairSort α κ} (hs : SortsPairs srt) (o : Oracle σ (KeyQ α κ) (κ × Bool)) (hv : v.WF)
    (hlen : v.len ≤ 2 ^ cfg.bits) (s : St α (KeyQ α κ) (κ × Bool) σ) : NeverShare o (parSortByCachedKey cfg sz srt v) s :=
  TriL.apart (Style.rel_sat o) hv (parSortByCachedKey_spec (cfg := cfg) (sz := sz) hs (v.contents_length s.mem) hlen)

/-! ### The hypotheses can be met -/

example (st : Style) := par_sort_apart (st := st) (cfg := Sample.cfg) (Sample.nonsense st) Sample.notZst Sample.long_wf Sample.long_fresh (Sample.nstate st)
example (st : Style) := par_sort_unstable_apart (st := st) (cfg := Sample.cfg) (Sample.nonsense st) Sample.notZst Sample.long_wf (Sample.nstate st)
example (st : Style) := par_select_many_apart (st := st) (cfg := Sample.cfg) (Sample.nonsense st) Sample.notZst Sample.wf (by decide) [3, 17, 18, 59] 0 (Sample.nstate st)
example := par_sort_by_cached_key_apart (cfg := Sample.cfg) (sz := Sample.sizes) Sample.pairSort_sorts (Sample.nonsense .key) Sample.wf (by decide) (Sample.nstate .key)

namespace Sample

/-- Two tasks: one reads cell 1 and writes cell 2, the other writes the given cell. -/
def twoTasks (a : Addr) : Prog Nat Unit Unit Unit :=
  .join (.get 1 fun x => .set 2 x (.ret ())) (.set a 7 (.ret ())) fun _ _ => .ret ()

def quiet : Oracle Unit Unit Unit := ⟨fun _ _ => (none, ()), fun _ => (true, ())⟩

/-- `NeverShare` tells sharing, even if both accesses are far from each other in time or harmless. -/
theorem shares : ¬ NeverShare quiet (twoTasks 1) ⟨mem, (), []⟩ := by
  intro h
  refine h _ _ (.refl _ _) [] _ _ _ _ (.tail (.tail (.refl _ _) (.left (.get 1 _ _))) (.right (.set 1 7 _ _))) 1 ?_ ?_
  · exact List.mem_singleton.2 rfl
  · exact List.mem_singleton.2 rfl

end Sample

end NdSlice
