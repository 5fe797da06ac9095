import Verif.Proof.InMerge
import Verif.Proof.InSort
import Verif.Model.Search
import Verif.Props.Sample

/-
C55: no method reads memory which is neither in the array nor written by itself before (the buffers of the stable sorts are allocated
uninitialised), and user code is shown elements of the array only.  At every point of every execution, under every schedule, whatever
user code answers and wherever it panics.
-/

namespace NdSlice

variable {α κ σ β ι ω : Type} {cfg : Cfg} {v : View}

/-- Every execution of `p` from `s`, up to any point,
* has only asked user code questions in `ok`,
* and can be repeated step by step if all memory outside of the array `v` holds something else at the start: with the same local values (`p'`), the same
calls and answers of user code, and the same array at that point. -/
def ReadsOnly (o : Oracle σ ι ω) (ok : ι → Prop) (v : View) (p : Prog α ι ω β) (s : St α ι ω σ) : Prop :=
  ∀ p' s', Steps o p s p' s' →
    (∃ d, s'.log = s.log ++ d ∧ ∀ e ∈ d, ok e.1) ∧
    ∀ m : Mem α, (∀ a ∈ v.region, m a = s.mem a) →
      ∃ t', Steps o p { s with mem := m } p' t' ∧ t'.env = s'.env ∧ t'.log = s'.log ∧ v.contents t'.mem = v.contents s'.mem

/-- Up to any point, the array only holds elements it had at the start. -/
def HoldsOnly (o : Oracle σ ι ω) (v : View) (p : Prog α ι ω β) (s : St α ι ω σ) : Prop :=
  ∀ p' s', Steps o p s p' s' → ∀ x ∈ v.contents s'.mem, x ∈ v.contents s.mem

theorem vin_region : VIn (· ∈ v.region) v := fun _ hi => List.mem_map.2 ⟨_, List.mem_range.2 hi, rfl⟩

theorem In.readsOnly {o : Oracle σ ι ω} {ok : ι → Prop} {X : α → Prop} {p : Prog α ι ω β} {Q : β → Prop} {s : St α ι ω σ}
    (h : In X ok (· ∈ v.region) p Q) (hX : ∀ x ∈ v.contents s.mem, X x) : ReadsOnly o ok v p s := by
  intro p' s' hs
  have hx : ∀ a ∈ v.region, X (s.mem a) := fun a ha => hX _ (List.mem_map.2 ⟨a, ha, rfl⟩)
  obtain ⟨_, _, _, _, _, _, _, _, e, _⟩ := (h _ (Sub.refl _)).steps (t := s) (o := o) ⟨fun a ha => ⟨rfl, hx a ha⟩, rfl, rfl⟩ hs
  refine ⟨e, fun m hm => ?_⟩
  obtain ⟨t', J, _, _, h1, h2, ⟨h3, h4, h5⟩, _⟩ :=
    (h _ (Sub.refl _)).steps (t := { s with mem := m }) (o := o) ⟨fun a ha => ⟨hm a ha, hx a ha⟩, rfl, rfl⟩ hs
  exact ⟨t', h1, h4, h5, List.map_congr_left fun a ha => (h3 a (h2 a ha)).1⟩

theorem In.holdsOnly {o : Oracle σ ι ω} {ok : ι → Prop} {p : Prog α ι ω β} {Q : β → Prop} {s : St α ι ω σ}
    (h : In (· ∈ v.contents s.mem) ok (· ∈ v.region) p Q) : HoldsOnly o v p s := by
  intro p' s' hs x hx
  obtain ⟨a, ha, rfl⟩ := List.mem_map.1 hx
  obtain ⟨_, _, _, _, _, h2, ⟨h3, _⟩, _⟩ := (h _ (Sub.refl _)).steps (t := s) (o := o)
    ⟨fun a ha => ⟨rfl, List.mem_map.2 ⟨a, ha, rfl⟩⟩, rfl, rfl⟩ hs
  exact (h3 a (h2 a ha)).2

/-! ### Sorting and selection -/

/-- Whether all elements a question of a sort or selection method shows to user code are in `xs`. -/
def Style.About (xs : List α) : (st : Style) → st.Q α κ → Prop
  | .ord, q => Prod.fst (α := α) (β := α) q ∈ xs ∧ Prod.snd (α := α) (β := α) q ∈ xs
  | .cmp, q => Prod.fst (α := α) (β := α) q ∈ xs ∧ Prod.snd (α := α) (β := α) q ∈ xs
  | .key, q => match (q : KeyQ α κ) with
    | .key x => x ∈ xs
    | .lt _ _ => True

theorem lessIn (st : Style) (xs : List α) : LessIn (· ∈ xs) (Style.About (κ := κ) xs st) (st.less (κ := κ)) := by
  intro I x y hx hy J hJ
  cases st with
  | ord => exact ⟨⟨hx, hy⟩, fun r => by cases r <;> trivial⟩
  | cmp => exact ⟨⟨hx, hy⟩, fun r => by cases r <;> trivial⟩
  | key =>
    refine ⟨hx, fun r => ?_⟩
    cases r with
    | none => trivial
    | some r =>
      refine ⟨hy, fun r => ?_⟩
      cases r with
      | none => trivial
      | some r => exact ⟨trivial, fun r => by cases r <;> trivial⟩

section Sorting

variable {st : Style} {o : Oracle σ (st.Q α κ) (st.A κ)} {s : St α (st.Q α κ) (st.A κ) σ}

/-- C55, `sort*`, whatever the allocator does. -/
theorem sort_reads {al : Alloc} {heap : Addr} :
    ReadsOnly o (st.About (v.contents s.mem)) v (sortStable st cfg v al heap) s ∧ HoldsOnly o v (sortStable st cfg v al heap) s :=
  have h : In (· ∈ v.contents s.mem) (st.About (κ := κ) (v.contents s.mem)) (· ∈ v.region) (sortStable st cfg v al heap) Any :=
    In.stableSort_in (lessIn st _) vin_region
  ⟨h.readsOnly fun _ h => h, h.holdsOnly⟩

/-- C55, `par_sort*`. -/
theorem par_sort_reads {heap : Addr} :
    ReadsOnly o (st.About (v.contents s.mem)) v (parSortStable st cfg v heap) s ∧ HoldsOnly o v (parSortStable st cfg v heap) s :=
  have h : In (· ∈ v.contents s.mem) (st.About (κ := κ) (v.contents s.mem)) (· ∈ v.region) (parSortStable st cfg v heap) Any :=
    parMergeSort_in (lessIn st _) vin_region (Nat.le_refl _)
  ⟨h.readsOnly fun _ h => h, h.holdsOnly⟩

/-- C55, `sort_unstable*`. -/
theorem sort_unstable_reads :
    ReadsOnly o (st.About (v.contents s.mem)) v (sortUnstable st cfg v) s ∧ HoldsOnly o v (sortUnstable st cfg v) s :=
  have h : In (· ∈ v.contents s.mem) (st.About (κ := κ) (v.contents s.mem)) (· ∈ v.region) (sortUnstable st cfg v) Any :=
    In.quickSort_in (lessIn st _) vin_region
  ⟨h.readsOnly fun _ h => h, h.holdsOnly⟩

/-- C55, `par_sort_unstable*`. -/
theorem par_sort_unstable_reads :
    ReadsOnly o (st.About (v.contents s.mem)) v (parSortUnstable st cfg v) s ∧ HoldsOnly o v (parSortUnstable st cfg v) s :=
  have h : In (· ∈ v.contents s.mem) (st.About (κ := κ) (v.contents s.mem)) (· ∈ v.region) (parSortUnstable st cfg v) Any :=
    In.parQuickSort_in (lessIn st _) vin_region
  ⟨h.readsOnly fun _ h => h, h.holdsOnly⟩

/-- C55, `select_nth_unstable*`. -/
theorem select_nth_reads {k : Nat} :
    ReadsOnly o (st.About (v.contents s.mem)) v (selectNthUnstable st cfg v k) s ∧ HoldsOnly o v (selectNthUnstable st cfg v k) s :=
  have h := (In.partitionAtIndex_in (cfg := cfg) (I := (· ∈ v.region)) (k := k) (lessIn (κ := κ) st (v.contents s.mem)) vin_region)
  ⟨h.readsOnly fun _ h => h, h.holdsOnly⟩

/-- C55, `select_many_nth_unstable*`. -/
theorem select_many_reads {is : List Nat} :
    ReadsOnly o (st.About (v.contents s.mem)) v (selectManyNthUnstable st cfg v is) s ∧ HoldsOnly o v (selectManyNthUnstable st cfg v is) s :=
  have h : In (· ∈ v.contents s.mem) (st.About (κ := κ) (v.contents s.mem)) (· ∈ v.region) (selectManyNthUnstable st cfg v is) Any :=
    In.selectMany_in (lessIn st _) vin_region
  ⟨h.readsOnly fun _ h => h, h.holdsOnly⟩

/-- C55, `par_select_many_nth_unstable*`. -/
theorem par_select_many_reads {is : List Nat} {extra : Nat} :
    ReadsOnly o (st.About (v.contents s.mem)) v (parSelectManyNthUnstable st cfg v is extra) s ∧
      HoldsOnly o v (parSelectManyNthUnstable st cfg v is extra) s :=
  have h : In (· ∈ v.contents s.mem) (st.About (κ := κ) (v.contents s.mem)) (· ∈ v.region) (parSelectManyNthUnstable st cfg v is extra) Any :=
    In.parSelectMany_in (lessIn st _) vin_region
  ⟨h.readsOnly fun _ h => h, h.holdsOnly⟩

end Sorting

/-! ### Searching -/

theorem isSortedFrom_in {X : α → Prop} {ok : ι → Prop} {I : Addr → Prop} {test : α → α → Prog α ι ω Bool} (hl : LessIn X ok test) (hv : VIn I v)
    {i n : Nat} : In X ok I (isSortedFrom test v i n) Any := by
  induction n generalizing i with
  | zero => exact In.pureT
  | succ n ih =>
    unfold isSortedFrom
    exact In.bind (In.vidx hv) fun x hx => In.bind (In.vidx hv) fun y hy => In.bind (hl hx hy) fun c _ => In.ite (fun _ => ih) fun _ => In.pureT

/-- Whether all elements a question of `is_sorted*` shows to user code are in `xs`. -/
def RelStyle.About (xs : List α) : (st : RelStyle) → st.Q α κ → Prop
  | .rel, q => Prod.fst (α := α) (β := α) q ∈ xs ∧ Prod.snd (α := α) (β := α) q ∈ xs
  | .key, q => match (q : KeyQ α κ) with
    | .key x => x ∈ xs
    | .lt _ _ => True

/-- C55, `is_sorted*`. -/
theorem is_sorted_reads {st : RelStyle} {o : Oracle σ (st.Q α κ) (st.A κ)} {s : St α (st.Q α κ) (st.A κ) σ} :
    ReadsOnly o (st.About (v.contents s.mem)) v (isSorted st v) s ∧ HoldsOnly o v (isSorted st v) s :=
  have hl : LessIn (· ∈ v.contents s.mem) (RelStyle.About (κ := κ) (v.contents s.mem) st) (st.test (κ := κ)) := by
    intro I x y hx hy J hJ
    cases st with
    | rel => exact ⟨⟨hx, hy⟩, fun r => by cases r <;> trivial⟩
    | key =>
      refine ⟨hx, fun r => ?_⟩
      cases r with
      | none => trivial
      | some r =>
        refine ⟨hy, fun r => ?_⟩
        cases r with
        | none => trivial
        | some r => exact ⟨trivial, fun r => by cases r <;> trivial⟩
  have h : In (· ∈ v.contents s.mem) (RelStyle.About (κ := κ) (v.contents s.mem) st) (· ∈ v.region) (isSorted st v) Any :=
    isSortedFrom_in hl vin_region
  ⟨h.readsOnly fun _ h => h, h.holdsOnly⟩

theorem binarySearchBy_in {X : α → Prop} {ok : ι → Prop} {I : Addr → Prop} {f : α → Prog α ι ω Ordering} (hf : ∀ x, X x → In X ok I (f x) Any)
    (hv : VIn I v) : In X ok I (binarySearchBy cfg f v) Any := by
  refine In.loopT fun s => ?_
  rcases s with ⟨size, left, right⟩
  unfold binarySearchBody
  dsimp only
  refine In.ite (fun _ => In.bind (In.vget hv) fun x hx => In.bind (hf x hx) fun c _ => In.ite (fun _ => ?_) fun _ => ?_) fun _ => ?_
  · exact In.bindT In.debugAssert fun _ => In.pureT
  · exact In.bindT In.usub fun _ => In.pureT
  · exact In.bindT In.debugAssert fun _ => In.pureT

/-- Whether a question of `binary_search*` shows to user code an element in `xs`, and what is searched for. -/
def SearchStyle.About (xs : List α) : (st : SearchStyle) → st.T α κ → st.Q α κ → Prop
  | .ord, t, q => Prod.fst (α := α) (β := α) q ∈ xs ∧ Prod.snd (α := α) (β := α) q = t
  | .fn, _, x => List.Mem x xs
  | .key, t, q => match (q : KeyQ α κ) with
    | .key x => x ∈ xs
    | .lt _ l => l = t

/-- C55, `binary_search*`. -/
theorem binary_search_reads {st : SearchStyle} {t : st.T α κ} {o : Oracle σ (st.Q α κ) (st.A κ)} {s : St α (st.Q α κ) (st.A κ) σ} :
    ReadsOnly o (st.About (v.contents s.mem) t) v (binarySearch st cfg v t) s ∧ HoldsOnly o v (binarySearch st cfg v t) s :=
  have hf : ∀ x, x ∈ v.contents s.mem → In (· ∈ v.contents s.mem) (st.About (κ := κ) (v.contents s.mem) t) (· ∈ v.region) (st.ask t x) Any := by
    intro x hx J hJ
    cases st with
    | ord => exact ⟨⟨hx, rfl⟩, fun r => by cases r <;> trivial⟩
    | fn => exact ⟨hx, fun r => by cases r <;> trivial⟩
    | key =>
      refine ⟨hx, fun r => ?_⟩
      cases r with
      | none => trivial
      | some r => exact ⟨rfl, fun r => by cases r <;> trivial⟩
  have h : In (· ∈ v.contents s.mem) (st.About (κ := κ) (v.contents s.mem) t) (· ∈ v.region) (binarySearch st cfg v t) Any :=
    binarySearchBy_in hf vin_region
  ⟨h.readsOnly fun _ h => h, h.holdsOnly⟩

/-- C55, `partition_point`. -/
theorem partition_point_reads {o : Oracle σ α Bool} {s : St α α Bool σ} :
    ReadsOnly o (· ∈ v.contents s.mem) v (partitionPoint cfg v) s ∧ HoldsOnly o v (partitionPoint cfg v) s :=
  have h : In (ω := Bool) (· ∈ v.contents s.mem) (· ∈ v.contents s.mem) (· ∈ v.region) (partitionPoint cfg v) Any :=
    In.bindT (binarySearchBy_in (fun x hx => In.bindT (fun J hJ => ⟨hx, fun r => by cases r <;> trivial⟩) fun _ => In.pureT) vin_region) fun _ => In.pureT
  ⟨h.readsOnly fun _ h => h, h.holdsOnly⟩

theorem anyFrom_in {X : α → Prop} {ok : ι → Prop} {I : Addr → Prop} {f : α → Prog α ι ω Bool} (hf : ∀ x, X x → In X ok I (f x) Any)
    (hv : VIn I v) {i n : Nat} : In X ok I (anyFrom f v i n) Any := by
  induction n generalizing i with
  | zero => exact In.pureT
  | succ n ih =>
    unfold anyFrom
    exact In.bind (In.vget hv) fun x hx => In.bind (hf x hx) fun c _ => In.ite (fun _ => In.pureT) fun _ => ih

/-- C55, `contains`. -/
theorem contains_reads {x : α} {o : Oracle σ (α × α) Bool} {s : St α (α × α) Bool σ} :
    ReadsOnly o (fun q => q.1 ∈ v.contents s.mem ∧ q.2 = x) v (contains v x) s ∧ HoldsOnly o v (contains v x) s :=
  have h : In (ω := Bool) (· ∈ v.contents s.mem) (fun q => q.1 ∈ v.contents s.mem ∧ q.2 = x) (· ∈ v.region) (contains v x) Any :=
    by
    refine anyFrom_in (fun y hy J hJ => ?_) vin_region
    exact ⟨⟨hy, rfl⟩, fun r => by cases r <;> trivial⟩
  ⟨h.readsOnly fun _ h => h, h.holdsOnly⟩

/-! ### Duplicates -/

theorem partitionDedupBy_in {X : α → Prop} {ok : ι → Prop} {I : Addr → Prop} {same : Addr → Addr → Prog α ι ω Bool}
    (hs : ∀ a b, I a → I b → In X ok I (same a b) Any) (hv : VIn I v) : In X ok I (partitionDedupBy cfg same v) Any := by
  have href : ∀ i, In (ω := ω) X ok I (dedupBody.uref v i) I := fun i => In.ite (fun h => In.pure (hv i h)) fun _ => In.ub
  refine In.ite (fun _ => ?_) fun _ => ?_
  · exact In.bindT (In.vsplitAt hv).any fun _ => In.pureT
  · refine In.bindT (In.loopT fun s => ?_) fun _ => (In.vsplitAt hv).any
    rcases s with ⟨r, w⟩
    unfold dedupBody
    refine In.ite (fun _ => In.bindT In.usub fun p => In.bind (href r) fun a ha => In.bind (href p) fun b hb => In.bindT (hs a b ha hb) fun c => ?_)
      fun _ => In.pureT
    exact In.ite (fun _ => In.bindT (In.whenP (In.vuswap hv)) fun _ => In.pureT) fun _ => In.pureT

/-- C55, `partition_dedup`: user code compares elements. -/
theorem partition_dedup_reads {o : Oracle σ (DedupStyle.Q α κ .eq) (DedupStyle.A α κ .eq)} {s : St α (DedupStyle.Q α κ .eq) (DedupStyle.A α κ .eq) σ} :
    ReadsOnly o (fun q => Prod.fst (α := α) (β := α) q ∈ v.contents s.mem ∧ Prod.snd (α := α) (β := α) q ∈ v.contents s.mem) v (partitionDedup .eq cfg v) s ∧
      HoldsOnly o v (partitionDedup .eq cfg v) s :=
  have h : In (ι := DedupStyle.Q α κ .eq) (ω := DedupStyle.A α κ .eq) (· ∈ v.contents s.mem)
      (fun q => Prod.fst (α := α) (β := α) q ∈ v.contents s.mem ∧ Prod.snd (α := α) (β := α) q ∈ v.contents s.mem) (· ∈ v.region)
      (partitionDedup .eq cfg v) Any :=
    partitionDedupBy_in (fun _ _ ha hb J hJ => ⟨hJ _ ha, fun _ hx => ⟨hJ _ hb, fun _ hy => ⟨⟨hx, hy⟩, fun r => by cases r <;> trivial⟩⟩⟩) vin_region
  ⟨h.readsOnly fun _ h => h, h.holdsOnly⟩

/-- C55, `partition_dedup*`: user code of `partition_dedup_by` and `partition_dedup_by_key` may change the elements it is shown, so that nothing
can be said about their values; memory outside of the array is not read. -/
theorem partition_dedup_by_reads {st : DedupStyle} {o : Oracle σ (st.Q α κ) (st.A α κ)} {s : St α (st.Q α κ) (st.A α κ) σ} :
    ReadsOnly o (fun _ => True) v (partitionDedup st cfg v) s :=
  have key : ∀ {I : Addr → Prop} {a}, I a → In (fun _ => True) (fun _ => True) I (DedupStyle.askKey (α := α) (κ := κ) a) Any := by
    intro I a ha J hJ
    refine ⟨hJ _ ha, fun x _ => ⟨trivial, fun r => ?_⟩⟩
    cases r with
    | none => trivial
    | some r =>
      rcases r with ⟨x, k, b⟩
      cases k <;> exact ⟨trivial, trivial⟩
  have h : In (fun _ => True) (fun _ => True) (· ∈ v.region) (partitionDedup (κ := κ) st cfg v) Any :=
    partitionDedupBy_in (fun a b ha hb => by
      cases st with
      | eq => exact fun J hJ => ⟨hJ _ ha, fun _ hx => ⟨hJ _ hb, fun _ hy => ⟨trivial, fun r => by cases r <;> trivial⟩⟩⟩
      | fn =>
        refine fun J hJ => ⟨hJ _ ha, fun _ hx => ⟨hJ _ hb, fun _ hy => ⟨trivial, fun r => ?_⟩⟩⟩
        cases r with
        | none => trivial
        | some r =>
          rcases r with ⟨x, y, c⟩
          cases c <;> exact ⟨trivial, trivial, trivial⟩
      | key =>
        refine In.bindT (key ha) fun k => In.bindT (key hb) fun l => fun J hJ => ⟨trivial, fun r => ?_⟩
        cases r <;> trivial) vin_region
  h.readsOnly fun _ _ => trivial

/-! ### Examples: user code that answers nonsense and panics now and then -/

example {st : Style} := sort_reads (cfg := Sample.cfg) (v := Sample.view) (o := Sample.nonsense st) (s := Sample.nstate st) (al := ⟨true, fun _ => true⟩) (heap := 1000)
example {st : Style} := par_sort_reads (cfg := Sample.cfg) (v := Sample.view) (o := Sample.nonsense st) (s := Sample.nstate st) (heap := 1000)
example {st : Style} := sort_unstable_reads (cfg := Sample.cfg) (v := Sample.view) (o := Sample.nonsense st) (s := Sample.nstate st)
example {st : Style} := par_sort_unstable_reads (cfg := Sample.cfg) (v := Sample.view) (o := Sample.nonsense st) (s := Sample.nstate st)
example {st : Style} := select_nth_reads (cfg := Sample.cfg) (v := Sample.view) (o := Sample.nonsense st) (s := Sample.nstate st) (k := 7)
example {st : Style} := select_many_reads (cfg := Sample.cfg) (v := Sample.view) (o := Sample.nonsense st) (s := Sample.nstate st) (is := [3, 30])
example {st : Style} := par_select_many_reads (cfg := Sample.cfg) (v := Sample.view) (o := Sample.nonsense st) (s := Sample.nstate st) (is := [3, 30])
  (extra := 1)

/-- A program reading a cell outside of the array does not have the property. -/
example : ¬ ReadsOnly (α := Nat) (ι := Unit) (ω := Unit) (β := Nat) ⟨fun _ _ => (none, ()), fun _ => (true, ())⟩ (fun _ => True) ⟨5, 1, 3⟩ (.get 0 .ret)
    ⟨fun _ => 1, (), []⟩ := by
  intro h
  obtain ⟨_, h⟩ := h _ _ (Steps.tail (Steps.refl _ _) (Step.get 0 .ret _))
  obtain ⟨t, h, -⟩ := h (fun a => if a = 0 then 0 else 1) (by decide)
  have inv : ∀ (o : Oracle Unit Unit Unit) (p : Prog Nat Unit Unit Nat) (s t : St Nat Unit Unit Unit) q, Steps o p s q t → p = .get 0 .ret → s.mem 0 = 0 →
      t.mem = s.mem ∧ (q = .get 0 .ret ∨ q = .ret 0) := by
    intro o p s t q h hp hs
    induction h with
    | refl => exact ⟨rfl, .inl hp⟩
    | tail _ hst ih =>
      obtain ⟨h1, h2⟩ := ih
      rcases h2 with rfl | rfl
      · cases hst
        rw [h1, hs]
        exact ⟨rfl, .inr rfl⟩
      · cases hst
  rcases (inv _ _ _ _ _ h rfl rfl).2 with h | h
  · cases h
  · exact absurd (Prog.ret.inj h) (by decide)


end NdSlice
