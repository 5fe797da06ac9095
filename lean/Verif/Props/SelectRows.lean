import Verif.Props.Searches
import Verif.Props.Select

/-
Selections at the same time by different threads (C97), for example of the medians of the rows or of the columns of a matrix: the views may lie between
each other in memory as long as they have no element in common.
-/

namespace NdSlice

open Style

variable {α κ σ ι ω β J : Type}

namespace Tree

/-- The memory of all the calls. -/
def cells (rg : J → List Addr) : Tree J → List Addr
  | one j => rg j
  | both l r => l.cells rg ++ r.cells rg

/-- `Q` about each call with its result and what was and is in its memory, `xs` and `ys` being the contents of `cells` before and after. -/
def Each (rg : J → List Addr) (Q : J → β → List α → List α → Prop) : Tree J → List β → List α → List α → Prop
  | one j, bs, xs, ys => ∃ b, bs = [b] ∧ Q j b xs ys
  | both l r, bs, xs, ys => ∃ bl br, bs = bl ++ br ∧
      l.Each rg Q bl (xs.take (l.cells rg).length) (ys.take (l.cells rg).length) ∧
      r.Each rg Q br (xs.drop (l.cells rg).length) (ys.drop (l.cells rg).length)

theorem Each.forget {rg : J → List Addr} {Q : J → β → List α → List α → Prop} {I : J → List α → List α → Prop} (hQ : ∀ j b xs ys, Q j b xs ys → I j xs ys)
    {t : Tree J} {bs : List β} {xs ys : List α} (h : t.Each rg Q bs xs ys) : ∃ us : List Unit, t.Each rg (fun j _ => I j) us xs ys := by
  induction t generalizing bs xs ys with
  | one j => obtain ⟨b, -, h⟩ := h; exact ⟨[()], (), rfl, hQ _ _ _ _ h⟩
  | both l r ihl ihr =>
    obtain ⟨bl, br, -, h1, h2⟩ := h
    obtain ⟨ul, h1⟩ := ihl h1
    obtain ⟨ur, h2⟩ := ihr h2
    exact ⟨ul ++ ur, ul, ur, rfl, h1, h2⟩

theorem Each.get {rg : J → List Addr} {Q : J → β → List α → List α → Prop} {t : Tree J} {bs : List β} {m m' : Mem α}
    (h : t.Each rg Q bs ((t.cells rg).map m) ((t.cells rg).map m')) : List.Forall₂ (fun j b => Q j b ((rg j).map m) ((rg j).map m')) t.list bs := by
  induction t generalizing bs with
  | one j => obtain ⟨b, rfl, h⟩ := h; exact .cons h .nil
  | both l r ihl ihr =>
    obtain ⟨bl, br, rfl, h1, h2⟩ := h
    rw [show (both l r).cells rg = l.cells rg ++ r.cells rg from rfl, List.map_append, List.map_append] at h1 h2
    rw [List.take_left' (by simp), List.take_left' (by simp)] at h1
    rw [List.drop_left' (by simp), List.drop_left' (by simp)] at h2
    exact forall₂_append (ihl h1) (ihr h2)

theorem tri {R : ι → Option ω → Prop} {rg : J → List Addr} {f : J → Prog α ι ω β} {Q : J → β → List α → List α → Prop} {I : J → List α → List α → Prop}
    {E : J → Panic → Prop} (hQ : ∀ j b xs ys, Q j b xs ys → I j xs ys) {t : Tree J}
    (h : ∀ j ∈ t.list, ∀ xs : List α, xs.length = (rg j).length → Tri R (rg j) (f j) xs (fun b ys => Q j b xs ys) (fun e ys => E j e ∧ I j xs ys))
    {xs : List α} (hx : xs.length = (t.cells rg).length) :
    Tri R (t.cells rg) (t.atOnce f) xs (fun bs ys => t.Each rg Q bs xs ys)
      (fun e ys => (∃ j ∈ t.list, E j e) ∧ ∃ us : List Unit, t.Each rg (fun j _ => I j) us xs ys) := by
  induction t generalizing xs with
  | one j =>
    have hj : j ∈ (Tree.one j).list := List.mem_singleton.mpr rfl
    exact ((h j hj xs hx).mono (fun _ _ _ h => h) (fun e ys _ he => ⟨⟨j, hj, he.1⟩, [()], (), rfl, he.2⟩)).bind
      fun b ys _ hb => Tri.pure ⟨b, rfl, hb⟩
  | both l r ihl ihr =>
    rw [cells, List.length_append] at hx
    have hl : (xs.take (l.cells rg).length).length = (l.cells rg).length := by rw [List.length_take]; omega
    have hr : (xs.drop (l.cells rg).length).length = (r.cells rg).length := by rw [List.length_drop]; omega
    have join : ∀ {γ : Type} {P : J → γ → List α → List α → Prop} {bl br : List γ} {A B : List α}, A.length = (xs.take (l.cells rg).length).length →
        l.Each rg P bl (xs.take (l.cells rg).length) A → r.Each rg P br (xs.drop (l.cells rg).length) B → (both l r).Each rg P (bl ++ br) xs (A ++ B) := by
      intro γ P bl br A B h h1 h2
      refine ⟨bl, br, rfl, ?_, ?_⟩
      · rwa [List.take_left' (by rw [h, hl])]
      · rwa [List.drop_left' (by rw [h, hl])]
    have h := Tri.rayonJoin (Q := fun x ys => (both l r).Each rg Q (x.1 ++ x.2) xs ys)
      (E := fun e ys => (∃ j ∈ (both l r).list, E j e) ∧ ∃ us : List Unit, (both l r).Each rg (fun j _ => I j) us xs ys) hl
      (ihl (fun j hj => h j (List.mem_append_left _ hj)) hl) (ihr (fun j hj => h j (List.mem_append_right _ hj)) hr)
      (fun _ _ A B h1 _ h3 h4 => join h1 h3 h4)
      (fun e _ A B h1 _ h3 h4 => by
        obtain ⟨⟨j, hj, he⟩, us, h3⟩ := h3
        obtain ⟨us', h4⟩ := h4.forget hQ
        exact ⟨⟨j, List.mem_append_left _ hj, he⟩, _, join h1 h3 h4⟩)
      (fun _ e A B h1 _ h3 h4 => by
        obtain ⟨⟨j, hj, he⟩, us, h4⟩ := h4
        obtain ⟨us', h3⟩ := h3.forget hQ
        exact ⟨⟨j, List.mem_append_right _ hj, he⟩, _, join h1 h3 h4⟩)
      (fun e _ A B h1 _ h3 h4 => by
        obtain ⟨⟨j, hj, he⟩, us, h3⟩ := h3
        obtain ⟨-, us', h4⟩ := h4
        exact ⟨⟨j, List.mem_append_left _ hj, he⟩, _, join h1 h3 h4⟩)
    rw [List.take_append_drop] at h
    exact h.bind fun _ _ _ h => Tri.pure h

theorem always {o : Oracle σ ι ω} {vw : J → View} {f : J → Prog α ι ω β} {Q : J → β → List α → List α → Prop} {I : J → List α → List α → Prop}
    {E : J → Panic → Prop} (hQ : ∀ j b xs ys, Q j b xs ys → I j xs ys) {t : Tree J} (nd : (t.cells fun j => (vw j).region).Nodup)
    (h : ∀ j ∈ t.list, ∀ xs : List α, xs.length = (vw j).len →
      Tri (rel o) (vw j).region (f j) xs (fun b ys => Q j b xs ys) (fun e ys => E j e ∧ I j xs ys)) (s : St α ι ω σ) :
    Always o (t.atOnce f) s
      (fun bs m => List.Forall₂ (fun j b => Q j b ((vw j).contents s.mem) ((vw j).contents m)) t.list bs ∧
        ∀ a, a ∉ t.cells (fun j => (vw j).region) → m a = s.mem a)
      (fun e m => (∃ j ∈ t.list, E j e) ∧ (∀ j ∈ t.list, I j ((vw j).contents s.mem) ((vw j).contents m)) ∧
        ∀ a, a ∉ t.cells (fun j => (vw j).region) → m a = s.mem a) := by
  refine ⟨fun p' s' hs => ?_, sched_terminates o _⟩
  obtain ⟨h1, h2, h3, h4⟩ := sched_sound (rel_sat o) hs
    (tri (rg := fun j => (vw j).region) hQ (fun j hj xs hx => h j hj xs (by simpa using hx)) (xs := (t.cells fun j => (vw j).region).map s.mem) (by simp)
      s.mem s.log nd rfl)
  refine ⟨h1, h2, ?_⟩
  rcases h4 with h4 | ⟨b, lg, rfl, _, h4⟩ | ⟨e, lg, rfl, _, h4⟩
  · exact .inl h4
  · exact .inr (.inl ⟨b, rfl, h4.get, h3⟩)
  · obtain ⟨h5, us, h6⟩ := h4
    refine .inr (.inr ⟨e, rfl, h5, fun j hj => ?_, h3⟩)
    obtain ⟨i, hi, rfl⟩ := List.mem_iff_getElem.mp hj
    have h6 := h6.get
    exact h6.get (i := i) hi (by rw [← h6.length_eq]; exact hi)

end Tree

/-- C97 (release builds): `select_nth_unstable*` called at the same time on arrays without a common element: on every schedule there is neither a race nor
undefined behaviour nor a deadlock, each call returns the parts of its own array with the element selected in its sorted place, and nothing else is changed. -/
theorem select_nths_at_once (st : Style) {cfg : Cfg} {lt : α → α → Bool} (so : SWO lt) {o : Oracle σ (st.Q α κ) (st.A κ)} (ho : Agrees st o lt)
    (hz : cfg.zst = true → Subsingleton α) (hdbg : cfg.dbg = false) {t : Tree (View × Nat)} (nd : (t.cells fun j => j.1.region).Nodup)
    (hk : ∀ j ∈ t.list, j.2 < j.1.len) (s : St α (st.Q α κ) (st.A κ) σ) :
    Always o (t.atOnce fun j => selectNthUnstable st cfg j.1 j.2) s
      (fun rs m => List.Forall₂ (fun (j : View × Nat) r => r = (j.1.sub 0 j.2, j.1.addr j.2, j.1.sub (j.2 + 1) (j.1.len - (j.2 + 1))) ∧
          SelectedAt lt j.2 (j.1.contents m) ∧ (j.1.contents m).Perm (j.1.contents s.mem)) t.list rs ∧ ∀ a, a ∉ t.cells (fun j => j.1.region) → m a = s.mem a)
      (fun _ _ => False) := by
  refine (Tree.always (vw := Prod.fst) (I := fun _ _ _ => True) (E := fun _ _ => False)
    (Q := fun j r xs ys => r = (j.1.sub 0 j.2, j.1.addr j.2, j.1.sub (j.2 + 1) (j.1.len - (j.2 + 1))) ∧ SelectedAt lt j.2 ys ∧ ys.Perm xs)
    (fun _ _ _ _ _ => trivial) nd (fun j hj xs hx => ?_) s).mono (fun _ _ h => h) (fun _ _ h => by obtain ⟨⟨_, _, h⟩, -⟩ := h; exact h)
  refine (partitionAtIndex_spec (st.toCmp (rel o)) (cfg := cfg) (v := j.1) hz hx (hk j hj)).mono
    (fun _ _ _ h => ⟨h.1, h.2.2 lt (good_of_agrees ho so), h.2.1⟩) (fun _ _ _ h => ?_)
  rcases h.1 with h | h
  · exact (pan_iff (noPanic_of_agrees ho) h.2).elim
  · rw [hdbg] at h; exact (Bool.false_ne_true h.2).elim

/-- C97 in all builds with any user code: each array stays a permutation of itself, also those of the other threads when one of the calls panics. -/
theorem select_nths_at_once_safe (st : Style) {cfg : Cfg} (o : Oracle σ (st.Q α κ) (st.A κ)) (hz : cfg.zst = true → Subsingleton α)
    {t : Tree (View × Nat)} (nd : (t.cells fun j => j.1.region).Nodup) (hk : ∀ j ∈ t.list, j.2 < j.1.len) (s : St α (st.Q α κ) (st.A κ) σ) :
    Always o (t.atOnce fun j => selectNthUnstable st cfg j.1 j.2) s
      (fun rs m => List.Forall₂ (fun (j : View × Nat) r => r = (j.1.sub 0 j.2, j.1.addr j.2, j.1.sub (j.2 + 1) (j.1.len - (j.2 + 1))) ∧
          (j.1.contents m).Perm (j.1.contents s.mem)) t.list rs ∧ ∀ a, a ∉ t.cells (fun j => j.1.region) → m a = s.mem a)
      (fun e m => ((e = .user ∧ ¬ NoPanic o) ∨ (e = .debugAssert ∧ cfg.dbg = true)) ∧
        (∀ j ∈ t.list, (j.1.contents m).Perm (j.1.contents s.mem)) ∧ ∀ a, a ∉ t.cells (fun j => j.1.region) → m a = s.mem a) := by
  refine (Tree.always (vw := Prod.fst) (I := fun _ xs ys => ys.Perm xs) (E := fun _ e => (e = .user ∧ ¬ NoPanic o) ∨ (e = .debugAssert ∧ cfg.dbg = true))
    (Q := fun j r xs ys => r = (j.1.sub 0 j.2, j.1.addr j.2, j.1.sub (j.2 + 1) (j.1.len - (j.2 + 1))) ∧ ys.Perm xs)
    (fun _ _ _ _ h => h.2) nd (fun j hj xs hx => ?_) s).mono (fun _ _ h => h) (fun _ _ h => by obtain ⟨⟨_, _, h1⟩, h2⟩ := h; exact ⟨h1, h2⟩)
  exact (partitionAtIndex_spec (st.toCmp (rel o)) (cfg := cfg) (v := j.1) hz hx (hk j hj)).mono
    (fun _ _ _ h => ⟨h.1, h.2.1⟩) (fun _ _ _ h => ⟨h.1.imp (fun h => ⟨h.1, fun hn => pan_iff hn h.2⟩) id, h.2⟩)

/-- C97 (release builds) for `select_many_nth_unstable*`. -/
theorem select_manies_at_once (st : Style) {cfg : Cfg} {lt : α → α → Bool} (so : SWO lt) {o : Oracle σ (st.Q α κ) (st.A κ)} (ho : Agrees st o lt)
    (hz : cfg.zst = true → Subsingleton α) (hdbg : cfg.dbg = false) {t : Tree (View × List Nat)} (nd : (t.cells fun j => j.1.region).Nodup)
    (hb : ∀ j ∈ t.list, 2 * j.1.len ≤ 2 ^ cfg.bits) (his : ∀ j ∈ t.list, GoodIndices j.1.len j.2) (s : St α (st.Q α κ) (st.A κ) σ) :
    Always o (t.atOnce fun j => selectManyNthUnstable st cfg j.1 j.2) s
      (fun rs m => List.Forall₂ (fun (j : View × List Nat) r => r = (j.2.map fun i => (i, j.1.addr i)) ∧
          (∀ i ∈ j.2, SelectedAt lt i (j.1.contents m)) ∧ (j.1.contents m).Perm (j.1.contents s.mem)) t.list rs ∧
        ∀ a, a ∉ t.cells (fun j => j.1.region) → m a = s.mem a)
      (fun _ _ => False) := by
  refine (Tree.always (vw := Prod.fst) (I := fun _ _ _ => True) (E := fun _ _ => False)
    (Q := fun j r xs ys => r = (j.2.map fun i => (i, j.1.addr i)) ∧ (∀ i ∈ j.2, SelectedAt lt i ys) ∧ ys.Perm xs)
    (fun _ _ _ _ _ => trivial) nd (fun j hj xs hx => ?_) s).mono (fun _ _ h => h) (fun _ _ h => by obtain ⟨⟨_, _, h⟩, -⟩ := h; exact h)
  refine (selectMany_spec (st.toCmp (rel o)) (cfg := cfg) (v := j.1) hz (is := j.2) hx (hb j hj)).mono
    (fun _ _ _ h => ⟨h.2.1, h.2.2.2 lt (good_of_agrees ho so), h.2.2.1⟩) (fun _ _ _ h => ?_)
  rcases h.2 with h | h | h
  · exact (pan_iff (noPanic_of_agrees ho) h.2).elim
  · rw [hdbg] at h; exact (Bool.false_ne_true h.2).elim
  · exact (h.1 (validIdx_iff.mpr (his j hj))).elim

/-- C97 (release builds) for `par_select_many_nth_unstable*`, whose own tasks then run among those of the other calls. -/
theorem par_select_manies_at_once (st : Style) {cfg : Cfg} {lt : α → α → Bool} (so : SWO lt) {o : Oracle σ (st.Q α κ) (st.A κ)} (ho : Agrees st o lt)
    (hz : cfg.zst = true → Subsingleton α) (hdbg : cfg.dbg = false) {t : Tree (View × List Nat)} (nd : (t.cells fun j => j.1.region).Nodup)
    (hb : ∀ j ∈ t.list, 2 * j.1.len ≤ 2 ^ cfg.bits) (his : ∀ j ∈ t.list, GoodIndices j.1.len j.2) (extra : Nat) (s : St α (st.Q α κ) (st.A κ) σ) :
    Always o (t.atOnce fun j => parSelectManyNthUnstable st cfg j.1 j.2 extra) s
      (fun rs m => List.Forall₂ (fun (j : View × List Nat) r => r.Perm (j.2.zipIdx.map fun x => (x.2, j.1.addr x.1)) ∧
          (∀ i ∈ j.2, SelectedAt lt i (j.1.contents m)) ∧ (j.1.contents m).Perm (j.1.contents s.mem)) t.list rs ∧
        ∀ a, a ∉ t.cells (fun j => j.1.region) → m a = s.mem a)
      (fun _ _ => False) := by
  refine (Tree.always (vw := Prod.fst) (I := fun _ _ _ => True) (E := fun _ _ => False)
    (Q := fun j (r : List (Nat × Addr)) xs ys => r.Perm (j.2.zipIdx.map fun x => (x.2, j.1.addr x.1)) ∧ (∀ i ∈ j.2, SelectedAt lt i ys) ∧ ys.Perm xs)
    (fun _ _ _ _ _ => trivial) nd (fun j hj xs hx => ?_) s).mono (fun _ _ h => h) (fun _ _ h => by obtain ⟨⟨_, _, h⟩, -⟩ := h; exact h)
  refine (parSelectMany_spec (st.toCmp (rel o)) (cfg := cfg) (v := j.1) hz (is := j.2) hx (hb j hj) (Nat.le_add_right j.2.length extra)).mono
    (fun _ _ _ h => ⟨h.2.1, h.2.2.2 lt (good_of_agrees ho so), h.2.2.1⟩) (fun _ _ _ h => ?_)
  rcases h.2 with h | h | h
  · exact (pan_iff (noPanic_of_agrees ho) h.2).elim
  · rw [hdbg] at h; exact (Bool.false_ne_true h.2).elim
  · exact (h.1 (validIdx_iff.mpr (his j hj))).elim

/-- C97 in all builds with any user code and any indices, for `select_many_nth_unstable*`. -/
theorem select_manies_at_once_safe (st : Style) {cfg : Cfg} (o : Oracle σ (st.Q α κ) (st.A κ)) (hz : cfg.zst = true → Subsingleton α)
    {t : Tree (View × List Nat)} (nd : (t.cells fun j => j.1.region).Nodup) (hb : ∀ j ∈ t.list, 2 * j.1.len ≤ 2 ^ cfg.bits)
    (s : St α (st.Q α κ) (st.A κ) σ) :
    Always o (t.atOnce fun j => selectManyNthUnstable st cfg j.1 j.2) s
      (fun rs m => List.Forall₂ (fun (j : View × List Nat) r => GoodIndices j.1.len j.2 ∧ r = (j.2.map fun i => (i, j.1.addr i)) ∧
          (j.1.contents m).Perm (j.1.contents s.mem)) t.list rs ∧ ∀ a, a ∉ t.cells (fun j => j.1.region) → m a = s.mem a)
      (fun e m => (∃ j ∈ t.list, (e = .user ∧ ¬ NoPanic o) ∨ (e = .debugAssert ∧ cfg.dbg = true) ∨
          (¬ GoodIndices j.1.len j.2 ∧ (e = .index ∨ (e = .overflow ∧ cfg.dbg = true)))) ∧
        (∀ j ∈ t.list, (j.1.contents m).Perm (j.1.contents s.mem)) ∧ ∀ a, a ∉ t.cells (fun j => j.1.region) → m a = s.mem a) := by
  refine Tree.always (vw := Prod.fst) (I := fun _ xs ys => ys.Perm xs) (E := fun j e => (e = .user ∧ ¬ NoPanic o) ∨ (e = .debugAssert ∧ cfg.dbg = true) ∨
          (¬ GoodIndices j.1.len j.2 ∧ (e = .index ∨ (e = .overflow ∧ cfg.dbg = true))))
    (Q := fun j (r : List (Nat × Addr)) xs ys => GoodIndices j.1.len j.2 ∧ r = (j.2.map fun i => (i, j.1.addr i)) ∧ ys.Perm xs)
    (fun _ _ _ _ h => h.2.2) nd (fun j hj xs hx => ?_) s
  exact (selectMany_spec (st.toCmp (rel o)) (cfg := cfg) (v := j.1) hz (is := j.2) hx (hb j hj)).mono
    (fun _ _ _ h => ⟨validIdx_iff.mp h.1, h.2.1, h.2.2.1⟩)
    (fun _ _ _ h => ⟨h.2.imp (fun h => ⟨h.1, fun hn => pan_iff hn h.2⟩) (Or.imp id (fun h => ⟨fun hg => h.1 (validIdx_iff.mpr hg), h.2⟩)), h.1⟩)

/-- C97 in all builds with any user code and any indices, for `par_select_many_nth_unstable*`. -/
theorem par_select_manies_at_once_safe (st : Style) {cfg : Cfg} (o : Oracle σ (st.Q α κ) (st.A κ)) (hz : cfg.zst = true → Subsingleton α)
    {t : Tree (View × List Nat)} (nd : (t.cells fun j => j.1.region).Nodup) (hb : ∀ j ∈ t.list, 2 * j.1.len ≤ 2 ^ cfg.bits) (extra : Nat)
    (s : St α (st.Q α κ) (st.A κ) σ) :
    Always o (t.atOnce fun j => parSelectManyNthUnstable st cfg j.1 j.2 extra) s
      (fun rs m => List.Forall₂ (fun (j : View × List Nat) r => GoodIndices j.1.len j.2 ∧ r.Perm (j.2.zipIdx.map fun x => (x.2, j.1.addr x.1)) ∧
          (j.1.contents m).Perm (j.1.contents s.mem)) t.list rs ∧ ∀ a, a ∉ t.cells (fun j => j.1.region) → m a = s.mem a)
      (fun e m => (∃ j ∈ t.list, (e = .user ∧ ¬ NoPanic o) ∨ (e = .debugAssert ∧ cfg.dbg = true) ∨
          (¬ GoodIndices j.1.len j.2 ∧ (e = .index ∨ (e = .overflow ∧ cfg.dbg = true)))) ∧
        (∀ j ∈ t.list, (j.1.contents m).Perm (j.1.contents s.mem)) ∧ ∀ a, a ∉ t.cells (fun j => j.1.region) → m a = s.mem a) := by
  refine Tree.always (vw := Prod.fst) (I := fun _ xs ys => ys.Perm xs) (E := fun j e => (e = .user ∧ ¬ NoPanic o) ∨ (e = .debugAssert ∧ cfg.dbg = true) ∨
          (¬ GoodIndices j.1.len j.2 ∧ (e = .index ∨ (e = .overflow ∧ cfg.dbg = true))))
    (Q := fun j (r : List (Nat × Addr)) xs ys => GoodIndices j.1.len j.2 ∧ r.Perm (j.2.zipIdx.map fun x => (x.2, j.1.addr x.1)) ∧ ys.Perm xs)
    (fun _ _ _ _ h => h.2.2) nd (fun j hj xs hx => ?_) s
  exact (parSelectMany_spec (st.toCmp (rel o)) (cfg := cfg) (v := j.1) hz (is := j.2) hx (hb j hj) (Nat.le_add_right j.2.length extra)).mono
    (fun _ _ _ h => ⟨validIdx_iff.mp h.1, h.2.1, h.2.2.1⟩)
    (fun _ _ _ h => ⟨h.2.imp (fun h => ⟨h.1, fun hn => pan_iff hn h.2⟩) (Or.imp id (fun h => ⟨fun hg => h.1 (validIdx_iff.mpr hg), h.2⟩)), h.1⟩)

/-! ### The hypotheses can be met -/

namespace Sample

/-- The columns of a matrix with 30 rows and 3 columns in row-major order, the last one upwards. -/
def threeColumns {J : Type} (x : J) : Tree (View × J) := .both (.one (⟨0, 3, 30⟩, x)) (.both (.one (⟨1, 3, 30⟩, x)) (.one (⟨89, -3, 30⟩, x)))

set_option maxRecDepth 100000 in
theorem threeColumns_nodup {J : Type} (x : J) : ((threeColumns x).cells fun j => j.1.region).Nodup := by
  show ((⟨0, 3, 30⟩ : View).region ++ ((⟨1, 3, 30⟩ : View).region ++ (⟨89, -3, 30⟩ : View).region)).Nodup
  decide

theorem threeColumns_list {J : Type} {x : J} {P : View × J → Prop} (h : ∀ o d, P (⟨o, d, 30⟩, x)) : ∀ j ∈ (threeColumns x).list, P j := by
  intro j hj
  simp only [threeColumns, Tree.list, List.cons_append, List.nil_append, List.mem_cons, List.not_mem_nil, or_false] at hj
  rcases hj with rfl | rfl | rfl <;> exact h _ _

theorem threeColumns_good : ∀ j ∈ (threeColumns [3, 15, 29]).list, GoodIndices j.1.len j.2 :=
  threeColumns_list (P := fun j => GoodIndices j.1.len j.2) fun _ _ => by
    show GoodIndices 30 [3, 15, 29]
    unfold GoodIndices
    decide

theorem threeColumns_small {cfg : Cfg} (h : cfg.bits = 64) {J : Type} (x : J) : ∀ j ∈ (threeColumns x).list, 2 * j.1.len ≤ 2 ^ cfg.bits :=
  threeColumns_list (P := fun j => 2 * j.1.len ≤ 2 ^ cfg.bits) fun _ _ => by
    rw [h]
    show 2 * 30 ≤ 2 ^ 64
    decide

example (st : Style) := select_nths_at_once (cfg := release) st swo (agrees st) notZst rfl (threeColumns_nodup 15)
  (threeColumns_list (P := fun j => j.2 < j.1.len) fun _ _ => by show 15 < 30; decide) (state st)
example (st : Style) := select_nths_at_once_safe (cfg := cfg) st (nonsense st) notZst (threeColumns_nodup 15)
  (threeColumns_list (P := fun j => j.2 < j.1.len) fun _ _ => by show 15 < 30; decide) (nstate st)
example (st : Style) := select_manies_at_once (cfg := release) st swo (agrees st) notZst rfl (threeColumns_nodup [3, 15, 29]) (threeColumns_small rfl _)
  threeColumns_good (state st)
example (st : Style) := par_select_manies_at_once (cfg := release) st swo (agrees st) notZst rfl (threeColumns_nodup [3, 15, 29]) (threeColumns_small rfl _)
  threeColumns_good 2 (state st)
example (st : Style) := select_manies_at_once_safe (cfg := cfg) st (nonsense st) notZst (threeColumns_nodup [3, 90]) (threeColumns_small rfl _) (nstate st)
example (st : Style) := par_select_manies_at_once_safe (cfg := cfg) st (nonsense st) notZst (threeColumns_nodup [3, 90]) (threeColumns_small rfl _) 0 (nstate st)

end Sample

end NdSlice
