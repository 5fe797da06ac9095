import Verif.Proof.Insertion
import Verif.Model.Heap

/-
Heapsort: /repo/src/heap_sort.rs.
-/

namespace NdSlice

variable {α ι ω : Type}

/-- `c` is a child of `p` in a binary heap. -/
def Child (p c : Nat) : Prop := c = 2 * p + 1 ∨ c = 2 * p + 2

/-- All edges with parent from `a` on, except below `node`, respect the heap order; and the parent of `node` is
not less than its grandchildren below `node`. -/
structure HeapEx (lt : α → α → Bool) (a node : Nat) (ys : List α) : Prop where
  edge : ∀ p c x y, Child p c → a ≤ p → p ≠ node → ys[p]? = some x → ys[c]? = some y → lt x y = false
  grand : ∀ p c x y, Child p node → a ≤ p → Child node c → ys[p]? = some x → ys[c]? = some y → lt x y = false

/-- All edges with parent from `a` on respect the heap order. -/
def Heap (lt : α → α → Bool) (a : Nat) (ys : List α) : Prop :=
  ∀ p c x y, Child p c → a ≤ p → ys[p]? = some x → ys[c]? = some y → lt x y = false

theorem Heap.ex {lt : α → α → Bool} {a : Nat} {ys : List α} (h : Heap lt (a + 1) ys) : HeapEx lt a a ys :=
  ⟨fun p c x y hc hp hn => h p c x y hc (by omega), fun p c x y hc hp => by
    unfold Child at hc; omega⟩

variable (C : Cmp α ι ω) {v : View}

theorem HeapEx.done {lt : α → α → Bool} {a node child : Nat} {ys : List α} (so : SWO lt) (h : HeapEx lt a node ys)
    (_hch : Child node child) {x y : α} (hx : ys[node]? = some x) (_hy : ys[child]? = some y) (hxy : lt x y = false)
    (hbest : ∀ c z, Child node c → ys[c]? = some z → lt y z = false) : Heap lt a ys := by
  intro p c x' y' hc hp hx' hy'
  by_cases hn : p = node
  · subst hn
    rw [hx] at hx'; injection hx' with hx'; subst hx'
    exact so.ntrans _ _ _ hxy (hbest c y' hc hy')
  · exact h.edge p c x' y' hc hp hn hx' hy'

theorem HeapEx.step {lt : α → α → Bool} {a node child : Nat} {ys : List α} (so : SWO lt) (h : HeapEx lt a node ys)
    (ha : a ≤ node)
    (hch : Child node child) {x y : α} (hx : ys[node]? = some x) (hy : ys[child]? = some y) (hxy : lt x y = true)
    (hbest : ∀ c z, Child node c → ys[c]? = some z → lt y z = false) :
    HeapEx lt a child ((ys.set node y).set child x) := by
  obtain ⟨hnl, -⟩ := List.getElem?_eq_some_iff.mp hx
  obtain ⟨hcl, -⟩ := List.getElem?_eq_some_iff.mp hy
  have hne : node ≠ child := by unfold Child at hch; omega
  have get : ∀ k, ((ys.set node y).set child x)[k]? = if k = child then some x else if k = node then some y else ys[k]? := by
    intro k
    rw [List.getElem?_set, List.getElem?_set]
    by_cases h1 : child = k
    · subst h1; simp [hcl]
    · by_cases h2 : node = k
      · subst h2; simp [h1, hnl, hne]
      · simp [h1, h2, Ne.symm h1, Ne.symm h2]
  constructor
  · intro p c x' y' hc hp hn hx' hy'
    rw [get] at hx' hy'
    rw [if_neg hn] at hx'
    by_cases h1 : p = node
    · subst h1
      rw [if_pos rfl] at hx'
      injection hx' with hx'; subst hx'
      by_cases h2 : c = child
      · rw [if_pos h2] at hy'; injection hy' with hy'; subst hy'
        exact so.asymm hxy
      · rw [if_neg h2, if_neg (by unfold Child at hc; omega)] at hy'
        exact hbest c y' hc hy'
    · rw [if_neg h1] at hx'
      rw [if_neg (by unfold Child at hc hch; omega)] at hy'
      by_cases h3 : c = node
      · subst h3
        rw [if_pos rfl] at hy'
        injection hy' with hy'; subst hy'
        exact h.grand p child x' y hc hp hch hx' hy
      · rw [if_neg h3] at hy'
        exact h.edge p c x' y' hc hp h1 hx' hy'
  · intro p c x' y' hpc hp hc hx' hy'
    obtain rfl : p = node := by unfold Child at hpc hch; omega
    rw [get, if_neg hne, if_pos rfl] at hx'
    injection hx' with hx'; subst hx'
    rw [get, if_neg (by unfold Child at hc; omega), if_neg (by unfold Child at hc hch; omega)] at hy'
    exact h.edge child c y y' hc (by unfold Child at hch; omega) (Ne.symm hne) hy hy'

theorem siftDown_spec {xs : List α} {a : Nat} (hx : xs.length = v.len) :
    Tri C.R v.region (siftDown C.less v a) xs
      (fun _ ys => ys.Perm xs ∧ ∀ lt, C.Good lt → Heap lt (a + 1) xs → Heap lt a ys) (EP C xs) := by
  unfold siftDown
  refine Tri.loop (Inv := fun node ys => a ≤ node ∧ ys.Perm xs ∧ ∀ lt, C.Good lt → Heap lt (a + 1) xs → HeapEx lt a node ys)
    (μ := fun node _ => v.len - node) ⟨Nat.le_refl _, .refl _, fun lt _ h => h.ex⟩ (by omega) ?_
  rintro node ys hl ⟨han, hp, hh⟩
  unfold siftDownStep
  by_cases hc : 2 * node + 1 ≥ v.len
  · simp only [hc, if_true]
    refine Tri.pure ⟨hp, fun lt hg hi => ?_⟩
    intro p c x y hpc hap hx' hy'
    by_cases hn : p = node
    · obtain ⟨h1, -⟩ := List.getElem?_eq_some_iff.mp hy'
      unfold Child at hpc; omega
    · exact (hh lt hg hi).edge p c x y hpc hap hn hx' hy'
  · simp only [hc, if_false]
    -- choose the child
    refine Tri.bind (Q' := fun child zs => zs = ys ∧ Child node child ∧ child < v.len ∧ ∀ lt, C.Good lt →
      ∀ y c z, ys[child]? = some y → Child node c → ys[c]? = some z → lt y z = false) ?_ ?_
    · by_cases hc2 : 2 * node + 1 + 1 < v.len
      · simp only [hc2, if_true]
        refine Tri.vidx (by omega) fun x hx' => Tri.vidx (by omega) fun y hy' => ?_
        refine Tri.lessB C (fun b hb => ?_) (fun hpan => ⟨rfl, hpan, hp⟩)
        refine Tri.pure ?_
        cases b with
        | true =>
          refine ⟨rfl, .inr rfl, by simpa using hc2, fun lt hg y' c z h1 h2 h3 => ?_⟩
          simp only [if_true] at h1
          rw [hy'] at h1; injection h1 with h1; subst h1
          rcases h2 with rfl | rfl
          · rw [hx'] at h3; injection h3 with h3; subst h3
            exact hg.1.asymm (hg.2 _ _ _ hb).symm
          · rw [hy'] at h3; injection h3 with h3; subst h3
            exact hg.1.irrefl _
        | false =>
          refine ⟨rfl, .inl rfl, by simp; omega, fun lt hg y' c z h1 h2 h3 => ?_⟩
          simp only [Bool.false_eq_true, if_false] at h1
          rw [hx'] at h1; injection h1 with h1; subst h1
          rcases h2 with rfl | rfl
          · rw [hx'] at h3; injection h3 with h3; subst h3
            exact hg.1.irrefl _
          · rw [hy'] at h3; injection h3 with h3; subst h3
            exact (hg.2 _ _ _ hb).symm
      · simp only [hc2, if_false]
        refine Tri.pure ⟨rfl, .inl rfl, by omega, fun lt hg y' c z h1 h2 h3 => ?_⟩
        obtain ⟨h4, -⟩ := List.getElem?_eq_some_iff.mp h3
        rcases h2 with rfl | rfl
        · rw [h1] at h3; injection h3 with h3; subst h3
          exact hg.1.irrefl _
        · omega
    · rintro child zs _ ⟨rfl, hch, hcl, hbest⟩
      have hcn : node < child := by unfold Child at hch; omega
      refine Tri.vidx (by omega) fun x hx' => Tri.vidx hcl fun y hy' => ?_
      refine Tri.lessB C (fun b hb => ?_) (fun hpan => ⟨rfl, hpan, hp⟩)
      cases b with
      | false =>
        refine Tri.pure ⟨hp, fun lt hg hi => ?_⟩
        exact (hh lt hg hi).done hg.1 hch hx' hy' (hg.2 _ _ _ hb).symm (fun c z h1 h2 => hbest lt hg y c z hy' h1 h2)
      | true =>
        refine Tri.vswap (by omega) hcl fun x' y' hx'' hy'' => ?_
        rw [hx'] at hx''; injection hx'' with hx''; subst hx''
        rw [hy'] at hy''; injection hy'' with hy''; subst hy''
        refine Tri.pure ⟨⟨by omega, (swap_perm hx' hy').trans hp, fun lt hg hi => ?_⟩, by omega⟩
        exact (hh lt hg hi).step hg.1 han hch hx' hy' (hg.2 _ _ _ hb).symm (fun c z h1 h2 => hbest lt hg y c z hy' h1 h2)

theorem Heap.root {lt : α → α → Bool} (so : SWO lt) {ys : List α} (h : Heap lt 0 ys) {x : α} (h0 : ys[0]? = some x) :
    ∀ (k : Nat) y, ys[k]? = some y → lt x y = false := by
  intro k
  induction k using Nat.strongRecOn with
  | _ k ih =>
    intro y hy
    rcases Nat.eq_zero_or_pos k with rfl | hk
    · rw [h0] at hy; injection hy with hy; subst hy; exact so.irrefl _
    · obtain ⟨hkl, -⟩ := List.getElem?_eq_some_iff.mp hy
      have hp : (k - 1) / 2 < k := by omega
      have hpx : ys[(k - 1) / 2]? = some (ys[(k - 1) / 2]'(by omega)) := by simp
      have h1 := ih _ hp _ hpx
      have h2 := h ((k - 1) / 2) k _ y (by unfold Child; omega) (Nat.zero_le _) hpx hy
      exact so.ntrans _ _ _ h1 h2

theorem heapSort_spec {xs : List α} (hx : xs.length = v.len) :
    Tri C.R v.region (heapSort C.less v) xs
      (fun _ ys => ys.Perm xs ∧ ∀ lt, C.Good lt → Sorted lt ys) (EP C xs) := by
  unfold heapSort
  refine Tri.bind (Q' := fun _ ys => ys.Perm xs ∧ ∀ lt, C.Good lt → Heap lt 0 ys) ?_ ?_
  · refine Tri.forDown (R := C.R) (Inv := fun i ys => ys.Perm xs ∧ ∀ lt, C.Good lt → Heap lt i ys)
      ⟨.refl _, fun lt hg => ?_⟩ ?_
    · intro p c x y hc hp hx' hy'
      obtain ⟨h4, -⟩ := List.getElem?_eq_some_iff.mp hy'
      unfold Child at hc; omega
    · rintro i ys hl _ _ ⟨hp, hh⟩
      refine Tri.mono (siftDown_spec C (hl.trans hx)) ?_ ?_
      · rintro _ zs _ ⟨h1, h2⟩
        exact ⟨h1.trans hp, fun lt hg => h2 lt hg (hh lt hg)⟩
      · exact fun e zs _ h => h.of_perm hp
  · rintro _ ys hl ⟨hp, hh⟩
    rcases Nat.eq_zero_or_pos v.len with h0 | h0
    · simp only [h0, Nat.zero_sub, Prog.forDown]
      have : ys = [] := List.length_eq_zero_iff.mp (by omega)
      subst this
      exact Tri.pure ⟨hp, fun lt hg => Sorted.nil⟩
    have key := Tri.forDown (R := C.R) (rg := v.region) (a := 1) (n := v.len - 1) (xs := ys) (E := EP C xs)
      (body := fun i => do v.swap 0 i; let w ← v.slice 0 i; siftDown C.less w 0)
      (Inv := fun i zs => zs.Perm xs ∧ ∀ lt, C.Good lt → Heap lt 0 (zs.take i) ∧ Sorted lt (zs.drop i) ∧
        ∀ x ∈ zs.take i, ∀ y ∈ zs.drop i, lt y x = false) ?_ ?_
    · refine Tri.mono key ?_ (fun _ _ _ h => h)
      rintro _ zs hzl ⟨h1, h2⟩
      refine ⟨h1, fun lt hg => ?_⟩
      obtain ⟨-, a2, a3⟩ := h2 lt hg
      have : zs = zs.take 1 ++ zs.drop 1 := (List.take_append_drop _ _).symm
      rw [this, Sorted.append_iff]
      refine ⟨?_, a2, a3⟩
      cases zs with
      | nil => exact Sorted.nil
      | cons z zs => exact Sorted.single z
    · refine ⟨hp, fun lt hg => ?_⟩
      rw [List.take_of_length_le (by omega), List.drop_eq_nil_of_le (by omega)]
      exact ⟨hh lt hg, Sorted.nil, by simp⟩
    · rintro i zs hzl hi1 hi2 ⟨hp1, hs⟩
      obtain ⟨x, T, y, D, rfl, hT⟩ : ∃ x T y D, zs = x :: (T ++ y :: D) ∧ T.length + 1 = i := by
        cases zs with
        | nil => simp at hzl; omega
        | cons x zs =>
          refine ⟨x, zs.take (i - 1), zs[i - 1]'(by simp at hzl; omega), zs.drop i, ?_, by simp at hzl ⊢; omega⟩
          have h1 : zs.drop (i - 1) = zs[i - 1]'(by simp at hzl; omega) :: zs.drop i := by
            rw [List.drop_eq_getElem_cons (by simp at hzl; omega)]
            rw [show i - 1 + 1 = i by omega]
          rw [← h1, List.take_append_drop]
      have hzl' : T.length + D.length + 2 = v.len := by simp at hzl; omega
      refine Tri.vswap (by omega) (by omega) fun x' y' hx' hy' => ?_
      obtain rfl : x = x' := by simpa using hx'
      obtain rfl : y = y' := by rw [← hT] at hy'; simpa using hy'
      have hsp := (swap_perm hx' hy').trans hp1
      have hus : ((x :: (T ++ y :: D)).set 0 y).set i x = y :: (T ++ x :: D) := by
        rw [← hT]; simp
      rw [hus] at hsp ⊢
      refine Tri.slice (by omega) (by omega) ?_
      simp only [Nat.sub_zero]
      have htk : (y :: (T ++ x :: D)).take i = y :: T := by rw [← hT]; simp
      have hdr : (y :: (T ++ x :: D)).drop i = x :: D := by rw [← hT]; simp
      refine Tri.subMono (a := 0) (n := i) (by omega) (by
        rw [List.drop_zero, htk]; exact siftDown_spec C (by simp; omega)) ?_ ?_
      · rintro _ w hwl ⟨h1, h2⟩
        refine ⟨(perm_part (xs := y :: (T ++ x :: D)) (by rw [List.drop_zero, htk]; exact h1)).trans hsp, fun lt hg => ?_⟩
        obtain ⟨a1, a2, a3⟩ := hs lt hg
        have htk' : (x :: (T ++ y :: D)).take (i + 1) = x :: (T ++ [y]) := by
          rw [← hT]; simp [List.take_append]
        have hdr' : (x :: (T ++ y :: D)).drop (i + 1) = D := by rw [← hT]; simp [List.drop_append]
        rw [htk'] at a1 a3
        rw [hdr'] at a2 a3
        simp only [List.take_zero, List.nil_append, Nat.zero_add]
        rw [hdr, List.take_append_of_le_length (by omega), List.take_of_length_le (by omega),
          List.drop_append_of_le_length (by omega), List.drop_eq_nil_of_le (by omega), List.nil_append]
        have hroot := a1.root hg.1 (x := x) rfl
        have hmem : ∀ z ∈ w, z ∈ x :: (T ++ [y]) := by
          intro z hz
          have := h1.mem_iff.mp hz
          simp at this ⊢; tauto
        refine ⟨?_, ?_, ?_⟩
        · refine h2 lt hg ?_
          intro p c x' y' hpc hp' hx'' hy''
          obtain ⟨hcl, -⟩ := List.getElem?_eq_some_iff.mp hy''
          obtain ⟨hpl, -⟩ := List.getElem?_eq_some_iff.mp hx''
          obtain ⟨p, rfl⟩ : ∃ p', p = p' + 1 := ⟨p - 1, by omega⟩
          obtain ⟨c, rfl⟩ : ∃ c', c = c' + 1 := ⟨c - 1, by unfold Child at hpc; omega⟩
          refine a1 (p + 1) (c + 1) x' y' hpc (Nat.zero_le _) ?_ ?_
          · simp only [List.getElem?_cons_succ, List.length_cons] at hx'' hpl ⊢
            rw [List.getElem?_append_left (by omega)]; exact hx''
          · simp only [List.getElem?_cons_succ, List.length_cons] at hy'' hcl ⊢
            rw [List.getElem?_append_left (by omega)]; exact hy''
        · rw [Sorted.cons_iff]
          exact ⟨fun z hz => a3 x (by simp) z hz, a2⟩
        · intro z hz u hu
          rcases List.mem_cons.mp hu with rfl | hu
          · obtain ⟨k, hk⟩ := List.mem_iff_getElem?.mp (hmem z hz)
            exact hroot k z hk
          · exact a3 z (hmem z hz) u hu
      · rintro e w hwl ⟨rfl, hpan, hw⟩
        exact ⟨rfl, hpan, (perm_part (xs := y :: (T ++ x :: D)) (by rw [List.drop_zero, htk]; exact hw)).trans hsp⟩

end NdSlice
