import Verif.Proof.ParMergeSeq

/-
Merging in parallel: `split_for_merge` and `par_merge` of /repo/src/par/merge_sort.rs.
-/

namespace NdSlice

variable {α ι ω : Type} {C : Cmp α ι ω} {cfg : Cfg}

/-- The cells of the region in another order. -/
theorem Tri.regroup {R : ι → Option ω → Prop} {rg rg' : List Addr} {xs xs' : List α} {β : Type} {p : Prog α ι ω β} {Q Q' : β → List α → Prop}
    {E E' : Panic → List α → Prop} (hp : rg'.Perm rg) (hin : ∀ m : Mem α, rg.map m = xs → rg'.map m = xs') (h : Tri R rg' p xs' Q' E')
    (hQ : ∀ b (m : Mem α), Q' b (rg'.map m) → Q b (rg.map m)) (hE : ∀ e (m : Mem α), E' e (rg'.map m) → E e (rg.map m)) :
    Tri R rg p xs Q E := by
  intro m lg nd hm
  exact wp_mono (h m lg (hp.nodup_iff.mpr nd) (hin m hm)) (fun a ha => hp.mem_iff.mp ha) (fun b m' _ => hQ b m') (fun e m' _ => hE e m')

namespace View

theorem idx_sub (v : View) {a n i : Nat} (hi : i < n) (hn : a + n ≤ v.len) :
    (v.idx (a + i) : Prog α ι ω α) = (v.sub a n).idx i := by
  unfold View.idx
  rw [if_pos (show a + i < v.len by omega), if_pos (show i < (v.sub a n).len from hi), View.sub_addr]

theorem cset_sub (v : View) {a n i : Nat} {x : α} (hi : i < n) (hn : a + n ≤ v.len) :
    (v.cset (a + i) x : Prog α ι ω Unit) = (v.sub a n).cset i x := by
  unfold View.cset
  rw [if_pos (show a + i < v.len by omega), if_pos (show i < (v.sub a n).len from hi), View.sub_addr]

theorem cset_sub0 (v : View) {n i : Nat} {x : α} (hi : i < n) (hn : n ≤ v.len) :
    (v.cset i x : Prog α ι ω Unit) = (v.sub 0 n).cset i x := by
  have := cset_sub (ι := ι) (ω := ω) v (a := 0) (x := x) hi (by omega)
  rwa [Nat.zero_add] at this

theorem At.right {rg : List Addr} {v : View} {j : Nat} (h : At rg v j) (b : List Addr) : At (rg ++ b) v j := fun i hi => by
  have := h i hi
  rw [List.getElem?_append_left (List.getElem?_eq_some_iff.mp this).1]
  exact this

theorem At.left {rg : List Addr} {v : View} {j : Nat} (h : At rg v j) (b : List Addr) : At (b ++ rg) v (b.length + j) := fun i hi => by
  rw [List.getElem?_append_right (by omega), show b.length + j + i - b.length = j + i by omega]
  exact h i hi

end View

/-! ### Copying -/

theorem copyUp_spec {R : ι → Option ω → Prop} {rg : List Addr} {src dest : View} {s d n : Nat} {P S M W T : List α} {E : Panic → List α → Prop}
    (hS : S.length = n) (hW : W.length = n) (hs : s + n ≤ src.len) (hd : d + n ≤ dest.len)
    (as : View.At rg (src.sub s n) P.length) (ad : View.At rg (dest.sub d n) (P ++ S ++ M).length) :
    Tri R rg (copyUp src dest s d n) (P ++ S ++ M ++ (W ++ T)) (fun _ ys => ys = P ++ S ++ M ++ (S ++ T)) E := by
  have key := Tri.forUp (R := R) (rg := rg) (a := 0) (n := n) (xs := P ++ S ++ M ++ (W ++ T)) (E := E)
    (body := fun i => do
      let x ← src.idx (s + i)
      dest.cset (d + i) x)
    (Inv := fun i ys => ys = P ++ S ++ M ++ (S.take i ++ (W ++ T).drop i)) (by simp) ?_
  · refine Tri.mono key ?_ (fun _ _ _ h => h)
    rintro _ ys _ rfl
    rw [Nat.zero_add, List.take_of_length_le (by omega), List.drop_left' hW]
  · rintro i ys hys _ hi rfl
    rw [View.idx_sub src (n := n) (by omega) hs]
    refine Tri.vidx' as (by simp; omega) fun x hx => ?_
    rw [View.cset_sub dest (n := n) (by omega) hd]
    refine Tri.vcsetU' ad (by simp; omega) ?_
    have hx : S[i]? = some x := by
      rw [← hx, List.append_assoc, List.append_assoc, List.getElem?_append_right (by omega), List.getElem?_append_left (by omega)]
      congr 1; omega
    obtain ⟨hi', rfl⟩ := List.getElem?_eq_some_iff.mp hx
    rw [List.set_append_right _ _ (by omega), Nat.add_sub_cancel_left, take_set_drop (by simp; omega) (by simp; omega),
      List.take_succ_eq_append_getElem hi']

/-- The region of a merge. -/
def mergeRegion (l r d : View) : List Addr := l.region ++ r.region ++ (d.sub 0 (l.len + r.len)).region

theorem stateDrop_spec {R : ι → Option ω → Prop} {l r d : View} {p q k : Nat} {L1 L2 R1 R2 O W : List α} {E : Panic → List α → Prop}
    (hl : (L1 ++ L2).length = l.len) (hr : (R1 ++ R2).length = r.len) (hd : l.len + r.len ≤ d.len)
    (hp : p = L1.length) (hq : q = R1.length) (hk : k = O.length) (hO : O.length = L1.length + R1.length)
    (hW : (O ++ W).length = l.len + r.len) :
    Tri R (mergeRegion l r d) (stateDrop cfg l r d p q k) ((L1 ++ L2) ++ (R1 ++ R2) ++ (O ++ W))
      (fun _ ys => ys = (L1 ++ L2) ++ (R1 ++ R2) ++ (O ++ L2 ++ R2)) E := by
  subst hp hq hk
  simp only [List.length_append] at hl hr hW
  have al : View.At (mergeRegion l r d) l 0 := (View.at_self l |>.right _).right _
  have ar : View.At (mergeRegion l r d) r l.len := by
    have := ((View.at_self r).left l.region).right (d.sub 0 (l.len + r.len)).region
    rw [View.region_length] at this
    exact this
  have ad : View.At (mergeRegion l r d) (d.sub 0 (l.len + r.len)) (l.len + r.len) := by
    have := (View.at_self (d.sub 0 (l.len + r.len))).left (l.region ++ r.region)
    rw [List.length_append, View.region_length, View.region_length] at this
    exact this
  unfold stateDrop
  refine Tri.usub (by omega) (Tri.bind (Q' := fun _ ys => ys = (L1 ++ L2) ++ (R1 ++ R2) ++ (O ++ L2 ++ W.drop L2.length)) ?_ ?_)
  · have h1 : l.len - L1.length = L2.length := by omega
    rw [h1]
    have := copyUp_spec (R := R) (rg := mergeRegion l r d) (src := l) (dest := d) (s := L1.length) (d := O.length) (n := L2.length)
      (P := L1) (S := L2) (M := R1 ++ R2 ++ O) (W := W.take L2.length) (T := W.drop L2.length) (E := E) rfl (by simp; omega) (by omega) (by omega)
      (by have := al.sub (a := L1.length) (n := L2.length) (by omega); rwa [Nat.zero_add] at this)
      (by
        have := ad.sub (a := O.length) (n := L2.length) (by simp; omega)
        rw [View.sub_sub, Nat.zero_add] at this
        convert this using 1
        simp; omega)
    rw [List.take_append_drop] at this
    refine Tri.mono (xs := _) (by simpa only [List.append_assoc] using this) ?_ (fun _ _ _ h => h)
    rintro _ ys _ rfl
    simp only [List.append_assoc]
  · rintro _ ys _ rfl
    refine Tri.usub (by omega) ?_
    have h1 : r.len - R1.length = R2.length := by omega
    have h2 : l.len - L1.length = L2.length := by omega
    rw [h1, h2]
    have := copyUp_spec (R := R) (rg := mergeRegion l r d) (src := r) (dest := d) (s := R1.length) (d := O.length + L2.length) (n := R2.length)
      (P := L1 ++ L2 ++ R1) (S := R2) (M := O ++ L2) (W := W.drop L2.length) (T := []) (E := E) rfl (by simp; omega) (by omega) (by omega)
      (by
        have := ar.sub (a := R1.length) (n := R2.length) (by omega)
        convert this using 1
        simp; omega)
      (by
        have := ad.sub (a := O.length + L2.length) (n := R2.length) (by simp; omega)
        rw [View.sub_sub, Nat.zero_add] at this
        convert this using 1
        simp; omega)
    simp only [List.append_nil] at this
    refine Tri.mono (xs := _) (by simpa only [List.append_assoc] using this) ?_ (fun _ _ _ h => h)
    rintro _ ys _ rfl
    simp only [List.append_assoc]

/-! ### The sequential merge -/

theorem parMergeBody_spec {l r d : View} {L R ys : List α} {p q k : Nat} {O W : List α} (hL : L.length = l.len) (hR : R.length = r.len)
    (hd : l.len + r.len ≤ d.len) (hp : p ≤ l.len) (hq : q ≤ r.len) (hk : k = O.length) (hO : O.length = p + q) (hW : (O ++ W).length = l.len + r.len)
    (hy : ys = L ++ R ++ (O ++ W)) (hf : FwdOk C L R O (L.drop p) (R.drop q)) :
    Tri C.R (mergeRegion l r d) (parMergeBody cfg C.less l r d (p, q, k)) ys
      (fun o zs => ∃ p' q' O' W', p' ≤ l.len ∧ q' ≤ r.len ∧ O'.length = p' + q' ∧ (O' ++ W').length = l.len + r.len ∧
        zs = L ++ R ++ (O' ++ W') ∧ FwdOk C L R O' (L.drop p') (R.drop q') ∧
        match o with
        | .inl s => s = (p', q', O'.length) ∧ O'.length = k + 1
        | .inr s => s = (p', q', O'.length) ∧ (L.drop p' = [] ∨ R.drop q' = []))
      (fun e zs => e = .user ∧ C.pan ∧ ∃ W', zs = L ++ R ++ W' ∧ W'.Perm (L ++ R)) := by
  subst hy hk
  have al : View.At (mergeRegion l r d) l 0 := (View.at_self l |>.right _).right _
  have ar : View.At (mergeRegion l r d) r l.len := by
    have := ((View.at_self r).left l.region).right (d.sub 0 (l.len + r.len)).region
    rw [View.region_length] at this
    exact this
  have ad : View.At (mergeRegion l r d) (d.sub 0 (l.len + r.len)) (l.len + r.len) := by
    have := (View.at_self (d.sub 0 (l.len + r.len))).left (l.region ++ r.region)
    rw [List.length_append, View.region_length, View.region_length] at this
    exact this
  simp only [List.length_append] at hW
  unfold parMergeBody
  by_cases hc : (decide (p < l.len) && decide (q < r.len)) = true
  · simp only [hc, if_true]
    simp only [Bool.and_eq_true, decide_eq_true_eq] at hc
    obtain ⟨hc1, hc2⟩ := hc
    have hgR : ∀ {x : α} {V : List α}, (L ++ R ++ V)[l.len + q]? = some x → R[q]? = some x := by
      intro x V h
      rw [← h, List.append_assoc, List.getElem?_append_right (by omega), List.getElem?_append_left (by omega)]
      congr 1; omega
    have hgL : ∀ {x : α} {V : List α}, (L ++ R ++ V)[0 + p]? = some x → L[p]? = some x := by
      intro x V h
      rw [← h, List.append_assoc, List.getElem?_append_left (by omega), Nat.zero_add]
    obtain ⟨w, W, rfl⟩ : ∃ w W', W = w :: W' := by
      cases W with
      | nil => simp at hW; omega
      | cons w W => exact ⟨w, W, rfl⟩
    simp only [List.length_cons] at hW
    have hset : ∀ {x : α}, (L ++ R ++ (O ++ w :: W)).set (l.len + r.len + O.length) x = L ++ R ++ ((O ++ [x]) ++ W) := by
      intro x
      rw [List.set_append_right _ _ (by simp; omega), show l.len + r.len + O.length - (L ++ R).length = O.length by simp; omega, set_mid rfl]
      simp
    refine Tri.vidx' ar hc2 fun x hx => Tri.vidx' al hc1 fun y hy => ?_
    have hx := hgR hx
    have hy := hgL hy
    have eL : L.drop p = y :: L.drop (p + 1) := by
      obtain ⟨h, rfl⟩ := List.getElem?_eq_some_iff.mp hy
      exact List.drop_eq_getElem_cons h
    have eR : R.drop q = x :: R.drop (q + 1) := by
      obtain ⟨h, rfl⟩ := List.getElem?_eq_some_iff.mp hx
      exact List.drop_eq_getElem_cons h
    refine Tri.bind (Q' := fun b zs => zs = L ++ R ++ (O ++ w :: W) ∧ C.ans x y b) ?_ ?_
    · refine Tri.onPanic (E' := fun e zs => e = .user ∧ C.pan ∧ zs = L ++ R ++ (O ++ w :: W)) ?_ ?_
      · exact Tri.less C (fun b hb => ⟨rfl, hb⟩) (fun hp => ⟨rfl, hp, rfl⟩)
      · rintro e zs _ ⟨rfl, hpan, rfl⟩
        have hd := stateDrop_spec (cfg := cfg) (R := C.R) (l := l) (r := r) (d := d) (p := p) (q := q) (k := O.length) (L1 := L.take p) (L2 := L.drop p)
          (R1 := R.take q) (R2 := R.drop q) (O := O) (W := w :: W)
          (E := fun e zs => e = .user ∧ C.pan ∧ ∃ W', zs = L ++ R ++ W' ∧ W'.Perm (L ++ R)) (by simpa using hL) (by simpa using hR)
          hd (by simp; omega) (by simp; omega) rfl (by simp; omega) (by simp; omega)
        rw [List.take_append_drop, List.take_append_drop] at hd
        refine Tri.mono hd ?_ (fun _ _ _ h => h)
        rintro _ zs _ rfl
        exact ⟨rfl, hpan, _, rfl, hf.1⟩
    · rintro b zs _ ⟨rfl, hb⟩
      cases b with
      | true =>
        simp only [if_true]
        refine Tri.vidx' ar hc2 fun z hz => ?_
        obtain rfl : x = z := Option.some.inj (hx.symm.trans (hgR hz))
        rw [View.cset_sub0 d (n := l.len + r.len) (by omega) (by omega)]
        refine Tri.vcset' ad (by simp; omega) (Tri.pure ⟨p, q + 1, O ++ [x], W, hp, by omega, by simp; omega, by simp; omega, hset, ?_, ?_⟩)
        · rw [eL] at hf ⊢; rw [eR] at hf
          exact hf.right hb
        · simp
      | false =>
        simp only [Bool.false_eq_true, if_false]
        refine Tri.vidx' al hc1 fun z hz => ?_
        obtain rfl : y = z := Option.some.inj (hy.symm.trans (hgL hz))
        rw [View.cset_sub0 d (n := l.len + r.len) (by omega) (by omega)]
        refine Tri.vcset' ad (by simp; omega) (Tri.pure ⟨p + 1, q, O ++ [y], W, by omega, hq, by simp; omega, by simp; omega, hset, ?_, ?_⟩)
        · rw [eR] at hf ⊢; rw [eL] at hf
          exact hf.left hb
        · simp
  · simp only [hc, Bool.false_eq_true, if_false]
    simp only [Bool.and_eq_true, decide_eq_true_eq] at hc
    refine Tri.pure ⟨p, q, O, W, hp, hq, hO, by simpa using hW, rfl, hf, rfl, ?_⟩
    by_cases h : p < l.len
    · exact .inr (List.drop_eq_nil_of_le (by omega))
    · exact .inl (List.drop_eq_nil_of_le (by omega))

/-! ### Splitting -/

/-- What `split_for_merge` finds. -/
def SplitOk (C : Cmp α ι ω) (L R : List α) (p q : Nat) : Prop :=
  ∀ lt, C.Good lt → Sorted lt L → Sorted lt R →
    (∀ x ∈ R.take q, ∀ y ∈ L.drop p, lt x y = true) ∧ (∀ x ∈ R.drop q, ∀ y ∈ L.take p, lt x y = false)

theorem StableArr.swap {lt : α → α → Bool} (so : SWO lt) {A B : List α} (h : ∀ a ∈ A, ∀ b ∈ B, eqv lt a b = false) :
    StableArr lt (A ++ B) (B ++ A) := by
  intro x
  rw [List.filter_append, List.filter_append]
  by_cases hA : A.filter (eqv lt x) = []
  · rw [hA]; simp
  · have hB : B.filter (eqv lt x) = [] := by
      obtain ⟨a, ha⟩ := List.exists_mem_of_ne_nil _ hA
      rw [List.mem_filter] at ha
      rw [List.filter_eq_nil_iff]
      intro b hb hxb
      have h1 := h a ha.1 b hb
      have h2 := ha.2
      rw [eqv_iff] at hxb h2
      have : eqv lt a b = true := by
        rw [eqv_iff]; exact ⟨so.ntrans _ _ _ h2.2 hxb.1, so.ntrans _ _ _ hxb.2 h2.1⟩
      rw [this] at h1; cases h1
    rw [hB]; simp

theorem MergeOk.split {L R W1 W2 : List α} {p q : Nat} (h : SplitOk C L R p q) (h1 : MergeOk C (L.take p) (R.take q) W1)
    (h2 : MergeOk C (L.drop p) (R.drop q) W2) : MergeOk C L R (W1 ++ W2) := by
  have hperm : (L.take p ++ R.take q ++ (L.drop p ++ R.drop q)).Perm (L ++ R) := by
    conv_rhs => rw [← List.take_append_drop p L, ← List.take_append_drop q R]
    simp only [List.append_assoc]
    refine List.Perm.append_left _ ?_
    rw [← List.append_assoc, ← List.append_assoc]
    exact List.Perm.append_right _ List.perm_append_comm
  refine ⟨(h1.1.append h2.1).trans hperm, fun lt hg hL hR => ?_⟩
  obtain ⟨s1, s2⟩ := h lt hg hL hR
  obtain ⟨t1, t2⟩ := h1.2 lt hg (hL.take p) (hR.take q)
  obtain ⟨t3, t4⟩ := h2.2 lt hg (hL.drop p) (hR.drop q)
  have hL' := hL
  have hR' := hR
  rw [← List.take_append_drop p L, Sorted.append_iff] at hL'
  rw [← List.take_append_drop q R, Sorted.append_iff] at hR'
  constructor
  · refine Sorted.append_iff.mpr ⟨t1, t3, fun x hx y hy => ?_⟩
    rcases List.mem_append.mp (h1.1.subset hx) with hx | hx <;> rcases List.mem_append.mp (h2.1.subset hy) with hy | hy
    · exact hL'.2.2 x hx y hy
    · exact s2 y hy x hx
    · exact hg.1.asymm (s1 x hx y hy)
    · exact hR'.2.2 x hx y hy
  · refine StableArr.trans ?_ (t2.append t4)
    have hsw := StableArr.swap hg.1 (A := L.drop p) (B := R.take q) (fun a ha b hb => by
      have := s1 b hb a ha
      simp [eqv, this])
    have := ((StableArr.refl (lt := lt) (L.take p)).append hsw).append (StableArr.refl (R.drop q))
    rw [← List.append_assoc, List.take_append_drop, List.append_assoc, List.take_append_drop] at this
    simpa using this

section
variable {l r : View} {T : List Addr} {L R V : List α} {E : Panic → List α → Prop}

/-- The search of `split_for_merge` in `right`. -/
def RightInv (C : Cmp α ι ω) (R : List α) (z : α) (a b : Nat) : Prop :=
  ∀ lt, C.Good lt → Sorted lt R → (∀ x ∈ R.take a, lt x z = true) ∧ (∀ x ∈ R.drop b, lt x z = false)

/-- The search of `split_for_merge` in `left`. -/
def LeftInv (C : Cmp α ι ω) (L : List α) (z : α) (a b : Nat) : Prop :=
  ∀ lt, C.Good lt → Sorted lt L → (∀ x ∈ L.take a, lt z x = false) ∧ (∀ x ∈ L.drop b, lt z x = true)

theorem sorted_around {lt : α → α → Bool} (so : SWO lt) {R : List α} {m : Nat} {x : α} (hx : R[m]? = some x) (hs : Sorted lt R) :
    (∀ y ∈ R.take (m + 1), lt x y = false) ∧ (∀ y ∈ R.drop m, lt y x = false) := by
  obtain ⟨hm, rfl⟩ := List.getElem?_eq_some_iff.mp hx
  have h1 := hs
  rw [← List.take_append_drop m R, List.drop_eq_getElem_cons hm, Sorted.append_iff, Sorted.cons_iff] at h1
  constructor
  · intro y hy
    rw [List.take_succ_eq_append_getElem hm] at hy
    rcases List.mem_append.mp hy with hy | hy
    · exact h1.2.2 y hy _ List.mem_cons_self
    · rw [List.mem_singleton.mp hy]; exact so.irrefl _
  · intro y hy
    rw [List.drop_eq_getElem_cons hm] at hy
    rcases List.mem_cons.mp hy with rfl | hy
    · exact so.irrefl _
    · exact h1.2.1.1 y hy

theorem splitRight_spec {z : α} {p : Nat} (hL : L.length = l.len) (hR : R.length = r.len) (hp : p < l.len) (hz : L[p]? = some z)
    (hE : C.pan → E .user (L ++ R ++ V)) :
    Tri C.R (l.region ++ r.region ++ T) (Prog.loop (splitRightBody C.less l r p) (r.len + 1) (0, r.len)) (L ++ R ++ V)
      (fun a ys => ys = L ++ R ++ V ∧ a ≤ r.len ∧ RightInv C R z a a) E := by
  have al : View.At (l.region ++ r.region ++ T) l 0 := (View.at_self l |>.right _).right _
  have ar : View.At (l.region ++ r.region ++ T) r l.len := by
    have := ((View.at_self r).left l.region).right T
    rw [View.region_length] at this
    exact this
  refine Tri.loop (Inv := fun (s : Nat × Nat) ys => ys = L ++ R ++ V ∧ s.1 ≤ s.2 ∧ s.2 ≤ r.len ∧ RightInv C R z s.1 s.2)
    (μ := fun s _ => s.2 - s.1) ⟨rfl, by simp, by simp, fun lt _ _ => ⟨by simp, by simp [← hR]⟩⟩ (by simp) ?_
  rintro ⟨a, b⟩ ys _ ⟨rfl, h1, h2, h3⟩
  simp only at h1 h2 h3
  unfold splitRightBody
  by_cases hab : a < b
  · simp only [hab, if_true]
    refine Tri.vidx' ar (by omega) fun x hx => Tri.vidx' al hp fun y hy => ?_
    have hx : R[a + (b - a) / 2]? = some x := by
      rw [← hx, List.append_assoc, List.getElem?_append_right (by omega), List.getElem?_append_left (by omega)]
      congr 1; omega
    have hy : L[p]? = some y := by
      rw [← hy, List.append_assoc, List.getElem?_append_left (by omega), Nat.zero_add]
    obtain rfl : y = z := Option.some.inj (hy.symm.trans hz)
    refine Tri.lessB C (fun c hc => Tri.pure ?_) hE
    cases c with
    | true =>
      refine ⟨⟨rfl, by simp; omega, by simpa using h2, fun lt hg hs => ⟨?_, (h3 lt hg hs).2⟩⟩, by simp; omega⟩
      intro u hu
      exact hg.1.lt_of_le_of_lt ((sorted_around hg.1 hx hs).1 u hu) (hg.2 _ _ _ hc).symm
    | false =>
      refine ⟨⟨rfl, by simp, by simp; omega, fun lt hg hs => ⟨(h3 lt hg hs).1, ?_⟩⟩, by simp; omega⟩
      intro u hu
      exact hg.1.le_trans (hg.2 _ _ _ hc).symm ((sorted_around hg.1 hx hs).2 u hu)
  · simp only [hab, if_false]
    obtain rfl : a = b := by omega
    exact Tri.pure ⟨rfl, h2, h3⟩

theorem splitLeft_spec {z : α} {p : Nat} (hL : L.length = l.len) (hR : R.length = r.len) (hp : p < r.len) (hz : R[p]? = some z)
    (hE : C.pan → E .user (L ++ R ++ V)) :
    Tri C.R (l.region ++ r.region ++ T) (Prog.loop (splitLeftBody C.less l r p) (l.len + 1) (0, l.len)) (L ++ R ++ V)
      (fun a ys => ys = L ++ R ++ V ∧ a ≤ l.len ∧ LeftInv C L z a a) E := by
  have al : View.At (l.region ++ r.region ++ T) l 0 := (View.at_self l |>.right _).right _
  have ar : View.At (l.region ++ r.region ++ T) r l.len := by
    have := ((View.at_self r).left l.region).right T
    rw [View.region_length] at this
    exact this
  refine Tri.loop (Inv := fun (s : Nat × Nat) ys => ys = L ++ R ++ V ∧ s.1 ≤ s.2 ∧ s.2 ≤ l.len ∧ LeftInv C L z s.1 s.2)
    (μ := fun s _ => s.2 - s.1) ⟨rfl, by simp, by simp, fun lt _ _ => ⟨by simp, by simp [← hL]⟩⟩ (by simp) ?_
  rintro ⟨a, b⟩ ys _ ⟨rfl, h1, h2, h3⟩
  simp only at h1 h2 h3
  unfold splitLeftBody
  by_cases hab : a < b
  · simp only [hab, if_true]
    refine Tri.vidx' ar hp fun x hx => Tri.vidx' al (by omega) fun y hy => ?_
    have hx : R[p]? = some x := by
      rw [← hx, List.append_assoc, List.getElem?_append_right (by omega), List.getElem?_append_left (by omega)]
      congr 1; omega
    have hy : L[a + (b - a) / 2]? = some y := by
      rw [← hy, List.append_assoc, List.getElem?_append_left (by omega), Nat.zero_add]
    obtain rfl : x = z := Option.some.inj (hx.symm.trans hz)
    refine Tri.lessB C (fun c hc => Tri.pure ?_) hE
    cases c with
    | false =>
      refine ⟨⟨rfl, by simp; omega, by simpa using h2, fun lt hg hs => ⟨?_, (h3 lt hg hs).2⟩⟩, by simp; omega⟩
      intro u hu
      exact hg.1.le_trans ((sorted_around hg.1 hy hs).1 u hu) (hg.2 _ _ _ hc).symm
    | true =>
      refine ⟨⟨rfl, by simp, by simp; omega, fun lt hg hs => ⟨(h3 lt hg hs).1, ?_⟩⟩, by simp; omega⟩
      intro u hu
      exact hg.1.lt_of_lt_of_le (hg.2 _ _ _ hc).symm ((sorted_around hg.1 hy hs).2 u hu)
  · simp only [hab, if_false]
    obtain rfl : a = b := by omega
    exact Tri.pure ⟨rfl, h2, h3⟩

theorem splitForMerge_spec (hL : L.length = l.len) (hR : R.length = r.len) (h2 : 3 ≤ l.len + r.len) (hE : C.pan → E .user (L ++ R ++ V)) :
    Tri C.R (l.region ++ r.region ++ T) (splitForMerge C.less l r) (L ++ R ++ V)
      (fun s ys => ys = L ++ R ++ V ∧ s.1 ≤ l.len ∧ s.2 ≤ r.len ∧ SplitOk C L R s.1 s.2 ∧
        0 < s.1 + s.2 ∧ s.1 + s.2 < l.len + r.len) E := by
  unfold splitForMerge
  by_cases h : l.len ≥ r.len
  · simp only [h, if_true]
    obtain ⟨z, hz⟩ : ∃ z, L[l.len / 2]? = some z := ⟨L[l.len / 2]'(by omega), by simp⟩
    refine Tri.bind (splitRight_spec hL hR (by omega) hz hE) ?_
    rintro a ys _ ⟨rfl, ha, hi⟩
    refine Tri.pure ⟨rfl, by simp; omega, ha, fun lt hg sL sR => ?_, by simp; omega, by simp; omega⟩
    obtain ⟨i1, i2⟩ := hi lt hg sR
    have hs := sorted_around hg.1 hz sL
    refine ⟨fun x hx y hy => hg.1.lt_of_lt_of_le (i1 x hx) (hs.2 y hy), fun x hx y hy => ?_⟩
    refine hg.1.le_trans (hs.1 y ?_) (i2 x hx)
    exact (List.take_subset_take_left _ (by omega)) hy
  · simp only [h, if_false]
    obtain ⟨z, hz⟩ : ∃ z, R[r.len / 2]? = some z := ⟨R[r.len / 2]'(by omega), by simp⟩
    refine Tri.bind (splitLeft_spec hL hR (by omega) hz hE) ?_
    rintro a ys _ ⟨rfl, ha, hi⟩
    refine Tri.pure ⟨rfl, ha, by simp; omega, fun lt hg sL sR => ?_, by simp; omega, by simp; omega⟩
    obtain ⟨i1, i2⟩ := hi lt hg sL
    have hs := sorted_around hg.1 hz sR
    refine ⟨fun x hx y hy => ?_, fun x hx y hy => hg.1.le_trans (i1 y hy) (hs.2 x hx)⟩
    refine hg.1.lt_of_le_of_lt (hs.1 x ?_) (i2 y hy)
    exact (List.take_subset_take_left _ (by omega)) hx

end

/-! ### `par_merge` -/

theorem mergeRegion_perm {l r d : View} {p q : Nat} (hp : p ≤ l.len) (hq : q ≤ r.len) :
    l.region = (l.sub 0 p).region ++ (l.sub p (l.len - p)).region ∧ r.region = (r.sub 0 q).region ++ (r.sub q (r.len - q)).region ∧
    (d.sub 0 (l.len + r.len)).region = (d.sub 0 (p + q)).region ++ (d.sub (p + q) (l.len + r.len - (p + q))).region := by
  have key : ∀ (v : View) (a n : Nat), a ≤ n → (v.sub 0 n).region = (v.sub 0 a).region ++ (v.sub a (n - a)).region := by
    intro v a n h
    have := View.region_split (v.sub 0 n) (a := a) (n := n - a) (by simp; omega)
    rw [View.sub_sub, View.sub_sub, View.sub_sub] at this
    simp only [View.sub_len, Nat.zero_add] at this
    rw [this]
    have : n - (a + (n - a)) = 0 := by omega
    rw [this]
    simp [View.region]
  refine ⟨?_, ?_, key d _ _ (by omega)⟩
  · conv_lhs => rw [← View.sub_self l]
    exact key l p l.len hp
  · conv_lhs => rw [← View.sub_self r]
    exact key r q r.len hq

theorem parMerge_spec {k : Nat} {l r d : View} {L R W : List α} (hk : l.len + r.len < k) (hL : L.length = l.len) (hR : R.length = r.len)
    (hW : W.length = l.len + r.len) (hd : l.len + r.len ≤ d.len) :
    Tri C.R (mergeRegion l r d) (parMerge cfg C.less k l r d) (L ++ R ++ W)
      (fun _ ys => ∃ W', ys = L ++ R ++ W' ∧ MergeOk C L R W')
      (fun e ys => e = .user ∧ C.pan ∧ ∃ W', ys = L ++ R ++ W' ∧ W'.Perm (L ++ R)) := by
  induction k generalizing l r d L R W with
  | zero => omega
  | succ k ih =>
    unfold parMerge
    split
    · refine Tri.bind (Q' := fun s ys => ∃ p q O W', p ≤ l.len ∧ q ≤ r.len ∧ O.length = p + q ∧ (O ++ W').length = l.len + r.len ∧
        ys = L ++ R ++ (O ++ W') ∧ FwdOk C L R O (L.drop p) (R.drop q) ∧ s = (p, q, O.length) ∧ (L.drop p = [] ∨ R.drop q = [])) ?_ ?_
      · refine Tri.loop (Inv := fun (s : Nat × Nat × Nat) ys => ∃ p q O W', p ≤ l.len ∧ q ≤ r.len ∧ O.length = p + q ∧
          (O ++ W').length = l.len + r.len ∧ ys = L ++ R ++ (O ++ W') ∧ FwdOk C L R O (L.drop p) (R.drop q) ∧ s = (p, q, O.length))
          (μ := fun s _ => l.len + r.len - s.2.2)
          ⟨0, 0, [], W, by omega, by omega, rfl, by simpa using hW, rfl, FwdOk.init, rfl⟩ (by simp) ?_
        rintro s ys _ ⟨p, q, O, W', g1, g2, g3, g4, g5, g6, rfl⟩
        refine Tri.mono (parMergeBody_spec hL hR hd g1 g2 rfl g3 g4 g5 g6) ?_ (fun _ _ _ h => h)
        rintro (s | s) zs _ ⟨p', q', O', W'', f1, f2, f3, f4, f5, f6, f7, f8⟩
        · subst f7
          refine ⟨⟨p', q', O', W'', f1, f2, f3, f4, f5, f6, rfl⟩, ?_⟩
          simp only [List.length_append] at f4
          simp only; omega
        · exact ⟨p', q', O', W'', f1, f2, f3, f4, f5, f6, f7, f8⟩
      · rintro s ys _ ⟨p, q, O, W', g1, g2, g3, g4, rfl, g6, rfl, g8⟩
        simp only
        have := stateDrop_spec (cfg := cfg) (R := C.R) (l := l) (r := r) (d := d) (p := p) (q := q) (k := O.length) (L1 := L.take p) (L2 := L.drop p)
          (R1 := R.take q) (R2 := R.drop q) (O := O) (W := W')
          (E := fun e zs => e = .user ∧ C.pan ∧ ∃ W', zs = L ++ R ++ W' ∧ W'.Perm (L ++ R)) (by simpa using hL) (by simpa using hR)
          hd (by simp; omega) (by simp; omega) rfl (by simp; omega) g4
        rw [List.take_append_drop, List.take_append_drop] at this
        refine Tri.mono this ?_ (fun _ _ _ h => h)
        rintro _ zs _ rfl
        exact ⟨_, rfl, g6.done g8⟩
    · rename_i hc
      simp only [Bool.or_eq_true, beq_iff_eq, decide_eq_true_eq, not_or] at hc
      refine Tri.bind (Q' := fun s ys => ys = L ++ R ++ W ∧ ∃ p q, p ≤ l.len ∧ q ≤ r.len ∧ SplitOk C L R p q ∧ 0 < p + q ∧ p + q < l.len + r.len ∧
        s = (l.sub 0 p, l.sub p (l.len - p), r.sub 0 q, r.sub q (r.len - q))) ?_ ?_
      · refine Tri.onPanic (E' := fun e ys => e = .user ∧ C.pan ∧ ys = L ++ R ++ W) ?_ ?_
        · refine Tri.bind (splitForMerge_spec (T := (d.sub 0 (l.len + r.len)).region) hL hR (by omega) (fun h => ⟨rfl, h, rfl⟩)) ?_
          rintro ⟨p, q⟩ ys _ ⟨rfl, g1, g2, g3, g4, g5⟩
          exact Tri.splitAt g1 (Tri.splitAt g2 (Tri.pure ⟨rfl, p, q, g1, g2, g3, g4, g5, rfl⟩))
        · rintro e ys _ ⟨rfl, hpan, rfl⟩
          have := stateDrop_spec (cfg := cfg) (R := C.R) (l := l) (r := r) (d := d) (p := 0) (q := 0) (k := 0) (L1 := []) (L2 := L)
            (R1 := []) (R2 := R) (O := []) (W := W)
            (E := fun e zs => e = .user ∧ C.pan ∧ ∃ W', zs = L ++ R ++ W' ∧ W'.Perm (L ++ R)) (by simpa using hL) (by simpa using hR)
            hd rfl rfl rfl rfl (by simpa using hW)
          simp only [List.nil_append] at this
          refine Tri.mono this ?_ (fun _ _ _ h => h)
          rintro _ zs _ rfl
          exact ⟨rfl, hpan, _, rfl, .refl _⟩
      · rintro s ys _ ⟨rfl, p, q, g1, g2, g3, g4, g5, rfl⟩
        simp only
        refine Tri.splitAt (by simp; omega) ?_
        simp only [View.sub_len]
        obtain ⟨r1, r2, r3⟩ := mergeRegion_perm (d := d) g1 g2
        have hlL : ∀ (v : View) (m : Mem α) , (v.region.map m).length = v.len := fun v m => by simp
        have e1 : mergeRegion (l.sub 0 p) (r.sub 0 q) (d.sub 0 (p + q)) = (l.sub 0 p).region ++ (r.sub 0 q).region ++ (d.sub 0 (p + q)).region := by
          unfold mergeRegion; rw [View.sub_sub]; rfl
        have e2 : mergeRegion (l.sub p (l.len - p)) (r.sub q (r.len - q)) (d.sub (p + q) (d.len - (p + q))) =
            (l.sub p (l.len - p)).region ++ (r.sub q (r.len - q)).region ++ (d.sub (p + q) (l.len + r.len - (p + q))).region := by
          unfold mergeRegion; rw [View.sub_sub]
          simp only [View.sub_len, Nat.add_zero]
          rw [show l.len - p + (r.len - q) = l.len + r.len - (p + q) by omega]
        have i1 := ih (l := l.sub 0 p) (r := r.sub 0 q) (d := d.sub 0 (p + q)) (L := L.take p) (R := R.take q) (W := W.take (p + q))
          (by simp; omega) (by simp; omega) (by simp; omega) (by simp; omega) (by simp)
        have i2 := ih (l := l.sub p (l.len - p)) (r := r.sub q (r.len - q)) (d := d.sub (p + q) (d.len - (p + q))) (L := L.drop p) (R := R.drop q)
          (W := W.drop (p + q)) (by simp; omega) (by simp; omega) (by simp; omega) (by simp; omega) (by simp; omega)
        rw [e1] at i1
        rw [e2] at i2
        -- what the joined posts give
        have out : ∀ {A' B' W1 W2 : List α} {m : Mem α},
            ((l.sub 0 p).region ++ (r.sub 0 q).region ++ (d.sub 0 (p + q)).region ++ ((l.sub p (l.len - p)).region ++ (r.sub q (r.len - q)).region ++
              (d.sub (p + q) (l.len + r.len - (p + q))).region)).map m = A' ++ B' → A' = L.take p ++ R.take q ++ W1 → B' = L.drop p ++ R.drop q ++ W2 →
            W1.length = p + q → (mergeRegion l r d).map m = L ++ R ++ (W1 ++ W2) := by
          rintro A' B' W1 W2 m hm rfl rfl hw1
          unfold mergeRegion
          rw [r1, r2, r3]
          simp only [List.map_append] at hm ⊢
          obtain ⟨hA, hB⟩ := List.append_inj hm (by simp; omega)
          obtain ⟨hA, hA3⟩ := List.append_inj hA (by simp; omega)
          obtain ⟨hA1, hA2⟩ := List.append_inj hA (by simp; omega)
          obtain ⟨hB, hB3⟩ := List.append_inj hB (by simp; omega)
          obtain ⟨hB1, hB2⟩ := List.append_inj hB (by simp; omega)
          rw [hA1, hA2, hA3, hB1, hB2, hB3, List.take_append_drop, List.take_append_drop]
        have hpp : ∀ {W1 W2 : List α}, W1.Perm (L.take p ++ R.take q) → W2.Perm (L.drop p ++ R.drop q) → (W1 ++ W2).Perm (L ++ R) := by
          intro W1 W2 h1 h2
          refine (h1.append h2).trans ?_
          conv_rhs => rw [← List.take_append_drop p L, ← List.take_append_drop q R]
          simp only [List.append_assoc]
          refine List.Perm.append_left _ ?_
          rw [← List.append_assoc, ← List.append_assoc]
          exact List.Perm.append_right _ List.perm_append_comm
        have hln : ∀ {W1 : List α}, W1.Perm (L.take p ++ R.take q) → W1.length = p + q := by
          intro W1 h
          rw [h.length_eq]; simp; omega
        refine Tri.bind (Q' := fun _ ys => ∃ W', ys = L ++ R ++ W' ∧ MergeOk C L R W') ?_ (fun _ ys _ h => Tri.pure h)
        refine Tri.regroup (rg' := _) (xs' := (L.take p ++ R.take q ++ W.take (p + q)) ++ (L.drop p ++ R.drop q ++ W.drop (p + q))) ?_ ?_
          (Tri.rayonJoin
            (Q := fun _ ys => ∃ W1 W2, ys = (L.take p ++ R.take q ++ W1) ++ (L.drop p ++ R.drop q ++ W2) ∧
              MergeOk C (L.take p) (R.take q) W1 ∧ MergeOk C (L.drop p) (R.drop q) W2)
            (E := fun e ys => e = .user ∧ C.pan ∧ ∃ W1 W2, ys = (L.take p ++ R.take q ++ W1) ++ (L.drop p ++ R.drop q ++ W2) ∧
              W1.Perm (L.take p ++ R.take q) ∧ W2.Perm (L.drop p ++ R.drop q)) ?_ i1 i2 ?_ ?_ ?_ ?_) ?_ ?_
        · unfold mergeRegion
          rw [r1, r2, r3]
          generalize (l.sub 0 p).region = a1
          generalize (l.sub p (l.len - p)).region = a2
          generalize (r.sub 0 q).region = b1
          generalize (r.sub q (r.len - q)).region = b2
          generalize (d.sub 0 (p + q)).region = c1
          generalize (d.sub (p + q) (l.len + r.len - (p + q))).region = c2
          rw [List.perm_iff_count]
          intro a
          simp only [List.count_append]
          omega
        · intro m hm
          unfold mergeRegion at hm
          rw [r1, r2, r3] at hm
          simp only [List.map_append] at hm ⊢
          obtain ⟨hA, hB⟩ := List.append_inj hm (by simp; omega)
          obtain ⟨hA1, hA2⟩ := List.append_inj hA (by simp; omega)
          subst hA1 hA2 hB
          rw [List.take_left' (by simp), List.take_left' (by simp), List.take_left' (by simp), List.drop_left' (by simp), List.drop_left' (by simp),
            List.drop_left' (by simp)]
        · simp; omega
        · rintro _ _ A' B' _ _ ⟨W1, rfl, h1⟩ ⟨W2, rfl, h2⟩
          exact ⟨W1, W2, rfl, h1, h2⟩
        · rintro _ _ A' B' _ _ ⟨rfl, hpan, W1, rfl, h1⟩ ⟨W2, rfl, h2⟩
          exact ⟨rfl, hpan, W1, W2, rfl, h1, h2.1⟩
        · rintro _ _ A' B' _ _ ⟨W1, rfl, h1⟩ ⟨rfl, hpan, W2, rfl, h2⟩
          exact ⟨rfl, hpan, W1, W2, rfl, h1.1, h2⟩
        · rintro _ _ A' B' _ _ ⟨rfl, hpan, W1, rfl, h1⟩ ⟨rfl, _, W2, rfl, h2⟩
          exact ⟨rfl, hpan, W1, W2, rfl, h1, h2⟩
        · rintro _ m ⟨W1, W2, hm, h1, h2⟩
          exact ⟨W1 ++ W2, out hm rfl rfl (hln h1.1), MergeOk.split g3 h1 h2⟩
        · rintro _ m ⟨rfl, hpan, W1, W2, hm, h1, h2⟩
          exact ⟨rfl, hpan, W1 ++ W2, out hm rfl rfl (hln h1), hpp h1 h2⟩

end NdSlice
