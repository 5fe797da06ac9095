import Verif.Core.Scratch
import Verif.Proof.Insertion
import Verif.Proof.Pivot
import Verif.Model.Merge

/-
Merging two runs: `merge` of /repo/src/merge_sort.rs and /repo/src/par/merge_sort.rs.
-/

namespace NdSlice

variable {α ι ω : Type} {C : Cmp α ι ω} {cfg : Cfg} {v buf : View}

/-! ### On lists -/

/-- What a merge of `L` and `R` must give. -/
def MergeOk (C : Cmp α ι ω) (L R ys : List α) : Prop :=
  ys.Perm (L ++ R) ∧ ∀ lt, C.Good lt → Sorted lt L → Sorted lt R → Sorted lt ys ∧ StableArr lt (L ++ R) ys

/-- Merging forwards: `O` is the output so far, `L2` and `R2` are what is left. -/
def FwdOk (C : Cmp α ι ω) (L R O L2 R2 : List α) : Prop :=
  (O ++ L2 ++ R2).Perm (L ++ R) ∧ ∀ lt, C.Good lt → Sorted lt L → Sorted lt R →
    StableArr lt (L ++ R) (O ++ L2 ++ R2) ∧ Sorted lt O ∧ Sorted lt L2 ∧ Sorted lt R2 ∧
    ∀ o ∈ O, ∀ x ∈ L2 ++ R2, lt x o = false

/-- Merging backwards: `O` is the output so far, `L1` and `R1` are what is left. -/
def BwdOk (C : Cmp α ι ω) (L R O L1 R1 : List α) : Prop :=
  (L1 ++ R1 ++ O).Perm (L ++ R) ∧ ∀ lt, C.Good lt → Sorted lt L → Sorted lt R →
    StableArr lt (L ++ R) (L1 ++ R1 ++ O) ∧ Sorted lt O ∧ Sorted lt L1 ∧ Sorted lt R1 ∧
    ∀ o ∈ O, ∀ x ∈ L1 ++ R1, lt o x = false

theorem FwdOk.init {L R : List α} : FwdOk C L R [] L R :=
  ⟨.refl _, fun _ _ hl hr => ⟨.refl _, Sorted.nil, hl, hr, by simp⟩⟩

theorem BwdOk.init {L R : List α} : BwdOk C L R [] L R :=
  ⟨by simp, fun _ _ hl hr => ⟨by simpa using StableArr.refl _, Sorted.nil, hl, hr, by simp⟩⟩

theorem StableArr.move' {lt : α → α → Bool} {g : α} {A : List α} (h : SWO lt) (hA : ∀ a ∈ A, eqv lt a g = false) :
    StableArr lt (A ++ [g]) (g :: A) := (StableArr.move h hA).symm

theorem eqv_false_of_left {lt : α → α → Bool} {x y : α} (h : lt x y = true) : eqv lt x y = false := by simp [eqv, h]
theorem eqv_false_of_right {lt : α → α → Bool} {x y : α} (h : lt y x = true) : eqv lt x y = false := by simp [eqv, h]

theorem FwdOk.left {L R O L2 R2 : List α} {l r : α} (h : FwdOk C L R O (l :: L2) (r :: R2)) (hb : C.ans r l false) :
    FwdOk C L R (O ++ [l]) L2 (r :: R2) := by
  refine ⟨by simpa using h.1, fun lt hg hl hr => ?_⟩
  obtain ⟨h1, h2, h3, h4, h5⟩ := h.2 lt hg hl hr
  have hrl : lt r l = false := (hg.2 _ _ _ hb).symm
  rw [Sorted.cons_iff] at h3
  refine ⟨by simpa using h1, ?_, h3.2, h4, ?_⟩
  · rw [Sorted.append_iff]
    refine ⟨h2, Sorted.single l, fun o ho x hx => ?_⟩
    rw [List.mem_singleton.mp hx]
    exact h5 o ho l (by simp)
  · intro o ho x hx
    rcases List.mem_append.mp ho with ho | ho
    · refine h5 o ho x ?_
      simp only [List.mem_append, List.mem_cons] at hx ⊢
      tauto
    · rw [List.mem_singleton.mp ho]
      rcases List.mem_append.mp hx with hx | hx
      · exact h3.1 x hx
      · rcases List.mem_cons.mp hx with rfl | hx
        · exact hrl
        · exact hg.1.le_trans hrl ((Sorted.cons_iff.mp h4).1 x hx)

theorem FwdOk.right {L R O L2 R2 : List α} {l r : α} (h : FwdOk C L R O (l :: L2) (r :: R2)) (hb : C.ans r l true) :
    FwdOk C L R (O ++ [r]) (l :: L2) R2 := by
  constructor
  · refine List.Perm.trans ?_ h.1
    rw [List.append_assoc, List.append_assoc, List.append_assoc]
    refine List.Perm.append_left _ ?_
    exact (List.perm_middle (a := r) (l₁ := l :: L2) (l₂ := R2)).symm
  · intro lt hg hl hr
    obtain ⟨h1, h2, h3, h4, h5⟩ := h.2 lt hg hl hr
    have hrl : lt r l = true := (hg.2 _ _ _ hb).symm
    have hrL : ∀ x ∈ l :: L2, lt r x = true := by
      intro x hx
      rcases List.mem_cons.mp hx with rfl | hx
      · exact hrl
      · exact hg.1.lt_of_lt_of_le hrl ((Sorted.cons_iff.mp h3).1 x hx)
    rw [Sorted.cons_iff] at h4
    refine ⟨?_, ?_, h3, h4.2, ?_⟩
    · refine h1.trans ?_
      have hm := ((StableArr.refl (lt := lt) O).append (StableArr.move' (A := l :: L2) (g := r) hg.1
        (fun x hx => eqv_false_of_right (hrL x hx)))).append (StableArr.refl R2)
      simpa using hm
    · rw [Sorted.append_iff]
      refine ⟨h2, Sorted.single r, fun o ho x hx => ?_⟩
      rw [List.mem_singleton.mp hx]
      exact h5 o ho r (by simp)
    · intro o ho x hx
      rcases List.mem_append.mp ho with ho | ho
      · refine h5 o ho x ?_
        simp only [List.mem_append, List.mem_cons] at hx ⊢
        tauto
      · rw [List.mem_singleton.mp ho]
        rcases List.mem_append.mp hx with hx | hx
        · exact hg.1.asymm (hrL x hx)
        · exact h4.1 x hx

theorem FwdOk.done {L R O L2 R2 : List α} (h : FwdOk C L R O L2 R2) (he : L2 = [] ∨ R2 = []) :
    MergeOk C L R (O ++ L2 ++ R2) := by
  refine ⟨h.1, fun lt hg hl hr => ?_⟩
  obtain ⟨h1, h2, h3, h4, h5⟩ := h.2 lt hg hl hr
  refine ⟨?_, h1⟩
  rcases he with rfl | rfl
  · simp only [List.append_nil, List.nil_append] at h5 ⊢
    exact Sorted.append_iff.mpr ⟨h2, h4, h5⟩
  · simp only [List.append_nil] at h5 ⊢
    exact Sorted.append_iff.mpr ⟨h2, h3, h5⟩

theorem BwdOk.right {L R O L1 R1 : List α} {l r : α} (h : BwdOk C L R O (L1 ++ [l]) (R1 ++ [r])) (hb : C.ans r l false) :
    BwdOk C L R (r :: O) (L1 ++ [l]) R1 := by
  refine ⟨by simpa using h.1, fun lt hg hl hr => ?_⟩
  obtain ⟨h1, h2, h3, h4, h5⟩ := h.2 lt hg hl hr
  have hrl : lt r l = false := (hg.2 _ _ _ hb).symm
  rw [Sorted.append_iff] at h4
  refine ⟨by simpa using h1, ?_, h3, h4.1, ?_⟩
  · rw [Sorted.cons_iff]
    exact ⟨fun o ho => h5 o ho r (by simp), h2⟩
  · intro o ho x hx
    rcases List.mem_cons.mp ho with rfl | ho
    · rcases List.mem_append.mp hx with hx | hx
      · rcases List.mem_append.mp hx with hx | hx
        · exact hg.1.le_trans ((Sorted.append_iff.mp h3).2.2 x hx l (by simp)) hrl
        · rw [List.mem_singleton.mp hx]; exact hrl
      · exact h4.2.2 x hx o (by simp)
    · refine h5 o ho x ?_
      simp only [List.mem_append] at hx ⊢
      tauto

theorem BwdOk.left {L R O L1 R1 : List α} {l r : α} (h : BwdOk C L R O (L1 ++ [l]) (R1 ++ [r])) (hb : C.ans r l true) :
    BwdOk C L R (l :: O) L1 (R1 ++ [r]) := by
  constructor
  · refine List.Perm.trans ?_ h.1
    simp only [List.append_assoc]
    refine List.Perm.append_left _ ?_
    have := (List.perm_middle (a := l) (l₁ := R1 ++ [r]) (l₂ := O))
    simpa using this
  · intro lt hg hl hr
    obtain ⟨h1, h2, h3, h4, h5⟩ := h.2 lt hg hl hr
    have hrl : lt r l = true := (hg.2 _ _ _ hb).symm
    have hRl : ∀ x ∈ R1 ++ [r], lt x l = true := by
      intro x hx
      rcases List.mem_append.mp hx with hx | hx
      · exact hg.1.lt_of_le_of_lt ((Sorted.append_iff.mp h4).2.2 x hx r (by simp)) hrl
      · rw [List.mem_singleton.mp hx]; exact hrl
    rw [Sorted.append_iff] at h3
    refine ⟨?_, ?_, h3.1, h4, ?_⟩
    · refine h1.trans ?_
      have hm := ((StableArr.refl (lt := lt) L1).append (StableArr.move (A := R1 ++ [r]) (g := l) hg.1
        (fun x hx => eqv_false_of_left (hRl x hx)))).append (StableArr.refl O)
      simpa using hm
    · rw [Sorted.cons_iff]
      exact ⟨fun o ho => h5 o ho l (by simp), h2⟩
    · intro o ho x hx
      rcases List.mem_cons.mp ho with rfl | ho
      · rcases List.mem_append.mp hx with hx | hx
        · exact h3.2.2 x hx o (by simp)
        · exact hg.1.asymm (hRl x hx)
      · refine h5 o ho x ?_
        simp only [List.mem_append] at hx ⊢
        tauto

theorem BwdOk.done {L R O L1 R1 : List α} (h : BwdOk C L R O L1 R1) (he : L1 = [] ∨ R1 = []) :
    MergeOk C L R (L1 ++ R1 ++ O) := by
  refine ⟨h.1, fun lt hg hl hr => ?_⟩
  obtain ⟨h1, h2, h3, h4, h5⟩ := h.2 lt hg hl hr
  refine ⟨?_, h1⟩
  rcases he with rfl | rfl
  · simp only [List.nil_append] at h5 ⊢
    exact Sorted.append_iff.mpr ⟨h4, h2, fun x hx o ho => h5 o ho x hx⟩
  · simp only [List.append_nil] at h5 ⊢
    exact Sorted.append_iff.mpr ⟨h3, h2, fun x hx o ho => h5 o ho x hx⟩

/-! ### Copying -/

section
variable {R : ι → Option ω → Prop} {E : Panic → List α → Prop} {V B : List α}

theorem take_set_drop {xs : List α} {d : List α} {i : Nat} {x : α} (hi : i < xs.length) (hd : d.length = i) :
    (d ++ xs.drop i).set i x = d ++ [x] ++ xs.drop (i + 1) := by
  rw [List.drop_eq_getElem_cons hi, set_mid hd]; simp

theorem copyToBuf_spec {a n : Nat} (hV : V.length = v.len) (ha : a + n ≤ v.len) (hB : B.length = buf.len) (hn : n ≤ buf.len) :
    Tri R (v.region ++ buf.region) (copyToBuf v buf a n) (V ++ B)
      (fun _ zs => zs = V ++ ((V.drop a).take n ++ B.drop n)) E := by
  have key := Tri.forUp (R := R) (rg := v.region ++ buf.region) (a := 0) (n := n) (xs := V ++ B) (E := E)
    (body := fun i => do let x ← v.idx (a + i); buf.set i x)
    (Inv := fun i zs => zs = V ++ ((V.drop a).take i ++ B.drop i)) (by simp) ?_
  · simp only [Nat.zero_add] at key
    exact key
  · rintro i ys _ _ hi rfl
    refine Tri.vidx' (View.at_left _) (by omega) fun x hx => ?_
    refine Tri.vsetU' (View.at_right _) (by omega) ?_
    rw [List.getElem?_append_left (by omega), Nat.zero_add] at hx
    rw [View.region_length, List.set_append_right _ _ (by omega), hV, Nat.add_sub_cancel_left,
      take_set_drop (by omega) (by simp; omega)]
    congr 2
    rw [List.take_add_one, List.getElem?_drop, hx]
    rfl

theorem mergeHoleDrop_spec {start fin dest : Nat} (hV : V.length = v.len) (hB : B.length = buf.len) (h1 : start ≤ fin)
    (h2 : fin ≤ buf.len) (h3 : dest + (fin - start) ≤ v.len) :
    Tri R (v.region ++ buf.region) (mergeHoleDrop cfg v buf start fin dest) (V ++ B)
      (fun _ zs => zs = V.take dest ++ (B.drop start).take (fin - start) ++ V.drop (dest + (fin - start)) ++ B) E := by
  unfold mergeHoleDrop
  refine Tri.usub h1 ?_
  have key := Tri.forUp (R := R) (rg := v.region ++ buf.region) (a := 0) (n := fin - start) (xs := V ++ B) (E := E)
    (body := fun i => do let x ← buf.get (start + i); v.cset (dest + i) x)
    (Inv := fun i zs => zs = V.take dest ++ (B.drop start).take i ++ V.drop (dest + i) ++ B) (by simp) ?_
  · simpa using key
  · rintro i ys _ _ hi rfl
    refine Tri.vget' (View.at_right _) (by omega) fun x hx => ?_
    refine Tri.vcsetU' (View.at_left _) (by omega) ?_
    have hl : (V.take dest ++ (B.drop start).take i).length = dest + i := by simp; omega
    rw [List.getElem?_append_right (by simp; omega), View.region_length,
      show v.len + (start + i) - (V.take dest ++ (B.drop start).take i ++ V.drop (dest + i)).length = start + i by simp; omega] at hx
    rw [Nat.zero_add, List.set_append_left _ _ (by simp; omega), take_set_drop (by omega) hl]
    congr 2
    rw [List.append_assoc]
    congr 1
    rw [List.take_add_one, List.getElem?_drop, hx]
    rfl

end

/-! ### The two loops -/

theorem fill_hole {A G D L1 L2 T : List α} {a b k c : Nat} (ha : a = A.length) (hb : b = L1.length) (hk : k = L2.length) (hc : c = a + k)
    (hG : G.length = L2.length) :
    (A ++ G ++ D).take a ++ ((L1 ++ L2 ++ T).drop b).take k ++ (A ++ G ++ D).drop c = A ++ L2 ++ D := by
  subst ha hb hk hc
  rw [List.append_assoc A, List.take_left' rfl, List.append_assoc L1, List.drop_left' rfl, ← List.append_assoc A,
    List.drop_left' (by simp; omega), List.take_left' rfl]

/-- After a panic: as `EP`, with any contents of the buffer. -/
def EB (C : Cmp α ι ω) (n : Nat) (xs : List α) : Panic → List α → Prop :=
  fun e zs => ∃ ys B, ys.length = n ∧ zs = ys ++ B ∧ EP C xs e ys

theorem pick_spec {R : ι → Option ω → Prop} {rd : View → Nat → Prog α ι ω α} (hrd : rd = View.get ∨ rd = View.idx)
    {V B : List α} {i j : Nat} {b : Bool} {β : Type} {k : α → Prog α ι ω β} {Q : β → List α → Prop} {E : Panic → List α → Prop}
    (hV : V.length = v.len) (hi : b = true → i < v.len) (hj : b = false → j < buf.len)
    (h : ∀ z, (b = true → V[i]? = some z) → (b = false → B[j]? = some z) → Tri R (v.region ++ buf.region) (k z) (V ++ B) Q E) :
    Tri R (v.region ++ buf.region) (pick rd v buf i j b >>= k) (V ++ B) Q E := by
  cases b with
  | false =>
    refine Tri.vget' (View.at_right _) (hj rfl) fun z hz => h z (by simp) fun _ => ?_
    rwa [List.getElem?_append_right (by simp [hV]), View.region_length, hV, Nat.add_sub_cancel_left] at hz
  | true =>
    have hi := hi rfl
    rcases hrd with rfl | rfl
    · refine Tri.vget' (View.at_left _) hi fun z hz => h z (fun _ => ?_) (by simp)
      rwa [List.getElem?_append_left (by omega), Nat.zero_add] at hz
    · refine Tri.vidx' (View.at_left _) hi fun z hz => h z (fun _ => ?_) (by simp)
      rwa [List.getElem?_append_left (by omega), Nat.zero_add] at hz

/-- The state of the forward loop. -/
def FwdSt (C : Cmp α ι ω) (n : Nat) (L R : List α) (s : Nat × Nat × Nat) (zs : List α) : Prop :=
  ∃ O G L1 L2 R2 T, zs = (O ++ G ++ R2) ++ (L1 ++ L2 ++ T) ∧ L = L1 ++ L2 ∧ G.length = L2.length ∧
    s.1 = L1.length ∧ s.2.1 = O.length + G.length ∧ s.2.2 = O.length ∧ (O ++ G ++ R2).length = n ∧
    FwdOk C L R O L2 R2

theorem mergeFwd_spec {rd : View → Nat → Prog α ι ω α} (hrd : rd = View.get ∨ rd = View.idx) {L R : List α} {n : Nat}
    {s : Nat × Nat × Nat} {zs : List α} (hn : v.len < n) (hzl : zs.length = v.len + buf.len) (hs : FwdSt C v.len L R s zs) :
    Tri C.R (v.region ++ buf.region) (Prog.loop (mergeFwdBody cfg C.less rd v buf L.length) n s) zs
      (fun s zs => FwdSt C v.len L R s zs ∧ ∃ O G L1 L2 R2 T, zs = (O ++ G ++ R2) ++ (L1 ++ L2 ++ T) ∧ L = L1 ++ L2 ∧
        G.length = L2.length ∧ s.1 = L1.length ∧ s.2.2 = O.length ∧ (O ++ G ++ R2).length = v.len ∧
        MergeOk C L R (O ++ L2 ++ R2))
      (EB C v.len (L ++ R)) := by
  refine Tri.loop (Inv := FwdSt C v.len L R) (μ := fun s _ => v.len - s.2.2) hs (by omega) ?_
  rintro ⟨left, right, out⟩ ys hyl hst
  have hst0 := hst
  obtain ⟨O, G, L1, L2, R2, T, rfl, hL, hG, h1, h2, h3, hlen, hok⟩ := hst
  simp only at h1 h2 h3
  subst h1 h2 h3
  have hlen' : O.length + G.length + R2.length = v.len := by simpa [Nat.add_assoc] using hlen
  have hbuf : L1.length + L2.length + T.length = buf.len := by simp at hyl; omega
  unfold mergeFwdBody
  have hLl : L.length = L1.length + L2.length := by rw [hL]; simp
  by_cases hc : L1.length < L.length ∧ O.length + G.length < v.len
  · simp only [hc.1, hc.2, decide_true, Bool.and_self, if_true]
    obtain ⟨l, L2, rfl⟩ : ∃ l L2', L2 = l :: L2' := by
      cases L2 with
      | nil => simp at hLl; omega
      | cons l L2 => exact ⟨l, L2, rfl⟩
    obtain ⟨r, R2, rfl⟩ : ∃ r R2', R2 = r :: R2' := by
      cases R2 with
      | nil => simp at hlen'; omega
      | cons r R2 => exact ⟨r, R2, rfl⟩
    obtain ⟨g, G, rfl⟩ : ∃ g G', G = g :: G' := by
      cases G with
      | nil => simp at hG
      | cons g G => exact ⟨g, G, rfl⟩
    simp only [List.length_cons] at hG hlen' hbuf hLl hc ⊢
    have hr : (O ++ g :: G ++ r :: R2)[O.length + (G.length + 1)]? = some r := get_mid (by simp)
    have hl : (L1 ++ l :: L2 ++ T)[L1.length]? = some l := by
      rw [List.append_assoc, List.cons_append]; exact get_mid rfl
    refine Tri.vget' (View.at_left _) (by omega) fun x hx => ?_
    rw [List.getElem?_append_left (by omega), Nat.zero_add, hr] at hx
    obtain rfl : r = x := Option.some.inj hx
    refine Tri.vget' (View.at_right _) (by omega) fun y hy => ?_
    rw [List.getElem?_append_right (by rw [View.region_length]; omega), View.region_length, hlen, Nat.add_sub_cancel_left, hl] at hy
    obtain rfl : l = y := Option.some.inj hy
    refine Tri.bind (Q' := fun b zs => zs = O ++ g :: G ++ r :: R2 ++ (L1 ++ l :: L2 ++ T) ∧ C.ans r l b) ?_ ?_
    · refine Tri.onPanic (E' := fun e zs => e = .user ∧ C.pan ∧ zs = O ++ g :: G ++ r :: R2 ++ (L1 ++ l :: L2 ++ T))
        (Tri.less C (fun b hb => ⟨rfl, hb⟩) (fun hp => ⟨rfl, hp, rfl⟩)) ?_
      rintro e zs _ ⟨rfl, hp, rfl⟩
      refine Tri.mono (mergeHoleDrop_spec hlen (by simp; omega) (by omega) (by omega) (by omega)) ?_ (fun _ _ _ h => h)
      rintro _ zs _ rfl
      refine ⟨O ++ l :: L2 ++ r :: R2, L1 ++ l :: L2 ++ T, by simp only [List.length_append, List.length_cons]; omega, ?_, rfl, hp, hok.1⟩
      congr 1
      exact fill_hole rfl rfl (by simp; omega) rfl (by simpa using hG)
    · rintro b zs _ ⟨rfl, hb⟩
      refine pick_spec hrd hlen (fun _ => by omega) (fun _ => by omega) fun z hz1 hz2 => ?_
      refine Tri.vcset' (View.at_left _) (by omega) ?_
      rw [Nat.zero_add, List.set_append_left _ _ (by omega), List.append_assoc O, List.cons_append, set_mid rfl]
      cases b with
      | true =>
        obtain rfl : r = z := Option.some.inj (hr.symm.trans (hz1 rfl))
        refine Tri.pure ⟨⟨O ++ [r], G ++ [r], L1, l :: L2, R2, T, by simp, hL, by simp; omega, rfl, ?_, ?_, ?_, hok.right hb⟩, ?_⟩
        · simp; omega
        · simp
        · simp; omega
        · show v.len - (O.length + 1) < v.len - O.length
          omega
      | false =>
        obtain rfl : l = z := Option.some.inj (hl.symm.trans (hz2 rfl))
        refine Tri.pure ⟨⟨O ++ [l], G, L1 ++ [l], L2, r :: R2, T, by simp, by simp [hL], by omega, by simp, ?_, ?_, ?_, hok.left hb⟩, ?_⟩
        · simp; omega
        · simp
        · simp; omega
        · show v.len - (O.length + 1) < v.len - O.length
          omega
  · have : (decide (L1.length < L.length) && decide (O.length + G.length < v.len)) = false := by
      simpa using hc
    simp only [this]
    refine Tri.pure ⟨hst0, O, G, L1, L2, R2, T, rfl, hL, hG, rfl, rfl, hlen, hok.done ?_⟩
    rcases Nat.eq_zero_or_pos L2.length with h | h
    · exact .inl (List.length_eq_zero_iff.mp h)
    · refine .inr (List.length_eq_zero_iff.mp ?_)
      omega

/-- The state of the backward loop. -/
def BwdSt (C : Cmp α ι ω) (n : Nat) (L R : List α) (s : Nat × Nat × Nat) (zs : List α) : Prop :=
  ∃ O G L1 R1 T, zs = (L1 ++ G ++ O) ++ (R1 ++ T) ∧ G.length = R1.length ∧
    s.1 = L1.length ∧ s.2.1 = R1.length ∧ s.2.2 = L1.length + G.length ∧ (L1 ++ G ++ O).length = n ∧
    BwdOk C L R O L1 R1

theorem snoc_of_pos {xs : List α} (h : 0 < xs.length) : ∃ ys y, xs = ys ++ [y] :=
  ⟨xs.dropLast, xs.getLast (List.ne_nil_of_length_pos h), (List.dropLast_append_getLast _).symm⟩

theorem mergeBwd_spec {rd : View → Nat → Prog α ι ω α} (hrd : rd = View.get ∨ rd = View.idx) {L R : List α} {n : Nat}
    {s : Nat × Nat × Nat} {zs : List α} (hn : v.len < n) (hzl : zs.length = v.len + buf.len) (hs : BwdSt C v.len L R s zs) :
    Tri C.R (v.region ++ buf.region) (Prog.loop (mergeBwdBody cfg C.less rd v buf) n s) zs
      (fun s zs => ∃ O G L1 R1 T, zs = (L1 ++ G ++ O) ++ (R1 ++ T) ∧
        G.length = R1.length ∧ s.1 = L1.length ∧ s.2.1 = R1.length ∧ (L1 ++ G ++ O).length = v.len ∧
        MergeOk C L R (L1 ++ R1 ++ O))
      (EB C v.len (L ++ R)) := by
  refine Tri.loop (Inv := BwdSt C v.len L R) (μ := fun s _ => s.2.2) hs ?_ ?_
  · obtain ⟨O, G, L1, R1, T, _, _, _, _, h, h', _⟩ := hs
    simp at h'; omega
  rintro ⟨left, right, out⟩ ys hyl hst
  obtain ⟨O, G, L1, R1, T, rfl, hG, h1, h2, h3, hlen, hok⟩ := hst
  simp only at h1 h2 h3
  subst h1 h2 h3
  have hlen' : L1.length + G.length + O.length = v.len := by simpa [Nat.add_assoc] using hlen
  have hbuf : R1.length + T.length = buf.len := by simp at hyl; omega
  unfold mergeBwdBody
  by_cases hc : 0 < L1.length ∧ 0 < R1.length
  · simp only [hc.1, hc.2, decide_true, Bool.and_self, if_true]
    obtain ⟨L1, l, rfl⟩ := snoc_of_pos hc.1
    obtain ⟨R1, r, rfl⟩ := snoc_of_pos hc.2
    obtain ⟨G, g, rfl⟩ := snoc_of_pos (hG ▸ hc.2 : 0 < G.length)
    simp only [List.length_append, List.length_singleton] at hG hlen' hbuf
    have hr : (R1 ++ [r] ++ T)[(R1 ++ [r]).length - 1]? = some r := by
      rw [List.append_assoc, List.singleton_append]; exact get_mid (by simp)
    have hl : (L1 ++ [l] ++ (G ++ [g]) ++ O)[(L1 ++ [l]).length - 1]? = some l := by
      rw [List.append_assoc, List.append_assoc, List.singleton_append]; exact get_mid (by simp)
    refine Tri.vget' (View.at_right _) (by simp; omega) fun y hy => ?_
    rw [List.getElem?_append_right (by rw [View.region_length]; omega), View.region_length, hlen, Nat.add_sub_cancel_left, hr] at hy
    obtain rfl : r = y := Option.some.inj hy
    refine Tri.vget' (View.at_left _) (by simp; omega) fun x hx => ?_
    rw [List.getElem?_append_left (by simp), Nat.zero_add, hl] at hx
    obtain rfl : l = x := Option.some.inj hx
    refine Tri.bind (Q' := fun b zs => zs = L1 ++ [l] ++ (G ++ [g]) ++ O ++ (R1 ++ [r] ++ T) ∧ C.ans r l b) ?_ ?_
    · refine Tri.onPanic (E' := fun e zs => e = .user ∧ C.pan ∧ zs = L1 ++ [l] ++ (G ++ [g]) ++ O ++ (R1 ++ [r] ++ T))
        (Tri.less C (fun b hb => ⟨rfl, hb⟩) (fun hp => ⟨rfl, hp, rfl⟩)) ?_
      rintro e zs _ ⟨rfl, hp, rfl⟩
      refine Tri.mono (mergeHoleDrop_spec hlen (by simp; omega) (by omega) (by simp; omega) (by simp; omega)) ?_ (fun _ _ _ h => h)
      rintro _ zs _ rfl
      refine ⟨L1 ++ [l] ++ (R1 ++ [r]) ++ O, R1 ++ [r] ++ T, by simp only [List.length_append, List.length_singleton]; omega, ?_, rfl, hp, hok.1⟩
      congr 1
      exact fill_hole (L1 := []) rfl rfl rfl rfl (by simpa using hG)
    · rintro b zs _ ⟨rfl, hb⟩
      refine pick_spec hrd hlen (fun _ => by simp; omega) (fun _ => by simp; omega) fun z hz1 hz2 => ?_
      refine Tri.usub (by simp; omega) ?_
      refine Tri.vcset' (View.at_left _) (by simp; omega) ?_
      rw [Nat.zero_add, List.set_append_left _ _ (by simp; omega),
        show L1 ++ [l] ++ (G ++ [g]) ++ O = L1 ++ [l] ++ G ++ g :: O by simp, set_mid (by simp; omega)]
      cases b with
      | true =>
        obtain rfl : l = z := Option.some.inj (hl.symm.trans (hz1 rfl))
        refine Tri.pure ⟨⟨l :: O, l :: G, L1, R1 ++ [r], T, by simp, by simp; omega, by simp, by simp, ?_, ?_, hok.left hb⟩, ?_⟩
        · simp; omega
        · simp; omega
        · show (L1 ++ [l]).length + (G ++ [g]).length - 1 < (L1 ++ [l]).length + (G ++ [g]).length
          simp
      | false =>
        obtain rfl : r = z := Option.some.inj (hr.symm.trans (hz2 rfl))
        refine Tri.pure ⟨⟨r :: O, G, L1 ++ [l], R1, r :: T, by simp, by omega, by simp, by simp, ?_, ?_, hok.right hb⟩, ?_⟩
        · simp
        · simp; omega
        · show (L1 ++ [l]).length + (G ++ [g]).length - 1 < (L1 ++ [l]).length + (G ++ [g]).length
          simp
  · have : (decide (0 < L1.length) && decide (0 < R1.length)) = false := by
      simpa using hc
    simp only [this]
    refine Tri.pure ⟨O, G, L1, R1, T, rfl, hG, rfl, rfl, hlen, hok.done ?_⟩
    rcases Nat.eq_zero_or_pos L1.length with h | h
    · exact .inl (List.length_eq_zero_iff.mp h)
    · refine .inr (List.length_eq_zero_iff.mp ?_)
      omega

/-- `merge` with any buffer long enough for the shorter run. -/
theorem merge_spec {rd : View → Nat → Prog α ι ω α} (hrd : rd = View.get ∨ rd = View.idx) {L R : List α} {mid : Nat}
    (hmid : L.length = mid) (hv : (L ++ R).length = v.len) (hb : min mid (v.len - mid) ≤ buf.len) :
    TriS C.R v.region buf.region (merge cfg C.less rd v mid buf) (L ++ R) (fun _ ys => MergeOk C L R ys) (EP C (L ++ R)) := by
  subst hmid
  intro B hB
  rw [View.region_length] at hB
  have hv' : L.length + R.length = v.len := by simpa using hv
  have hEB : ∀ e ys, ys.length = (L ++ R ++ B).length → EB C v.len (L ++ R) e ys →
      ∃ ys' bs', ys'.length = (L ++ R).length ∧ bs'.length = buf.region.length ∧ ys = ys' ++ bs' ∧ EP C (L ++ R) e ys' := by
    rintro e _ hl ⟨ys, T, h1, rfl, h2⟩
    refine ⟨ys, T, by omega, ?_, rfl, h2⟩
    rw [View.region_length]
    simp at hl; omega
  unfold merge
  refine Tri.usub (by omega) ?_
  by_cases hc : L.length ≤ v.len - L.length
  · simp only [hc, if_true]
    refine Tri.bind (copyToBuf_spec (E := fun _ _ => False) hv (by omega) hB (by omega) |>.mono (fun _ _ _ h => h) (fun _ _ _ h => h.elim)) ?_
    rintro _ zs _ rfl
    rw [List.drop_zero, List.take_left' rfl]
    refine Tri.bind (Tri.mono (mergeFwd_spec hrd (by omega) (by simp; omega)
      ⟨[], L, [], L, R, B.drop L.length, by simp, rfl, rfl, rfl, by simp, rfl, by simp; omega, FwdOk.init⟩) (fun _ _ _ h => h) ?_) ?_
    · intro e ys hl h
      refine hEB e ys (by rw [hl]; simp; omega) h
    · rintro ⟨left, right, out⟩ zs hzl ⟨_, O, G, L1, L2, R2, T, rfl, hL, hG, h1, h3, hlen, hok⟩
      simp only at h1 h3
      subst h1 h3
      have hlen' : O.length + G.length + R2.length = v.len := by simpa [Nat.add_assoc] using hlen
      have hLl : L.length = L1.length + L2.length := by rw [hL]; simp
      have hbl : L1.length + L2.length + T.length = buf.len := by simp at hzl; omega
      show Tri _ _ (mergeHoleDrop cfg v buf L1.length L.length O.length) _ _ _
      refine Tri.mono (mergeHoleDrop_spec (E := fun _ _ => False) hlen (by simp; omega) (by omega) (by omega) (by omega)) ?_
        (fun _ _ _ h => h.elim)
      rintro _ zs _ rfl
      refine ⟨O ++ L2 ++ R2, L1 ++ L2 ++ T, by simp; omega, by simp; omega, ?_, hok⟩
      congr 1
      exact fill_hole rfl rfl (by omega) rfl hG
  · simp only [hc, if_false]
    refine Tri.bind (copyToBuf_spec (E := fun _ _ => False) hv (by omega) hB (by omega) |>.mono (fun _ _ _ h => h) (fun _ _ _ h => h.elim)) ?_
    rintro _ zs _ rfl
    rw [List.drop_left' rfl, List.take_of_length_le (by omega)]
    refine Tri.bind (Tri.mono (mergeBwd_spec (L := L) (R := R) hrd (by omega) (by simp; omega)
      ⟨[], R, L, R, B.drop (v.len - L.length), by simp, rfl, rfl, by simp; omega, by simp; omega, by simp; omega, BwdOk.init⟩) (fun _ _ _ h => h) ?_) ?_
    · intro e ys hl h
      refine hEB e ys (by rw [hl]; simp; omega) h
    · rintro ⟨left, right, out⟩ zs hzl ⟨O, G, L1, R1, T, rfl, hG, h1, h3, hlen, hok⟩
      simp only at h1 h3
      subst h1 h3
      have hlen' : L1.length + G.length + O.length = v.len := by simpa [Nat.add_assoc] using hlen
      have hbl : R1.length + T.length = buf.len := by simp at hzl; omega
      show Tri _ _ (mergeHoleDrop cfg v buf 0 R1.length L1.length) _ _ _
      refine Tri.mono (mergeHoleDrop_spec (E := fun _ _ => False) hlen (by simp; omega) (by omega) (by omega) (by omega)) ?_
        (fun _ _ _ h => h.elim)
      rintro _ zs _ rfl
      refine ⟨L1 ++ R1 ++ O, R1 ++ T, by simp; omega, by simp; omega, ?_, hok⟩
      congr 1
      exact fill_hole (L1 := []) rfl rfl rfl rfl hG

end NdSlice
