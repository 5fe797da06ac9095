import Verif.Proof.ParMerge

/-
The parallel merge sort: `recurse` and `par_merge_sort` of /repo/src/par/merge_sort.rs.
-/

namespace NdSlice

variable {α ι ω : Type} {C : Cmp α ι ω} {cfg : Cfg} {v buf : View}

/-- `Y` is the stable sort of `X`. -/
def MsOk (C : Cmp α ι ω) (X Y : List α) : Prop := Y.Perm X ∧ ∀ lt, C.Good lt → Sorted lt Y ∧ StableArr lt X Y

theorem MsOk.merge {X1 X2 Y1 Y2 Z : List α} (h1 : MsOk C X1 Y1) (h2 : MsOk C X2 Y2) (h : MergeOk C Y1 Y2 Z) : MsOk C (X1 ++ X2) Z := by
  refine ⟨h.1.trans (h1.1.append h2.1), fun lt hg => ?_⟩
  obtain ⟨s1, s2⟩ := h1.2 lt hg
  obtain ⟨s3, s4⟩ := h2.2 lt hg
  obtain ⟨t1, t2⟩ := h.2 lt hg s1 s3
  exact ⟨t1, (s2.append s4).trans t2⟩

/-! ### Scratch memory in parts -/

namespace TriS

variable {R : ι → Option ω → Prop} {β γ : Type} {rg1 rg2 sc1 sc2 : List Addr} {A B : List α}

theorem perm4 (a b c d : List Addr) : (a ++ c ++ (b ++ d)).Perm (a ++ b ++ (c ++ d)) := by
  rw [List.perm_iff_count]
  intro x
  simp only [List.count_append]
  omega

/-- `rayon::join` on separate parts of the array and of the scratch memory. -/
theorem rayonJoin {p : Prog α ι ω β} {q : Prog α ι ω γ} {Q1 : β → List α → Prop} {E1 : Panic → List α → Prop}
    {Q2 : γ → List α → Prop} {E2 : Panic → List α → Prop} {Q : β × γ → List α → Prop} {E : Panic → List α → Prop}
    (hA : A.length = rg1.length) (hB : B.length = rg2.length) (hp : TriS R rg1 sc1 p A Q1 E1) (hq : TriS R rg2 sc2 q B Q2 E2)
    (h1 : ∀ b c A' B', A'.length = A.length → B'.length = B.length → Q1 b A' → Q2 c B' → Q (b, c) (A' ++ B'))
    (h2 : ∀ e c A' B', A'.length = A.length → B'.length = B.length → E1 e A' → Q2 c B' → E e (A' ++ B'))
    (h3 : ∀ b e A' B', A'.length = A.length → B'.length = B.length → Q1 b A' → E2 e B' → E e (A' ++ B'))
    (h4 : ∀ e e' A' B', A'.length = A.length → B'.length = B.length → E1 e A' → E2 e' B' → E e (A' ++ B')) :
    TriS R (rg1 ++ rg2) (sc1 ++ sc2) (Prog.rayonJoin p q) (A ++ B) Q E := by
  intro bs hbs
  have hbl : (bs.take sc1.length).length = sc1.length := by simp at hbs ⊢; omega
  have hbr : (bs.drop sc1.length).length = sc2.length := by simp at hbs ⊢; omega
  refine Tri.regroup (rg' := (rg1 ++ sc1) ++ (rg2 ++ sc2)) (xs' := (A ++ bs.take sc1.length) ++ (B ++ bs.drop sc1.length)) (perm4 _ _ _ _) ?_
    (Tri.rayonJoin
      (Q := fun b zs => ∃ A' W1 B' W2, A'.length = A.length ∧ W1.length = sc1.length ∧ B'.length = B.length ∧ W2.length = sc2.length ∧
        zs = (A' ++ W1) ++ (B' ++ W2) ∧ Q b (A' ++ B'))
      (E := fun e zs => ∃ A' W1 B' W2, A'.length = A.length ∧ W1.length = sc1.length ∧ B'.length = B.length ∧ W2.length = sc2.length ∧
        zs = (A' ++ W1) ++ (B' ++ W2) ∧ E e (A' ++ B')) ?_ (hp _ hbl) (hq _ hbr) ?_ ?_ ?_ ?_) ?_ ?_
  · intro m hm
    simp only [List.map_append] at hm ⊢
    obtain ⟨ha, hb⟩ := List.append_inj hm (by simp; omega)
    obtain ⟨ha1, ha2⟩ := List.append_inj ha (by simp; omega)
    rw [ha1, ha2, ← hb, List.take_left' (by simp), List.drop_left' (by simp)]
  · simp at hbl ⊢; omega
  · rintro b c _ _ _ _ ⟨A', W1, a1, a2, rfl, a3⟩ ⟨B', W2, b1, b2, rfl, b3⟩
    exact ⟨A', W1, B', W2, a1, a2, b1, b2, rfl, h1 _ _ _ _ a1 b1 a3 b3⟩
  · rintro b c _ _ _ _ ⟨A', W1, a1, a2, rfl, a3⟩ ⟨B', W2, b1, b2, rfl, b3⟩
    exact ⟨A', W1, B', W2, a1, a2, b1, b2, rfl, h2 _ _ _ _ a1 b1 a3 b3⟩
  · rintro b c _ _ _ _ ⟨A', W1, a1, a2, rfl, a3⟩ ⟨B', W2, b1, b2, rfl, b3⟩
    exact ⟨A', W1, B', W2, a1, a2, b1, b2, rfl, h3 _ _ _ _ a1 b1 a3 b3⟩
  · rintro b c _ _ _ _ ⟨A', W1, a1, a2, rfl, a3⟩ ⟨B', W2, b1, b2, rfl, b3⟩
    exact ⟨A', W1, B', W2, a1, a2, b1, b2, rfl, h4 _ _ _ _ a1 b1 a3 b3⟩
  all_goals
    rintro b m ⟨A', W1, B', W2, a1, a2, b1, b2, hm, hq⟩
    simp only [List.map_append] at hm ⊢
    obtain ⟨ha, hb⟩ := List.append_inj hm (by simp; omega)
    obtain ⟨ha1, ha2⟩ := List.append_inj ha (by simp; omega)
    obtain ⟨hb1, hb2⟩ := List.append_inj hb (by simp; omega)
    exact ⟨A' ++ B', W1 ++ W2, by simp; omega, by simp; omega, by rw [ha1, ha2, hb1, hb2], hq⟩

theorem right {p : Prog α ι ω β} {Q1 : β → List α → Prop} {E1 : Panic → List α → Prop}
    (hA : A.length = rg1.length) (hB : B.length = rg2.length) (hp : TriS R rg2 sc2 p B Q1 E1) :
    TriS R (rg1 ++ rg2) (sc1 ++ sc2) p (A ++ B) (fun b ys => ∃ B', B'.length = B.length ∧ ys = A ++ B' ∧ Q1 b B')
      (fun b ys => ∃ B', B'.length = B.length ∧ ys = A ++ B' ∧ E1 b B') := by
  intro bs hbs
  have hbl : (bs.take sc1.length).length = sc1.length := by simp at hbs ⊢; omega
  have hbr : (bs.drop sc1.length).length = sc2.length := by simp at hbs ⊢; omega
  refine Tri.mono (Tri.frame (sub := rg2 ++ sc2) (rest := rg1 ++ sc1) (ys := B ++ bs.drop sc1.length) (zs := A ++ bs.take sc1.length)
    (arr := fun us => (A ++ us.take B.length) ++ (bs.take sc1.length ++ us.drop B.length)) ?_ ?_ ?_ (hp _ hbr)) ?_ ?_
  · rw [List.perm_iff_count]
    intro x
    simp only [List.count_append]
    omega
  · intro m hm
    simp only [List.map_append] at hm ⊢
    obtain ⟨ha, hb⟩ := List.append_inj hm (by simp; omega)
    obtain ⟨ha1, ha2⟩ := List.append_inj ha (by simp; omega)
    rw [ha1, ha2, ← hb, List.take_left' (by simp), List.drop_left' (by simp)]
    exact ⟨rfl, rfl⟩
  · intro m hm
    simp only [List.map_append] at hm ⊢
    obtain ⟨h1, h2⟩ := List.append_inj hm (by simp; omega)
    rw [h1, h2, List.take_left' (by simp; omega), List.drop_left' (by simp; omega)]
  all_goals
    rintro b ws _ ⟨us, g1, rfl, B', W2, b1, b2, rfl, b3⟩
    refine ⟨A ++ B', bs.take sc1.length ++ W2, by simp; omega, by simp at hbl ⊢; omega, ?_, B', b1, rfl, b3⟩
    rw [List.take_left' (by omega), List.drop_left' (by omega)]

theorem left {p : Prog α ι ω β} {Q1 : β → List α → Prop} {E1 : Panic → List α → Prop}
    (hA : A.length = rg1.length) (hB : B.length = rg2.length) (hp : TriS R rg1 sc1 p A Q1 E1) :
    TriS R (rg1 ++ rg2) (sc1 ++ sc2) p (A ++ B) (fun b ys => ∃ A', A'.length = A.length ∧ ys = A' ++ B ∧ Q1 b A')
      (fun b ys => ∃ A', A'.length = A.length ∧ ys = A' ++ B ∧ E1 b A') := by
  intro bs hbs
  have hbl : (bs.take sc1.length).length = sc1.length := by simp at hbs ⊢; omega
  have hbr : (bs.drop sc1.length).length = sc2.length := by simp at hbs ⊢; omega
  refine Tri.mono (Tri.frame (sub := rg1 ++ sc1) (rest := rg2 ++ sc2) (ys := A ++ bs.take sc1.length) (zs := B ++ bs.drop sc1.length)
    (arr := fun us => (us.take A.length ++ B) ++ (us.drop A.length ++ bs.drop sc1.length)) ?_ ?_ ?_ (hp _ hbl)) ?_ ?_
  · exact (perm4 _ _ _ _).symm
  · intro m hm
    simp only [List.map_append] at hm ⊢
    obtain ⟨ha, hb⟩ := List.append_inj hm (by simp; omega)
    obtain ⟨ha1, ha2⟩ := List.append_inj ha (by simp; omega)
    rw [ha1, ha2, ← hb, List.take_left' (by simp), List.drop_left' (by simp)]
    exact ⟨rfl, rfl⟩
  · intro m hm
    simp only [List.map_append] at hm ⊢
    obtain ⟨h1, h2⟩ := List.append_inj hm (by simp; omega)
    rw [h1, h2, List.take_left' (by simp; omega), List.drop_left' (by simp; omega)]
  all_goals
    rintro b ws _ ⟨us, g1, rfl, A', W1, b1, b2, rfl, b3⟩
    refine ⟨A' ++ B, W1 ++ bs.drop sc1.length, by simp; omega, by simp at hbr ⊢; omega, ?_, A', b1, rfl, b3⟩
    rw [List.take_left' (by omega), List.drop_left' (by omega)]

end TriS

/-! ### `recurse` -/

/-- The chunks `cs`, beginning at `p`, are adjacent, make up `X`, and are sorted. -/
def SAdj (C : Cmp α ι ω) : Nat → List (Nat × Nat) → List α → Prop
  | _, [], X => X = []
  | p, (a, b) :: cs, X => a = p ∧ ∃ A X', X = A ++ X' ∧ b = p + A.length ∧ (∀ lt, C.Good lt → Sorted lt A) ∧ SAdj C (p + A.length) cs X'

theorem SAdj.append {p : Nat} {cs ds : List (Nat × Nat)} {X : List α} (h : SAdj C p (cs ++ ds) X) :
    ∃ X1 X2, X = X1 ++ X2 ∧ SAdj C p cs X1 ∧ SAdj C (p + X1.length) ds X2 := by
  induction cs generalizing p X with
  | nil => exact ⟨[], X, rfl, rfl, h⟩
  | cons c cs ih =>
    obtain ⟨a, b⟩ := c
    obtain ⟨h1, A, X', rfl, h2, h3, h4⟩ := h
    obtain ⟨X1, X2, rfl, g1, g2⟩ := ih h4
    refine ⟨A ++ X1, X2, by simp, ⟨h1, A, X1, rfl, h2, h3, g1⟩, ?_⟩
    rwa [List.length_append, ← Nat.add_assoc]

theorem SAdj.head {p : Nat} {cs : List (Nat × Nat)} {X : List α} (h : SAdj C p cs X) (hc : 0 < cs.length) : ∃ b, cs[0]? = some (p, b) := by
  match cs, h with
  | (a, b) :: cs, h => exact ⟨b, by rw [h.1]; rfl⟩

theorem SAdj.last {p : Nat} {cs : List (Nat × Nat)} {X : List α} (h : SAdj C p cs X) (hc : 0 < cs.length) :
    ∃ a, cs[cs.length - 1]? = some (a, p + X.length) := by
  obtain ⟨cs', c, rfl⟩ := snoc_of_pos hc
  obtain ⟨X1, X2, rfl, -, g⟩ := h.append
  obtain ⟨a, b⟩ := c
  obtain ⟨g1, A, X', rfl, g2, -, g4⟩ := g
  refine ⟨a, ?_⟩
  rw [g4]
  simp [g2, Nat.add_assoc]

theorem chunkAt_eq {cs : List (Nat × Nat)} {i : Nat} {c : Nat × Nat} (h : cs[i]? = some c) : (chunkAt cs i : Prog α ι ω (Nat × Nat)) = pure c := by
  unfold chunkAt; rw [h]

/-- The part of array and buffer a call of `recurse` works on. -/
def recRegion (v buf : View) (s n : Nat) : List Addr := (v.sub s n).region ++ (buf.sub s n).region

theorem region_two (v : View) (s a b : Nat) : (v.sub s (a + b)).region = (v.sub s a).region ++ (v.sub (s + a) b).region := by
  have := View.region_split (v.sub s (a + b)) (a := a) (n := b) (by simp)
  rw [View.sub_sub, View.sub_sub, View.sub_sub] at this
  rw [this]
  simp [View.region]

/-- Seen as source and destination. -/
theorem rec_dest {R : ι → Option ω → Prop} {β : Type} {ib : Bool} {s n : Nat} {p : Prog α ι ω β} {X W : List α} {Q : β → List α → List α → Prop}
    {E : Panic → List α → Prop} (hX : X.length = n)
    (h : Tri R (((if ib then v else buf).sub s n).region ++ ((if ib then buf else v).sub s n).region) p
      ((if ib then X else W) ++ (if ib then W else X))
      (fun b ys => ∃ Y Z, ys = Y ++ Z ∧ Y.length = n ∧ Q b Y Z) (fun e ys => ∃ Y Z, ys = Y ++ Z ∧ Y.length = n ∧ E e Z)) :
    Tri R (recRegion v buf s n) p (X ++ W)
      (fun b ys => ∃ X' W', ys = X' ++ W' ∧ X'.length = n ∧ Q b (if ib then X' else W') (if ib then W' else X'))
      (fun e ys => ∃ X' W', ys = X' ++ W' ∧ X'.length = n ∧ E e (if ib then W' else X')) := by
  cases ib with
  | true => exact h
  | false =>
    refine Tri.regroup List.perm_append_comm ?_ h ?_ ?_
    · intro m hm
      simp only [recRegion, List.map_append] at hm
      obtain ⟨h1, h2⟩ := List.append_inj hm (by simp; omega)
      simp only [Bool.false_eq_true, if_false, List.map_append, h1, h2]
    all_goals
      rintro b m ⟨Y, Z, hm, hY, hq⟩
      simp only [List.map_append] at hm
      obtain ⟨h1, h2⟩ := List.append_inj hm (by simp; omega)
      refine ⟨Z, Y, by simp only [recRegion, List.map_append, h1, h2], ?_, hq⟩
      rw [← h2]; simp

theorem parRecurse_spec {k : Nat} {cs : List (Nat × Nat)} {ib : Bool} {s n : Nat} {X W : List α} (hk : cs.length ≤ k) (hc : 0 < cs.length)
    (h : SAdj C s cs X) (hX : X.length = n) (hW : W.length = n) (hv : s + n ≤ v.len) (hb : s + n ≤ buf.len) :
    Tri C.R (recRegion v buf s n) (parRecurse cfg C.less v buf k cs ib) (X ++ W)
      (fun _ ys => ∃ X' W', ys = X' ++ W' ∧ X'.length = n ∧ MsOk C X (if ib then W' else X') ∧
        (2 ≤ cs.length → (if ib then X' else W').Perm X))
      (fun e ys => ∃ X' W', ys = X' ++ W' ∧ X'.length = n ∧ EP C X e (if ib then W' else X')) := by
  induction k generalizing cs ib s n X W with
  | zero => omega
  | succ k ih =>
    unfold parRecurse
    refine Tri.debugAssert (by simpa using hc) ?_
    by_cases hlen : (cs.length == 1) = true
    · simp only [hlen, if_true]
      simp only [beq_iff_eq] at hlen
      obtain ⟨⟨a, b⟩, rfl⟩ := List.length_eq_one_iff.mp hlen
      obtain ⟨rfl, A, X', rfl, rfl, hs, hX'⟩ := h
      obtain rfl : X' = [] := hX'
      rw [List.append_nil] at hX ⊢
      have hms : MsOk C A A := ⟨.refl _, fun lt hg => ⟨hs lt hg, .refl _⟩⟩
      cases ib with
      | false =>
        simp only [Bool.false_eq_true, if_false]
        exact Tri.pure ⟨A, W, rfl, hX, hms, fun h => by simp at h⟩
      | true =>
        simp only [if_true]
        rw [chunkAt_eq (i := 0) rfl]
        refine Tri.pureB ?_
        rw [Nat.add_sub_cancel_left]
        have := copyUp_spec (R := C.R) (rg := recRegion v buf a n) (src := v) (dest := buf) (s := a) (d := a) (n := A.length) (P := []) (S := A) (M := [])
          (W := W) (T := [])
          (E := fun e ys => ∃ X' W', ys = X' ++ W' ∧ X'.length = n ∧ EP C A e W') rfl (by omega) (by omega) (by omega)
          (by rw [hX]; exact View.at_left _) (by
            have := View.at_right (v := buf.sub a n) (v.sub a n).region
            rw [View.region_length] at this
            rw [hX]
            rw [show ([] ++ A ++ [] : List α).length = (v.sub a n).len by simpa using hX]
            exact this)
        simp only [List.append_nil, List.nil_append] at this
        refine Tri.mono this ?_ (fun _ _ _ h => h)
        rintro _ ys _ rfl
        exact ⟨A, A, rfl, hX, hms, fun h => by simp at h⟩
    · simp only [hlen, Bool.false_eq_true, if_false]
      simp only [beq_iff_eq] at hlen
      have hsplit : cs = cs.take (cs.length / 2) ++ cs.drop (cs.length / 2) := (List.take_append_drop _ _).symm
      have h' := h
      rw [hsplit] at h'
      obtain ⟨X1, X2, rfl, c1, c2⟩ := h'.append
      obtain ⟨n1, hn1⟩ : ∃ n1, X1.length = n1 := ⟨_, rfl⟩
      obtain ⟨n2, hn2⟩ : ∃ n2, X2.length = n2 := ⟨_, rfl⟩
      obtain rfl : n = n1 + n2 := by rw [← hX]; simp; omega
      rw [hn1] at c2
      obtain ⟨e0, he0⟩ := h.head hc
      obtain ⟨e1, he1⟩ := c2.head (by simp; omega)
      obtain ⟨e2, he2⟩ := h.last hc
      rw [List.getElem?_drop, Nat.add_zero] at he1
      rw [chunkAt_eq he0, chunkAt_eq he1]
      refine Tri.pureB (Tri.pureB (Tri.usub (by omega) ?_))
      rw [chunkAt_eq he2]
      refine Tri.pureB ?_
      simp only
      have hlenX : (X1 ++ X2).length = n1 + n2 := hX
      rw [hlenX]
      refine Tri.usub (by omega) ?_
      rw [Nat.add_sub_cancel_left]
      -- the recursive calls
      have i1 := ih (cs := cs.take (cs.length / 2)) (ib := !ib) (s := s) (n := n1) (X := X1) (W := W.take n1)
        (by simp; omega) (by simp; omega) c1 hn1 (by simp; omega) (by omega) (by omega)
      have i2 := ih (cs := cs.drop (cs.length / 2)) (ib := !ib) (s := s + n1) (n := n2) (X := X2) (W := W.drop n1)
        (by simp; omega) (by simp; omega) c2 hn2 (by simp; omega) (by omega) (by omega)
      have hreg : recRegion v buf s (n1 + n2) =
          (v.sub s n1).region ++ (v.sub (s + n1) n2).region ++ ((buf.sub s n1).region ++ (buf.sub (s + n1) n2).region) := by
        unfold recRegion; rw [region_two, region_two]
      refine Tri.bind (Q' := fun _ ys => ∃ X' W', ys = X' ++ W' ∧ X'.length = n1 + n2 ∧ W'.length = n1 + n2 ∧
        ∃ Y1 Y2, (if ib then X' else W') = Y1 ++ Y2 ∧ Y1.length = n1 ∧ MsOk C X1 Y1 ∧ MsOk C X2 Y2) ?_ ?_
      · refine Tri.onPanic (E' := fun e ys => ∃ X' W', ys = X' ++ W' ∧ X'.length = n1 + n2 ∧ W'.length = n1 + n2 ∧
          EP C (X1 ++ X2) e (if ib then X' else W')) ?_ ?_
        · refine Tri.regroup (rg' := recRegion v buf s n1 ++ recRegion v buf (s + n1) n2) (xs' := (X1 ++ W.take n1) ++ (X2 ++ W.drop n1)) ?_ ?_
            (Tri.rayonJoin
              (Q := fun _ ys => ∃ A1 B1 A2 B2, ys = (A1 ++ B1) ++ (A2 ++ B2) ∧ A1.length = n1 ∧ B1.length = n1 ∧ A2.length = n2 ∧ B2.length = n2 ∧
                MsOk C X1 (if (!ib) then B1 else A1) ∧ MsOk C X2 (if (!ib) then B2 else A2))
              (E := fun e ys => ∃ A1 B1 A2 B2, ys = (A1 ++ B1) ++ (A2 ++ B2) ∧ A1.length = n1 ∧ B1.length = n1 ∧ A2.length = n2 ∧ B2.length = n2 ∧
                EP C (X1 ++ X2) e ((if (!ib) then B1 else A1) ++ (if (!ib) then B2 else A2))) ?_ i1 i2 ?_ ?_ ?_ ?_) ?_ ?_
          · rw [hreg]
            exact TriS.perm4 _ _ _ _
          · intro m hm
            rw [hreg] at hm
            simp only [recRegion, List.map_append] at hm ⊢
            obtain ⟨ha, hb⟩ := List.append_inj hm (by simp; omega)
            obtain ⟨ha1, ha2⟩ := List.append_inj ha (by simp; omega)
            rw [ha1, ha2, ← hb, List.take_left' (by simp), List.drop_left' (by simp)]
          · simp [recRegion]; omega
          · rintro _ _ A' B' hA' hB' ⟨A1, B1, rfl, a1, a2, -⟩ ⟨A2, B2, rfl, b1, b2, -⟩
            simp at hA' hB'
            exact ⟨A1, B1, A2, B2, rfl, a1, by omega, b1, by omega, a2, b2⟩
          · rintro _ _ A' B' hA' hB' ⟨A1, B1, rfl, a1, a2⟩ ⟨A2, B2, rfl, b1, b2⟩
            simp at hA' hB'
            exact ⟨A1, B1, A2, B2, rfl, a1, by omega, b1, by omega, a2.1, a2.2.1, a2.2.2.append b2.1.1⟩
          · rintro _ _ A' B' hA' hB' ⟨A1, B1, rfl, a1, a2⟩ ⟨A2, B2, rfl, b1, b2⟩
            simp at hA' hB'
            exact ⟨A1, B1, A2, B2, rfl, a1, by omega, b1, by omega, b2.1, b2.2.1, a2.1.1.append b2.2.2⟩
          · rintro _ _ A' B' hA' hB' ⟨A1, B1, rfl, a1, a2⟩ ⟨A2, B2, rfl, b1, b2⟩
            simp at hA' hB'
            exact ⟨A1, B1, A2, B2, rfl, a1, by omega, b1, by omega, a2.1, a2.2.1, a2.2.2.append b2.2.2⟩
          · rintro _ m ⟨A1, B1, A2, B2, hm, a1, a2, a3, a4, q1, q2⟩
            simp only [recRegion, List.map_append] at hm
            obtain ⟨ha, hb⟩ := List.append_inj hm (by simp; omega)
            obtain ⟨ha1, ha2⟩ := List.append_inj ha (by simp; omega)
            obtain ⟨hb1, hb2⟩ := List.append_inj hb (by simp; omega)
            refine ⟨A1 ++ A2, B1 ++ B2, ?_, by simp; omega, by simp; omega, ?_⟩
            · rw [hreg]
              simp only [List.map_append, ha1, ha2, hb1, hb2]
            · cases ib
              · exact ⟨B1, B2, rfl, a2, q1, q2⟩
              · exact ⟨A1, A2, rfl, a1, q1, q2⟩
          · rintro _ m ⟨A1, B1, A2, B2, hm, a1, a2, a3, a4, q⟩
            simp only [recRegion, List.map_append] at hm
            obtain ⟨ha, hb⟩ := List.append_inj hm (by simp; omega)
            obtain ⟨ha1, ha2⟩ := List.append_inj ha (by simp; omega)
            obtain ⟨hb1, hb2⟩ := List.append_inj hb (by simp; omega)
            refine ⟨A1 ++ A2, B1 ++ B2, ?_, by simp; omega, by simp; omega, ?_⟩
            · rw [hreg]
              simp only [List.map_append, ha1, ha2, hb1, hb2]
            · cases ib <;> exact q
        · rintro e ys _ ⟨X', W', rfl, l1, l2, q⟩
          refine Tri.mono (rec_dest (v := v) (buf := buf) (ib := ib) (s := s) (n := n1 + n2) (X := X') (W := W') (Q := fun _ _ Z => EP C (X1 ++ X2) e Z)
            (E := fun _ Z => False) l1 ?_) ?_ ?_
          · have hSW : (if ib then X' else W').length = n1 + n2 ∧ (if ib then W' else X').length = n1 + n2 := by
              cases ib
              · exact ⟨l2, l1⟩
              · exact ⟨l1, l2⟩
            generalize hS : (if ib then X' else W') = S at *
            generalize hD : (if ib then W' else X') = D at *
            have hsl : s + (n1 + n2) ≤ (if ib then v else buf).len ∧ s + (n1 + n2) ≤ (if ib then buf else v).len := by
              cases ib
              · exact ⟨hb, hv⟩
              · exact ⟨hv, hb⟩
            generalize (if ib then v else buf) = src at *
            generalize (if ib then buf else v) = dest at *
            have := copyUp_spec (R := C.R) (rg := (src.sub s (n1 + n2)).region ++ (dest.sub s (n1 + n2)).region) (src := src) (dest := dest)
              (s := s) (d := s) (n := n1 + n2) (P := []) (S := S) (M := []) (W := D) (T := [])
              (E := fun _ ys => ∃ Y Z, ys = Y ++ Z ∧ Y.length = n1 + n2 ∧ False) hSW.1 hSW.2 hsl.1 hsl.2
              (View.at_left _) (by
                have := View.at_right (v := dest.sub s (n1 + n2)) (src.sub s (n1 + n2)).region
                rw [View.region_length] at this
                convert this using 1
                simpa using hSW.1)
            simp only [List.append_nil, List.nil_append] at this
            refine Tri.mono this ?_ (fun _ _ _ h => h)
            rintro _ ys _ rfl
            exact ⟨S, S, rfl, hSW.1, q⟩
          · rintro _ ys _ ⟨X'', W'', rfl, g1, g2⟩
            exact ⟨X'', W'', rfl, g1, g2⟩
          · rintro _ ys _ ⟨_, _, _, _, hf⟩
            exact hf.elim
      · rintro _ ys _ ⟨X', W', rfl, l1, l2, Y1, Y2, hY, ly, m1, m2⟩
        refine rec_dest (v := v) (buf := buf) (ib := ib) (s := s) (n := n1 + n2) (X := X') (W := W')
          (Q := fun _ Y Z => MsOk C (X1 ++ X2) Z ∧ (2 ≤ cs.length → Y.Perm (X1 ++ X2))) l1 ?_
        have hSW : (if ib then X' else W').length = n1 + n2 ∧ (if ib then W' else X').length = n1 + n2 := by
          cases ib
          · exact ⟨l2, l1⟩
          · exact ⟨l1, l2⟩
        rw [hY] at hSW ⊢
        generalize (if ib then W' else X') = D at *
        have hsl : s + (n1 + n2) ≤ (if ib then v else buf).len ∧ s + (n1 + n2) ≤ (if ib then buf else v).len := by
          cases ib
          · exact ⟨hb, hv⟩
          · exact ⟨hv, hb⟩
        generalize (if ib then v else buf) = src at *
        generalize (if ib then buf else v) = dest at *
        have hl2 : Y2.length = n2 := by have := hSW.1; simp at this; omega
        refine Tri.slice (by omega) (by omega) (Tri.slice (by omega) (by omega) (Tri.slice (by omega) (by omega) ?_))
        rw [show s + n1 - s = n1 by omega, show s + (n1 + n2) - (s + n1) = n2 by omega]
        have := parMerge_spec (C := C) (cfg := cfg) (k := (src.sub s n1).len + (src.sub (s + n1) n2).len + 1) (l := src.sub s n1) (r := src.sub (s + n1) n2)
          (d := dest.sub s (dest.len - s)) (L := Y1) (R := Y2) (W := D) (by simp) (by simpa using ly) (by simpa using hl2) (by simpa using hSW.2)
          (by simp; omega)
        have hmr : mergeRegion (src.sub s n1) (src.sub (s + n1) n2) (dest.sub s (dest.len - s)) =
            (src.sub s (n1 + n2)).region ++ (dest.sub s (n1 + n2)).region := by
          unfold mergeRegion
          rw [View.sub_sub, region_two src, Nat.add_zero]
          rfl
        rw [hmr] at this
        refine Tri.mono this ?_ ?_
        · rintro _ ys _ ⟨Z, rfl, hz⟩
          exact ⟨Y1 ++ Y2, Z, rfl, hSW.1, m1.merge m2 hz, fun _ => m1.1.append m2.1⟩
        · rintro e ys _ ⟨rfl, hpan, Z, rfl, hz⟩
          exact ⟨Y1 ++ Y2, Z, rfl, hSW.1, rfl, hpan, hz.trans (m1.1.append m2.1)⟩

/-! ### The chunks -/

/-- What the result of sorting a chunk says about its contents. -/
def ChunkIs (C : Cmp α ι ω) (res : MergesortResult) (A : List α) : Prop :=
  ∀ lt, C.Good lt → match res with
    | .descending => StrictDesc lt A
    | _ => Sorted lt A

/-- The parts of the array, each of up to 2000 elements, with the results of those sorted so far. -/
def OAdj (C : Cmp α ι ω) : Nat → List (Option (Nat × Nat × MergesortResult)) → List α → Prop
  | _, [], Y => Y = []
  | i, o :: os, Y => ∃ A Y', Y = A ++ Y' ∧ A.length = min 2000 Y.length ∧ 0 < A.length ∧ OAdj C (i + 1) os Y' ∧
      ∀ r, o = some r → r.1 = 2000 * i ∧ r.2.1 = 2000 * i + A.length ∧ ChunkIs C r.2.2 A

/-- The array has been changed as a stable sort may do. -/
def KeepOk (C : Cmp α ι ω) (xs ys : List α) : Prop := ys.Perm xs ∧ ∀ lt, C.Good lt → StableArr lt xs ys

theorem KeepOk.refl (xs : List α) : KeepOk C xs xs := ⟨.refl _, fun _ _ => .refl _⟩

theorem KeepOk.trans {xs ys zs : List α} (h1 : KeepOk C xs ys) (h2 : KeepOk C ys zs) : KeepOk C xs zs :=
  ⟨h2.1.trans h1.1, fun lt hg => (h1.2 lt hg).trans (h2.2 lt hg)⟩

theorem KeepOk.append {xs ys xs' ys' : List α} (h1 : KeepOk C xs ys) (h2 : KeepOk C xs' ys') : KeepOk C (xs ++ xs') (ys ++ ys') :=
  ⟨h1.1.append h2.1, fun lt hg => (h1.2 lt hg).append (h2.2 lt hg)⟩

/-- A chunk with the contents `A0` is left as it is if it is sorted or strictly descending; the result for one element is `sorted`. -/
def Untouched (C : Cmp α ι ω) (A0 : List α) (res : MergesortResult) (A : List α) : Prop :=
  (∀ lt, C.Good lt → 2 ≤ A0.length → (Sorted lt A0 → res = .nonDescending ∧ A = A0) ∧ (StrictDesc lt A0 → res = .descending ∧ A = A0)) ∧
    (A0.length = 1 → res = .sorted)

/-- The array `X` was turned into `Y` by the tasks of some chunks. -/
def Kept (C : Cmp α ι ω) : List (Option (Nat × Nat × MergesortResult)) → List α → List α → Prop
  | [], _, _ => True
  | o :: os, X, Y => (match o with
      | some r => Untouched C (X.take 2000) r.2.2 (Y.take 2000)
      | none => Y.take 2000 = X.take 2000) ∧ Kept C os (X.drop 2000) (Y.drop 2000)

theorem not_both {lt : α → α → Bool} {xs : List α} (h2 : 2 ≤ xs.length) (h : Sorted lt xs) (h' : StrictDesc lt xs) : False := by
  have h3 := List.pairwise_iff_getElem.mp h 0 1 (by omega) (by omega) (by omega)
  have h4 := List.pairwise_iff_getElem.mp h' 0 1 (by omega) (by omega) (by omega)
  rw [h3] at h4
  cases h4

theorem ResOk.untouched {xs ys : List α} {res : MergesortResult} (h : ResOk C xs res ys) (hb : res = .sorted → Broken C xs)
    (h1 : xs.length = 1 → res = .sorted) : Untouched C xs res ys := by
  refine ⟨fun lt hg h2 => ?_, h1⟩
  cases res with
  | nonDescending => exact ⟨fun _ => ⟨rfl, h.1⟩, fun hd => (not_both h2 (h.2 lt hg) hd).elim⟩
  | descending => exact ⟨fun hs => (not_both h2 hs (h.2 lt hg)).elim, fun _ => ⟨rfl, h.1⟩⟩
  | sorted => exact ⟨fun hs => absurd hs (hb rfl lt hg h2).1, fun hd => absurd hd (hb rfl lt hg h2).2⟩

theorem ResOk.keep {xs ys : List α} {res : MergesortResult} (h : ResOk C xs res ys) : KeepOk C xs ys ∧ ChunkIs C res ys := by
  cases res with
  | nonDescending => obtain ⟨rfl, h⟩ := h; exact ⟨.refl _, h⟩
  | descending => obtain ⟨rfl, h⟩ := h; exact ⟨.refl _, h⟩
  | sorted => exact ⟨⟨h.1, fun lt hg => (h.2 lt hg).2⟩, fun lt hg => (h.2 lt hg).1⟩

theorem chunkTask_spec {i n : Nat} {A : List α} (hn : n = min 2000 (v.len - 2000 * i)) (h0 : 0 < n) (hA : A.length = n) :
    TriS C.R (v.sub (2000 * i) n).region (buf.sub (2000 * i) n).region (chunkTask cfg C.less v buf i) A
      (fun r A' => r.1 = 2000 * i ∧ r.2.1 = 2000 * i + n ∧ KeepOk C A A' ∧ ChunkIs C r.2.2 A' ∧ Untouched C A r.2.2 A') (EP C A) := by
  subst hn
  unfold chunkTask
  refine TriS.bind (parMergeSortSeq_spec (by simpa using hA) (by simpa using h0) (by simp; omega)) ?_
  intro res ys _ h
  exact TriS.pure ⟨rfl, rfl, h.1.1.keep.1, h.1.1.keep.2, h.1.1.untouched h.1.2 h.2⟩

theorem choose_triS {R : ι → Option ω → Prop} {rg sc : List Addr} {xs : List α} {β : Type} {k : Bool → Prog α ι ω β} {Q : β → List α → Prop} {E : Panic → List α → Prop}
    (h : ∀ b, TriS R rg sc (k b) xs Q E) : TriS R rg sc (.choose k) xs Q E :=
  fun bs hbs => Tri.choose fun b => h b bs hbs

theorem take_block {A B : List α} (h : A.length = min 2000 (A.length + B.length)) : (A ++ B).take 2000 = A := by
  by_cases hB : B.length = 0
  · rw [List.eq_nil_of_length_eq_zero hB, List.append_nil, List.take_of_length_le (by omega)]
  · exact List.take_left' (by omega)

theorem drop_block {A B : List α} (h : A.length = min 2000 (A.length + B.length)) : (A ++ B).drop 2000 = B := by
  by_cases hB : B.length = 0
  · rw [List.eq_nil_of_length_eq_zero hB, List.append_nil, List.drop_of_length_le (by omega)]
  · exact List.drop_left' (by omega)

theorem chunkTasks_spec {i n : Nat} {X : List α} (hX : X.length = v.len - 2000 * i) (hn : n = (X.length + 1999) / 2000) :
    TriS C.R (v.sub (2000 * i) X.length).region (buf.sub (2000 * i) X.length).region (chunkTasks cfg C.less v buf i n) X
      (fun os ys => KeepOk C X ys ∧ (ys.take 2000).Perm (X.take 2000) ∧ OAdj C i os ys ∧ Kept C os X ys) (EP C X) := by
  induction n generalizing i X with
  | zero =>
    obtain rfl : X = [] := List.eq_nil_of_length_eq_zero (by omega)
    exact TriS.pure ⟨.refl _, .refl _, rfl, trivial⟩
  | succ n ih =>
    unfold chunkTasks
    have hl : (X.take 2000).length = min 2000 (v.len - 2000 * i) := by simp; omega
    have hr : X.length = (X.take 2000).length + (X.drop 2000).length := by simp; omega
    have hpos : 0 < X.length := by omega
    have heq : X = X.take 2000 ++ X.drop 2000 := (List.take_append_drop _ _).symm
    have h1 := chunkTask_spec (C := C) (cfg := cfg) (v := v) (buf := buf) (i := i) (n := (X.take 2000).length) (A := X.take 2000) hl (by omega) rfl
    have h2 : TriS C.R (v.sub (2000 * i + (X.take 2000).length) (X.drop 2000).length).region
        (buf.sub (2000 * i + (X.take 2000).length) (X.drop 2000).length).region (chunkTasks cfg C.less v buf (i + 1) n) (X.drop 2000)
        (fun os ys => KeepOk C (X.drop 2000) ys ∧ OAdj C (i + 1) os ys ∧ Kept C os (X.drop 2000) ys) (EP C (X.drop 2000)) := by
      by_cases hlast : X.length ≤ 2000
      · have hnil : X.drop 2000 = [] := List.drop_eq_nil_of_le hlast
        obtain rfl : n = 0 := by omega
        rw [hnil]
        exact TriS.pure ⟨.refl _, rfl, trivial⟩
      · have := ih (i := i + 1) (X := X.drop 2000) (by simp; omega) (by simp; omega)
        rw [show 2000 * (i + 1) = 2000 * i + (X.take 2000).length by simp; omega] at this
        exact TriS.mono this (fun _ _ _ h => ⟨h.1, h.2.2⟩) (fun _ _ _ h => h)
    have key : TriS C.R (v.sub (2000 * i) X.length).region (buf.sub (2000 * i) X.length).region
        (Prog.rayonJoin
          (.choose fun late => if late then pure none else do
            let r ← chunkTask cfg C.less v buf i
            pure (some r))
          (chunkTasks cfg C.less v buf (i + 1) n)) X
        (fun r ys => KeepOk C X ys ∧ (ys.take 2000).Perm (X.take 2000) ∧ OAdj C i (r.1 :: r.2) ys ∧ Kept C (r.1 :: r.2) X ys) (EP C X) := by
      conv => enter [2]; rw [hr, region_two]
      conv => enter [3]; rw [hr, region_two]
      conv => enter [5]; rw [heq]
      refine TriS.rayonJoin (by simp) (by simp)
        (Q1 := fun o A' => KeepOk C (X.take 2000) A' ∧
          (∀ r, o = some r → r.1 = 2000 * i ∧ r.2.1 = 2000 * i + (X.take 2000).length ∧ ChunkIs C r.2.2 A') ∧
          match o with
            | some r => Untouched C (X.take 2000) r.2.2 A'
            | none => A' = X.take 2000)
        (E1 := EP C (X.take 2000)) ?_ h2 ?_ ?_ ?_ ?_
      · refine choose_triS fun b => ?_
        cases b with
        | true =>
          simp only [if_true]
          exact TriS.pure ⟨.refl _, by rintro r ⟨⟩, rfl⟩
        | false =>
          simp only [Bool.false_eq_true, if_false]
          refine TriS.bind h1 ?_
          rintro r A' _ ⟨g1, g2, g3, g4, g5⟩
          refine TriS.pure ⟨g3, ?_, g5⟩
          rintro r ⟨⟩
          exact ⟨g1, g2, g4⟩
      · rintro o os A' B' hA' hB' ⟨k1, k2, k6⟩ ⟨k3, k4, k5⟩
        have hblock : A'.length = min 2000 (A'.length + B'.length) := by simp at hA' hB' ⊢; omega
        refine ⟨by conv => enter [2]; rw [heq]
                   exact k1.append k3, ?_, ⟨A', B', rfl, by simp at hA' hB' ⊢; omega, by simp at hA'; omega, k4, ?_⟩, ?_, ?_⟩
        · rw [take_block hblock]
          exact k1.1
        · intro r hr
          rw [hA']
          exact k2 r hr
        · rw [take_block hblock]
          exact k6
        · rw [drop_block hblock]
          exact k5
      · rintro e c A' B' _ _ ⟨rfl, g2, g3⟩ ⟨k3, k4⟩
        refine ⟨rfl, g2, ?_⟩
        conv => enter [2]; rw [heq]
        exact g3.append k3.1
      · rintro c e A' B' _ _ ⟨k3, k4⟩ ⟨rfl, g2, g3⟩
        refine ⟨rfl, g2, ?_⟩
        conv => enter [2]; rw [heq]
        exact k3.1.append g3
      · rintro e e' A' B' _ _ ⟨rfl, g2, g3⟩ ⟨_, _, g4⟩
        refine ⟨rfl, g2, ?_⟩
        conv => enter [2]; rw [heq]
        exact g3.append g4
    refine TriS.bind key ?_
    rintro ⟨r, rs⟩ ys _ h
    exact TriS.pure h

theorem lateChunks_spec {i : Nat} {os : List (Option (Nat × Nat × MergesortResult))} {X : List α} (hX : X.length = v.len - 2000 * i)
    (h : OAdj C i os X) :
    TriS C.R (v.sub (2000 * i) X.length).region (buf.sub (2000 * i) X.length).region (lateChunks cfg C.less v buf i os) X
      (fun rs ys => KeepOk C X ys ∧ (ys.take 2000).Perm (X.take 2000) ∧ OAdj C i (rs.map some) ys ∧
        ∀ X0, Kept C os X0 X → Kept C (rs.map some) X0 ys) (EP C X) := by
  induction os generalizing i X with
  | nil =>
    obtain rfl : X = [] := h
    exact TriS.pure ⟨.refl _, .refl _, rfl, fun _ _ => trivial⟩
  | cons o os ih =>
    obtain ⟨A, Y, rfl, hA, hpos, h2, h3⟩ := h
    have hlen : (A ++ Y).length = A.length + Y.length := by simp
    rw [hlen] at hA hX
    have hA2 : A.take 2000 = A := List.take_of_length_le (by omega)
    have hrest : TriS C.R (v.sub (2000 * i + A.length) Y.length).region (buf.sub (2000 * i + A.length) Y.length).region
        (lateChunks cfg C.less v buf (i + 1) os) Y
        (fun rs ys => KeepOk C Y ys ∧ OAdj C (i + 1) (rs.map some) ys ∧ ∀ X0, Kept C os X0 Y → Kept C (rs.map some) X0 ys) (EP C Y) := by
      by_cases hY : Y.length = 0
      · obtain rfl : Y = [] := List.eq_nil_of_length_eq_zero hY
        have := ih (i := i + 1) (X := []) (by simp at hX hA ⊢; omega) h2
        exact TriS.mono this (fun _ _ _ h => ⟨h.1, h.2.2⟩) (fun _ _ _ h => h)
      · have := ih (i := i + 1) (X := Y) (by omega) h2
        rw [show 2000 * (i + 1) = 2000 * i + A.length by omega] at this
        exact TriS.mono this (fun _ _ _ h => ⟨h.1, h.2.2⟩) (fun _ _ _ h => h)
    rw [hlen, region_two, region_two]
    have hsecond : ∀ {A' : List α} {r : Nat × Nat × MergesortResult}, A'.length = A.length → KeepOk C A A' →
        (∀ X0, Kept C [o] X0 A → Untouched C (X0.take 2000) r.2.2 A') →
        (r.1 = 2000 * i ∧ r.2.1 = 2000 * i + A.length ∧ ChunkIs C r.2.2 A') →
        TriS C.R ((v.sub (2000 * i) A.length).region ++ (v.sub (2000 * i + A.length) Y.length).region)
          ((buf.sub (2000 * i) A.length).region ++ (buf.sub (2000 * i + A.length) Y.length).region)
          (lateChunks cfg C.less v buf (i + 1) os >>= fun rs => pure (r :: rs)) (A' ++ Y)
          (fun rs ys => KeepOk C (A ++ Y) ys ∧ (ys.take 2000).Perm ((A ++ Y).take 2000) ∧ OAdj C i (rs.map some) ys ∧
            ∀ X0, Kept C (o :: os) X0 (A ++ Y) → Kept C (rs.map some) X0 ys)
          (EP C (A ++ Y)) := by
      intro A' r hl hk hu hr
      refine TriS.bind (TriS.mono (TriS.right (by simpa using hl) (by simp) hrest) (fun _ _ _ h => h) ?_) ?_
      · rintro e ys _ ⟨B', _, rfl, g1, g2, g3⟩
        exact ⟨g1, g2, hk.1.append g3⟩
      · rintro rs ys _ ⟨B', hB', rfl, g1, g2, g5⟩
        refine TriS.pure ⟨hk.append g1, by rw [take_block (by omega), take_block (by omega)]; exact hk.1,
          ⟨A', B', rfl, by simp; omega, by omega, g2, ?_⟩, ?_⟩
        · rintro r' ⟨⟩
          rw [hl]; exact hr
        · rintro X0 ⟨q1, q2⟩
          rw [take_block (by omega)] at q1
          rw [drop_block (by omega)] at q2
          refine ⟨?_, ?_⟩
          · rw [take_block (by omega)]
            refine hu X0 ⟨?_, trivial⟩
            rw [hA2]
            exact q1
          · rw [drop_block (by omega)]
            exact g5 _ q2
    cases o with
    | some r =>
      refine hsecond rfl (.refl _) (fun X0 hk => ?_) (h3 r rfl)
      have := hk.1
      rw [hA2] at this
      exact this
    | none =>
      unfold lateChunks
      refine TriS.bind (TriS.mono (TriS.left (by simp) (by simp) (chunkTask_spec (C := C) (cfg := cfg) (v := v) (buf := buf) (i := i) (n := A.length) (A := A)
        (by omega) hpos rfl)) (fun _ _ _ h => h) ?_) ?_
      · rintro e ys _ ⟨B', _, rfl, g1, g2, g3⟩
        exact ⟨g1, g2, g3.append_right _⟩
      · rintro r ys _ ⟨A', hA', rfl, g1, g2, g3, g4, g5⟩
        refine hsecond hA' g3 (fun X0 hk => ?_) ⟨g1, g2, g4⟩
        have : A.take 2000 = X0.take 2000 := hk.1
        rw [← this, hA2]
        exact g5

/-- All chunks have been processed. -/
def CAdj (C : Cmp α ι ω) : Nat → List (Nat × Nat × MergesortResult) → List α → Prop
  | _, [], Y => Y = []
  | p, (a, b, res) :: rs, Y => ∃ A Y', Y = A ++ Y' ∧ 0 < A.length ∧ a = p ∧ b = p + A.length ∧ ChunkIs C res A ∧ CAdj C (p + A.length) rs Y'

theorem OAdj.cadj {i : Nat} {rs : List (Nat × Nat × MergesortResult)} {Y : List α} (h : OAdj C i (rs.map some) Y) : CAdj C (2000 * i) rs Y := by
  induction rs generalizing i Y with
  | nil => exact h
  | cons r rs ih =>
    obtain ⟨A, Y', rfl, h1, h2, h3, h4⟩ := h
    obtain ⟨g1, g2, g3⟩ := h4 r rfl
    refine ⟨A, Y', rfl, h2, g1, g2, g3, ?_⟩
    have := ih h3
    by_cases hY : Y'.length = 0
    · obtain rfl : Y' = [] := List.eq_nil_of_length_eq_zero hY
      cases rs with
      | nil => rfl
      | cons r rs =>
        obtain ⟨A', Y', h, h0, _⟩ := this
        have := congrArg List.length h
        simp at this; omega
    · rwa [show 2000 * i + A.length = 2000 * (i + 1) by simp at h1; omega]

/-- The result for a last chunk of one element. -/
theorem OAdj.last_single {i : Nat} {rs : List (Nat × Nat × MergesortResult)} {X0 Y : List α} (h : OAdj C i (rs.map some) Y)
    (hl : X0.length = Y.length) (h1 : Y.length % 2000 = 1) (hk : Kept C (rs.map some) X0 Y) : ∃ r ∈ rs, r.2.2 = .sorted := by
  induction rs generalizing i X0 Y with
  | nil =>
    obtain rfl : Y = [] := h
    simp at h1
  | cons r rs ih =>
    obtain ⟨A, Y', rfl, hA, hpos, h3, -⟩ := h
    obtain ⟨g1, g2⟩ := hk
    have hlen : (A ++ Y').length = A.length + Y'.length := by simp
    rw [hlen] at hA h1 hl
    rw [drop_block hA] at g2
    by_cases hY : Y'.length = 0
    · exact ⟨r, by simp, g1.2 (by simp; omega)⟩
    · obtain ⟨c, hc, hs⟩ := ih h3 (by simp; omega) (by omega) g2
      exact ⟨c, List.mem_cons_of_mem _ hc, hs⟩

theorem finishChunk_spec {P A Y : List α} {a b : Nat} {res : MergesortResult} (hl : (P ++ A ++ Y).length = v.len) (ha : P.length = a)
    (hb : b = a + A.length) (h : ChunkIs C res A) :
    Tri C.R v.region (finishChunk cfg v a b res) (P ++ A ++ Y)
      (fun _ ys => ∃ A', A'.length = A.length ∧ ys = P ++ A' ++ Y ∧ KeepOk C A A' ∧ ∀ lt, C.Good lt → Sorted lt A') (fun _ _ => False) := by
  subst ha hb
  unfold finishChunk
  simp only [List.length_append] at hl
  cases res with
  | nonDescending => exact Tri.pure ⟨A, rfl, rfl, .refl _, h⟩
  | sorted => exact Tri.pure ⟨A, rfl, rfl, .refl _, h⟩
  | descending =>
    simp only [beq_self_eq_true, if_true]
    refine Tri.slice (by omega) (by omega) ?_
    rw [Nat.add_sub_cancel_left]
    refine Tri.subMono (a := P.length) (n := A.length) (E' := fun _ _ => False) (by omega) (reverse_spec (by simp)) ?_ (fun _ _ _ h => h)
    rintro _ ys _ rfl
    have e1 : (P ++ A ++ Y).take P.length = P := by rw [List.append_assoc, List.take_left' rfl]
    have e2 : ((P ++ A ++ Y).drop P.length).take A.length = A := by rw [List.append_assoc, List.drop_left' rfl, List.take_left' rfl]
    have e3 : (P ++ A ++ Y).drop (P.length + A.length) = Y := List.drop_left' (by simp)
    rw [e1, e2, e3]
    exact ⟨A.reverse, by simp, rfl, ⟨List.reverse_perm _, fun lt hg => (StrictDesc.reverse hg.1 (h lt hg)).2⟩,
      fun lt hg => (StrictDesc.reverse hg.1 (h lt hg)).1⟩

theorem ChunkIs.concat {res r : MergesortResult} {A B : List α} {x z : α} (h1 : ChunkIs C res (A ++ [z])) (h2 : ChunkIs C r (x :: B)) (hs : res ≠ .sorted)
    (hr : r = res) (hc : C.ans x z (r == .descending)) : ChunkIs C res ((A ++ [z]) ++ (x :: B)) := by
  subst hr
  intro lt hg
  have g1 := h1 lt hg
  have g2 := h2 lt hg
  have g3 := hg.2 _ _ _ hc
  cases r with
  | sorted => exact absurd rfl hs
  | nonDescending =>
    simp only [show ((MergesortResult.nonDescending == MergesortResult.descending) : Bool) = false from rfl] at g3
    refine Sorted.append_iff.mpr ⟨g1, g2, fun u hu w hw => ?_⟩
    have g1' := Sorted.append_iff.mp g1
    have g2' := Sorted.cons_iff.mp g2
    have hwx : lt w z = false := by
      rcases List.mem_cons.mp hw with rfl | hw
      · exact g3.symm
      · exact hg.1.le_trans g3.symm (g2'.1 w hw)
    rcases List.mem_append.mp hu with hu | hu
    · exact hg.1.le_trans (g1'.2.2 u hu z (by simp)) hwx
    · rw [List.mem_singleton.mp hu]; exact hwx
  | descending =>
    simp only [beq_self_eq_true] at g3
    refine List.pairwise_append.mpr ⟨g1, g2, fun u hu w hw => ?_⟩
    have g1' := List.pairwise_append.mp g1
    have g2' := List.pairwise_cons.mp g2
    have hwx : lt w z = true := by
      rcases List.mem_cons.mp hw with rfl | hw
      · exact g3.symm
      · exact hg.1.trans _ _ _ (g2'.1 w hw) g3.symm
    rcases List.mem_append.mp hu with hu | hu
    · exact hg.1.trans _ _ _ hwx (g1'.2.2 u hu z (by simp))
    · rw [List.mem_singleton.mp hu]; exact hwx

/-- Whether a chunk with the result `r`, at the beginning of `Y`, is concatenated to one with the result `res` and the contents `A`. -/
def joined (lt : α → α → Bool) (res : MergesortResult) (A : List α) (r : MergesortResult) (Y : List α) : Bool :=
  res != .sorted && r == res && match A.getLast?, Y.head? with
    | some z, some x => (r == .descending) == lt x z
    | _, _ => false

/-- How often chunks are not concatenated. -/
def breaks (lt : α → α → Bool) : MergesortResult → List α → List (Nat × Nat × MergesortResult) → List α → Nat
  | _, _, [], _ => 0
  | res, A, (x, y, r) :: rest, Y => (if joined lt res A r Y then 0 else 1) + breaks lt r (Y.take (y - x)) rest (Y.drop (y - x))

theorem breaks_last {lt : α → α → Bool} {res : MergesortResult} {A B : List α} {rest : List (Nat × Nat × MergesortResult)} {Y : List α}
    (h : A.getLast? = B.getLast?) : breaks lt res A rest Y = breaks lt res B rest Y := by
  cases rest with
  | nil => rfl
  | cons c rest =>
    unfold breaks joined
    rw [h]

theorem concatChunks_spec {rest : List (Nat × Nat × MergesortResult)} {a b : Nat} {res : MergesortResult} {P A Y : List α}
    (hl : (P ++ A ++ Y).length = v.len) (ha : P.length = a) (hb : b = a + A.length) (hA : 0 < A.length) (h : ChunkIs C res A) (hr : CAdj C b rest Y) :
    Tri C.R v.region (concatChunks cfg C.less v a b res rest) (P ++ A ++ Y)
      (fun cs ys => (0 < cs.length ∧ (∀ lt, C.Good lt → cs.length ≤ breaks lt res A rest Y + 1) ∧
          ((∃ c ∈ rest, c.2.2 = .sorted) → 2 ≤ cs.length)) ∧ (cs.length = 1 → ∃ r, ChunkIs C r (A ++ Y)) ∧
        ∃ Z, Z.length = (A ++ Y).length ∧ ys = P ++ Z ∧ KeepOk C (A ++ Y) Z ∧ SAdj C a cs Z)
      (EP C (P ++ A ++ Y)) := by
  induction rest generalizing a b res P A Y with
  | nil =>
    obtain rfl : Y = [] := hr
    unfold concatChunks
    refine Tri.bind (Tri.mono (finishChunk_spec hl ha hb h) (fun _ _ _ h => h) (fun _ _ _ h => h.elim)) ?_
    rintro _ ys _ ⟨A', hA', rfl, k, s⟩
    simp only [List.append_nil]
    exact Tri.pure ⟨⟨by simp, fun _ _ => by simp, by simp⟩, fun _ => ⟨res, h⟩, A', hA', rfl, k, rfl, A', [], by simp, by omega, s, rfl⟩
  | cons c rest ih =>
    obtain ⟨x, y, r⟩ := c
    obtain ⟨B, Y', rfl, hB, rfl, rfl, hcb, hr'⟩ := hr
    unfold concatChunks
    have hbt : (B ++ Y').take (x + B.length - x) = B := by rw [Nat.add_sub_cancel_left, List.take_left' rfl]
    have hbd : (B ++ Y').drop (x + B.length - x) = Y' := by rw [Nat.add_sub_cancel_left, List.drop_left' rfl]
    have stop : (∀ lt, C.Good lt → joined lt res A r (B ++ Y') = false) → Tri C.R v.region (do
        finishChunk cfg v a x res
        let cs ← concatChunks cfg C.less v x (x + B.length) r rest
        pure ((a, x) :: cs)) (P ++ A ++ (B ++ Y'))
        (fun cs ys => (0 < cs.length ∧ (∀ lt, C.Good lt → cs.length ≤ breaks lt res A ((x, x + B.length, r) :: rest) (B ++ Y') + 1) ∧
            ((∃ c ∈ (x, x + B.length, r) :: rest, c.2.2 = .sorted) → 2 ≤ cs.length)) ∧
          (cs.length = 1 → ∃ r, ChunkIs C r (A ++ (B ++ Y'))) ∧
          ∃ Z, Z.length = (A ++ (B ++ Y')).length ∧ ys = P ++ Z ∧ KeepOk C (A ++ (B ++ Y')) Z ∧ SAdj C a cs Z)
        (EP C (P ++ A ++ (B ++ Y'))) := by
      intro hj
      refine Tri.bind (Tri.mono (finishChunk_spec hl ha hb h) (fun _ _ _ h => h) (fun _ _ _ h => h.elim)) ?_
      rintro _ ys _ ⟨A', hA', rfl, k, s⟩
      have hl' : ((P ++ A') ++ B ++ Y').length = v.len := by simp at hl ⊢; omega
      have := ih (P := P ++ A') (A := B) (Y := Y') (a := x) (b := x + B.length) (res := r) hl' (by simp; omega) rfl hB hcb hr'
      rw [show P ++ A' ++ (B ++ Y') = P ++ A' ++ B ++ Y' by simp]
      refine Tri.bind (Tri.mono this (fun _ _ _ h => h) ?_) ?_
      · rintro e zs _ ⟨g1, g2, g3⟩
        refine ⟨g1, g2, g3.trans ?_⟩
        have := ((List.Perm.refl P).append k.1).append (List.Perm.refl (B ++ Y'))
        simpa using this
      · rintro cs zs _ ⟨⟨c0, c2, -⟩, -, Z, hZ, rfl, k', s'⟩
        refine Tri.pure ⟨⟨by simp, fun lt hg => ?_, fun _ => by simp only [List.length_cons]; omega⟩, fun h1 => by simp at h1; simp [h1] at c0, A' ++ Z, by simp at hZ ⊢; omega, by simp, k.append k', rfl, A', Z, rfl, by omega, s, ?_⟩
        · have := c2 lt hg
          unfold breaks
          rw [hj lt hg, hbt, hbd]
          simp
          omega
        · rw [hA', ← hb]
          exact s'
    unfold canConcat
    by_cases hcc : (res != .sorted && r == res) = true
    · simp only [hcc, if_true]
      simp only [Bool.and_eq_true, bne_iff_ne, beq_iff_eq] at hcc
      obtain ⟨hne, hreq⟩ := hcc
      have hlen := hl
      simp only [List.length_append] at hlen
      obtain ⟨A0, z, rfl⟩ := snoc_of_pos hA
      obtain ⟨x0, B0, rfl⟩ : ∃ x0 B0, B = x0 :: B0 := by
        cases B with
        | nil => simp at hB
        | cons x0 B0 => exact ⟨x0, B0, rfl⟩
      simp only [List.length_append, List.length_cons, List.length_nil] at hlen hb
      -- the comparison
      have hcmp : Tri C.R v.region (do
          let p ← usub cfg x 1
          let y ← v.idx x
          let z ← v.idx p
          let c ← C.less y z
          pure ((r == .descending) == c)) (P ++ (A0 ++ [z]) ++ (x0 :: B0 ++ Y'))
          (fun c ys => ys = P ++ (A0 ++ [z]) ++ (x0 :: B0 ++ Y') ∧ ∃ d, C.ans x0 z d ∧ c = ((r == .descending) == d))
          (EP C (P ++ (A0 ++ [z]) ++ (x0 :: B0 ++ Y'))) := by
        refine Tri.usub (by omega) (Tri.vidx (by omega) fun u hu => Tri.vidx (by omega) fun w hw => ?_)
        have hu' : u = x0 := by
          have := (get_mid (B := P ++ (A0 ++ [z])) (A := B0 ++ Y') (x := x0) (h := x) (by simp; omega))
          simp only [List.cons_append] at hu
          exact Option.some.inj (hu.symm.trans this)
        have hw' : w = z := by
          have := (get_mid (B := P ++ A0) (A := x0 :: B0 ++ Y') (x := z) (h := x - 1) (by simp; omega))
          have e : P ++ (A0 ++ [z]) ++ (x0 :: B0 ++ Y') = P ++ A0 ++ z :: (x0 :: B0 ++ Y') := by simp
          rw [e] at hw
          exact Option.some.inj (hw.symm.trans this)
        subst hu' hw'
        refine Tri.lessB C (fun c hc => Tri.pure ⟨rfl, c, hc, rfl⟩) (fun hp => ⟨rfl, hp, .refl _⟩)
      refine Tri.bind hcmp ?_
      rintro c ys _ ⟨rfl, d, hc, hcd⟩
      have hjoin : ∀ lt, C.Good lt → joined lt res (A0 ++ [z]) r (x0 :: B0 ++ Y') = c := by
        intro lt hg
        unfold joined
        rw [List.getLast?_append, hcd, hg.2 _ _ _ hc]
        simp [hne, hreq]
      cases c with
      | false =>
        simp only [Bool.false_eq_true, if_false]
        exact stop hjoin
      | true =>
        simp only [if_true]
        have hcat := h.concat hcb hne hreq (by rw [eq_of_beq hcd.symm]; exact hc)
        have hl' : (P ++ ((A0 ++ [z]) ++ x0 :: B0) ++ Y').length = v.len := by simp at hl ⊢; omega
        have e : P ++ (A0 ++ [z]) ++ (x0 :: B0 ++ Y') = P ++ ((A0 ++ [z]) ++ x0 :: B0) ++ Y' := by simp
        have e2 : (A0 ++ [z]) ++ (x0 :: B0 ++ Y') = ((A0 ++ [z]) ++ x0 :: B0) ++ Y' := by simp
        rw [e, e2]
        refine Tri.mono (ih hl' ha (by simp; omega) (by simp) hcat hr') ?_ (fun _ _ _ h => h)
        rintro cs zs _ ⟨⟨c0, c2, c3⟩, h'⟩
        refine ⟨⟨c0, fun lt hg => ?_, fun ⟨c, hcm, hcs⟩ => c3 ?_⟩, h'⟩
        case refine_2 =>
          rcases List.mem_cons.mp hcm with rfl | hcm
          · exact absurd (hreq.symm.trans hcs) hne
          · exact ⟨c, hcm, hcs⟩
        have := c2 lt hg
        unfold breaks
        rw [hjoin lt hg, hbt, hbd, hreq, if_pos rfl, Nat.zero_add]
        rwa [breaks_last (B := x0 :: B0) (by rw [List.getLast?_append, List.getLast?_cons]; rfl)] at this
    · simp only [hcc, Bool.false_eq_true, if_false]
      refine Tri.pureB ?_
      simp only [Bool.false_eq_true, if_false]
      refine stop fun lt _ => ?_
      unfold joined
      simp only [Bool.not_eq_true] at hcc
      rw [hcc, Bool.false_and]

/-- The first 2000 elements are neither all in order with the other ones, nor all greater. -/
def Overlap (lt : α → α → Bool) (xs : List α) : Prop :=
  (∃ x ∈ xs.take 2000, ∃ y ∈ xs.drop 2000, lt y x = true) ∧ ∃ x ∈ xs.take 2000, ∃ y ∈ xs.drop 2000, lt y x = false

theorem Overlap.perm {lt : α → α → Bool} {xs ys : List α} (h : Overlap lt xs) (hp : ys.Perm xs) (ht : (ys.take 2000).Perm (xs.take 2000)) :
    Overlap lt ys := by
  have hd : (ys.drop 2000).Perm (xs.drop 2000) := by
    have := hp
    rw [← List.take_append_drop 2000 ys, ← List.take_append_drop 2000 xs] at this
    exact (List.perm_append_left_iff _).mp ((ht.symm.append_right _).trans this)
  obtain ⟨⟨x, hx, y, hy, h1⟩, x', hx', y', hy', h2⟩ := h
  exact ⟨⟨x, ht.mem_iff.mpr hx, y, hd.mem_iff.mpr hy, h1⟩, x', ht.mem_iff.mpr hx', y', hd.mem_iff.mpr hy', h2⟩

theorem Overlap.not_chunk {lt : α → α → Bool} {xs : List α} (h : Overlap lt xs) (hg : C.Good lt) {r : MergesortResult} : ¬ ChunkIs C r xs := by
  intro hc
  obtain ⟨⟨x, hx, y, hy, h1⟩, x', hx', y', hy', h2⟩ := h
  have := hc lt hg
  rw [← List.take_append_drop 2000 xs] at this
  cases r with
  | descending =>
    have := (List.pairwise_append.mp this).2.2 x' hx' y' hy'
    rw [h2] at this; cases this
  | nonDescending =>
    have := (Sorted.append_iff.mp this).2.2 x hx y hy
    rw [h1] at this; cases this
  | sorted =>
    have := (Sorted.append_iff.mp this).2.2 x hx y hy
    rw [h1] at this; cases this

/-- The sort of more than one chunk, with what is in the buffer afterwards. -/
theorem parMergeSortChunks_full {xs bs : List α} (hx : xs.length = v.len) (h0 : 0 < v.len) (hb : v.len ≤ buf.len) (hbs : bs.length = v.len) :
    Tri C.R (v.region ++ (buf.sub 0 v.len).region) (parMergeSortChunks cfg C.less v buf) (xs ++ bs)
      (fun _ ys => ∃ X' W', ys = X' ++ W' ∧ X'.length = v.len ∧ W'.length = v.len ∧ MsOk C xs X' ∧
        (∀ lt, C.Good lt → Overlap lt xs → W'.Perm xs) ∧ (2000 < v.len → v.len % 2000 = 1 → W'.Perm xs))
      (fun e ys => ∃ X' W', X'.length = xs.length ∧ W'.length = (buf.sub 0 v.len).region.length ∧ ys = X' ++ W' ∧ EP C xs e X') := by
  unfold parMergeSortChunks
  have hv : v.sub (2000 * 0) v.len = v := View.sub_self v
  have h1 := chunkTasks_spec (C := C) (cfg := cfg) (v := v) (buf := buf) (i := 0) (X := xs) (n := (v.len + 1999) / 2000) (by omega) (by rw [hx])
  rw [hx, hv] at h1
  refine Tri.bind (h1 bs (by simpa using hbs)) ?_
  rintro os _ _ ⟨ys, bs, hy, hbs, rfl, k1, t1, o1, q1⟩
  have h2 := lateChunks_spec (C := C) (cfg := cfg) (v := v) (buf := buf) (i := 0) (X := ys) (os := os) (by omega) o1
  rw [hy, hx, hv] at h2
  refine Tri.bind (Tri.mono (h2 bs hbs) (fun _ _ _ h => h) ?_) ?_
  · rintro e _ _ ⟨zs, cs, l1, l2, rfl, h⟩
    exact ⟨zs, cs, by omega, l2, rfl, EP.of_perm k1.1 h⟩
  rintro rs _ _ ⟨zs, bs, hz, hbs, rfl, k2, t2, o2, q2⟩
  have q3 := q2 xs q1
  have hc := o2.cadj
  have hrec : ∀ cs us bs, us.length = zs.length → bs.length = (buf.sub 0 v.len).region.length →
      (0 < cs.length ∧ (cs.length = 1 → ∃ r, ChunkIs C r zs) ∧ (2000 < v.len → v.len % 2000 = 1 → 2 ≤ cs.length) ∧ KeepOk C zs us ∧ SAdj C 0 cs us) →
      Tri C.R (v.region ++ (buf.sub 0 v.len).region) (parRecurse cfg C.less v buf cs.length cs false) (us ++ bs)
        (fun _ ys => ∃ X' W', ys = X' ++ W' ∧ X'.length = v.len ∧ W'.length = v.len ∧ MsOk C xs X' ∧
          (∀ lt, C.Good lt → Overlap lt xs → W'.Perm xs) ∧ (2000 < v.len → v.len % 2000 = 1 → W'.Perm xs))
        (fun e ys => ∃ X' W', X'.length = xs.length ∧ W'.length = (buf.sub 0 v.len).region.length ∧ ys = X' ++ W' ∧ EP C xs e X') := by
    rintro cs us bs hu hbs ⟨c0, c1, c2, k3, s⟩
    have hus : us.length = v.len := by omega
    have := parRecurse_spec (C := C) (cfg := cfg) (v := v) (buf := buf) (k := cs.length) (cs := cs) (ib := false) (s := 0) (n := v.len) (X := us) (W := bs)
      (Nat.le_refl _) c0 s hus (by simpa using hbs) (by omega) (by omega)
    unfold recRegion at this
    rw [View.sub_self] at this
    have kk := (k1.trans k2).trans k3
    refine Tri.mono this ?_ ?_
    · rintro _ ws hw ⟨X', W', rfl, l1, h, hf⟩
      simp only [Bool.false_eq_true, if_false] at h hf
      refine ⟨X', W', rfl, by omega, by simp at hw hbs ⊢; omega,
        ⟨h.1.trans kk.1, fun lt hg => ⟨(h.2 lt hg).1, (kk.2 lt hg).trans (h.2 lt hg).2⟩⟩, fun lt hg ho => ?_, fun h1 h2 => (hf (c2 h1 h2)).trans kk.1⟩
      refine (hf ?_).trans kk.1
      by_contra hlt
      obtain ⟨r, hr⟩ := c1 (by omega)
      exact (ho.perm (k2.1.trans k1.1) (t2.trans t1)).not_chunk hg hr
    · rintro e ws hw ⟨X', W', rfl, l1, h⟩
      simp only [Bool.false_eq_true, if_false] at h
      exact ⟨X', W', by omega, by simp at hw hbs ⊢; omega, rfl, EP.of_perm kk.1 h⟩
  cases rs with
  | nil =>
    obtain rfl : zs = [] := hc
    simp at hz; omega
  | cons r rs =>
    obtain ⟨a, b, res⟩ := r
    obtain ⟨A, Y', rfl, hA, rfl, rfl, hres, hrest⟩ := hc
    simp only
    have hl : ([] ++ A ++ Y').length = v.len := by simp at hz ⊢; omega
    have := concatChunks_spec (C := C) (cfg := cfg) (v := v) (rest := rs) (a := 2000 * 0) (b := 2000 * 0 + A.length) (res := res) (P := []) (A := A) (Y := Y')
      hl rfl rfl hA hres hrest
    simp only [List.nil_append] at this
    refine Tri.bind (Tri.mono (TriS.of_tri this bs hbs) (fun _ _ _ h => h) ?_) ?_
    · rintro e _ _ ⟨zs, cs, l1, l2, rfl, h⟩
      exact ⟨zs, cs, by omega, l2, rfl, EP.of_perm (k2.1.trans k1.1) h⟩
    · rintro cs _ _ ⟨us, bs, l1, l2, rfl, ⟨c0, -, c2⟩, c1, Z, hZ, rfl, k, s⟩
      refine hrec cs _ bs (by simpa using hZ) l2 ⟨c0, c1, fun g1 g2 => c2 ?_, k, s⟩
      obtain ⟨A2, Y2, u1, u2, -, o3, -⟩ := o2
      have hlen : (A ++ Y').length = v.len := by omega
      have hl1 := congrArg List.length u1
      have u3 := u2
      simp only [List.length_append] at hl1 hlen u3
      refine o3.last_single (X0 := xs.drop 2000) (by rw [List.length_drop]; omega) (by omega) ?_
      have := q3.2
      rwa [u1, drop_block (by omega)] at this

theorem parMergeSortChunks_spec {xs : List α} (hx : xs.length = v.len) (h0 : 0 < v.len) (hb : v.len ≤ buf.len) :
    TriS C.R v.region (buf.sub 0 v.len).region (parMergeSortChunks cfg C.less v buf) xs (fun _ ys => MsOk C xs ys) (EP C xs) :=
  fun bs hbs => Tri.mono (parMergeSortChunks_full hx h0 hb (by simpa using hbs))
    (fun _ ys _ ⟨X', W', h1, h2, h3, h4, _, _⟩ => ⟨X', W', by omega, by simpa using h3, h1, h4⟩)
    (fun _ _ _ h => h)

/-! ### `par_merge_sort` -/

theorem forDown_congr {f g : Nat → Prog α ι ω Unit} {a n : Nat} (h : ∀ i, a ≤ i → i < a + n → f i = g i) :
    Prog.forDown f a n = Prog.forDown g a n := by
  induction n with
  | zero => rfl
  | succ n ih =>
    unfold Prog.forDown
    rw [h (a + n) (by omega) (by omega), ih fun i h1 h2 => h i h1 (by omega)]

/-- Up to 20 elements are sorted in place. -/
theorem parMergeSort_short {xs : List α} (hx : xs.length = v.len) (hz : cfg.zst = true → Subsingleton α) (h20 : v.len ≤ 20) :
    Tri C.R v.region (parMergeSort cfg C.less v buf) xs (fun _ ys => MsOk C xs ys) (EP C xs) := by
  unfold parMergeSort
  split
  · rename_i h
    have := hz h
    exact Tri.pure ⟨.refl _, fun lt hg => ⟨sorted_of_subsingleton hg.1 _, .refl _⟩⟩
  split
  · rename_i h2
    have hspec := insertionSortShiftRight_spec (cfg := ⟨false, 0, false⟩) C (v := v) (xs := xs) (offset := v.len - 1) (by omega) (by omega) h2 (by omega) hx
    unfold insertionSortShiftRight at hspec
    rw [show (decide (v.len - 1 ≠ 0) && decide (v.len - 1 ≤ v.len) && decide (v.len ≥ 2)) = true by simp; omega] at hspec
    rw [forDown_congr (g := fun i => do
      let w ← v.slice i v.len
      insertHead ⟨false, 0, false⟩ C.less w)]
    · refine Tri.mono (hspec : Tri C.R v.region (Prog.forDown _ 0 (v.len - 1)) xs _ _) ?_ (fun _ _ _ h => h)
      rintro _ ys _ ⟨h1, h2⟩
      refine ⟨h1, fun lt hg => h2 lt hg ?_⟩
      rw [List.drop_eq_getElem_cons (by omega), List.drop_eq_nil_of_le (by omega)]
      exact Sorted.single _
    · intro i _ hi
      unfold View.slice
      rw [if_neg (show ¬ v.len < i by omega), if_pos ⟨by omega, Nat.le_refl _⟩]
      show parInsertHead C.less _ = insertHead _ C.less _
      exact parInsertHead_eq (by simp; omega)
  · exact Tri.pure ⟨.refl _, fun lt hg => ⟨by
      match xs, hx with
      | [], _ => exact Sorted.nil
      | [x], _ => exact Sorted.single _
      | x :: y :: xs, hx => simp at hx; omega, .refl _⟩⟩

theorem parMergeSort_spec {xs : List α} (hx : xs.length = v.len) (hz : cfg.zst = true → Subsingleton α) (hb : buf.len = v.len) :
    TriS C.R v.region buf.region (parMergeSort cfg C.less v buf) xs (fun _ ys => MsOk C xs ys) (EP C xs) := by
  by_cases h20 : v.len ≤ 20
  · exact TriS.of_tri (parMergeSort_short hx hz h20)
  unfold parMergeSort
  split
  · rename_i h
    have := hz h
    exact TriS.pure ⟨.refl _, fun lt hg => ⟨sorted_of_subsingleton hg.1 _, .refl _⟩⟩
  split
  · refine TriS.bind (parMergeSortSeq_spec hx (by omega) (by omega)) ?_
    rintro res ys hy ⟨⟨hr, -⟩, -⟩
    cases res with
    | nonDescending =>
      obtain ⟨rfl, h⟩ := hr
      exact TriS.pure ⟨.refl _, fun lt hg => ⟨h lt hg, .refl _⟩⟩
    | sorted => exact TriS.pure hr
    | descending =>
      obtain ⟨rfl, h⟩ := hr
      simp only [beq_self_eq_true, if_true]
      refine TriS.of_tri (Tri.mono (reverse_spec (E := fun _ _ => False) hx) ?_ (fun _ _ _ h => h.elim))
      rintro _ ys _ rfl
      exact ⟨List.reverse_perm _, fun lt hg => StrictDesc.reverse hg.1 (h lt hg)⟩
  · have := parMergeSortChunks_spec (C := C) (cfg := cfg) (v := v) (buf := buf) hx (by omega) (by omega)
    rw [← hb, View.sub_self] at this
    exact this

end NdSlice
