import Verif.Core.Adequacy
import Verif.Core.View
import Mathlib.Data.List.Nodup
import Mathlib.Data.List.Perm.Basic
import Mathlib.Data.List.TakeDrop

/-
Hoare triples on list contents: `Tri R rg p xs Q E` says that `p`, started with the cells `rg`
holding `xs`, only touches these cells, is free of undefined behaviour, ends, and leaves contents
satisfying `Q` (normal end) or `E` (panic).
-/

namespace NdSlice

variable {α ι ω : Type} {R : ι → Option ω → Prop}

section wp
variable {β γ : Type} {F : Addr → Prop} {m : Mem α} {lg : List (ι × Option ω)}

theorem wp_bind {p : Prog α ι ω β} {f : β → Prog α ι ω γ} {Q : γ → Mem α → List (ι × Option ω) → Prop}
    {E : Panic → Mem α → List (ι × Option ω) → Prop}
    (h : wp R p F (fun b m lg => wp R (f b) F Q E m lg) E m lg) : wp R (p.bind f) F Q E m lg := by
  induction p generalizing m lg with
  | ret b => exact h
  | get a k ih => exact ⟨h.1, ih _ h.2⟩
  | set a x k ih => exact ⟨h.1, ih h.2⟩
  | call q k ih => exact fun r hr => ih r (h r hr)
  | choose k ih => exact fun b => ih b (h b)
  | throw e => exact h
  | ub => exact h
  | diverge => exact h
  | join p q k ihp ihq ihk =>
    obtain ⟨F1, F2, h1, h2, hd, P1, P2, hp, hq, hk⟩ := h
    refine ⟨F1, F2, h1, h2, hd, P1, P2, hp, hq, ?_⟩
    intro r t m1 m2 l1 l2 hP1 hP2 m' d e1 e2 e3 e4
    exact ihk r t (hk r t m1 m2 l1 l2 hP1 hP2 m' d e1 e2 e3 e4)

theorem wp_onPanic {p : Prog α ι ω β} {g : Prog α ι ω Unit} {Q : β → Mem α → List (ι × Option ω) → Prop}
    {E : Panic → Mem α → List (ι × Option ω) → Prop}
    (h : wp R p F Q (fun e m lg => wp R g F (fun _ m lg => E e m lg) E m lg) m lg) :
    wp R (p.onPanic g) F Q E m lg := by
  induction p generalizing m lg with
  | ret b => exact h
  | get a k ih => exact ⟨h.1, ih _ h.2⟩
  | set a x k ih => exact ⟨h.1, ih h.2⟩
  | call q k ih => exact fun r hr => ih r (h r hr)
  | choose k ih => exact fun b => ih b (h b)
  | throw e => exact wp_bind h
  | ub => exact h
  | diverge => exact h
  | join p q k ihp ihq ihk =>
    obtain ⟨F1, F2, h1, h2, hd, P1, P2, hp, hq, hk⟩ := h
    refine ⟨F1, F2, h1, h2, hd, P1, P2, hp, hq, ?_⟩
    intro r t m1 m2 l1 l2 hP1 hP2 m' d e1 e2 e3 e4
    exact ihk r t (hk r t m1 m2 l1 l2 hP1 hP2 m' d e1 e2 e3 e4)

end wp

/-- See the top of this file. -/
def Tri (R : ι → Option ω → Prop) (rg : List Addr) {β : Type} (p : Prog α ι ω β) (xs : List α)
    (Q : β → List α → Prop) (E : Panic → List α → Prop) : Prop :=
  ∀ m lg, rg.Nodup → rg.map m = xs →
    wp R p (· ∈ rg) (fun b m' _ => Q b (rg.map m')) (fun e m' _ => E e (rg.map m')) m lg

variable {rg : List Addr} {β γ : Type} {xs : List α}

namespace Tri

theorem mono {p : Prog α ι ω β} {Q Q' : β → List α → Prop} {E E' : Panic → List α → Prop}
    (h : Tri R rg p xs Q E) (hQ : ∀ b ys, ys.length = xs.length → Q b ys → Q' b ys)
    (hE : ∀ e ys, ys.length = xs.length → E e ys → E' e ys) :
    Tri R rg p xs Q' E' := by
  intro m lg nd hm
  have hl : ∀ m' : Mem α, (rg.map m').length = xs.length := by intro m'; rw [← hm]; simp
  exact wp_mono (h m lg nd hm) (fun _ h => h) (fun b m' _ h => hQ b _ (hl m') h) (fun e m' _ h => hE e _ (hl m') h)

theorem bind {p : Prog α ι ω β} {f : β → Prog α ι ω γ} {Q' : β → List α → Prop}
    {Q : γ → List α → Prop} {E : Panic → List α → Prop}
    (h : Tri R rg p xs Q' E) (hf : ∀ b ys, ys.length = xs.length → Q' b ys → Tri R rg (f b) ys Q E) :
    Tri R rg (p >>= f) xs Q E := by
  intro m lg nd hm
  have hl : ∀ m' : Mem α, (rg.map m').length = xs.length := by intro m'; rw [← hm]; simp
  exact wp_bind (wp_mono (h m lg nd hm) (fun _ h => h) (fun b m' lg h => hf b _ (hl m') h m' lg nd rfl) (fun e m' _ h => h))

theorem pure {b : β} {Q : β → List α → Prop} {E : Panic → List α → Prop} (h : Q b xs) :
    Tri R rg (Pure.pure b : Prog α ι ω β) xs Q E := by
  intro m lg nd hm
  subst hm
  exact h

theorem pureB {b : β} {f : β → Prog α ι ω γ} {Q : γ → List α → Prop} {E : Panic → List α → Prop}
    (h : Tri R rg (f b) xs Q E) : Tri R rg ((Pure.pure b : Prog α ι ω β) >>= f) xs Q E := h

theorem throw {e : Panic} {Q : β → List α → Prop} {E : Panic → List α → Prop} (h : E e xs) :
    Tri R rg (Prog.throw e : Prog α ι ω β) xs Q E := by
  intro m lg nd hm
  subst hm
  exact h

theorem choose {k : Bool → Prog α ι ω β} {Q : β → List α → Prop} {E : Panic → List α → Prop}
    (h : ∀ b, Tri R rg (k b) xs Q E) : Tri R rg (Prog.choose k) xs Q E :=
  fun m lg nd hm b => h b m lg nd hm

theorem onPanic {p : Prog α ι ω β} {g : Prog α ι ω Unit} {Q : β → List α → Prop}
    {E E' : Panic → List α → Prop} (h : Tri R rg p xs Q E')
    (hg : ∀ e ys, ys.length = xs.length → E' e ys → Tri R rg g ys (fun _ zs => E e zs) E) :
    Tri R rg (p.onPanic g) xs Q E := by
  intro m lg nd hm
  have hl : ∀ m' : Mem α, (rg.map m').length = xs.length := by intro m'; rw [← hm]; simp
  exact wp_onPanic (wp_mono (h m lg nd hm) (fun _ h => h) (fun b m' _ h => h)
    (fun e m' lg h => hg e _ (hl m') h m' lg nd rfl))

theorem loop {s r : Type} {body : s → Prog α ι ω (s ⊕ r)} {Inv : s → List α → Prop}
    {μ : s → List α → Nat} {Q : r → List α → Prop} {E : Panic → List α → Prop} {n : Nat} {x : s}
    (hI : Inv x xs) (hn : μ x xs < n)
    (hb : ∀ x ys, ys.length = xs.length → Inv x ys → Tri R rg (body x) ys
      (fun o zs => match o with
        | .inl x' => Inv x' zs ∧ μ x' zs < μ x ys
        | .inr y => Q y zs) E) :
    Tri R rg (Prog.loop body n x) xs Q E := by
  suffices H : ∀ n x ys, ys.length = xs.length → Inv x ys → μ x ys < n → Tri R rg (Prog.loop body n x) ys Q E from
    H n x xs rfl hI hn
  intro n
  induction n with
  | zero => intro x ys _ _ h; exact absurd h (Nat.not_lt_zero _)
  | succ n ih =>
    intro x ys hl hx hlt
    refine bind (hb x ys hl hx) ?_
    intro o zs hl' ho
    cases o with
    | inl x' => exact ih x' zs (hl'.trans hl) ho.1 (by have := ho.2; omega)
    | inr y => exact pure ho

/-- Extract length information. -/
theorem of_length {p : Prog α ι ω β} {Q : β → List α → Prop} {E : Panic → List α → Prop}
    (h : xs.length = rg.length → Tri R rg p xs Q E) : Tri R rg p xs Q E := by
  intro m lg nd hm
  exact h (by rw [← hm]; simp) m lg nd hm

theorem of_nodup {p : Prog α ι ω β} {Q : β → List α → Prop} {E : Panic → List α → Prop}
    (h : rg.Nodup → Tri R rg p xs Q E) : Tri R rg p xs Q E := by
  intro m lg nd hm
  exact h nd m lg nd hm

/-- Reading the cell with position `j` in the region. -/
theorem get_cell {j : Nat} {a : Addr} {k : α → Prog α ι ω β} {Q : β → List α → Prop} {E : Panic → List α → Prop}
    (hj : rg[j]? = some a) (h : ∀ x, xs[j]? = some x → Tri R rg (k x) xs Q E) :
    Tri R rg (.get a k) xs Q E := by
  intro m lg nd hm
  refine ⟨List.mem_of_getElem? hj, ?_⟩
  refine h (m a) ?_ m lg nd hm
  rw [← hm, List.getElem?_map, hj]; rfl

theorem map_upd {m : Mem α} {j : Nat} {a : Addr} {x : α} (nd : rg.Nodup) (hj : rg[j]? = some a) :
    rg.map (upd m a x) = (rg.map m).set j x := by
  apply List.ext_getElem?
  intro i
  rw [List.getElem?_map, List.getElem?_set, List.getElem?_map]
  by_cases hij : j = i
  · subst hij
    have hlt : j < rg.length := by
      rcases Nat.lt_or_ge j rg.length with h | h
      · exact h
      · rw [List.getElem?_eq_none h] at hj; cases hj
    rw [hj]
    simp [upd, hlt]
  · simp only [hij, if_false]
    cases hi : rg[i]? with
    | none => rfl
    | some b =>
      have : b ≠ a := by
        rintro rfl
        obtain ⟨hj1, hj2⟩ := List.getElem?_eq_some_iff.mp hj
        exact hij ((List.getElem?_inj hj1 nd).mp (hj.trans hi.symm))
      simp [upd, this]

/-- Writing the cell with position `j` in the region. -/
theorem set_cell {j : Nat} {a : Addr} {x : α} {k : Prog α ι ω β} {Q : β → List α → Prop} {E : Panic → List α → Prop}
    (hj : rg[j]? = some a) (h : Tri R rg k (xs.set j x) Q E) :
    Tri R rg (.set a x k) xs Q E := by
  intro m lg nd hm
  refine ⟨List.mem_of_getElem? hj, ?_⟩
  exact h (upd m a x) lg nd (by rw [map_upd nd hj, hm])

/-- Work on a part of the region. -/
theorem part {l mid r : List Addr} {p : Prog α ι ω β} {A B ys : List α} {Q : β → List α → Prop} {E : Panic → List α → Prop}
    (h : Tri R mid p ys Q E) (hA : A.length = l.length) (hy : ys.length = mid.length) :
    Tri R (l ++ mid ++ r) p (A ++ ys ++ B) (fun b zs => ∃ ys', ys'.length = ys.length ∧ zs = A ++ ys' ++ B ∧ Q b ys')
      (fun e zs => ∃ ys', ys'.length = ys.length ∧ zs = A ++ ys' ++ B ∧ E e ys') := by
  intro m lg nd hm
  simp only [List.map_append] at hm
  obtain ⟨hm1, hm2⟩ := List.append_inj hm (by simp [hA, hy])
  obtain ⟨hm3, hm4⟩ := List.append_inj hm1 (by simp [hA])
  have nd' : mid.Nodup := by
    rw [List.nodup_append, List.nodup_append] at nd
    exact nd.1.2.1
  have hdl : ∀ a ∈ l, a ∉ mid := by
    rw [List.nodup_append, List.nodup_append] at nd
    exact fun a ha hb => nd.1.2.2 a ha a hb rfl
  have hdr : ∀ a ∈ r, a ∉ mid := by
    rw [List.nodup_append, List.nodup_append] at nd
    exact fun a ha hb => nd.2.2 a (by simp [hb]) a ha rfl
  have key : ∀ m' : Mem α, (∀ a, a ∉ mid → m' a = m a) → (l ++ mid ++ r).map m' = A ++ mid.map m' ++ B := by
    intro m' h
    rw [List.map_append, List.map_append, ← hm2, ← hm3]
    congr 1
    · congr 1
      exact List.map_congr_left fun a ha => h a (hdl a ha)
    · exact List.map_congr_left fun a ha => h a (hdr a ha)
  refine wp_mono (wp_unchanged (h m lg nd' hm4)) (fun a ha => by simp [ha]) ?_ ?_
  · rintro b m' _ ⟨hq, hu⟩
    exact ⟨mid.map m', by simp [hy], key m' hu, hq⟩
  · rintro b m' _ ⟨hq, hu⟩
    exact ⟨mid.map m', by simp [hy], key m' hu, hq⟩

/-- Work on some cells `sub` of the region in any order; the other cells `rest` keep their contents. -/
theorem frame {sub rest : List Addr} {p : Prog α ι ω β} {ys zs : List α} {arr : List α → List α}
    {Q : β → List α → Prop} {E : Panic → List α → Prop} (hperm : rg.Perm (sub ++ rest))
    (hin : ∀ m : Mem α, rg.map m = xs → sub.map m = ys ∧ rest.map m = zs)
    (hout : ∀ m : Mem α, rest.map m = zs → rg.map m = arr (sub.map m))
    (h : Tri R sub p ys Q E) :
    Tri R rg p xs (fun b ws => ∃ us, us.length = ys.length ∧ ws = arr us ∧ Q b us)
      (fun e ws => ∃ us, us.length = ys.length ∧ ws = arr us ∧ E e us) := by
  intro m lg nd hm
  obtain ⟨h1, h2⟩ := hin m hm
  have nd' := hperm.nodup nd
  rw [List.nodup_append] at nd'
  have key : ∀ m' : Mem α, (∀ a, a ∉ sub → m' a = m a) → rg.map m' = arr (sub.map m') := by
    intro m' hu
    apply hout
    rw [← h2]
    exact List.map_congr_left fun a ha => hu a fun hs => nd'.2.2 a hs a ha rfl
  refine wp_mono (wp_unchanged (h m lg nd'.1 h1)) (fun a ha => hperm.mem_iff.mpr (by simp [ha])) ?_ ?_
  · rintro b m' _ ⟨hq, hu⟩
    exact ⟨sub.map m', by rw [← h1]; simp, key m' hu, hq⟩
  · rintro b m' _ ⟨hq, hu⟩
    exact ⟨sub.map m', by rw [← h1]; simp, key m' hu, hq⟩

/-- Work on the outer two of three parts of the region. -/
theorem outer {l mid r : List Addr} {p : Prog α ι ω β} {A M B : List α} {Q : β → List α → Prop} {E : Panic → List α → Prop}
    (h : Tri R (l ++ r) p (A ++ B) Q E) (hA : A.length = l.length) (hM : M.length = mid.length) :
    Tri R (l ++ mid ++ r) p (A ++ M ++ B)
      (fun b zs => ∃ A' B', A'.length = A.length ∧ zs = A' ++ M ++ B' ∧ Q b (A' ++ B'))
      (fun e zs => ∃ A' B', A'.length = A.length ∧ zs = A' ++ M ++ B' ∧ E e (A' ++ B')) := by
  refine mono (frame (sub := l ++ r) (rest := mid) (ys := A ++ B) (zs := M)
    (arr := fun us => us.take A.length ++ M ++ us.drop A.length) ?_ ?_ ?_ h) ?_ ?_
  · rw [List.append_assoc, List.append_assoc]
    exact (List.perm_append_comm (l₁ := mid) (l₂ := r)).append_left l
  · intro m hm
    simp only [List.map_append] at hm ⊢
    obtain ⟨h1, h2⟩ := List.append_inj hm (by simp [hA, hM])
    obtain ⟨h3, h4⟩ := List.append_inj h1 (by simp [hA])
    rw [h3, h2]; exact ⟨rfl, h4⟩
  · intro m hm
    simp only [List.map_append]
    rw [List.take_left' (by simp [hA]), List.drop_left' (by simp [hA]), hm]
  · rintro b ws _ ⟨us, h1, rfl, h2⟩
    refine ⟨us.take A.length, us.drop A.length, ?_, rfl, by rwa [List.take_append_drop]⟩
    simp at h1 ⊢; omega
  · rintro b ws _ ⟨us, h1, rfl, h2⟩
    refine ⟨us.take A.length, us.drop A.length, ?_, rfl, by rwa [List.take_append_drop]⟩
    simp at h1 ⊢; omega

/-- Run two programs on separate parts of the region, in parallel. -/
theorem join {δ : Type} {rg1 rg2 : List Addr} {p : Prog α ι ω β} {q : Prog α ι ω γ} {k : Res β → Res γ → Prog α ι ω δ}
    {A B : List α} {Q1 : β → List α → Prop} {E1 : Panic → List α → Prop} {Q2 : γ → List α → Prop}
    {E2 : Panic → List α → Prop} {Q : δ → List α → Prop} {E : Panic → List α → Prop}
    (hA : A.length = rg1.length)
    (hp : Tri R rg1 p A Q1 E1) (hq : Tri R rg2 q B Q2 E2)
    (hk : ∀ r t A' B', A'.length = A.length → B'.length = B.length →
      (match r with | .ok b => Q1 b A' | .panic e => E1 e A') →
      (match t with | .ok b => Q2 b B' | .panic e => E2 e B') → Tri R (rg1 ++ rg2) (k r t) (A' ++ B') Q E) :
    Tri R (rg1 ++ rg2) (.join p q k) (A ++ B) Q E := by
  intro m lg nd hm
  have nd0 := nd
  rw [List.map_append] at hm
  obtain ⟨hm1, hm2⟩ := List.append_inj hm (by simp [hA])
  rw [List.nodup_append] at nd
  refine ⟨(· ∈ rg1), (· ∈ rg2), fun a h => by simp [h], fun a h => by simp [h], fun a h1 h2 => nd.2.2 a h1 a h2 rfl,
    fun r m' _ => match r with | .ok b => Q1 b (rg1.map m') | .panic e => E1 e (rg1.map m'),
    fun r m' _ => match r with | .ok b => Q2 b (rg2.map m') | .panic e => E2 e (rg2.map m'),
    hp m [] nd.1 hm1, hq m [] nd.2.1 hm2, ?_⟩
  intro r t m1 m2 l1 l2 h1 h2 m' d e1 e2 _ _
  have f1 : rg1.map m' = rg1.map m1 := List.map_congr_left fun a ha => e1 a ha
  have f2 : rg2.map m' = rg2.map m2 := List.map_congr_left fun a ha => e2 a ha
  refine hk r t (rg1.map m1) (rg2.map m2) (by simp [hA]) (by rw [← hm2]; simp) ?_ ?_ m' _ nd0 (by rw [List.map_append, f1, f2])
  · exact h1
  · exact h2

/-- `rayon::join` on separate parts of the region. -/
theorem rayonJoin {rg1 rg2 : List Addr} {p : Prog α ι ω β} {q : Prog α ι ω γ}
    {A B : List α} {Q1 : β → List α → Prop} {E1 : Panic → List α → Prop} {Q2 : γ → List α → Prop}
    {E2 : Panic → List α → Prop} {Q : β × γ → List α → Prop} {E : Panic → List α → Prop}
    (hA : A.length = rg1.length)
    (hp : Tri R rg1 p A Q1 E1) (hq : Tri R rg2 q B Q2 E2)
    (h1 : ∀ b c A' B', A'.length = A.length → B'.length = B.length → Q1 b A' → Q2 c B' → Q (b, c) (A' ++ B'))
    (h2 : ∀ e c A' B', A'.length = A.length → B'.length = B.length → E1 e A' → Q2 c B' → E e (A' ++ B'))
    (h3 : ∀ b e A' B', A'.length = A.length → B'.length = B.length → Q1 b A' → E2 e B' → E e (A' ++ B'))
    (h4 : ∀ e e' A' B', A'.length = A.length → B'.length = B.length → E1 e A' → E2 e' B' → E e (A' ++ B')) :
    Tri R (rg1 ++ rg2) (Prog.rayonJoin p q) (A ++ B) Q E := by
  refine join hA hp hq ?_
  intro r t A' B' hA' hB' hr ht
  cases r with
  | ok b =>
    cases t with
    | ok c => exact pure (h1 b c A' B' hA' hB' hr ht)
    | panic e => exact throw (h3 b e A' B' hA' hB' hr ht)
  | panic e =>
    cases t with
    | ok c => exact throw (h2 e c A' B' hA' hB' hr ht)
    | panic e' => exact throw (h4 e e' A' B' hA' hB' hr ht)

end Tri

/-! ### Views -/

namespace View

/-- The addresses of a view, in order. -/
def region (v : View) : List Addr := (List.range v.len).map v.addr

/-- Distinct positions are distinct cells: required of a mutable view. -/
def WF (v : View) : Prop := v.stride ≠ 0 ∨ v.len ≤ 1

/-- The contents of a view. -/
def contents (v : View) (m : Mem α) : List α := v.region.map m

theorem contents_length (v : View) (m : Mem α) : (v.contents m).length = v.len := by simp [contents, region]

@[simp] theorem region_length (v : View) : v.region.length = v.len := by simp [region]

theorem region_get (v : View) {i : Nat} (h : i < v.len) : v.region[i]? = some (v.addr i) := by
  simp [region, h]

theorem region_nodup {v : View} (h : v.WF) : v.region.Nodup := by
  unfold region
  refine List.Nodup.map_on ?_ List.nodup_range
  intro i hi j hj he
  simp only [List.mem_range] at hi hj
  unfold addr at he
  rcases h with h | h
  · have : v.stride * i = v.stride * j := Int.add_left_cancel he
    have := Int.eq_of_mul_eq_mul_left h this
    omega
  · omega

theorem sub_addr (v : View) (a n i : Nat) : (v.sub a n).addr i = v.addr (a + i) := by
  simp only [sub, addr]
  push_cast
  rw [Int.mul_add, Int.add_assoc]

theorem region_split (v : View) {a n : Nat} (h : a + n ≤ v.len) :
    v.region = (v.sub 0 a).region ++ (v.sub a n).region ++ (v.sub (a + n) (v.len - (a + n))).region := by
  apply List.ext_getElem?
  intro i
  by_cases hi : i < v.len
  · rw [region_get v hi]
    rcases Nat.lt_or_ge i a with h1 | h1
    · rw [List.append_assoc, List.getElem?_append_left (by simpa [sub]), region_get _ (by simpa [sub]), sub_addr]
      simp
    · rcases Nat.lt_or_ge i (a + n) with h2 | h2
      · rw [List.getElem?_append_left (by simp [sub]; omega), List.getElem?_append_right (by simpa [sub]),
          region_get _ (by simp [sub]; omega), sub_addr]
        simp [sub]; congr 1; omega
      · rw [List.getElem?_append_right (by simp [sub]; omega),
          region_get _ (by simp [sub]; omega), sub_addr]
        simp [sub]; congr 1; omega
  · rw [List.getElem?_eq_none (by simpa using hi), List.getElem?_eq_none]
    simp [sub]; omega

theorem sub_WF {v : View} (h : v.WF) {a n : Nat} (hn : a + n ≤ v.len) : (v.sub a n).WF := by
  rcases h with h | h
  · exact .inl h
  · exact .inr (by simp only [sub]; omega)

@[simp] theorem sub_len (v : View) (a n : Nat) : (v.sub a n).len = n := rfl

theorem sub_sub (v : View) (a n b k : Nat) : (v.sub a n).sub b k = v.sub (a + b) k := by
  have : (v.sub a n).addr b = v.addr (a + b) := sub_addr v a n b
  simp only [sub] at *
  simp [this]

theorem sub_self (v : View) : v.sub 0 v.len = v := by
  simp [sub, addr]

/-- `v` occupies the positions from `j` on in the region. -/
def At (rg : List Addr) (v : View) (j : Nat) : Prop := ∀ i, i < v.len → rg[j + i]? = some (v.addr i)

theorem at_self (v : View) : At v.region v 0 := fun i hi => by rw [Nat.zero_add]; exact region_get v hi

theorem at_left {v : View} (b : List Addr) : At (v.region ++ b) v 0 := fun i hi => by
  rw [Nat.zero_add, List.getElem?_append_left (by simpa using hi)]; exact region_get v hi

theorem at_right {v : View} (b : List Addr) : At (b ++ v.region) v b.length := fun i hi => by
  rw [List.getElem?_append_right (by omega), Nat.add_sub_cancel_left]; exact region_get v hi

theorem At.sub {rg : List Addr} {v : View} {j : Nat} (h : At rg v j) {a n : Nat} (hn : a + n ≤ v.len) :
    At rg (v.sub a n) (j + a) := fun i hi => by
  have := h (a + i) (by simp only [sub_len] at hi; omega)
  rw [sub_addr, Nat.add_assoc]; exact this

end View

namespace Tri

open View

variable {v : View} {Q : β → List α → Prop} {E : Panic → List α → Prop}

theorem vget' {i j : Nat} {k : α → Prog α ι ω β} (hv : At rg v j) (hi : i < v.len)
    (h : ∀ x, xs[j + i]? = some x → Tri R rg (k x) xs Q E) : Tri R rg (v.get i >>= k) xs Q E := by
  unfold View.get
  rw [if_pos hi]
  exact get_cell (hv i hi) h

theorem vidx' {i j : Nat} {k : α → Prog α ι ω β} (hv : At rg v j) (hi : i < v.len)
    (h : ∀ x, xs[j + i]? = some x → Tri R rg (k x) xs Q E) : Tri R rg (v.idx i >>= k) xs Q E := by
  unfold View.idx
  rw [if_pos hi]
  exact get_cell (hv i hi) h

theorem vref {i : Nat} {k : Addr → Prog α ι ω β} (hi : i < v.len)
    (h : Tri R rg (k (v.addr i)) xs Q E) : Tri R rg (v.ref i >>= k) xs Q E := by
  unfold View.ref
  rw [if_pos hi]
  exact h

theorem deref {j : Nat} {a : Addr} {k : α → Prog α ι ω β}
    (hj : rg[j]? = some a) (h : ∀ x, xs[j]? = some x → Tri R rg (k x) xs Q E) :
    Tri R rg (NdSlice.deref a >>= k) xs Q E := get_cell hj h

theorem vset' {i j : Nat} {x : α} {k : Unit → Prog α ι ω β} (hv : At rg v j) (hi : i < v.len)
    (h : Tri R rg (k ()) (xs.set (j + i) x) Q E) : Tri R rg (v.set i x >>= k) xs Q E := by
  unfold View.set
  rw [if_pos hi]
  exact set_cell (hv i hi) h

theorem vsetU' {i j : Nat} {x : α} {Q : Unit → List α → Prop} (hv : At rg v j) (hi : i < v.len)
    (h : Q () (xs.set (j + i) x)) : Tri R rg (v.set i x) xs Q E := by
  unfold View.set
  rw [if_pos hi]
  exact set_cell (hv i hi) (Tri.pure h)

theorem vcset' {i j : Nat} {x : α} {k : Unit → Prog α ι ω β} (hv : At rg v j) (hi : i < v.len)
    (h : Tri R rg (k ()) (xs.set (j + i) x) Q E) : Tri R rg (v.cset i x >>= k) xs Q E := by
  unfold View.cset
  rw [if_pos hi]
  exact set_cell (hv i hi) h

theorem vcsetU' {i j : Nat} {x : α} {Q : Unit → List α → Prop} (hv : At rg v j) (hi : i < v.len)
    (h : Q () (xs.set (j + i) x)) : Tri R rg (v.cset i x) xs Q E := by
  unfold View.cset
  rw [if_pos hi]
  exact set_cell (hv i hi) (Tri.pure h)

theorem vget {i : Nat} {k : α → Prog α ι ω β} (hi : i < v.len)
    (h : ∀ x, xs[i]? = some x → Tri R v.region (k x) xs Q E) : Tri R v.region (v.get i >>= k) xs Q E :=
  vget' (at_self v) hi (by simpa using h)

theorem vidx {i : Nat} {k : α → Prog α ι ω β} (hi : i < v.len)
    (h : ∀ x, xs[i]? = some x → Tri R v.region (k x) xs Q E) : Tri R v.region (v.idx i >>= k) xs Q E :=
  vidx' (at_self v) hi (by simpa using h)

theorem vset {i : Nat} {x : α} {k : Unit → Prog α ι ω β} (hi : i < v.len)
    (h : Tri R v.region (k ()) (xs.set i x) Q E) : Tri R v.region (v.set i x >>= k) xs Q E :=
  vset' (at_self v) hi (by simpa using h)

theorem vsetU {i : Nat} {x : α} {Q : Unit → List α → Prop} (hi : i < v.len)
    (h : Q () (xs.set i x)) : Tri R v.region (v.set i x) xs Q E :=
  vsetU' (at_self v) hi (by simpa using h)

theorem vswap' {i i' j : Nat} {k : Unit → Prog α ι ω β} (hv : At rg v j) (hi : i < v.len) (hi' : i' < v.len)
    (h : ∀ x y, xs[j + i]? = some x → xs[j + i']? = some y →
      Tri R rg (k ()) ((xs.set (j + i) y).set (j + i') x) Q E) : Tri R rg (v.swap i i' >>= k) xs Q E := by
  refine bind (Q' := fun _ ys => ∃ x y, xs[j + i]? = some x ∧ xs[j + i']? = some y ∧ ys = (xs.set (j + i) y).set (j + i') x) ?_ ?_
  · refine vidx' hv hi fun x hx => vidx' hv hi' fun y hy => vset' hv hi ?_
    exact vsetU' hv hi' ⟨x, y, hx, hy, rfl⟩
  · rintro _ ys _ ⟨x, y, hx, hy, rfl⟩
    exact h x y hx hy

theorem vuswap' {i i' j : Nat} {k : Unit → Prog α ι ω β} (hv : At rg v j) (hi : i < v.len) (hi' : i' < v.len)
    (h : ∀ x y, xs[j + i]? = some x → xs[j + i']? = some y →
      Tri R rg (k ()) ((xs.set (j + i) y).set (j + i') x) Q E) : Tri R rg (v.uswap i i' >>= k) xs Q E := by
  refine bind (Q' := fun _ ys => ∃ x y, xs[j + i]? = some x ∧ xs[j + i']? = some y ∧ ys = (xs.set (j + i) y).set (j + i') x) ?_ ?_
  · refine vget' hv hi fun x hx => vget' hv hi' fun y hy => vset' hv hi ?_
    exact vsetU' hv hi' ⟨x, y, hx, hy, rfl⟩
  · rintro _ ys _ ⟨x, y, hx, hy, rfl⟩
    exact h x y hx hy

theorem slice {a b : Nat} {k : View → Prog α ι ω β} (hab : a ≤ b) (hb : b ≤ v.len)
    (h : Tri R rg (k (v.sub a (b - a))) xs Q E) : Tri R rg (v.slice a b >>= k) xs Q E := by
  unfold View.slice
  simp only [show ¬ b < a by omega, if_false, show a ≤ v.len ∧ b ≤ v.len from ⟨by omega, hb⟩, and_self, if_true]
  exact h

theorem splitAt {a : Nat} {k : View × View → Prog α ι ω β} (ha : a ≤ v.len)
    (h : Tri R rg (k (v.sub 0 a, v.sub a (v.len - a))) xs Q E) : Tri R rg (v.splitAt a >>= k) xs Q E := by
  unfold View.splitAt
  simp only [ha, if_true]
  exact h

theorem debugAssert {cfg : Cfg} {c : Bool} {k : Unit → Prog α ι ω β} (hc : c = true)
    (h : Tri R rg (k ()) xs Q E) : Tri R rg (debugAssert cfg c >>= k) xs Q E := by
  subst hc
  unfold NdSlice.debugAssert
  simp only [Bool.not_true, Bool.and_false]
  exact h

theorem usub {cfg : Cfg} {a b : Nat} {k : Nat → Prog α ι ω β} (hab : b ≤ a)
    (h : Tri R rg (k (a - b)) xs Q E) : Tri R rg (usub cfg a b >>= k) xs Q E := by
  unfold NdSlice.usub
  simp only [hab, if_true]
  exact h

theorem usubR {cfg : Cfg} {a b : Nat} {Q : Nat → List α → Prop} (hab : b ≤ a) (h : Q (a - b) xs) :
    Tri R rg (NdSlice.usub cfg a b) xs Q E := by
  unfold NdSlice.usub
  simp only [hab, if_true]
  exact Tri.pure h

/-- Work on a sub-view. -/
theorem sub {a n : Nat} {p : Prog α ι ω β} (ha : a + n ≤ v.len) (hx : xs.length = v.len)
    (h : Tri R (v.sub a n).region p ((xs.drop a).take n) Q E) :
    Tri R v.region p xs
      (fun b zs => ∃ ys, ys.length = n ∧ zs = xs.take a ++ ys ++ xs.drop (a + n) ∧ Q b ys)
      (fun e zs => ∃ ys, ys.length = n ∧ zs = xs.take a ++ ys ++ xs.drop (a + n) ∧ E e ys) := by
  have hl : ((xs.drop a).take n).length = n := by simp; omega
  have hx' : xs = xs.take a ++ (xs.drop a).take n ++ xs.drop (a + n) := by
    rw [List.append_assoc, ← List.drop_drop, List.take_append_drop, List.take_append_drop]
  rw [region_split v ha]
  have := part (r := (v.sub (a + n) (v.len - (a + n))).region) (l := (v.sub 0 a).region) (A := xs.take a) (B := xs.drop (a + n)) h
    (by simp; omega) (by simpa using hl)
  rw [← hx', hl] at this
  exact this

end Tri

/-! ### Comparators -/

/-- A comparison as the algorithms see it: a program for "is `x` less than `y`", what it may answer,
and whether it may panic.  `ok` says that the program really is like that; it never touches memory. -/
structure Cmp (α ι ω : Type) where
  R : ι → Option ω → Prop
  less : α → α → Prog α ι ω Bool
  ans : α → α → Bool → Prop
  pan : Prop
  ok : ∀ x y (m : Mem α) lg, wp R (less x y) (fun _ => False) (fun b m' _ => m' = m ∧ ans x y b)
    (fun e m' _ => e = .user ∧ pan ∧ m' = m) m lg

namespace Tri

theorem less (C : Cmp α ι ω) {x y : α} {Q : Bool → List α → Prop} {E : Panic → List α → Prop}
    (h : ∀ b, C.ans x y b → Q b xs) (hp : C.pan → E .user xs) : Tri C.R rg (C.less x y) xs Q E := by
  intro m lg _ hm
  refine wp_mono (C.ok x y m lg) (fun _ h => h.elim) ?_ ?_
  · rintro b m' _ ⟨rfl, hb⟩
    rw [hm]; exact h b hb
  · rintro e m' _ ⟨rfl, hb, rfl⟩
    rw [hm]; exact hp hb

theorem lessB (C : Cmp α ι ω) {x y : α} {k : Bool → Prog α ι ω β} {Q : β → List α → Prop} {E : Panic → List α → Prop}
    (h : ∀ b, C.ans x y b → Tri C.R rg (k b) xs Q E) (hp : C.pan → E .user xs) :
    Tri C.R rg (C.less x y >>= k) xs Q E :=
  bind (less C (Q := fun b ys => ys = xs ∧ C.ans x y b) (fun b hb => ⟨rfl, hb⟩) hp)
    (fun b ys _ hb => by rw [hb.1]; exact h b hb.2)

end Tri

end NdSlice
