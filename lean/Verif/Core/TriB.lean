import Verif.Core.Cost
import Verif.Core.Tri

/-
Triples with a budget: `TriB c R rg p xs B Q` says that `p`, started with the cells `rg` holding `xs`, asks at most `c * B`
questions until it ends (by a panic or not), and after a normal end with contents `ys` a budget `r` with `Q b ys r` is left.
-/

namespace NdSlice

variable {α ι ω β γ : Type} {R : ι → Option ω → Prop} {c : Nat}

/-- See the top of this file. -/
def TriB (c : Nat) (R : ι → Option ω → Prop) (rg : List Addr) {β : Type} (p : Prog α ι ω β) (xs : List α) (B : Nat)
    (Q : β → List α → Nat → Prop) : Prop :=
  ∀ m lg, rg.Nodup → rg.map m = xs →
    wp R p (· ∈ rg) (fun b m' lg' => ∃ r, lg'.length + c * r ≤ lg.length + c * B ∧ Q b (rg.map m') r)
      (fun _ _ lg' => lg'.length ≤ lg.length + c * B) m lg

namespace TriB

variable {rg : List Addr} {xs : List α} {B : Nat} {p : Prog α ι ω β} {Q : β → List α → Nat → Prop}

theorem mono {Q' : β → List α → Nat → Prop} (h : TriB c R rg p xs B Q) (hQ : ∀ b ys r, ys.length = xs.length → Q b ys r → Q' b ys r) :
    TriB c R rg p xs B Q' := by
  intro m lg nd hm
  have hl : ∀ m' : Mem α, (rg.map m').length = xs.length := by intro m'; rw [← hm]; simp
  exact wp_mono (h m lg nd hm) (fun _ h => h) (fun b m' _ ⟨r, h1, h2⟩ => ⟨r, h1, hQ b _ r (hl m') h2⟩) (fun _ _ _ h => h)

/-- A bigger budget, the rest of which is left. -/
theorem frame (h : TriB c R rg p xs B Q) (F : Nat) : TriB c R rg p xs (B + F) (fun b ys r => ∃ r', r = r' + F ∧ Q b ys r') := by
  intro m lg nd hm
  refine wp_mono (h m lg nd hm) (fun _ h => h) ?_ ?_
  · rintro b m' lg' ⟨r, h1, h2⟩
    exact ⟨r + F, by rw [Nat.mul_add, Nat.mul_add]; omega, r, rfl, h2⟩
  · intro _ _ lg' h
    rw [Nat.mul_add]
    omega

/-- A bigger budget, the rest of which is wasted. -/
theorem weaken {B' : Nat} (h : TriB c R rg p xs B Q) (hB : B ≤ B') : TriB c R rg p xs B' Q := by
  have hB := Nat.mul_le_mul_left c hB
  intro m lg nd hm
  refine wp_mono (h m lg nd hm) (fun _ h => h) ?_ ?_
  · rintro b m' lg' ⟨r, h1, h2⟩
    exact ⟨r, by omega, h2⟩
  · intro _ _ lg' h
    omega

theorem bind {f : β → Prog α ι ω γ} {Q' : β → List α → Nat → Prop} {Q : γ → List α → Nat → Prop} (h : TriB c R rg p xs B Q')
    (hf : ∀ b ys r, ys.length = xs.length → Q' b ys r → TriB c R rg (f b) ys r Q) : TriB c R rg (p >>= f) xs B Q := by
  intro m lg nd hm
  have hl : ∀ m' : Mem α, (rg.map m').length = xs.length := by intro m'; rw [← hm]; simp
  refine wp_bind (wp_mono (h m lg nd hm) (fun _ h => h) ?_ (fun e m' _ h => h))
  rintro b m' lg' ⟨r, h1, h2⟩
  refine wp_mono (hf b _ r (hl m') h2 m' lg' nd rfl) (fun _ h => h) ?_ ?_
  · rintro d m'' lg'' ⟨r', h3, h4⟩
    exact ⟨r', by omega, h4⟩
  · intro _ _ lg'' h
    omega

/-- Pay `n` for the first part and keep `B'`; what is left over of `n` is wasted. -/
theorem bindN {f : β → Prog α ι ω γ} {n B' : Nat} {Q' : β → List α → Prop} {Q : γ → List α → Nat → Prop}
    (h : TriB c R rg p xs n (fun b ys _ => Q' b ys)) (hB : n + B' ≤ B)
    (hf : ∀ b ys, ys.length = xs.length → Q' b ys → TriB c R rg (f b) ys B' Q) : TriB c R rg (p >>= f) xs B Q :=
  (bind (h.frame B') (by rintro b ys _ hl ⟨r, rfl, h⟩; exact (hf b ys hl h).weaken (by omega))).weaken hB

theorem pure {b : β} (h : Q b xs B) : TriB c R rg (Pure.pure b : Prog α ι ω β) xs B Q := by
  intro m lg nd hm
  subst hm
  exact ⟨B, Nat.le_refl _, h⟩

theorem loop {s r : Type} {body : s → Prog α ι ω (s ⊕ r)} {Inv : s → List α → Nat → Prop}
    {μ : s → Nat} {Q : r → List α → Nat → Prop} {n : Nat} {x : s}
    (hI : Inv x xs B) (hn : μ x < n)
    (hb : ∀ x ys B, ys.length = xs.length → Inv x ys B → TriB c R rg (body x) ys B
      (fun o zs t => match o with
        | .inl x' => Inv x' zs t ∧ μ x' < μ x
        | .inr y => Q y zs t)) :
    TriB c R rg (Prog.loop body n x) xs B Q := by
  suffices H : ∀ n x ys B, ys.length = xs.length → Inv x ys B → μ x < n → TriB c R rg (Prog.loop body n x) ys B Q from
    H n x xs B rfl hI hn
  intro n
  induction n with
  | zero => intro x ys B _ _ h; exact absurd h (Nat.not_lt_zero _)
  | succ n ih =>
    intro x ys B hl hx hlt
    refine bind (hb x ys B hl hx) ?_
    intro o zs t hl' ho
    cases o with
    | inl x' => exact ih x' zs t (hl'.trans hl) ho.1 (by have := ho.2; omega)
    | inr y => exact pure ho

/-- What is known of contents and of the budget separately. -/
theorem of_tri {Q1 : β → List α → Prop} {E : Panic → List α → Prop} {Q2 : β → Nat → Prop} (h1 : Tri R rg p xs Q1 E)
    (h2 : Cost c p B Q2) : TriB c R rg p xs B (fun b ys r => Q1 b ys ∧ Q2 b r) := by
  intro m lg nd hm
  refine wp_mono (wp_spend (h1 m lg nd hm) h2) (fun _ h => h) ?_ ?_
  · rintro b m' lg' ⟨g1, x, ⟨r, g2, g3⟩, g4⟩
    exact ⟨r, by omega, g1, g3⟩
  · rintro e m' lg' ⟨_, g⟩
    exact g

theorem tri {E : Panic → List α → Prop} (h : TriB c R rg p xs B Q) (hE : ∀ e ys, E e ys) : Tri R rg p xs (fun b ys => ∃ r, Q b ys r) E := by
  intro m lg nd hm
  exact wp_mono (h m lg nd hm) (fun _ h => h) (fun _ _ _ ⟨r, _, h⟩ => ⟨r, h⟩) (fun _ _ _ _ => hE _ _)

/-- Work on a part of the region. -/
theorem part {l mid r : List Addr} {A Z ys : List α} (h : TriB c R mid p ys B Q) (hA : A.length = l.length) (hy : ys.length = mid.length) :
    TriB c R (l ++ mid ++ r) p (A ++ ys ++ Z) B (fun b zs t => ∃ ys', ys'.length = ys.length ∧ zs = A ++ ys' ++ Z ∧ Q b ys' t) := by
  intro m lg nd hm
  simp only [List.map_append] at hm
  obtain ⟨hm1, hm2⟩ := List.append_inj hm (by simp [hA, hy])
  obtain ⟨hm3, hm4⟩ := List.append_inj hm1 (by simp [hA])
  have nd' : mid.Nodup := by
    rw [List.nodup_append, List.nodup_append] at nd
    exact nd.1.2.1
  have hdl : ∀ a ∈ l, a ∉ mid := by
    rw [List.nodup_append, List.nodup_append] at nd
    exact fun a ha hb => nd.1.2.2 a ha a hb rfl
  have hdr : ∀ a ∈ r, a ∉ mid := by
    rw [List.nodup_append, List.nodup_append] at nd
    exact fun a ha hb => nd.2.2 a (by simp [hb]) a ha rfl
  have key : ∀ m' : Mem α, (∀ a, a ∉ mid → m' a = m a) → (l ++ mid ++ r).map m' = A ++ mid.map m' ++ Z := by
    intro m' h
    rw [List.map_append, List.map_append, ← hm2, ← hm3]
    congr 1
    · congr 1
      exact List.map_congr_left fun a ha => h a (hdl a ha)
    · exact List.map_congr_left fun a ha => h a (hdr a ha)
  refine wp_mono (wp_unchanged (h m lg nd' hm4)) (fun a ha => by simp [ha]) ?_ ?_
  · rintro b m' _ ⟨⟨t, h1, hq⟩, hu⟩
    exact ⟨t, h1, mid.map m', by simp [hy], key m' hu, hq⟩
  · rintro b m' _ ⟨hq, hu⟩
    exact hq

/-- Work on the outer two of three parts of the region. -/
theorem outer {l mid r : List Addr} {A M Z : List α} (h : TriB c R (l ++ r) p (A ++ Z) B Q) (hA : A.length = l.length)
    (hM : M.length = mid.length) :
    TriB c R (l ++ mid ++ r) p (A ++ M ++ Z) B
      (fun b zs t => ∃ A' Z', A'.length = A.length ∧ zs = A' ++ M ++ Z' ∧ Q b (A' ++ Z') t) := by
  intro m lg nd hm
  simp only [List.map_append] at hm
  obtain ⟨h1, h2⟩ := List.append_inj hm (by simp [hA, hM])
  obtain ⟨h3, h4⟩ := List.append_inj h1 (by simp [hA])
  have hp : (l ++ mid ++ r).Perm ((l ++ r) ++ mid) := by
    rw [List.append_assoc, List.append_assoc]
    exact (List.perm_append_comm (l₁ := mid) (l₂ := r)).append_left l
  have nd' := hp.nodup nd
  rw [List.nodup_append] at nd'
  refine wp_mono (wp_unchanged (h m lg nd'.1 (by rw [List.map_append, h3, h2]))) (fun a ha => hp.mem_iff.mpr (by simp at ha ⊢; tauto)) ?_ ?_
  · rintro b m' _ ⟨⟨t, g1, hq⟩, hu⟩
    refine ⟨t, g1, l.map m', r.map m', by simp [hA], ?_, by rwa [List.map_append] at hq⟩
    rw [List.map_append, List.map_append, ← h4]
    congr 2
    exact List.map_congr_left fun a ha => hu a fun hs => nd'.2.2 a hs a ha rfl
  · rintro b m' _ ⟨hq, hu⟩
    exact hq

variable {v : View}

theorem usub {cfg : Cfg} {a b : Nat} {k : Nat → Prog α ι ω β} (hab : b ≤ a) (h : TriB c R rg (k (a - b)) xs B Q) :
    TriB c R rg (NdSlice.usub cfg a b >>= k) xs B Q := by
  unfold NdSlice.usub
  simp only [hab, if_true]
  exact h

theorem splitAt {a : Nat} {k : View × View → Prog α ι ω β} (ha : a ≤ v.len)
    (h : TriB c R rg (k (v.sub 0 a, v.sub a (v.len - a))) xs B Q) : TriB c R rg (v.splitAt a >>= k) xs B Q := by
  unfold View.splitAt
  simp only [ha, if_true]
  exact h

theorem vref {i : Nat} {k : Addr → Prog α ι ω β} (hi : i < v.len) (h : TriB c R rg (k (v.addr i)) xs B Q) :
    TriB c R rg (v.ref i >>= k) xs B Q := by
  unfold View.ref
  rw [if_pos hi]
  exact h

end TriB

end NdSlice
