import Verif.Core.Tri
import Verif.Core.Scratch

/-
Programs that differ in undefined behaviour only: what is shown about the one with more of it holds for the other.
-/

namespace NdSlice

variable {α ι ω σ : Type}

namespace Prog

/-- `q` is `p` except that it may do anything where `p` has undefined behaviour. -/
inductive Below : {β : Type} → Prog α ι ω β → Prog α ι ω β → Prop where
  | ub {β : Type} (q : Prog α ι ω β) : Below .ub q
  | ret {β : Type} (b : β) : Below (.ret b) (.ret b)
  | get {β : Type} (a : Addr) {k k' : α → Prog α ι ω β} (h : ∀ x, Below (k x) (k' x)) : Below (.get a k) (.get a k')
  | set {β : Type} (a : Addr) (x : α) {k k' : Prog α ι ω β} (h : Below k k') : Below (.set a x k) (.set a x k')
  | call {β : Type} (q : ι) {k k' : Option ω → Prog α ι ω β} (h : ∀ r, Below (k r) (k' r)) : Below (.call q k) (.call q k')
  | choose {β : Type} {k k' : Bool → Prog α ι ω β} (h : ∀ b, Below (k b) (k' b)) : Below (.choose k) (.choose k')
  | throw {β : Type} (e : Panic) : Below (.throw (β := β) e) (.throw e)
  | diverge {β : Type} : Below (.diverge (β := β)) .diverge
  | join {β γ δ : Type} {p p' : Prog α ι ω β} {q q' : Prog α ι ω γ} {k k' : Res β → Res γ → Prog α ι ω δ}
      (hp : Below p p') (hq : Below q q') (h : ∀ r t, Below (k r t) (k' r t)) : Below (.join p q k) (.join p' q' k')

namespace Below

variable {β γ : Type}

theorem refl (p : Prog α ι ω β) : Below p p := by
  induction p with
  | ret b => exact .ret b
  | get a k ih => exact .get a ih
  | set a x k ih => exact .set a x ih
  | call q k ih => exact .call q ih
  | choose k ih => exact .choose ih
  | throw e => exact .throw e
  | ub => exact .ub _
  | diverge => exact .diverge
  | join p q k ihp ihq ihk => exact .join ihp ihq ihk

theorem bind' {p p' : Prog α ι ω β} {f f' : β → Prog α ι ω γ} (h : Below p p') (hf : ∀ b, Below (f b) (f' b)) : Below (p.bind f) (p'.bind f') := by
  induction h with
  | ub q => exact .ub _
  | ret b => exact hf b
  | get a h ih => exact .get a fun x => ih x hf
  | set a x h ih => exact .set a x (ih hf)
  | call q h ih => exact .call q fun r => ih r hf
  | choose h ih => exact .choose fun b => ih b hf
  | throw e => exact .throw e
  | diverge => exact .diverge
  | join hp hq h ihp ihq ih => exact .join hp hq fun r t => ih r t hf

theorem bind {p p' : Prog α ι ω β} {f f' : β → Prog α ι ω γ} (h : Below p p') (hf : ∀ b, Below (f b) (f' b)) : Below (p >>= f) (p' >>= f') :=
  bind' h hf

theorem onPanic {p p' : Prog α ι ω β} {g g' : Prog α ι ω Unit} (h : Below p p') (hg : Below g g') : Below (p.onPanic g) (p'.onPanic g') := by
  induction h with
  | ub q => exact .ub _
  | ret b => exact .ret b
  | get a h ih => exact .get a ih
  | set a x h ih => exact .set a x ih
  | call q h ih => exact .call q ih
  | choose h ih => exact .choose ih
  | throw e => exact bind' hg fun _ => .throw e
  | diverge => exact .diverge
  | join hp hq h ihp ihq ih => exact .join hp hq ih

theorem ite {c : Prop} [Decidable c] {p p' q q' : Prog α ι ω β} (hp : Below p p') (hq : Below q q') : Below (if c then p else q) (if c then p' else q') := by
  split
  · exact hp
  · exact hq

theorem loop {s r : Type} {body body' : s → Prog α ι ω (s ⊕ r)} (h : ∀ x, Below (body x) (body' x)) {n : Nat} {x : s} :
    Below (Prog.loop body n x) (Prog.loop body' n x) := by
  induction n generalizing x with
  | zero => exact .diverge
  | succ n ih =>
    refine bind (h x) ?_
    rintro (x | y)
    · exact ih
    · exact .ret y

theorem forUp {body body' : Nat → Prog α ι ω Unit} (h : ∀ i, Below (body i) (body' i)) {a n : Nat} :
    Below (Prog.forUp body a n) (Prog.forUp body' a n) := by
  induction n generalizing a with
  | zero => exact .ret ()
  | succ n ih => exact bind (h a) fun _ => ih

/-- The same accesses to a longer view. -/
theorem vget {v w : View} (h : v.off = w.off ∧ v.stride = w.stride ∧ v.len ≤ w.len) {i : Nat} :
    Below (v.get i : Prog α ι ω α) (w.get i) := by
  obtain ⟨h1, h2, h3⟩ := h
  unfold View.get View.addr
  split
  · rw [if_pos (by omega), h1, h2]
    exact refl _
  · exact .ub _

theorem vset {v w : View} (h : v.off = w.off ∧ v.stride = w.stride ∧ v.len ≤ w.len) {i : Nat} {x : α} :
    Below (v.set i x : Prog α ι ω Unit) (w.set i x) := by
  obtain ⟨h1, h2, h3⟩ := h
  unfold View.set View.addr
  split
  · rw [if_pos (by omega), h1, h2]
    exact refl _
  · exact .ub _

/-- What holds for the program with more undefined behaviour holds for the other. -/
theorem wp {R : ι → Option ω → Prop} {p q : Prog α ι ω β} (h : Below p q) {F : Addr → Prop}
    {Q : β → Mem α → List (ι × Option ω) → Prop} {E : Panic → Mem α → List (ι × Option ω) → Prop} {m : Mem α} {lg : List (ι × Option ω)}
    (hw : NdSlice.wp R p F Q E m lg) : NdSlice.wp R q F Q E m lg := by
  induction h generalizing F E m lg with
  | ub q => exact hw.elim
  | ret b => exact hw
  | get a h ih => exact ⟨hw.1, ih _ hw.2⟩
  | set a x h ih => exact ⟨hw.1, ih hw.2⟩
  | call q h ih => exact fun r hr => ih r (hw r hr)
  | choose h ih => exact fun b => ih b (hw b)
  | throw e => exact hw
  | diverge => exact hw
  | join hp hq h ihp ihq ih =>
    obtain ⟨F1, F2, h1, h2, h3, P1, P2, w1, w2, w3⟩ := hw
    exact ⟨F1, F2, h1, h2, h3, P1, P2, ihp w1, ihq w2, fun r t m1 m2 l1 l2 a b m' d c1 c2 c3 c4 => ih r t (w3 r t m1 m2 l1 l2 a b m' d c1 c2 c3 c4)⟩

theorem tri {R : ι → Option ω → Prop} {p q : Prog α ι ω β} (h : Below p q) {rg : List Addr} {xs : List α} {Q : β → List α → Prop}
    {E : Panic → List α → Prop} (ht : Tri R rg p xs Q E) : Tri R rg q xs Q E := fun m lg hn hm => h.wp (ht m lg hn hm)

theorem triS {R : ι → Option ω → Prop} {p q : Prog α ι ω β} (h : Below p q) {rg sc : List Addr} {xs : List α} {Q : β → List α → Prop}
    {E : Panic → List α → Prop} (ht : TriS R rg sc p xs Q E) : TriS R rg sc q xs Q E := fun bs hb => h.tri (ht bs hb)

/-- A run without undefined behaviour is also one of the other program. -/
theorem run {o : Oracle σ ι ω} {p q : Prog α ι ω β} (h : Below p q) {s : St α ι ω σ} (hu : (NdSlice.run o p s).1 ≠ .ub) :
    NdSlice.run o q s = NdSlice.run o p s := by
  induction h generalizing s with
  | ub q => exact absurd rfl hu
  | ret b => rfl
  | get a h ih => exact ih _ hu
  | set a x h ih => exact ih hu
  | call q h ih => exact ih _ hu
  | choose h ih => exact ih _ hu
  | throw e => rfl
  | diverge => rfl
  | @join β γ δ p p' q q' k k' hp hq h ihp ihq ih =>
    unfold NdSlice.run at hu ⊢
    have e1 : NdSlice.run o p' s = NdSlice.run o p s := ihp (fun hc => by
      generalize NdSlice.run o p s = r at hu hc
      obtain ⟨r, s1⟩ := r
      subst hc
      exact hu rfl)
    rw [e1]
    generalize NdSlice.run o p s = r at hu
    obtain ⟨r, s1⟩ := r
    have e2 : ∀ {_ : (match NdSlice.run o q s1 with | (.ub, _) => False | _ => True)}, NdSlice.run o q' s1 = NdSlice.run o q s1 := by
      intro hc
      refine ihq fun hd => ?_
      generalize NdSlice.run o q s1 = r at hc hd
      obtain ⟨r, s1⟩ := r
      subst hd
      exact hc
    cases r with
    | ub => rfl
    | diverge => rfl
    | ok b =>
      dsimp only at hu ⊢
      have e := @e2 (by
        generalize NdSlice.run o q s1 = r at hu
        obtain ⟨r, s2⟩ := r
        cases r <;> trivial)
      rw [e]
      generalize NdSlice.run o q s1 = r at hu
      obtain ⟨r, s2⟩ := r
      cases r with
      | ub => rfl
      | diverge => rfl
      | ok c => exact ih _ _ hu
      | panic e => exact ih _ _ hu
    | panic e =>
      dsimp only at hu ⊢
      have e := @e2 (by
        generalize NdSlice.run o q s1 = r at hu
        obtain ⟨r, s2⟩ := r
        cases r <;> trivial)
      rw [e]
      generalize NdSlice.run o q s1 = r at hu
      obtain ⟨r, s2⟩ := r
      cases r with
      | ub => rfl
      | diverge => rfl
      | ok c => exact ih _ _ hu
      | panic e => exact ih _ _ hu

end Below
end Prog
end NdSlice
