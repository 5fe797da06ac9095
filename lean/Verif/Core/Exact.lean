import Verif.Core.Tri
import Verif.Model.Api

/-
Programs in which the environment has no choices: with pure user code the weakest precondition can be strengthened by the exact
result of the sequential run.
-/

namespace NdSlice

variable {α ι ω : Type} {β γ : Type}

namespace Prog

/-- The environment has no choice in `p`. -/
def NoChoose {β : Type} : Prog α ι ω β → Prop
  | .ret _ => True
  | .get _ k => ∀ x, NoChoose (k x)
  | .set _ _ k => NoChoose k
  | .call _ k => ∀ r, NoChoose (k r)
  | .choose _ => False
  | .throw _ => True
  | .ub => True
  | .diverge => True
  | .join p q k => NoChoose p ∧ NoChoose q ∧ ∀ r t, NoChoose (k r t)

namespace NoChoose

theorem pure {b : β} : NoChoose (Pure.pure b : Prog α ι ω β) := trivial
theorem throw {e : Panic} : NoChoose (Prog.throw e : Prog α ι ω β) := trivial
theorem ub : NoChoose (Prog.ub : Prog α ι ω β) := trivial
theorem diverge : NoChoose (Prog.diverge : Prog α ι ω β) := trivial

theorem bind' {p : Prog α ι ω β} {f : β → Prog α ι ω γ} (h : NoChoose p) (hf : ∀ b, NoChoose (f b)) : NoChoose (p.bind f) := by
  induction p with
  | ret b => exact hf b
  | get a k ih => exact fun x => ih x (h x) hf
  | set a x k ih => exact ih h hf
  | call q k ih => exact fun r => ih r (h r) hf
  | choose k ih => exact h.elim
  | throw e => trivial
  | ub => trivial
  | diverge => trivial
  | join p q k ihp ihq ihk => exact ⟨h.1, h.2.1, fun r t => ihk r t (h.2.2 r t) hf⟩

theorem bind {p : Prog α ι ω β} {f : β → Prog α ι ω γ} (h : NoChoose p) (hf : ∀ b, NoChoose (f b)) : NoChoose (p >>= f) :=
  bind' h hf

theorem onPanic {p : Prog α ι ω β} {g : Prog α ι ω Unit} (h : NoChoose p) (hg : NoChoose g) : NoChoose (p.onPanic g) := by
  induction p with
  | ret b => trivial
  | get a k ih => exact fun x => ih x (h x)
  | set a x k ih => exact ih h
  | call q k ih => exact fun r => ih r (h r)
  | choose k ih => exact h.elim
  | throw e => exact bind' hg fun _ => trivial
  | ub => trivial
  | diverge => trivial
  | join p q k ihp ihq ihk => exact ⟨h.1, h.2.1, fun r t => ihk r t (h.2.2 r t)⟩

theorem rayonJoin {p : Prog α ι ω β} {q : Prog α ι ω γ} (h : NoChoose p) (hq : NoChoose q) : NoChoose (p.rayonJoin q) := by
  refine ⟨h, hq, ?_⟩
  rintro (_ | _) (_ | _) <;> trivial

theorem loop {s r : Type} {body : s → Prog α ι ω (s ⊕ r)} (h : ∀ x, NoChoose (body x)) {n : Nat} {x : s} :
    NoChoose (Prog.loop body n x) := by
  induction n generalizing x with
  | zero => trivial
  | succ n ih =>
    refine bind (h x) ?_
    rintro (x | y)
    · exact ih
    · trivial

theorem forUp {body : Nat → Prog α ι ω Unit} (h : ∀ i, NoChoose (body i)) {a n : Nat} : NoChoose (Prog.forUp body a n) := by
  induction n generalizing a with
  | zero => trivial
  | succ n ih => exact bind (h a) fun _ => ih

theorem forDown {body : Nat → Prog α ι ω Unit} (h : ∀ i, NoChoose (body i)) {a n : Nat} : NoChoose (Prog.forDown body a n) := by
  induction n with
  | zero => trivial
  | succ n ih => exact bind (h _) fun _ => ih

variable {v buf : View} {cfg : Cfg} {i j n : Nat} {x : α}

theorem vget : NoChoose (v.get i : Prog α ι ω α) := by unfold View.get; split <;> simp [NoChoose]
theorem vset : NoChoose (v.set i x : Prog α ι ω Unit) := by unfold View.set; split <;> simp [NoChoose]
theorem vidx : NoChoose (v.idx i : Prog α ι ω α) := by unfold View.idx; split <;> simp [NoChoose]
theorem vcset : NoChoose (v.cset i x : Prog α ι ω Unit) := by unfold View.cset; split <;> simp [NoChoose]
theorem vswap : NoChoose (v.swap i j : Prog α ι ω Unit) := bind vidx fun _ => bind vidx fun _ => bind vset fun _ => vset
theorem vuswap : NoChoose (v.uswap i j : Prog α ι ω Unit) := bind vget fun _ => bind vget fun _ => bind vset fun _ => vset
theorem vslice : NoChoose (v.slice i j : Prog α ι ω View) := by unfold View.slice; dsimp only; repeat (first | exact pure | exact throw | split)
theorem vsplitAt : NoChoose (v.splitAt i : Prog α ι ω (View × View)) := by unfold View.splitAt; split <;> trivial
theorem debugAssert {c : Bool} : NoChoose (NdSlice.debugAssert cfg c : Prog α ι ω Unit) := by unfold NdSlice.debugAssert; split <;> trivial
theorem assertP {c : Bool} : NoChoose (NdSlice.assertP c : Prog α ι ω Unit) := by unfold NdSlice.assertP; split <;> trivial
theorem usub {a b : Nat} : NoChoose (NdSlice.usub cfg a b : Prog α ι ω Nat) := by unfold NdSlice.usub; repeat (first | exact pure | exact throw | split)

end NoChoose
end Prog

open Prog

/-- With pure user code, and no choice for the environment, every schedule gives the result of the sequential run. -/
theorem wp_exact {f : ι → Option ω} {c : Bool} {p : Prog α ι ω β} (hn : NoChoose p) {F : Addr → Prop}
    {Q : β → Mem α → List (ι × Option ω) → Prop} {E : Panic → Mem α → List (ι × Option ω) → Prop} {m : Mem α} {lg : List (ι × Option ω)}
    (h : wp (fun q r => r = f q) p F Q E m lg) :
    wp (fun q r => r = f q) p F (fun b m' l => Q b m' l ∧ runOut (.pure f c) p ⟨m, (), []⟩ = (.ok b, m'))
      (fun e m' l => E e m' l ∧ runOut (.pure f c) p ⟨m, (), []⟩ = (.panic e, m')) m lg := by
  have ho : ∀ q, (fun (q : ι) (r : Option ω) => r = f q) q (f q) := fun q => rfl
  induction p generalizing F E m lg with
  | ret b => exact ⟨h, rfl⟩
  | throw e => exact ⟨h, rfl⟩
  | ub => exact h.elim
  | diverge => exact h.elim
  | get a k ih => exact ⟨h.1, ih _ (hn _) h.2⟩
  | set a x k ih => exact ⟨h.1, ih hn h.2⟩
  | call q k ih =>
    rintro r rfl
    have e := runOut_eq (R := fun q r => r = f q) (c := c) (s1 := ⟨m, (), []⟩) (s2 := ⟨m, (), [] ++ [(q, f q)]⟩) ho (h (f q) rfl) rfl
    refine wp_mono (ih (f q) (hn _) (h (f q) rfl)) (fun _ h => h) ?_ ?_
    · rintro b m' l ⟨h1, h2⟩
      exact ⟨h1, e.symm.trans h2⟩
    · rintro b m' l ⟨h1, h2⟩
      exact ⟨h1, e.symm.trans h2⟩
  | choose k ih => exact hn.elim
  | join p q k ihp ihq ihk =>
    obtain ⟨n1, n2, n3⟩ := hn
    obtain ⟨F1, F2, h1, h2, hd, P1, P2, hp, hq, hk⟩ := h
    refine ⟨F1, F2, h1, h2, hd, fun r m1 l1 => P1 r m1 l1 ∧ runOut (.pure f c) p ⟨m, (), []⟩ = (r.toOut, m1),
      fun t m2 l2 => P2 t m2 l2 ∧ runOut (.pure f c) q ⟨m, (), []⟩ = (t.toOut, m2), ihp n1 hp, ihq n2 hq, ?_⟩
    rintro r t m1 m2 l1 l2 ⟨hP1, e1⟩ ⟨hP2, e2⟩ m' d a1 a2 a3 hd'
    have hk' := hk r t m1 m2 l1 l2 hP1 hP2 m' d a1 a2 a3 hd'
    have fp := run_frame (R := fun q r => r = f q) (c := c) ho hp (s1 := ⟨m, (), []⟩) (s2 := ⟨m, (), []⟩) (fun _ _ => rfl) (fun _ _ => rfl)
    have fq := run_frame (R := fun q r => r = f q) (c := c) ho hq (s1 := (run (.pure f c) p ⟨m, (), []⟩).2) (s2 := ⟨m, (), []⟩)
      (fun a ha => fp.2.2.1 a (fun h => hd a h ha)) (fun _ _ => rfl)
    unfold runOut at e1 e2
    obtain ⟨g1, g2⟩ := Prod.mk.inj e1
    obtain ⟨g3, g4⟩ := Prod.mk.inj e2
    have em : (run (.pure f c) q (run (.pure f c) p ⟨m, (), []⟩).2).2.mem = m' := by
      funext a
      by_cases ha2 : F2 a
      · rw [fq.2.1 a ha2, g4, a2 a ha2]
      · rw [fq.2.2.1 a ha2]
        by_cases ha1 : F1 a
        · rw [g2, a1 a ha1]
        · rw [fp.2.2.1 a ha1, a3 a ha1 ha2]
    have e : runOut (.pure f c) (.join p q k) ⟨m, (), []⟩ = runOut (.pure f c) (k r t) ⟨m', (), []⟩ := by
      rw [runOut_eq (R := fun q r => r = f q) (c := c) (s1 := ⟨m', (), []⟩) (s2 := (run (.pure f c) q (run (.pure f c) p ⟨m, (), []⟩).2).2) ho hk' em]
      unfold runOut
      rw [run_join_eq g1 (fq.1.trans g3)]
    rw [e]
    exact ihk r t (n3 r t) hk'

theorem wp_bind_inv {R : ι → Option ω → Prop} {p : Prog α ι ω β} {f : β → Prog α ι ω γ} {F : Addr → Prop}
    {Q : γ → Mem α → List (ι × Option ω) → Prop} {E : Panic → Mem α → List (ι × Option ω) → Prop} {m : Mem α} {lg : List (ι × Option ω)}
    (h : wp R (p.bind f) F Q E m lg) : wp R p F (fun b m lg => wp R (f b) F Q E m lg) E m lg := by
  induction p generalizing m lg with
  | ret b => exact h
  | get a k ih => exact ⟨h.1, ih _ h.2⟩
  | set a x k ih => exact ⟨h.1, ih h.2⟩
  | call q k ih => exact fun r hr => ih r (h r hr)
  | choose k ih => exact fun b => ih b (h b)
  | throw e => exact h
  | ub => exact h
  | diverge => exact h
  | join p q k ihp ihq ihk =>
    obtain ⟨F1, F2, h1, h2, hd, P1, P2, hp, hq, hk⟩ := h
    refine ⟨F1, F2, h1, h2, hd, P1, P2, hp, hq, ?_⟩
    intro r t m1 m2 l1 l2 hP1 hP2 m' d e1 e2 e3 e4
    exact ihk r t (hk r t m1 m2 l1 l2 hP1 hP2 m' d e1 e2 e3 e4)

/-! ### The parts of the parallel merge sort -/

theorem less_noChoose {κ : Type} (st : Style) (x y : α) : NoChoose (st.less (κ := κ) x y) := by
  cases st with
  | ord => rintro (_ | _) <;> trivial
  | cmp => rintro (_ | _) <;> trivial
  | key =>
    rintro (_ | _)
    · trivial
    rintro (_ | _)
    · trivial
    rintro (_ | _) <;> trivial

attribute [irreducible] Prog.NoChoose

namespace Prog.NoChoose

theorem ite {c : Prop} [Decidable c] {p q : Prog α ι ω β} (h : NoChoose p) (h' : NoChoose q) : NoChoose (if c then p else q) := by
  split <;> assumption

macro "nc1" : tactic => `(tactic| with_reducible first
  | exact pure | exact throw | exact ub | exact diverge
  | exact vget | exact vset | exact vidx | exact vcset | exact vswap | exact vuswap | exact vslice | exact vsplitAt
  | exact debugAssert | exact assertP | exact usub
  | refine bind ?_ (fun _ => ?_) | refine onPanic ?_ ?_ | refine rayonJoin ?_ ?_ | refine loop (fun _ => ?_) | refine forUp (fun _ => ?_)
  | refine forDown (fun _ => ?_) | refine ite ?_ ?_)

/-- Solves `NoChoose` goals with the given lemmas. -/
syntax "nc" "[" term,* "]" : tactic
macro_rules
  | `(tactic| nc [$[$ts],*]) => `(tactic| repeat' (first $[| with_reducible exact $ts]* | nc1 | split))

variable {cfg : Cfg} {less : α → α → Prog α ι ω Bool} (hl : ∀ x y, NoChoose (less x y)) {v buf : View}
include hl

omit hl in
theorem revswap {a b : View} {n i k : Nat} : NoChoose (NdSlice.revswap cfg a b n i k : Prog α ι ω Unit) := by
  induction k generalizing i with
  | zero => exact pure
  | succ k ih => unfold NdSlice.revswap; nc [ih]

omit hl in
theorem reverse : NoChoose (NdSlice.reverse cfg v : Prog α ι ω Unit) := by
  unfold NdSlice.reverse; nc [revswap]

theorem parInsertHeadLoop {tmp : α} {d n : Nat} : NoChoose (NdSlice.parInsertHeadLoop less v tmp d n) := by
  induction n generalizing d with
  | zero => exact vset
  | succ n ih => unfold NdSlice.parInsertHeadLoop; nc [hl _ _, ih]

theorem parInsertHead : NoChoose (NdSlice.parInsertHead less v) := by
  unfold NdSlice.parInsertHead; nc [hl _ _, parInsertHeadLoop hl]

theorem parStreak {rev : Bool} {n : Nat} : NoChoose (NdSlice.parStreak less v rev n) := by
  induction n with
  | zero => exact pure
  | succ n ih => unfold NdSlice.parStreak; nc [hl _ _, ih]

theorem parExtend {e n : Nat} : NoChoose (NdSlice.parExtend less v e n) := by
  induction n with
  | zero => exact pure
  | succ n ih => unfold NdSlice.parExtend; nc [hl _ _, parInsertHead hl, ih]

theorem parNextRun {e : Nat} : NoChoose (NdSlice.parNextRun cfg less v e) := by
  unfold NdSlice.parNextRun; nc [hl _ _, parStreak hl, parExtend hl, reverse]

omit hl in
theorem runAt {rs : List TimRun} {i : Nat} : NoChoose (NdSlice.runAt rs i : Prog α ι ω TimRun) := by
  unfold NdSlice.runAt; nc [pure]

omit hl in
theorem mergeHoleDrop {a b c : Nat} : NoChoose (NdSlice.mergeHoleDrop cfg v buf a b c : Prog α ι ω Unit) := by
  unfold NdSlice.mergeHoleDrop; nc [pure]

omit hl in
theorem copyToBuf {a b : Nat} : NoChoose (NdSlice.copyToBuf v buf a b : Prog α ι ω Unit) := by
  unfold NdSlice.copyToBuf; nc [pure]

theorem merge {mid : Nat} : NoChoose (NdSlice.merge cfg less View.idx v mid buf) := by
  unfold NdSlice.merge NdSlice.mergeFwdBody NdSlice.mergeBwdBody NdSlice.pick; nc [hl _ _, mergeHoleDrop, copyToBuf]

theorem parCollapseBody {rs : List TimRun} : NoChoose (NdSlice.parCollapseBody cfg less v buf rs) := by
  unfold NdSlice.parCollapseBody; nc [hl _ _, merge hl, runAt]

theorem parMergeSortSeq : NoChoose (NdSlice.parMergeSortSeq cfg less v buf) := by
  unfold NdSlice.parMergeSortSeq NdSlice.parMergeSortBody; nc [hl _ _, parCollapseBody hl, runAt, parNextRun hl]

theorem splitForMerge {left right : View} : NoChoose (NdSlice.splitForMerge less left right) := by
  unfold NdSlice.splitForMerge NdSlice.splitRightBody NdSlice.splitLeftBody; nc [hl _ _]

omit hl in
theorem copyUp {src dest : View} {s d n : Nat} : NoChoose (NdSlice.copyUp src dest s d n : Prog α ι ω Unit) := by
  unfold NdSlice.copyUp; nc [pure]

omit hl in
theorem stateDrop {left right dest : View} {l r d : Nat} : NoChoose (NdSlice.stateDrop cfg left right dest l r d : Prog α ι ω Unit) := by
  unfold NdSlice.stateDrop; nc [copyUp]

theorem parMerge {n : Nat} {left right dest : View} : NoChoose (NdSlice.parMerge cfg less n left right dest) := by
  induction n generalizing left right dest with
  | zero => exact diverge
  | succ n ih => unfold NdSlice.parMerge NdSlice.parMergeBody; nc [hl _ _, stateDrop, splitForMerge hl, ih]

omit hl in
theorem chunkAt {cs : List (Nat × Nat)} {i : Nat} : NoChoose (NdSlice.chunkAt cs i : Prog α ι ω (Nat × Nat)) := by
  unfold NdSlice.chunkAt; nc [pure]

theorem parRecurse {k : Nat} {cs : List (Nat × Nat)} {b : Bool} : NoChoose (NdSlice.parRecurse cfg less v buf k cs b) := by
  induction k generalizing cs b with
  | zero => exact diverge
  | succ n ih => unfold NdSlice.parRecurse; nc [hl _ _, copyUp, parMerge hl, chunkAt, ih]

theorem chunkTask {i : Nat} : NoChoose (NdSlice.chunkTask cfg less v buf i) := by
  unfold NdSlice.chunkTask; nc [hl _ _, parMergeSortSeq hl]

omit hl in
theorem finishChunk {a b : Nat} {r : MergesortResult} : NoChoose (NdSlice.finishChunk cfg v a b r : Prog α ι ω Unit) := by
  unfold NdSlice.finishChunk; nc [reverse]

theorem canConcat {x : Nat} {r r' : MergesortResult} : NoChoose (NdSlice.canConcat cfg less v r x r') := by
  unfold NdSlice.canConcat; nc [hl _ _]

theorem concatChunks {a b : Nat} {r : MergesortResult} {rs : List (Nat × Nat × MergesortResult)} :
    NoChoose (NdSlice.concatChunks cfg less v a b r rs) := by
  induction rs generalizing a b r with
  | nil => unfold NdSlice.concatChunks; nc [hl _ _, finishChunk, canConcat hl, ih]
  | cons c rs ih => unfold NdSlice.concatChunks; nc [hl _ _, finishChunk, canConcat hl, ih]

/-- Up to 2000 elements there is only one task. -/
theorem parMergeSort (h : v.len ≤ 2000) : NoChoose (NdSlice.parMergeSort cfg less v buf) := by
  unfold NdSlice.parMergeSort
  rw [if_pos h]
  nc [hl _ _, parMergeSortSeq hl, reverse, parInsertHead hl]

end Prog.NoChoose

end NdSlice
