import Verif.Model.RefsPar
import Verif.Proof.RefsQuick
import Verif.Proof.Inside

/-
The parallel quick sort and the parallel selection on places: run sequentially they do what the model on objects does, and their tasks have footprints
of their own.
-/

namespace NdSlice.Refs

variable {α σ β γ β' γ' : Type} {K : RCtx α σ} {g : LiveSet} {v : View} {cfg : Cfg}

/-! ### Rules -/

theorem RT.rayonJoin {pre mid fin : Asn α} {p : Prog α (α × α) (α × α × Option Bool) β} {q : Prog Addr (Addr × Addr) Bool γ}
    {p' : Prog α (α × α) (α × α × Option Bool) β'} {q' : Prog Addr (Addr × Addr) Bool γ'} {R : β → γ → Prop} {S : β' → γ' → Prop}
    (h : K.RT pre p q (fun b c mR mA L => R b c ∧ mid mR mA L) mid) (h' : K.RT mid p' q' (fun b c mR mA L => S b c ∧ fin mR mA L) fin) :
    K.RT pre (Prog.rayonJoin p p') (Prog.rayonJoin q q') (fun b c mR mA L => (R b.1 c.1 ∧ S b.2 c.2) ∧ fin mR mA L) fin := by
  intro sR sA hl hp
  have h := h sR sA hl hp
  unfold Prog.rayonJoin
  simp only [run]
  revert h
  rcases run (objOracle K.o) q sA with ⟨c | e | _ | _, sA1⟩ <;> dsimp only
  · rintro ⟨b, sR1, e, hl1, hr, hq⟩
    have h' := h' sR1 sA1 hl1 hq
    rw [e]
    dsimp only
    revert h'
    rcases run (objOracle K.o) q' sA1 with ⟨c' | e | _ | _, sA2⟩ <;> dsimp only
    · rintro ⟨b', sR2, e', hl2, hr', hq'⟩
      rw [e']
      exact ⟨_, _, rfl, hl2, ⟨hr, hr'⟩, hq'⟩
    · rintro ⟨sR2, e', hl2, hq'⟩
      rw [e']
      exact ⟨_, rfl, hl2, hq'⟩
    · exact id
    · exact id
  · rintro ⟨sR1, e, hl1, hq⟩
    have h' := h' sR1 sA1 hl1 hq
    rw [e]
    dsimp only
    revert h'
    rcases run (objOracle K.o) q' sA1 with ⟨c' | e | _ | _, sA2⟩ <;> dsimp only
    · rintro ⟨b', sR2, e', hl2, hr', hq'⟩
      rw [e']
      exact ⟨_, rfl, hl2, hq'⟩
    · rintro ⟨sR2, e', hl2, hq'⟩
      rw [e']
      exact ⟨_, rfl, hl2, hq'⟩
    · exact id
    · exact id
  · exact id
  · exact id

theorem Keep.rayonJoin {p : Prog α (α × α) (α × α × Option Bool) β} {q : Prog Addr (Addr × Addr) Bool γ}
    {p' : Prog α (α × α) (α × α × Option Bool) β'} {q' : Prog Addr (Addr × Addr) Bool γ'} {R : β → γ → Prop} {S : β' → γ' → Prop}
    (h : K.Keep g p q R) (h' : K.Keep g p' q' S) :
    K.Keep g (Prog.rayonJoin p p') (Prog.rayonJoin q q') (fun b c => R b.1 c.1 ∧ S b.2 c.2) := RT.rayonJoin h h'

/-- The same with another cell on the stack. -/
def RCtx.at (K : RCtx α σ) (t : Addr) : RCtx α σ := { K with t := t }

theorem Live.at (hn : g.vt = none) {t : Addr} (ht : K.T t ∧ ¬ g.P t) (hk : K.T K.t) {mR : Mem α} {mA : Mem Addr} {L : Mem α} (h : K.Live g mR mA L) :
    (RCtx.at K t).Live g mR mA L :=
  ⟨h.val, fun i e => (by rw [hn] at e; cases e), h.inj, fun i a e => (by rw [hn] at e; cases e), fun a ha => ⟨(h.sub a ha).1, fun e => ht.2 (show g.P t from (show a = t from e) ▸ ha)⟩,
    fun a ha _ => h.frame a ha fun e => ha (show K.T a from e ▸ hk)⟩

theorem RT.at {t : Addr} {pre exc : Asn α} {p : Prog α (α × α) (α × α × Option Bool) β} {q : Prog Addr (Addr × Addr) Bool γ} {post : β → γ → Asn α}
    (h : (RCtx.at K t).RT pre p q post exc) : K.RT pre p q post exc := by
  unfold RCtx.RT at *
  exact h

theorem Keep.at (hn : g.vt = none) {t : Addr} (ht : K.T t ∧ ¬ g.P t) (hk : K.T K.t ∧ ¬ g.P K.t) {p : Prog α (α × α) (α × α × Option Bool) β}
    {q : Prog Addr (Addr × Addr) Bool γ} {R : β → γ → Prop} (h : (RCtx.at K t).Keep g p q R) : K.Keep g p q R :=
  RT.conseq (RT.at h) (fun _ _ _ h => Live.at hn ht hk.1 h) (fun _ _ _ _ _ h => ⟨h.1, Live.at (K := RCtx.at K t) (t := K.t) hn hk ht.1 h.2⟩)
    (fun _ _ _ h => Live.at (K := RCtx.at K t) (t := K.t) hn hk ht.1 h)

/-- The stacks may be changed and hold no elements. -/
def StacksOf (K : RCtx α σ) (g : LiveSet) (t : Nat → Addr) : Prop := ∀ n, K.T (t n) ∧ ¬ g.P (t n)

theorem StacksOf.left {t : Nat → Addr} (h : StacksOf K g t) : StacksOf (RCtx.at K (stackL t 0)) g (stackL t) := fun _ => h _
theorem StacksOf.right {t : Nat → Addr} (h : StacksOf K g t) : StacksOf (RCtx.at K (stackR t 0)) g (stackR t) := fun _ => h _

/-! ### Quick sort -/

theorem parQuickDescend_refs {t : Nat → Addr} {rec : (Nat → Addr) → View → Option Addr → Nat → Prog α (α × α) (α × α × Option Bool) Unit}
    {rec' : View → Option Addr → Nat → Prog Addr (Addr × Addr) Bool Unit} (hn : g.vt = none) (ht : StacksOf K g t) (hk : K.t = t 0)
    (hr : ∀ (K : RCtx α σ) t v pred limit, StacksOf K g t → K.t = t 0 → In g v → PredIn g pred → K.Keep g (rec t v pred limit) (rec' v pred limit) Eq)
    {left right : View} (hl : In g left) (hr' : In g right) {pred : Option Addr} (hp : PredIn g pred) {piv : Addr} (hv : g.P piv) {limit : Nat} {bal wasP : Bool} :
    K.Keep g (parQuickDescend t rec left right pred piv limit bal wasP) (NdSlice.quickDescend (some 2000) rec' left right pred piv limit bal wasP)
      (Sim.SumR (QIn g) Eq) := by
  unfold parQuickDescend NdSlice.quickDescend
  have e : (goesSeq (some 2000) (max left.len right.len) = true) = (max left.len right.len ≤ 2000) := by
    unfold goesSeq
    simp only [decide_eq_true_eq]
  have hk0 : K.T K.t ∧ ¬ g.P K.t := hk ▸ ht 0
  by_cases h : max left.len right.len ≤ 2000
  · rw [if_pos h, if_pos (e.mpr h)]
    refine Keep.ite (fun _ => Keep.bind (hr _ _ _ _ _ ht hk hl hp) fun _ _ _ => Keep.pureL ⟨rfl, hr', predIn_some hv⟩) (fun _ =>
      Keep.bind (hr _ _ _ _ _ ht hk hr' (predIn_some hv)) fun _ _ _ => Keep.pureL ⟨rfl, hl, hp⟩)
  · rw [if_neg h, if_neg fun h' => h (e.mp h')]
    refine Keep.bind (Keep.rayonJoin (R := Eq) (S := Eq) (Keep.at hn (ht _) hk0 (hr _ _ _ _ _ ht.left rfl hl hp))
      (Keep.at hn (ht _) hk0 (hr _ _ _ _ _ ht.right rfl hr' (predIn_some hv)))) fun _ _ _ => Keep.pureR rfl

theorem parQuickSplit_refs {t : Nat → Addr} {rec : (Nat → Addr) → View → Option Addr → Nat → Prog α (α × α) (α × α × Option Bool) Unit}
    {rec' : View → Option Addr → Nat → Prog Addr (Addr × Addr) Bool Unit} (hn : g.vt = none) (ht : StacksOf K g t) (hk : K.t = t 0)
    (hr : ∀ (K : RCtx α σ) t v pred limit, StacksOf K g t → K.t = t 0 → In g v → PredIn g pred → K.Keep g (rec t v pred limit) (rec' v pred limit) Eq)
    {s : QSt} (hs : In g s.v) (hp : PredIn g s.pred) {limit pivot : Nat} :
    K.Keep g (parQuickSplit cfg callAt t rec s limit pivot) (NdSlice.quickSplit cfg ask (some 2000) rec' s limit pivot) (Sim.SumR (QIn g) Eq) := by
  unfold parQuickSplit NdSlice.quickSplit
  rw [← hk]
  keep
  exact parQuickDescend_refs hn ht hk hr ‹_› ‹_› hp ‹_›

theorem parQuickStep_refs {t : Nat → Addr} {rec : (Nat → Addr) → View → Option Addr → Nat → Prog α (α × α) (α × α × Option Bool) Unit}
    {rec' : View → Option Addr → Nat → Prog Addr (Addr × Addr) Bool Unit} (hn : g.vt = none) (ht : StacksOf K g t) (hk : K.t = t 0)
    (hr : ∀ (K : RCtx α σ) t v pred limit, StacksOf K g t → K.t = t 0 → In g v → PredIn g pred → K.Keep g (rec t v pred limit) (rec' v pred limit) Eq)
    {s : QSt} (hs : In g s.v) (hp : PredIn g s.pred) :
    K.Keep g (parQuickStep cfg callAt t rec s) (NdSlice.quickStep cfg ask (some 2000) rec' s) (Sim.SumR (QIn g) Eq) := by
  unfold parQuickStep NdSlice.quickStep
  rw [← hk]
  dsimp only
  keep
  · exact ⟨rfl, ‹_›, hp⟩
  · exact parQuickSplit_refs hn ht hk hr hs hp

theorem parQuickRecurse_refs (hn : g.vt = none) {d : Nat} {t : Nat → Addr} (ht : StacksOf K g t) (hk : K.t = t 0) (hv : In g v) {pred : Option Addr}
    (hp : PredIn g pred) {limit : Nat} :
    K.Keep g (parQuickRecurse cfg callAt d t v pred limit) (NdSlice.recurse cfg ask (some 2000) d v pred limit) Eq := by
  induction d generalizing K t v pred limit with
  | zero => exact Keep.diverge
  | succ d ih =>
    unfold parQuickRecurse NdSlice.recurse
    refine Keep.loop (R := QIn g) ?_ ⟨rfl, hv, hp⟩
    rintro s _ ⟨rfl, h1, h2⟩
    exact parQuickStep_refs (rec := parQuickRecurse cfg callAt d) (rec' := NdSlice.recurse cfg ask (some 2000) d) hn ht hk
      (fun K t v pred limit ht hk hv hp => ih ht hk hv hp) h1 h2

theorem parQuickSort_refs (hn : g.vt = none) {t : Nat → Addr} (ht : StacksOf K g t) (hk : K.t = t 0) (hv : In g v) :
    K.Keep g (parQuickSort cfg callAt t v) (NdSlice.parQuickSort cfg ask v) Eq := by
  unfold parQuickSort NdSlice.parQuickSort
  exact Keep.ite (fun _ => Keep.pureEq) (fun _ => parQuickRecurse_refs hn ht hk hv predIn_none)

/-! ### Selection -/

theorem parPartitionAtIndices_refs (hn : g.vt = none) {n : Nat} {t : Nat → Addr} (ht : StacksOf K g t) (hk : K.t = t 0) (hv : In g v) {offset : Nat}
    {indices : List Nat} {vs vl : Nat} :
    K.Keep g (parPartitionAtIndices cfg callAt n t v offset indices vs vl) (NdSlice.parPartitionAtIndices cfg ask n v offset indices vs vl) Eq := by
  induction n generalizing K t v offset indices vs vl with
  | zero => exact Keep.diverge
  | succ n ih =>
    have hk0 : K.T K.t ∧ ¬ g.P K.t := hk ▸ ht 0
    unfold parPartitionAtIndices NdSlice.parPartitionAtIndices
    rcases indices[indices.length / 2]? with _ | p
    · exact Keep.pureEq
    dsimp only
    refine (Keep.bindEq Keep.usub.weak fun i => ?_).keep
    rw [← hk]
    refine Keep.bind (partitionAtIndex_refs hn hv) ?_
    rintro ⟨l, x, r⟩ _ ⟨rfl, h1, h2⟩
    dsimp only
    keep
    · exact ih ht hk h1
    · exact ih ht hk h2
    · exact Keep.mono (Keep.rayonJoin (R := Eq) (S := Eq) (Keep.at hn (ht _) hk0 (ih ht.left rfl h1)) (Keep.at hn (ht _) hk0 (ih ht.right rfl h2)))
        fun _ _ h => Prod.ext h.1 h.2

end NdSlice.Refs
