import Verif.Model.Search
import Verif.Proof.Sim

/-
Continuation of `Verif.Proof.Sim`: searching and deduplication.
-/

namespace NdSlice.Sim

variable {α₁ ι₁ ω₁ σ₁ α₂ ι₂ ω₂ σ₂ : Type} {D : Sim α₁ ι₁ ω₁ σ₁ α₂ ι₂ ω₂ σ₂} {cfg : Cfg}
  {less₁ : α₁ → α₁ → Prog α₁ ι₁ ω₁ Bool} {less₂ : α₂ → α₂ → Prog α₂ ι₂ ω₂ Bool} {v₁ v₂ : View}

theorem isSortedFrom_sim (hl : D.LessRel less₁ less₂) (hv : D.VRel v₁ v₂) {i n : Nat} :
    D.P (isSortedFrom less₁ v₁ i n) (isSortedFrom less₂ v₂ i n) Eq := by
  induction n generalizing i with
  | zero => unfold isSortedFrom; sim
  | succ n ih => unfold isSortedFrom; sim; exact ih

theorem isSortedBy_sim (hl : D.LessRel less₁ less₂) (hv : D.VRel v₁ v₂) : D.P (isSortedBy less₁ v₁) (isSortedBy less₂ v₂) Eq := by
  unfold isSortedBy
  rw [hv.len]
  exact isSortedFrom_sim hl hv

theorem binarySearchBy_sim {f₁ : α₁ → Prog α₁ ι₁ ω₁ Ordering} {f₂ : α₂ → Prog α₂ ι₂ ω₂ Ordering}
    (hf : ∀ {x y}, D.V x y → D.P (f₁ x) (f₂ y) Eq) (hv : D.VRel v₁ v₂) : D.P (binarySearchBy cfg f₁ v₁) (binarySearchBy cfg f₂ v₂) Eq := by
  unfold binarySearchBy
  rw [hv.len]
  refine P.loopEq ?_
  rintro ⟨a, b, c⟩
  unfold binarySearchBody
  rw [hv.len]
  refine P.ite (fun _ => ?_) (fun _ => by sim)
  refine P.bindV (vget hv) fun x y h => P.bindEq (hf h) fun c => ?_
  sim

theorem partitionPointBy_sim {f₁ : α₁ → Prog α₁ ι₁ ω₁ Bool} {f₂ : α₂ → Prog α₂ ι₂ ω₂ Bool}
    (hf : ∀ {x y}, D.V x y → D.P (f₁ x) (f₂ y) Eq) (hv : D.VRel v₁ v₂) : D.P (partitionPointBy cfg f₁ v₁) (partitionPointBy cfg f₂ v₂) Eq := by
  unfold partitionPointBy
  refine P.bindEq (binarySearchBy_sim (fun h => P.bindEq (hf h) fun _ => P.pureEq) hv) fun r => P.pureEq

theorem anyFrom_sim {f₁ : α₁ → Prog α₁ ι₁ ω₁ Bool} {f₂ : α₂ → Prog α₂ ι₂ ω₂ Bool}
    (hf : ∀ {x y}, D.V x y → D.P (f₁ x) (f₂ y) Eq) (hv : D.VRel v₁ v₂) {i n : Nat} : D.P (anyFrom f₁ v₁ i n) (anyFrom f₂ v₂ i n) Eq := by
  induction n generalizing i with
  | zero => unfold anyFrom; sim
  | succ n ih =>
    unfold anyFrom
    refine P.bindV (vget hv) fun x y h => P.bindEq (hf h) fun c => ?_
    sim
    exact ih

/-- The two elements given to `same` are different ones. -/
theorem partitionDedupBy_sim {f₁ : Addr → Addr → Prog α₁ ι₁ ω₁ Bool} {f₂ : Addr → Addr → Prog α₂ ι₂ ω₂ Bool} (hv : D.VRel v₁ v₂)
    (hf : ∀ i j, j < i → i < v₂.len → D.P (f₁ (v₁.addr i) (v₁.addr j)) (f₂ (v₂.addr i) (v₂.addr j)) Eq) :
    D.P (partitionDedupBy cfg f₁ v₁) (partitionDedupBy cfg f₂ v₂) (ProdR D.VRel D.VRel) := by
  unfold partitionDedupBy
  rw [hv.len]
  refine P.ite (fun _ => by sim) (fun _ => ?_)
  refine P.bind (R := Eq) ?_ ?_
  · refine P.loop (R := fun s t => s = t ∧ 1 ≤ s.2 ∧ s.2 ≤ s.1) ?_ ⟨rfl, by decide, by decide⟩
    rintro ⟨r, w⟩ _ ⟨rfl, h1, h2⟩
    dsimp only at h1 h2
    unfold dedupBody
    rw [hv.len]
    refine P.ite (fun hr => ?_) (fun _ => P.pureR rfl)
    have hu : ∀ {α ι ω : Type}, (NdSlice.usub (α := α) (ι := ι) (ω := ω) cfg w 1) = pure (w - 1) := by
      intros
      unfold NdSlice.usub
      rw [if_pos (by omega)]
    have h3 : w - 1 < v₂.len := by omega
    rw [hu, hu]
    show D.P (dedupBody.uref v₁ r >>= _) (dedupBody.uref v₂ r >>= _) _
    unfold dedupBody.uref
    rw [hv.len, if_pos hr, if_pos hr]
    show D.P ((if w - 1 < v₂.len then _ else _) >>= _) ((if w - 1 < v₂.len then _ else _) >>= _) _
    rw [if_pos h3, if_pos h3]
    show D.P (f₁ (v₁.addr r) (v₁.addr (w - 1)) >>= _) (f₂ (v₂.addr r) (v₂.addr (w - 1)) >>= _) _
    refine P.bindEq (hf _ _ (by omega) hr) fun c => P.ite (fun _ => ?_) (fun _ => P.pureL ⟨rfl, h1, by show w ≤ r + 1; omega⟩)
    refine P.bindEq (Sim.whenP (vuswap hv)) fun _ => P.pureL ⟨rfl, by show 1 ≤ w + 1; omega, by show w + 1 ≤ r + 1; omega⟩
  · rintro w _ rfl
    exact vsplitAt hv

end NdSlice.Sim
