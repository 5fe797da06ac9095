import Verif.Proof.SimSort
import Verif.Core.Tri

/-
Runs that are related to themselves: while a program works on some cells, whose contents satisfy `X`, it asks user code about elements that satisfy
`X` only.
-/

namespace NdSlice

variable {α ι ω σ β : Type}

/-- A run related to itself: the elements at the addresses in `rg` satisfy `X`, and the history after `l` satisfies `ok`. -/
def within (o : Oracle σ ι ω) (rg : List Addr) (X : α → Prop) (l : List (ι × Option ω)) (ok : List (ι × Option ω) → Prop) :
    Sim α ι ω σ α ι ω σ where
  o₁ := o
  o₂ := o
  A a b := a = b ∧ a ∈ rg
  inj := by
    rintro a _ a' _ ⟨rfl, -⟩ ⟨rfl, -⟩
    exact Iff.rfl
  G v w := v = w
  sub := by
    rintro v _ rfl _ _
    rfl
  V x y := x = y ∧ X x
  S e₁ l₁ e₂ _ := e₁ = e₂ ∧ ∃ d, l₁ = l ++ d ∧ ok d
  flip := by
    rintro e₁ l₁ _ _ ⟨rfl, h⟩
    exact ⟨rfl, rfl, h⟩

variable {o : Oracle σ ι ω} {rg : List Addr} {X : α → Prop} {ok : List (ι × Option ω) → Prop}

theorem within_run {p : Prog α ι ω β} {s : St α ι ω σ} {R : β → β → Prop} (h : (within o rg X s.log ok).P p p R) (h0 : ok [])
    (hX : ∀ a ∈ rg, X (s.mem a)) : ∃ d, (run o p s).2.log = s.log ++ d ∧ ok d := by
  obtain ⟨-, -, -, h⟩ := h s s ⟨fun a b ⟨h1, h2⟩ => ⟨by rw [h1], hX a h2⟩, rfl, [], by simp, h0⟩
  exact h

theorem within_vrel {v : View} {l : List (ι × Option ω)} (hv : ∀ a ∈ v.region, a ∈ rg) : (within o rg X l ok).VRel v v := by
  refine ⟨rfl, fun i hi => ⟨rfl, hv _ ?_⟩, rfl⟩
  unfold View.region
  exact List.mem_map.2 ⟨i, List.mem_range.2 hi, rfl⟩

end NdSlice
