import Verif.Props.Dedup
import Verif.Props.Relational

/-
C81: `partition_dedup*` give `same_bucket` two exclusive references at a time (`&mut *a`, `&mut *b`); they never refer to the same element.
-/

namespace NdSlice

variable {α κ ι ω σ : Type} {cfg : Cfg} {v : View}

/-- `same` with the demand of /repo/src/partition_dedup.rs:104 made explicit: two exclusive references to one element are undefined behaviour. -/
def exclusive (same : Addr → Addr → Prog α ι ω Bool) (a b : Addr) : Prog α ι ω Bool := if a = b then .ub else same a b

/-- Sequential composition is associative. -/
theorem Prog.bind_bind {β γ δ : Type} (p : Prog α ι ω β) (f : β → Prog α ι ω γ) (g : γ → Prog α ι ω δ) :
    (p >>= f) >>= g = p >>= fun b => f b >>= g := by
  show (p.bind f).bind g = p.bind fun b => (f b).bind g
  induction p with
  | ret b => rfl
  | get a k ih => simp only [Prog.bind, ih]
  | set a x k ih => simp only [Prog.bind, ih]
  | call q k ih => simp only [Prog.bind, ih]
  | choose k ih => simp only [Prog.bind, ih]
  | throw e => rfl
  | ub => rfl
  | diverge => rfl
  | join p q k _ _ ih => simp only [Prog.bind, ih]

/-- One iteration: `same` is given a later and an earlier element. -/
theorem dedupBody_pairs {f : Addr → Addr → Prog α ι ω Bool} {r w : Nat} (h1 : 1 ≤ w) (h2 : w ≤ r) (hr : r < v.len) :
    dedupBody cfg f v (r, w) = f (v.addr r) (v.addr (w - 1)) >>= fun c =>
      if !c then whenP (r != w) (v.uswap r (w - 1 + 1)) >>= fun _ => pure (.inl (r + 1, w + 1)) else pure (.inl (r + 1, w)) := by
  have h3 : w - 1 < v.len := by omega
  unfold dedupBody usub dedupBody.uref
  simp only [if_pos hr, if_pos h1]
  show ((if w - 1 < v.len then pure (v.addr (w - 1)) else Prog.ub : Prog α ι ω Addr) >>= _) = _
  rw [if_pos h3]
  rfl

/-- C81: `partition_dedup*` depend on `same_bucket` for pairs of a later and an earlier element of the array only.  Two programs which are the same on
these pairs give the same program. -/
theorem partition_dedup_pairs {f g : Addr → Addr → Prog α ι ω Bool} (h : ∀ i j, j < i → i < v.len → f (v.addr i) (v.addr j) = g (v.addr i) (v.addr j)) :
    partitionDedupBy cfg f v = partitionDedupBy cfg g v := by
  have hl : ∀ n r w, 1 ≤ w → w ≤ r → Prog.loop (dedupBody cfg f v) n (r, w) = Prog.loop (dedupBody cfg g v) n (r, w) := by
    intro n
    induction n with
    | zero => intro _ _ _ _; rfl
    | succ n ih =>
      intro r w h1 h2
      unfold Prog.loop
      by_cases hr : r < v.len
      · rw [dedupBody_pairs h1 h2 hr, dedupBody_pairs h1 h2 hr, h r (w - 1) (by omega) hr, Prog.bind_bind, Prog.bind_bind]
        congr 1
        funext c
        cases c with
        | true => exact ih (r + 1) w h1 (by omega)
        | false =>
          simp only [Bool.not_false, if_true, Prog.bind_bind]
          congr 1
          funext _
          exact ih (r + 1) (w + 1) (by omega) (by omega)
      · unfold dedupBody
        simp only [hr, if_false]
        rfl
  unfold partitionDedupBy
  rw [hl _ 1 1 (Nat.le_refl _) (Nat.le_refl _)]

/-- C81: the two exclusive references are never to the same element, whatever user code is: the program is the same as the one with the check. -/
theorem partition_dedup_exclusive (hv : v.WF) (same : Addr → Addr → Prog α ι ω Bool) :
    partitionDedupBy cfg (exclusive same) v = partitionDedupBy cfg same v := by
  refine partition_dedup_pairs fun i j hj hi => if_neg fun he => ?_
  have := addr_inj hv hi (by omega) he
  omega

/-- C81: so the check does not fail in any run, with arbitrary user code, which may change both elements and panic. -/
theorem dedup_exclusive (st : DedupStyle) (cfg : Cfg) (o : Oracle σ (st.Q α κ) (st.A α κ)) (hv : v.WF) (s : St α (st.Q α κ) (st.A α κ) σ) :
    ∀ s', run o (partitionDedupBy cfg (exclusive st.same) v) s ≠ (.ub, s') := by
  intro s' h
  rw [partition_dedup_exclusive hv] at h
  have hs := dedup_safe st cfg o hv s
  unfold partitionDedup at hs
  rcases hs with ⟨_, _, h', _⟩ | ⟨_, _, h', _⟩ <;> (rw [h] at h'; cases h')

/-! ### The hypotheses can be met -/

example := partition_dedup_exclusive (cfg := Sample.cfg) Sample.wf (DedupStyle.same (α := Nat) (κ := Nat) .fn)
example := dedup_exclusive (κ := Nat) (v := Sample.view) .fn Sample.cfg Sample.vandal Sample.wf ⟨Sample.mem, 0, []⟩
-- The two programs may differ elsewhere: one is undefined for equal places.
example := partition_dedup_pairs (cfg := Sample.cfg) (v := Sample.view) (f := DedupStyle.same (α := Nat) (κ := Nat) .fn)
  (g := fun a b => if a ∈ Sample.view.region then DedupStyle.same .fn a b else .ub) (fun _ _ _ hi => (if_pos (View.mem_region _ hi)).symm)
-- An array with all its elements in one cell: there the check fails.
example : (run (α := Nat) (Sample.dedupOracle (fun _ _ => true) .fn) (partitionDedupBy Sample.cfg (exclusive (DedupStyle.same (κ := Nat) .fn)) ⟨200, 0, 3⟩)
    ⟨fun _ => 1, (), []⟩).1 = .ub := rfl

end NdSlice
