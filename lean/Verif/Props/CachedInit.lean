import Verif.Props.Init
import Verif.Props.Cached

/-
C55 for the cached key sorts.
-/

namespace NdSlice

variable {α κ σ β : Type} {cfg : Cfg} {sz : Sizes} {srt : PairSort α κ} {v : View} {X : α → Prop} {I : Addr → Prop}

/-- `p` compares keys and does nothing else: it accesses no element and makes no other calls.  (A sort of a vector of keys and indices is of this kind.) -/
def LtOnly {β : Type} : Prog α (KeyQ α κ) (κ × Bool) β → Prop
  | .ret _ => True
  | .get _ _ => False
  | .set _ _ _ => False
  | .call q k => (∃ a b, q = .lt a b) ∧ ∀ r, LtOnly (k r)
  | .choose k => ∀ b, LtOnly (k b)
  | .throw _ => True
  | .ub => True
  | .diverge => True
  | .join p q k => LtOnly p ∧ LtOnly q ∧ ∀ r t, LtOnly (k r t)

theorem LtOnly.bind {γ : Type} {p : Prog α (KeyQ α κ) (κ × Bool) β} {f : β → Prog α (KeyQ α κ) (κ × Bool) γ} (h : LtOnly p) (hf : ∀ b, LtOnly (f b)) :
    LtOnly (p >>= f) := by
  show LtOnly (p.bind f)
  induction p with
  | ret b => exact hf b
  | get a k _ => exact h.elim
  | set a x k _ => exact h.elim
  | call q k ih => exact ⟨h.1, fun r => ih r (h.2 r) hf⟩
  | choose k ih => exact fun b => ih b (h b) hf
  | throw e => trivial
  | ub => trivial
  | diverge => trivial
  | join p q k _ _ ih => exact ⟨h.1, h.2.1, fun r t => ih r t (h.2.2 r t) hf⟩

/-- Whether an element a call of user code is about is in `xs`. -/
abbrev KeyAbout (xs : List α) : KeyQ α κ → Prop := Style.About (κ := κ) xs .key

theorem LtOnly.in {xs : List α} {p : Prog α (KeyQ α κ) (κ × Bool) β} (h : LtOnly p) : In X (KeyAbout xs) I p Any := by
  intro J _
  induction p generalizing J with
  | ret b => trivial
  | get a k _ => exact h.elim
  | set a x k _ => exact h.elim
  | call q k ih =>
    obtain ⟨⟨a, b, rfl⟩, h⟩ := h
    exact ⟨trivial, fun r => ih r (h r) J ‹_›⟩
  | choose k ih => exact fun b => ih b (h b) J ‹_›
  | throw e => trivial
  | ub => trivial
  | diverge => trivial
  | join p q k ihp ihq ih =>
    exact ⟨_, _, _, _, ihp h.1 J ‹_›, ihq h.2.1 J ‹_›, fun r t K _ _ hK _ _ _ _ => ih r t (h.2.2 r t) K (Sub.trans ‹_› hK)⟩

theorem keyPair_in {xs : List α} (hv : VIn I v) {w i : Nat} : In (· ∈ xs) (KeyAbout xs) I (keyPair (κ := κ) v w i) Any :=
  In.bind (In.vget hv) fun x hx => In.bindT (fun J hJ => ⟨hx, fun r => by cases r <;> trivial⟩) fun _ => In.pureT

theorem keyPairs_in {xs : List α} (hv : VIn I v) {w i n : Nat} : In (· ∈ xs) (KeyAbout xs) I (keyPairs (κ := κ) v w i n) Any := by
  induction n generalizing i with
  | zero => exact In.pureT
  | succ n ih => exact In.bindT (keyPair_in hv) fun _ => In.bindT ih fun _ => In.pureT

theorem pairAt_in {xs : List α} {l : List (κ × Nat)} {i : Nat} : In (· ∈ xs) (KeyAbout xs) I (pairAt l i) Any := by
  unfold pairAt
  split
  · exact In.pureT
  · exact fun _ _ => trivial

theorem placeAll_in {xs : List α} (hv : VIn I v) {i n : Nat} {l : List (κ × Nat)} : In (· ∈ xs) (KeyAbout xs) I (placeAll (κ := κ) v i n l) Any := by
  induction n generalizing i l with
  | zero => exact In.pureT
  | succ n ih =>
    unfold placeAll
    refine In.bindT pairAt_in fun p => In.bindT (In.loopT fun s => ?_) fun _ => In.bindT (In.vswap hv) fun _ => ih
    exact In.ite (fun _ => In.bindT pairAt_in fun _ => In.pureT) fun _ => In.pureT

theorem parKeyPairs_in {xs : List α} (hv : VIn I v) {w i n : Nat} : In (· ∈ xs) (KeyAbout xs) I (parKeyPairs (κ := κ) v w i n) Any := by
  induction n generalizing i with
  | zero => exact In.pureT
  | succ n ih =>
    unfold parKeyPairs
    have h1 : In (· ∈ xs) (KeyAbout xs) I (Prog.choose fun late => if late then pure none else do
        let p ← keyPair (κ := κ) v w i
        pure (some p)) Any := In.choose fun late => In.ite (fun _ => In.pureT) fun _ => In.bindT (keyPair_in hv) fun _ => In.pureT
    exact In.bindT (fun J hJ => Init.rayonJoin (h1 J hJ) (ih J hJ) (fun _ _ _ _ _ _ _ _ _ _ => trivial) fun _ _ _ _ _ _ _ _ => trivial)
      fun _ => In.pureT

theorem latePairs_in {xs : List α} (hv : VIn I v) {w i : Nat} {ps : List (Option (κ × Nat))} :
    In (· ∈ xs) (KeyAbout xs) I (latePairs (κ := κ) v w i ps) Any := by
  induction ps generalizing i with
  | nil => exact In.pureT
  | cons p ps ih =>
    cases p with
    | none => exact In.bindT (keyPair_in hv) fun _ => In.bindT ih fun _ => In.pureT
    | some p => exact In.bindT ih fun _ => In.pureT

theorem insertAny_ltOnly {p : κ × Nat} {l : List (κ × Nat)} : LtOnly (α := α) (insertAny p l) := by
  induction l with
  | nil => trivial
  | cons q l ih =>
    intro b
    cases b with
    | true => trivial
    | false => exact LtOnly.bind ih fun _ => trivial

theorem collectAny_ltOnly {l : List (κ × Nat)} : LtOnly (α := α) (collectAny l) := by
  induction l with
  | nil => trivial
  | cons p l ih => exact LtOnly.bind ih fun _ => insertAny_ltOnly

/-- C55, `sort_by_cached_key`, if the sort of the vector of keys and indices does nothing but compare keys. -/
theorem sort_by_cached_key_reads (hs : ∀ l, LtOnly (srt l)) {o : Oracle σ (KeyQ α κ) (κ × Bool)} {s : St α (KeyQ α κ) (κ × Bool) σ} :
    ReadsOnly o (KeyAbout (v.contents s.mem)) v (sortByCachedKey cfg sz srt v) s ∧ HoldsOnly o v (sortByCachedKey cfg sz srt v) s :=
  have h : In (· ∈ v.contents s.mem) (KeyAbout (v.contents s.mem)) (· ∈ v.region) (sortByCachedKey cfg sz srt v) Any :=
    In.ite (fun _ => In.pureT) fun _ => In.bindT (keyPairs_in vin_region) fun l => In.bindT (hs l).in fun _ => placeAll_in vin_region
  ⟨h.readsOnly fun _ h => h, h.holdsOnly⟩

/-- C55, `par_sort_by_cached_key`, if the sort of the vector of keys and indices does nothing but compare keys. -/
theorem par_sort_by_cached_key_reads (hs : ∀ l, LtOnly (srt l)) {o : Oracle σ (KeyQ α κ) (κ × Bool)} {s : St α (KeyQ α κ) (κ × Bool) σ} :
    ReadsOnly o (KeyAbout (v.contents s.mem)) v (parSortByCachedKey cfg sz srt v) s ∧ HoldsOnly o v (parSortByCachedKey cfg sz srt v) s :=
  have h : In (· ∈ v.contents s.mem) (KeyAbout (v.contents s.mem)) (· ∈ v.region) (parSortByCachedKey cfg sz srt v) Any :=
    In.ite (fun _ => In.pureT) fun _ => In.bindT (parKeyPairs_in vin_region) fun _ => In.bindT (latePairs_in vin_region) fun _ =>
      In.bindT collectAny_ltOnly.in fun l => In.bindT (hs l).in fun _ => placeAll_in vin_region
  ⟨h.readsOnly fun _ h => h, h.holdsOnly⟩

/-! ### The hypotheses can be met -/

theorem Sample.pairSort_ltOnly (l : List (κ × Nat)) : LtOnly (Sample.pairSort (α := α) l) := by
  have h1 : ∀ p q : κ × Nat, LtOnly (α := α) (Sample.pairLess p q) := by
    refine fun p q => ⟨⟨_, _, rfl⟩, fun r => ?_⟩
    cases r with
    | none => trivial
    | some b =>
      dsimp only
      split
      · trivial
      · exact ⟨⟨_, _, rfl⟩, fun r => by cases r <;> trivial⟩
  have h2 : ∀ (p : κ × Nat) l, LtOnly (α := α) (Sample.pairInsert p l) := by
    intro p l
    induction l with
    | nil => trivial
    | cons q l ih =>
      refine LtOnly.bind (h1 q p) fun b => ?_
      cases b with
      | true => exact LtOnly.bind ih fun _ => trivial
      | false => trivial
  induction l with
  | nil => trivial
  | cons p l ih => exact LtOnly.bind ih fun _ => h2 _ _

example := sort_by_cached_key_reads (cfg := Sample.cfg) (sz := Sample.sizes) (v := Sample.view) Sample.pairSort_ltOnly
  (o := Sample.nonsense .key) (s := Sample.nstate .key)
example := par_sort_by_cached_key_reads (cfg := Sample.cfg) (sz := Sample.sizes) (v := Sample.view) Sample.pairSort_ltOnly
  (o := Sample.nonsense .key) (s := Sample.nstate .key)

end NdSlice
