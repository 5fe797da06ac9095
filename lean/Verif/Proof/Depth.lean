import Verif.Model.Select
import Verif.Model.ParMerge
import Verif.Model.Extend
import Verif.Core.Sim

/-
How deep the recursions go: beyond a certain bound a greater bound on the depth gives the same program.
-/

namespace NdSlice

variable {α ι ω β γ : Type} {cfg : Cfg} {less : α → α → Prog α ι ω Bool}

/-! ### Values a program can return -/

/-- Whatever is read and answered, `p` returns values with `P` only. -/
def Rets (P : β → Prop) : Prog α ι ω β → Prop
  | .ret b => P b
  | .get _ k => ∀ x, Rets P (k x)
  | .set _ _ k => Rets P k
  | .call _ k => ∀ r, Rets P (k r)
  | .choose k => ∀ b, Rets P (k b)
  | .throw _ => True
  | .ub => True
  | .diverge => True
  | .join _ _ k => ∀ r t, Rets P (k r t)

namespace Rets

theorem mono {P Q : β → Prop} {p : Prog α ι ω β} (h : Rets P p) (hq : ∀ b, P b → Q b) : Rets Q p := by
  induction p with
  | ret b => exact hq b h
  | get a k ih => exact fun x => ih x (h x) hq
  | set a x k ih => exact ih h hq
  | call q k ih => exact fun r => ih r (h r) hq
  | choose k ih => exact fun b => ih b (h b) hq
  | throw e => trivial
  | ub => trivial
  | diverge => trivial
  | join p q k _ _ ih => exact fun r t => ih r t (h r t) hq

theorem any {p : Prog α ι ω β} : Rets (fun _ => True) p := by
  induction p with
  | ret b => trivial
  | get a k ih => exact fun x => ih x
  | set a x k ih => exact ih
  | call q k ih => exact fun r => ih r
  | choose k ih => exact fun b => ih b
  | throw e => trivial
  | ub => trivial
  | diverge => trivial
  | join p q k _ _ ih => exact fun r t => ih r t

theorem bind {P : β → Prop} {Q : γ → Prop} {p : Prog α ι ω β} {f : β → Prog α ι ω γ} (h : Rets P p) (hf : ∀ b, P b → Rets Q (f b)) :
    Rets Q (p >>= f) := by
  show Rets Q (p.bind f)
  induction p with
  | ret b => exact hf b h
  | get a k ih => exact fun x => ih x (h x) hf
  | set a x k ih => exact ih h hf
  | call q k ih => exact fun r => ih r (h r) hf
  | choose k ih => exact fun b => ih b (h b) hf
  | throw e => trivial
  | ub => trivial
  | diverge => trivial
  | join p q k _ _ ih => exact fun r t => ih r t (h r t) hf

theorem onPanic {P : β → Prop} {p : Prog α ι ω β} {g : Prog α ι ω Unit} (h : Rets P p) : Rets P (p.onPanic g) := by
  induction p with
  | ret b => exact h
  | get a k ih => exact fun x => ih x (h x)
  | set a x k ih => exact ih h
  | call q k ih => exact fun r => ih r (h r)
  | choose k ih => exact fun b => ih b (h b)
  | throw e => exact bind (p := g) (f := fun _ => .throw e) any fun _ _ => trivial
  | ub => trivial
  | diverge => trivial
  | join p q k _ _ ih => exact fun r t => ih r t (h r t)

theorem loop {S R : Type} {body : S → Prog α ι ω (S ⊕ R)} {I : S → Prop} {P : R → Prop}
    (hb : ∀ x, I x → Rets (fun r => match r with | .inl x' => I x' | .inr y => P y) (body x)) {n : Nat} {x : S} (hx : I x) :
    Rets P (Prog.loop body n x) := by
  induction n generalizing x with
  | zero => trivial
  | succ n ih =>
    refine bind (hb x hx) ?_
    rintro (x' | y) h
    · exact ih h
    · exact h

/-- Continuations which agree on the values returned. -/
theorem congr {P : β → Prop} {p : Prog α ι ω β} {f g : β → Prog α ι ω γ} (h : Rets P p) (hf : ∀ b, P b → f b = g b) : p >>= f = p >>= g := by
  show p.bind f = p.bind g
  induction p with
  | ret b => exact hf b h
  | get a k ih => exact congrArg (Prog.get a) (funext fun x => ih x (h x) hf)
  | set a x k ih => exact congrArg (Prog.set a x) (ih h hf)
  | call q k ih => exact congrArg (Prog.call q) (funext fun x => ih x (h x) hf)
  | choose k ih => exact congrArg Prog.choose (funext fun x => ih x (h x) hf)
  | throw e => rfl
  | ub => rfl
  | diverge => rfl
  | join p q k _ _ ih => exact congrArg (Prog.join p q) (funext fun r => funext fun t => ih r t (h r t) hf)

theorem splitAt {v : View} {i : Nat} :
    Rets (fun r => i ≤ v.len ∧ r = (v.sub 0 i, v.sub i (v.len - i))) (v.splitAt i : Prog α ι ω (View × View)) := by
  unfold View.splitAt
  split
  · rename_i h; exact ⟨h, rfl⟩
  · trivial

theorem vslice {v : View} {a b : Nat} : Rets (fun w => w = v.sub a ((if b < a then a else b) - a)) (v.slice a b : Prog α ι ω View) := by
  unfold View.slice
  generalize (if b < a then a else b) = e
  dsimp only
  split
  · rfl
  · trivial

end Rets

theorem Prog.bind_congr {p : Prog α ι ω β} {f g : β → Prog α ι ω γ} (h : ∀ b, f b = g b) : p >>= f = p >>= g := by
  rw [show f = g from funext h]

/-! ### Selecting many -/

/-- Half of the list on both sides. -/
theorem half_lt {is : List Nat} {d : Nat} {p : Nat} (hp : is[is.length / 2]? = some p) (h : is.length < 2 ^ (d + 1)) :
    (is.take (is.length / 2)).length < 2 ^ d ∧ (is.drop (is.length / 2 + 1)).length < 2 ^ d := by
  have := (List.getElem?_eq_some_iff.mp hp).1
  rw [List.length_take, List.length_drop]
  rw [Nat.pow_succ] at h
  omega

theorem partitionAtIndices_depth {d d' off : Nat} {v : View} {is : List Nat} (h : is.length < 2 ^ d) (h' : is.length < 2 ^ d') :
    partitionAtIndices cfg less (d + 1) v off is = partitionAtIndices cfg less (d' + 1) v off is := by
  induction d generalizing d' v off is with
  | zero =>
    have : is = [] := List.eq_nil_of_length_eq_zero (by omega)
    subst this
    rfl
  | succ d ih =>
    cases d' with
    | zero =>
      have : is = [] := List.eq_nil_of_length_eq_zero (by omega)
      subst this
      rfl
    | succ d' =>
      rw [partitionAtIndices, partitionAtIndices.eq_def cfg less (d' + 1 + 1)]
      dsimp only
      split
      · rfl
      · rename_i p hp
        have h1 := half_lt hp h
        have h2 := half_lt hp h'
        refine Prog.bind_congr fun i => Prog.bind_congr fun r => ?_
        rw [ih h1.1 h2.1]
        refine Prog.bind_congr fun xs => ?_
        rw [ih h1.2 h2.2]

theorem parPartitionAtIndices_depth {d d' off vs vl : Nat} {v : View} {is : List Nat} (h : is.length < 2 ^ d) (h' : is.length < 2 ^ d') :
    parPartitionAtIndices cfg less (d + 1) v off is vs vl = parPartitionAtIndices cfg less (d' + 1) v off is vs vl := by
  induction d generalizing d' v off is vs vl with
  | zero =>
    have : is = [] := List.eq_nil_of_length_eq_zero (by omega)
    subst this
    rfl
  | succ d ih =>
    cases d' with
    | zero =>
      have : is = [] := List.eq_nil_of_length_eq_zero (by omega)
      subst this
      rfl
    | succ d' =>
      rw [parPartitionAtIndices, parPartitionAtIndices.eq_def cfg less (d' + 1 + 1)]
      dsimp only
      split
      · rfl
      · rename_i p hp
        have h1 := half_lt hp h
        have h2 := half_lt hp h'
        refine Prog.bind_congr fun i => Prog.bind_congr fun r => ?_
        rw [ih h1.1 h2.1, ih h1.2 h2.2]

theorem partitionAtIndicesExt_depth {d d' off : Nat} {v : View} {is : List Nat} {held : List Addr} (h : is.length < 2 ^ d) (h' : is.length < 2 ^ d') :
    partitionAtIndicesExt cfg less (d + 1) v off is held = partitionAtIndicesExt cfg less (d' + 1) v off is held := by
  induction d generalizing d' v off is held with
  | zero =>
    have : is = [] := List.eq_nil_of_length_eq_zero (by omega)
    subst this
    rfl
  | succ d ih =>
    cases d' with
    | zero =>
      have : is = [] := List.eq_nil_of_length_eq_zero (by omega)
      subst this
      rfl
    | succ d' =>
      rw [partitionAtIndicesExt, partitionAtIndicesExt.eq_def cfg less (d' + 1 + 1)]
      dsimp only
      split
      · rfl
      · rename_i p hp
        have h1 := half_lt hp h
        have h2 := half_lt hp h'
        refine Prog.bind_congr fun i => Prog.bind_congr fun r => ?_
        rw [ih h1.1 h2.1]
        refine Prog.bind_congr fun xs => Prog.bind_congr fun _ => ?_
        rw [ih h1.2 h2.2]

/-! ### Median of medians -/

theorem fracOf_le12 (n : Nat) : fracOf cfg n ≤ n / 12 := by
  unfold fracOf
  split
  · omega
  · split <;> omega

theorem medianOfNinthers_congr {rec rec' : View → Nat → Prog α ι ω Unit} {v : View}
    (h : ∀ w k, w.len ≤ v.len / 12 → rec w k = rec' w k) : medianOfNinthers cfg less rec v = medianOfNinthers cfg less rec' v := by
  unfold medianOfNinthers
  refine Prog.bind_congr fun lo => Prog.bind_congr fun g => Prog.bind_congr fun a => Prog.bind_congr fun a => Prog.bind_congr fun _ => ?_
  refine Rets.congr Rets.vslice ?_
  rintro _ rfl
  rw [h]
  have := fracOf_le12 (cfg := cfg) v.len
  have h2 : ¬ lo + fracOf cfg v.len < lo := by omega
  rw [if_neg h2]
  show lo + fracOf cfg v.len - lo ≤ _
  omega

theorem momLoop_congr {rec rec' : View → Nat → Prog α ι ω Unit} {n k : Nat} {v : View}
    (h : 10 < v.len → ∀ w k, w.len ≤ v.len / 12 → rec w k = rec' w k) : momLoop cfg less rec n v k = momLoop cfg less rec' n v k := by
  induction n generalizing v k with
  | zero => rfl
  | succ n ih =>
    unfold momLoop
    split
    · rfl
    rename_i h10
    refine Prog.bind_congr fun last => ?_
    split
    · rfl
    split
    · rfl
    rw [medianOfNinthers_congr (h (by omega))]
    refine Prog.bind_congr fun p => ?_
    split
    · rfl
    split
    · refine Rets.congr Rets.splitAt ?_
      rintro _ ⟨h1, rfl⟩
      refine ih ?_
      intro _ w k hw
      have hw : w.len ≤ _ / 12 := hw
      exact h (by omega) w k (Nat.le_trans hw (Nat.div_le_div_right h1))
    · refine Rets.congr Rets.splitAt ?_
      rintro _ ⟨h1, rfl⟩
      refine Prog.bind_congr fun k => ih ?_
      intro _ w k hw
      exact h (by omega) w k (Nat.le_trans hw (Nat.div_le_div_right (Nat.sub_le _ _)))

theorem medianOfMedians_depth {d d' k : Nat} {v : View} (h : v.len < 11 * 12 ^ d) (h' : v.len < 11 * 12 ^ d') :
    medianOfMedians cfg less (d + 1) v k = medianOfMedians cfg less (d' + 1) v k := by
  induction d generalizing d' v k with
  | zero =>
    unfold medianOfMedians
    refine Prog.bind_congr fun _ => Prog.bind_congr fun _ => momLoop_congr fun h10 => ?_
    omega
  | succ d ih =>
    cases d' with
    | zero =>
      rw [medianOfMedians, medianOfMedians.eq_def cfg less (0 + 1)]
      dsimp only
      refine Prog.bind_congr fun _ => Prog.bind_congr fun _ => momLoop_congr fun h10 => ?_
      omega
    | succ d' =>
      rw [medianOfMedians, medianOfMedians.eq_def cfg less (d' + 1 + 1)]
      dsimp only
      refine Prog.bind_congr fun _ => Prog.bind_congr fun _ => momLoop_congr fun h10 w k hw => ih ?_ ?_
      · rw [Nat.pow_succ] at h; omega
      · rw [Nat.pow_succ] at h'; omega

/-! ### Merging in parallel -/

theorem splitRight_rets {left right : View} {m n : Nat} :
    Rets (fun a => a ≤ right.len) (Prog.loop (splitRightBody less left right m) n (0, right.len)) := by
  refine Rets.loop (I := fun x => x.1 ≤ right.len ∧ x.2 ≤ right.len) ?_ ⟨Nat.zero_le _, Nat.le_refl _⟩
  rintro ⟨a, b⟩ ⟨ha, hb⟩
  unfold splitRightBody
  dsimp only at ha hb ⊢
  split
  · refine Rets.bind Rets.any fun _ _ => Rets.bind Rets.any fun _ _ => Rets.bind Rets.any fun c _ => ?_
    cases c
    · exact ⟨ha, by show a + (b - a) / 2 ≤ _; omega⟩
    · exact ⟨by show a + (b - a) / 2 + 1 ≤ _; omega, hb⟩
  · exact ha

theorem splitLeft_rets {left right : View} {m n : Nat} :
    Rets (fun a => a ≤ left.len) (Prog.loop (splitLeftBody less left right m) n (0, left.len)) := by
  refine Rets.loop (I := fun x => x.1 ≤ left.len ∧ x.2 ≤ left.len) ?_ ⟨Nat.zero_le _, Nat.le_refl _⟩
  rintro ⟨a, b⟩ ⟨ha, hb⟩
  unfold splitLeftBody
  dsimp only at ha hb ⊢
  split
  · refine Rets.bind Rets.any fun _ _ => Rets.bind Rets.any fun _ _ => Rets.bind Rets.any fun c _ => ?_
    cases c
    · exact ⟨by show a + (b - a) / 2 + 1 ≤ _; omega, hb⟩
    · exact ⟨ha, by show a + (b - a) / 2 ≤ _; omega⟩
  · exact ha

/-- The longer side is halved. -/
theorem splitForMerge_rets {left right : View} : Rets (fun r => (right.len ≤ left.len ∧ r.1 = left.len / 2 ∧ r.2 ≤ right.len) ∨
    (left.len < right.len ∧ r.1 ≤ left.len ∧ r.2 = right.len / 2)) (splitForMerge less left right) := by
  unfold splitForMerge
  split
  · rename_i h
    exact Rets.bind splitRight_rets fun a ha => .inl ⟨h, rfl, ha⟩
  · rename_i h
    exact Rets.bind splitLeft_rets fun a ha => .inr ⟨by omega, ha, rfl⟩

/-- Enough nested calls for the lengths. -/
def MergeDepth (n l r : Nat) : Prop := ∃ a b, l ≤ 2 ^ a ∧ r ≤ 2 ^ b ∧ a + b < n

theorem MergeDepth.left {n l r l' r' : Nat} (h : MergeDepth (n + 1) l r) (hl : l' ≤ l / 2 ∨ l' ≤ l - l / 2) (h2 : 2 ≤ l) (hr : r' ≤ r) : MergeDepth n l' r' := by
  obtain ⟨a, b, h3, h4, h5⟩ := h
  cases a with
  | zero => omega
  | succ a =>
    rw [Nat.pow_succ] at h3
    exact ⟨a, b, by omega, by omega, by omega⟩

theorem MergeDepth.right {n l r l' r' : Nat} (h : MergeDepth (n + 1) l r) (hr : r' ≤ r / 2 ∨ r' ≤ r - r / 2) (h2 : 2 ≤ r) (hl : l' ≤ l) : MergeDepth n l' r' := by
  obtain ⟨a, b, h3, h4, h5⟩ := h
  cases b with
  | zero => omega
  | succ b =>
    rw [Nat.pow_succ] at h4
    exact ⟨a, b, by omega, by omega, by omega⟩

theorem parMerge_depth {n n' : Nat} {left right dest : View} (h : MergeDepth n left.len right.len) (h' : MergeDepth n' left.len right.len) :
    parMerge cfg less n left right dest = parMerge cfg less n' left right dest := by
  induction n generalizing n' left right dest with
  | zero => obtain ⟨a, b, -, -, h⟩ := h; omega
  | succ n ih =>
    cases n' with
    | zero => obtain ⟨a, b, -, -, h⟩ := h'; omega
    | succ n' =>
      unfold parMerge
      split
      · rfl
      rename_i hs
      simp only [Bool.or_eq_true, beq_iff_eq, decide_eq_true_eq, not_or] at hs
      refine Rets.congr (P := fun r : View × View × View × View => MergeDepth n r.1.len r.2.2.1.len ∧ MergeDepth n r.2.1.len r.2.2.2.len ∧
        MergeDepth n' r.1.len r.2.2.1.len ∧ MergeDepth n' r.2.1.len r.2.2.2.len)
        (Rets.onPanic (Rets.bind splitForMerge_rets ?_)) ?_
      · rintro ⟨lm, rm⟩ hm
        refine Rets.bind Rets.splitAt ?_
        rintro _ ⟨h1, rfl⟩
        refine Rets.bind Rets.splitAt ?_
        rintro _ ⟨h2, rfl⟩
        show MergeDepth n lm rm ∧ MergeDepth n (left.len - lm) (right.len - rm) ∧ MergeDepth n' lm rm ∧ MergeDepth n' (left.len - lm) (right.len - rm)
        dsimp only at hm
        rcases hm with ⟨h3, rfl, h4⟩ | ⟨h3, h4, rfl⟩
        · exact ⟨h.left (.inl (Nat.le_refl _)) (by omega) h4, h.left (.inr (Nat.le_refl _)) (by omega) (by omega),
            h'.left (.inl (Nat.le_refl _)) (by omega) h4, h'.left (.inr (Nat.le_refl _)) (by omega) (by omega)⟩
        · exact ⟨h.right (.inl (Nat.le_refl _)) (by omega) h4, h.right (.inr (Nat.le_refl _)) (by omega) (by omega),
            h'.right (.inl (Nat.le_refl _)) (by omega) h4, h'.right (.inr (Nat.le_refl _)) (by omega) (by omega)⟩
      · rintro ⟨ll, lr, rl, rr⟩ ⟨h1, h2, h3, h4⟩
        refine Prog.bind_congr fun r => ?_
        dsimp only
        rw [ih h1 h3, ih h2 h4]

theorem chunkAt_rets {cs : List (Nat × Nat)} {i : Nat} : Rets (fun _ => i < cs.length) (chunkAt cs i : Prog α ι ω (Nat × Nat)) := by
  unfold chunkAt
  split
  · rename_i h
    exact (List.getElem?_eq_some_iff.mp h).1
  · trivial

theorem parRecurse_depth {d d' : Nat} {v buf : View} {cs : List (Nat × Nat)} {into : Bool} (h : cs.length ≤ 2 ^ d) (h' : cs.length ≤ 2 ^ d') :
    parRecurse cfg less v buf (d + 1) cs into = parRecurse cfg less v buf (d' + 1) cs into := by
  induction d generalizing d' cs into with
  | zero =>
    unfold parRecurse
    refine Prog.bind_congr fun _ => ?_
    split
    · rfl
    rename_i h1
    simp only [beq_iff_eq] at h1
    exact Rets.congr chunkAt_rets fun b hb => by omega
  | succ d ih =>
    unfold parRecurse
    refine Prog.bind_congr fun _ => ?_
    split
    · rfl
    rename_i h1
    simp only [beq_iff_eq] at h1
    refine Rets.congr chunkAt_rets fun b hb => ?_
    cases d' with
    | zero => omega
    | succ d' =>
      rw [Nat.pow_succ] at h h'
      refine Prog.bind_congr fun _ => Prog.bind_congr fun _ => Prog.bind_congr fun _ => Prog.bind_congr fun _ => ?_
      rw [ih (d' := d') (cs := cs.take (cs.length / 2)) (by rw [List.length_take]; omega) (by rw [List.length_take]; omega),
        ih (d' := d') (cs := cs.drop (cs.length / 2)) (by rw [List.length_drop]; omega) (by rw [List.length_drop]; omega)]

/-- `parRecurse` with the bound `e` on the nested calls of `parMerge`. -/
def parRecurseAt (cfg : Cfg) (less : α → α → Prog α ι ω Bool) (e : Nat) (v buf : View) : Nat → List (Nat × Nat) → Bool → Prog α ι ω Unit
  | 0, _, _ => .diverge
  | k + 1, chunks, intoBuf => do
    debugAssert cfg (decide (chunks.length > 0))
    if chunks.length == 1 then
      if intoBuf then do
        let (start, fin) ← chunkAt chunks 0
        copyUp v buf start start (fin - start)
      else pure ()
    else do
      let (start, _) ← chunkAt chunks 0
      let (mid, _) ← chunkAt chunks (chunks.length / 2)
      let last ← usub cfg chunks.length 1
      let (_, fin) ← chunkAt chunks last
      let src := if intoBuf then v else buf
      let dest := if intoBuf then buf else v
      let n ← usub cfg fin start
      let _ ← (Prog.rayonJoin (parRecurseAt cfg less e v buf k (chunks.take (chunks.length / 2)) !intoBuf)
        (parRecurseAt cfg less e v buf k (chunks.drop (chunks.length / 2)) !intoBuf)).onPanic (copyUp src dest start start n)
      let sl ← src.slice start mid
      let sr ← src.slice mid fin
      let d ← dest.slice start dest.len
      parMerge cfg less e sl sr d

theorem vslice_len {v : View} {a b : Nat} : Rets (fun w => w.len ≤ v.len) (v.slice a b : Prog α ι ω View) := by
  unfold View.slice
  split
  · dsimp only
    split
    · show a - a ≤ v.len; omega
    · trivial
  · dsimp only
    split
    · show b - a ≤ v.len; omega
    · trivial

theorem parRecurseAt_eq {a k : Nat} {v buf : View} {cs : List (Nat × Nat)} {into : Bool} (hv : v.len ≤ 2 ^ a) (hb : buf.len ≤ 2 ^ a) :
    parRecurse cfg less v buf k cs into = parRecurseAt cfg less (2 * a + 1) v buf k cs into := by
  induction k generalizing cs into with
  | zero => rfl
  | succ k ih =>
    unfold parRecurse parRecurseAt
    refine Prog.bind_congr fun _ => ?_
    split
    · rfl
    refine Prog.bind_congr fun _ => Prog.bind_congr fun _ => Prog.bind_congr fun _ => Prog.bind_congr fun _ => Prog.bind_congr fun _ => ?_
    rw [ih, ih]
    have hs : (if into = true then v else buf).len ≤ 2 ^ a := by split <;> assumption
    refine Prog.bind_congr fun _ => Rets.congr vslice_len fun sl h1 => Rets.congr vslice_len fun sr h2 => Prog.bind_congr fun d => ?_
    exact parMerge_depth ⟨sl.len, sr.len, Nat.le_of_lt Nat.lt_two_pow_self, Nat.le_of_lt Nat.lt_two_pow_self, by omega⟩ ⟨a, a, by omega, by omega, by omega⟩

/-! ### The number of chunks -/

variable {σ : Type}

/-- Values returned by a run. -/
def Gives (o : Oracle σ ι ω) (P : β → Prop) (p : Prog α ι ω β) : Prop := ∀ s b s', run o p s = (.ok b, s') → P b

theorem Gives.bind {o : Oracle σ ι ω} {P : β → Prop} {Q : γ → Prop} {p : Prog α ι ω β} {f : β → Prog α ι ω γ} (h : Gives o P p)
    (hf : ∀ b, P b → Gives o Q (f b)) : Gives o Q (p >>= f) := by
  intro s c s' e
  rw [run_bind] at e
  rcases hp : run o p s with ⟨r, s1⟩
  rw [hp] at e
  cases r with
  | ok b => exact hf b (h s b s1 hp) s1 c s' e
  | panic => cases e
  | ub => cases e
  | diverge => cases e

theorem Gives.any {o : Oracle σ ι ω} {p : Prog α ι ω β} : Gives o (fun _ => True) p := fun _ _ _ _ => trivial

theorem Gives.pure {o : Oracle σ ι ω} {P : β → Prop} {b : β} (h : P b) : Gives o P (Pure.pure b : Prog α ι ω β) := by
  intro s c s' e
  cases e
  exact h

theorem Gives.rayonJoin {o : Oracle σ ι ω} {P : γ → Prop} {p : Prog α ι ω β} {q : Prog α ι ω γ} (h : Gives o P q) :
    Gives o (fun r => P r.2) (Prog.rayonJoin p q) := by
  intro s c s' e
  unfold Prog.rayonJoin at e
  simp only [run] at e
  rcases hp : run o p s with ⟨_ | _ | _ | _, s1⟩ <;> rw [hp] at e <;> dsimp only at e
  · rcases hq : run o q s1 with ⟨_ | _ | _ | _, s2⟩ <;> rw [hq] at e <;> cases e
    exact h _ _ _ hq
  · rcases hq : run o q s1 with ⟨_ | _ | _ | _, s2⟩ <;> rw [hq] at e <;> cases e
  · cases e
  · cases e

theorem chunkTasks_gives {o : Oracle σ ι ω} {v buf : View} {i n : Nat} : Gives o (fun rs => rs.length = n) (chunkTasks cfg less v buf i n) := by
  induction n generalizing i with
  | zero => exact Gives.pure rfl
  | succ n ih =>
    unfold chunkTasks
    refine Gives.bind (Gives.rayonJoin ih) ?_
    rintro ⟨r, rs⟩ h
    exact Gives.pure (by simpa using h)

theorem lateChunks_gives {o : Oracle σ ι ω} {v buf : View} {i : Nat} {rs : List (Option (Nat × Nat × MergesortResult))} :
    Gives o (fun ts => ts.length = rs.length) (lateChunks cfg less v buf i rs) := by
  induction rs generalizing i with
  | nil => exact Gives.pure rfl
  | cons r rs ih =>
    cases r with
    | none =>
      unfold lateChunks
      exact Gives.bind Gives.any fun _ _ => Gives.bind ih fun ts h => Gives.pure (by simp [h])
    | some r =>
      unfold lateChunks
      exact Gives.bind ih fun ts h => Gives.pure (by simp [h])

theorem concatChunks_gives {o : Oracle σ ι ω} {v : View} {a b : Nat} {res : MergesortResult} {rs : List (Nat × Nat × MergesortResult)} :
    Gives o (fun cs => 0 < cs.length ∧ cs.length ≤ rs.length + 1) (concatChunks cfg less v a b res rs) := by
  induction rs generalizing a b res with
  | nil =>
    unfold concatChunks
    exact Gives.bind Gives.any fun _ _ => Gives.pure (by simp)
  | cons r rs ih =>
    obtain ⟨x, y, r⟩ := r
    unfold concatChunks
    refine Gives.bind Gives.any fun c _ => ?_
    split
    · intro s b s' e
      have := ih s b s' e
      simp only [List.length_cons]
      omega
    · exact Gives.bind Gives.any fun _ _ => Gives.bind ih fun cs h => Gives.pure (by simpa using h.2)

theorem Gives.congr {o : Oracle σ ι ω} {P : β → Prop} {p : Prog α ι ω β} {f g : β → Prog α ι ω γ} (h : Gives o P p) {s : St α ι ω σ}
    (hf : ∀ b s, P b → run o (f b) s = run o (g b) s) : run o (p >>= f) s = run o (p >>= g) s := by
  rw [run_bind, run_bind]
  rcases hp : run o p s with ⟨r, s1⟩
  cases r with
  | ok b => exact hf b s1 (h s b s1 hp)
  | panic => rfl
  | ub => rfl
  | diverge => rfl

end NdSlice
