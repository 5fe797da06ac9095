import Verif.Proof.Quick
import Verif.Core.TriL
import Mathlib.Tactic.Ring

/-
The sequential quicksort with the comparator "is the same as", which is not a strict weak order: the check whether the pivot equals the predecessor
succeeds for elements different from the predecessor, but `partition_equal` then takes off a single element.
-/

namespace NdSlice

variable {α ι ω : Type} {R : ι → Option ω → Prop} {rg : List Addr} {β γ : Type} {xs : List α}

namespace TriL

theorem part {l mid r : List Addr} {p : Prog α ι ω β} {A B ys : List α} {Q : β → List α → List (ι × Option ω) → Prop}
    {E : Panic → List α → List (ι × Option ω) → Prop} (h : TriL R mid p ys Q E) (hA : A.length = l.length) (hy : ys.length = mid.length) :
    TriL R (l ++ mid ++ r) p (A ++ ys ++ B) (fun b zs d => ∃ ys', ys'.length = ys.length ∧ zs = A ++ ys' ++ B ∧ Q b ys' d)
      (fun e zs d => ∃ ys', ys'.length = ys.length ∧ zs = A ++ ys' ++ B ∧ E e ys' d) := by
  intro m lg nd hm
  simp only [List.map_append] at hm
  obtain ⟨hm1, hm2⟩ := List.append_inj hm (by simp [hA, hy])
  obtain ⟨hm3, hm4⟩ := List.append_inj hm1 (by simp [hA])
  have nd' : mid.Nodup := by
    rw [List.nodup_append, List.nodup_append] at nd
    exact nd.1.2.1
  have hdl : ∀ a ∈ l, a ∉ mid := by
    rw [List.nodup_append, List.nodup_append] at nd
    exact fun a ha hb => nd.1.2.2 a ha a hb rfl
  have hdr : ∀ a ∈ r, a ∉ mid := by
    rw [List.nodup_append, List.nodup_append] at nd
    exact fun a ha hb => nd.2.2 a (by simp [hb]) a ha rfl
  have key : ∀ m' : Mem α, (∀ a, a ∉ mid → m' a = m a) → (l ++ mid ++ r).map m' = A ++ mid.map m' ++ B := by
    intro m' h
    rw [List.map_append, List.map_append, ← hm2, ← hm3]
    congr 1
    · congr 1
      exact List.map_congr_left fun a ha => h a (hdl a ha)
    · exact List.map_congr_left fun a ha => h a (hdr a ha)
  refine wp_mono (wp_unchanged (h m lg nd' hm4)) (fun a ha => by simp [ha]) ?_ ?_
  · rintro b m' _ ⟨⟨d, rfl, hq⟩, hu⟩
    exact ⟨d, rfl, mid.map m', by simp [hy], key m' hu, hq⟩
  · rintro b m' _ ⟨⟨d, rfl, hq⟩, hu⟩
    exact ⟨d, rfl, mid.map m', by simp [hy], key m' hu, hq⟩

/-- Something on some of the cells, if the contents afterwards do not matter. -/
theorem within {sub : List Addr} {p : Prog α ι ω β} {ys : List α} {Q : β → List (ι × Option ω) → Prop}
    {E : Panic → List (ι × Option ω) → Prop} (h : TriL R sub p ys (fun b _ d => Q b d) (fun e _ d => E e d)) (hs : sub.Sublist rg)
    (hin : ∀ m : Mem α, rg.map m = xs → sub.map m = ys) : TriL R rg p xs (fun b _ d => Q b d) (fun e _ d => E e d) :=
  fun m lg nd hm => wp_mono (h m lg (hs.nodup nd) (hin m hm)) (fun _ ha => hs.subset ha) (fun _ _ _ h => h) (fun _ _ _ h => h)

end TriL

/-- Runs without a panic which ask at least `n` questions. -/
abbrev TriN (R : ι → Option ω → Prop) (rg : List Addr) (p : Prog α ι ω β) (xs : List α) (n : Nat) (Q : β → List α → Prop) : Prop :=
  TriL R rg p xs (fun b ys d => Q b ys ∧ n ≤ d.length) (fun _ _ _ => False)

namespace TriN

theorem mono {p : Prog α ι ω β} {n n' : Nat} {Q Q' : β → List α → Prop} (h : TriN R rg p xs n Q) (hn : n' ≤ n)
    (hQ : ∀ b ys, Q b ys → Q' b ys) : TriN R rg p xs n' Q' :=
  TriL.mono h (fun b ys _ _ h => ⟨hQ b ys h.1, by omega⟩) (fun _ _ _ _ h => h)

theorem bind {p : Prog α ι ω β} {f : β → Prog α ι ω γ} {n n' : Nat} {Q' : β → List α → Prop} {Q : γ → List α → Prop}
    (h : TriN R rg p xs n Q') (hf : ∀ b ys, ys.length = xs.length → Q' b ys → TriN R rg (f b) ys n' Q) :
    TriN R rg (p >>= f) xs (n + n') Q := by
  refine TriL.bind h ?_ (fun _ _ _ h => h)
  intro b ys d hl hb
  refine TriL.mono (hf b ys hl hb.1) ?_ (fun _ _ _ _ h => h)
  intro c zs d' _ hc
  exact ⟨hc.1, by rw [List.length_append]; omega⟩

theorem bind0 {p : Prog α ι ω β} {f : β → Prog α ι ω γ} {n : Nat} {Q' : β → List α → Prop} {Q : γ → List α → Prop}
    (h : TriN R rg p xs 0 Q') (hf : ∀ b ys, ys.length = xs.length → Q' b ys → TriN R rg (f b) ys n Q) :
    TriN R rg (p >>= f) xs n Q := (bind h hf).mono (by omega) (fun _ _ h => h)

theorem pure {b : β} {Q : β → List α → Prop} (h : Q b xs) : TriN R rg (Pure.pure b : Prog α ι ω β) xs 0 Q :=
  TriL.pure ⟨h, Nat.zero_le _⟩

theorem of_tri {p : Prog α ι ω β} {Q : β → List α → Prop} {E : Panic → List α → Prop} (h : Tri R rg p xs Q E) (hE : ∀ e ys, ¬ E e ys) :
    TriN R rg p xs 0 Q :=
  TriL.mono (TriL.of_tri h) (fun _ _ _ _ h => ⟨h, Nat.zero_le _⟩) (fun e ys _ _ h => hE e ys h)

theorem part {l mid r : List Addr} {p : Prog α ι ω β} {A B ys : List α} {n : Nat} {Q : β → List α → Prop}
    (h : TriN R mid p ys n Q) (hA : A.length = l.length) (hy : ys.length = mid.length) :
    TriN R (l ++ mid ++ r) p (A ++ ys ++ B) n (fun b zs => ∃ ys', zs = A ++ ys' ++ B ∧ Q b ys') := by
  refine TriL.mono (TriL.part (r := r) (B := B) h hA hy) ?_ ?_
  · rintro b _ d _ ⟨ys', _, rfl, h1, h2⟩
    exact ⟨⟨ys', rfl, h1⟩, h2⟩
  · rintro b _ d _ ⟨ys', _, _, h⟩
    exact h

theorem within {sub : List Addr} {p : Prog α ι ω β} {ys : List α} {n : Nat}
    (h : TriN R sub p ys n (fun _ _ => True)) (hs : sub.Sublist rg)
    (hin : ∀ m : Mem α, rg.map m = xs → sub.map m = ys) : TriN R rg p xs n (fun _ _ => True) :=
  TriL.within (Q := fun _ d => True ∧ n ≤ d.length) (E := fun _ _ => False) h hs hin

end TriN

/-- The comparison says that an element is less than itself, and that neither of `p` and `r` is less than the other; it asks user code at least once,
and never panics. -/
structure SameLess (C : Cmp α ι ω) (p r : α) : Prop where
  ask : ∀ x y, TriL C.R [] (C.less x y) [] (fun b _ d => C.ans x y b ∧ 1 ≤ d.length) (fun _ _ _ => False)
  pan : ¬ C.pan
  rr : ∀ b, C.ans r r b → b = true
  pp : ∀ b, C.ans p p b → b = true
  pr : ∀ b, C.ans p r b → b = false
  rp : ∀ b, C.ans r p b → b = false

variable {C : Cmp α ι ω} {p r : α} {cfg : Cfg}

namespace SameLess

theorem less (H : SameLess C p r) {x y : α} {b : Bool} (hb : ∀ c, C.ans x y c → c = b) :
    TriN C.R rg (C.less x y) xs 1 (fun c ys => c = b ∧ ys = xs) := by
  refine TriL.mono (TriL.untouched (H.ask x y)) ?_ ?_
  · rintro c _ d _ ⟨rfl, h1, h2⟩; exact ⟨⟨hb c h1, rfl⟩, h2⟩
  · rintro c _ d _ ⟨_, h⟩; exact h

theorem lessB (H : SameLess C p r) {x y : α} {b : Bool} (hb : ∀ c, C.ans x y c → c = b) {k : Bool → Prog α ι ω β} {n : Nat} {Q : β → List α → Prop}
    (h : TriN C.R rg (k b) xs n Q) : TriN C.R rg (C.less x y >>= k) xs (1 + n) Q := by
  refine TriN.bind (H.less hb) ?_
  rintro _ _ _ ⟨rfl, rfl⟩
  exact h

theorem EP (H : SameLess C p r) (e : Panic) (ys : List α) : ¬ EP C xs e ys := fun h => H.pan h.2.1

end SameLess

theorem getElem?_replicate_eq {n i : Nat} {x y : α} (h : (List.replicate n y)[i]? = some x) : x = y :=
  List.eq_of_mem_replicate (List.mem_of_getElem? h)

theorem set_replicate_same {n i : Nat} {x : α} : (List.replicate n x).set i x = List.replicate n x := by
  simp

section Slow

variable (H : SameLess C p r)
include H

theorem scanEqual_same {w : View} {n : Nat} (hn : n < w.len) :
    TriN C.R w.region (scanEqual cfg (fun i => do
      let x ← w.get i
      C.less r x) n n) (List.replicate w.len r) n (fun k ys => k = 0 ∧ ys = List.replicate w.len r) := by
  induction n with
  | zero => exact TriN.pure ⟨rfl, rfl⟩
  | succ n ih =>
    unfold scanEqual
    rw [show n + 1 = 1 + n by omega]
    refine TriN.bind (Q' := fun b ys => b = true ∧ ys = List.replicate w.len r) ?_ ?_
    · refine TriL.vget (by omega) fun x hx => ?_
      obtain rfl := getElem?_replicate_eq hx
      exact H.less H.rr
    · rintro _ _ _ ⟨rfl, rfl⟩
      rw [if_pos rfl]
      refine TriL.usub (by omega) ?_
      rw [show 1 + n - 1 = n by omega]
      exact ih (by omega)

theorem partitionEqualStep_same {w : View} (hw : 1 ≤ w.len) :
    TriN C.R w.region (partitionEqualStep cfg C.less w r (0, w.len)) (List.replicate w.len r) w.len
      (fun o ys => o = .inr 0 ∧ ys = List.replicate w.len r) := by
  unfold partitionEqualStep
  obtain ⟨n, hn⟩ : ∃ n, w.len = n + 1 := ⟨w.len - 1, by omega⟩
  have e : TriN C.R w.region (scanUp (fun i => do
      let x ← w.get i
      let b ← C.less r x
      pure !b) (w.len - 0) 0) (List.replicate w.len r) 1 (fun k ys => k = 0 ∧ ys = List.replicate w.len r) := by
    rw [Nat.sub_zero]
    conv => arg 3; rw [hn]
    unfold scanUp
    refine TriN.bind (n := 1) (n' := 0) (Q' := fun b ys => b = false ∧ ys = List.replicate w.len r) ?_ ?_
    · refine TriL.vget (by omega) fun x hx => ?_
      obtain rfl := getElem?_replicate_eq hx
      exact H.lessB (n := 0) H.rr (TriN.pure (Q := fun b ys => b = false ∧ ys = List.replicate w.len x) ⟨rfl, rfl⟩)
    · rintro _ _ _ ⟨rfl, rfl⟩
      exact TriN.pure ⟨rfl, rfl⟩
  refine TriN.mono (n := 1 + (n + 0)) (TriN.bind e ?_) (by omega) (fun _ _ h => h)
  rintro _ _ _ ⟨rfl, rfl⟩
  refine TriL.usub hw ?_
  rw [Nat.sub_zero, show w.len - 1 = n by omega]
  refine TriN.bind (scanEqual_same H (by omega)) ?_
  rintro _ _ _ ⟨rfl, rfl⟩
  rw [if_pos (Nat.le_refl 0)]
  exact TriN.pure ⟨rfl, rfl⟩

theorem partitionEqual_same {v : View} {pivot : Nat} (hv : 2 ≤ v.len) (hpv : pivot < v.len) :
    TriN C.R v.region (partitionEqual cfg C.less v pivot) (List.replicate v.len r) (v.len - 1)
      (fun k ys => k = 1 ∧ ys = List.replicate v.len r) := by
  unfold partitionEqual
  refine TriL.vswap (by omega) hpv fun x y hx hy => ?_
  obtain rfl := getElem?_replicate_eq hx
  obtain rfl := getElem?_replicate_eq hy
  rw [set_replicate_same, set_replicate_same]
  refine TriL.splitAt (by omega) ?_
  dsimp only
  unfold View.idx
  rw [if_pos (by simp)]
  refine TriL.get_cell (j := 0) (by rw [View.sub_addr]; exact View.region_get v (by omega)) fun t ht => ?_
  obtain rfl := getElem?_replicate_eq ht
  dsimp only [Prog.bind]
  have hl : (v.sub 1 (v.len - 1)).len = v.len - 1 := rfl
  rw [if_neg (by simp; omega)]
  refine TriN.mono (n := (v.len - 1) + 0) (TriN.bind (Q' := fun k ys => k = 1 ∧ ys = List.replicate v.len t) ?_ ?_) (by omega) (fun _ _ h => h)
  · refine TriL.onPanic (E' := fun _ _ _ => False) ?_ (fun _ _ _ _ h => h.elim)
    have hs : v.region = (v.sub 0 1).region ++ (v.sub 1 (v.len - 1)).region ++ [] := by
      rw [List.append_nil]
      have := View.region_split v (a := 1) (n := v.len - 1) (by omega)
      rw [this, show v.len - (1 + (v.len - 1)) = 0 by omega]
      simp [View.region]
    have hr : List.replicate v.len t = List.replicate 1 t ++ List.replicate (v.sub 1 (v.len - 1)).len t ++ [] := by
      rw [List.append_nil, List.replicate_append_replicate, hl]
      congr 1; omega
    rw [hs, hr]
    have key : TriN C.R (v.sub 1 (v.len - 1)).region (do
        let l ← Prog.loop (partitionEqualStep cfg C.less (v.sub 1 (v.len - 1)) t) ((v.sub 1 (v.len - 1)).len + 1) (0, (v.sub 1 (v.len - 1)).len)
        pure (l + 1)) (List.replicate (v.sub 1 (v.len - 1)).len t) (v.len - 1)
        (fun k ys => k = 1 ∧ ys = List.replicate (v.sub 1 (v.len - 1)).len t) := by
      unfold Prog.loop
      refine TriN.bind (n := v.len - 1) (n' := 0) (Q' := fun k ys => k = 0 ∧ ys = List.replicate (v.sub 1 (v.len - 1)).len t)
        (TriN.bind (n := v.len - 1) (n' := 0) (partitionEqualStep_same H (by omega)) ?_) ?_
      · rintro _ _ _ ⟨rfl, rfl⟩
        exact TriN.pure ⟨rfl, rfl⟩
      · rintro _ _ _ ⟨rfl, rfl⟩
        exact TriN.pure ⟨rfl, rfl⟩
    refine TriN.mono (TriN.part key (by simp) (by simp)) (Nat.le_refl _) ?_
    rintro _ _ ⟨_, rfl, rfl, rfl⟩
    exact ⟨rfl, rfl⟩
  · rintro _ _ _ ⟨rfl, rfl⟩
    unfold View.set
    rw [if_pos (by simp)]
    refine TriL.set_cell (j := 0) (by rw [View.sub_addr]; exact View.region_get v (by omega)) ?_
    rw [set_replicate_same]
    exact TriN.pure ⟨rfl, rfl⟩

theorem partialInsertionLoop_same {v : View} (hv : 20 < v.len) (n : Nat) :
    TriN C.R v.region (partialInsertionLoop cfg C.less v n 1) (List.replicate v.len r) 0 (fun b ys => b = false ∧ ys = List.replicate v.len r) := by
  induction n with
  | zero => exact TriN.pure ⟨rfl, rfl⟩
  | succ n ih =>
    unfold partialInsertionLoop
    refine TriN.bind0 (Q' := fun k ys => k = 1 ∧ ys = List.replicate v.len r) ?_ ?_
    · rw [show v.len - 1 = v.len - 2 + 1 by omega]
      unfold findOutOfOrder
      refine TriL.usub (by omega) (TriL.vget (by omega) fun x hx => TriL.vget (by omega) fun y hy => ?_)
      obtain rfl := getElem?_replicate_eq hx
      obtain rfl := getElem?_replicate_eq hy
      refine TriN.mono (H.lessB H.rr (n := 0) (Q := fun k ys => k = 1 ∧ ys = List.replicate v.len y) ?_) (by omega) (fun _ _ h => h)
      exact TriN.pure ⟨rfl, rfl⟩
    · rintro _ _ _ ⟨rfl, rfl⟩
      rw [if_neg (by simp; omega)]
      by_cases h50 : v.len < 50
      · rw [if_pos h50]; exact TriN.pure ⟨rfl, rfl⟩
      · rw [if_neg h50]
        refine TriL.usub (by omega) (TriL.vswap (by omega) (by omega) fun x y hx hy => ?_)
        obtain rfl := getElem?_replicate_eq hx
        obtain rfl := getElem?_replicate_eq hy
        rw [set_replicate_same, set_replicate_same, if_neg (by omega)]
        exact ih

/-- An iteration of the loop takes off one element. -/
theorem quickStep_same {maxSeq : Option Nat} {rec : View → Option Addr → Nat → Prog α ι ω Unit} {v : View} {a : Addr} {limit : Nat} {part : Bool}
    (hv : 20 < v.len) (hlim : limit ≠ 0) :
    TriN C.R (qrg (some a) v) (quickStep cfg C.less maxSeq rec ⟨v, some a, limit, true, part⟩) (p :: List.replicate v.len r) (v.len - 1)
      (fun o ys => o = .inl ⟨v.sub 1 (v.len - 1), some a, limit, true, part⟩ ∧ ys = p :: List.replicate v.len r) := by
  have on : ∀ {β : Type} {f : Prog α ι ω β} {n : Nat} {Q : β → Prop},
      TriN C.R v.region f (List.replicate v.len r) n (fun b ys => Q b ∧ ys = List.replicate v.len r) →
      TriN C.R (qrg (some a) v) f (p :: List.replicate v.len r) n (fun b ys => Q b ∧ ys = p :: List.replicate v.len r) := by
    intro β f n Q h
    have := TriN.part (l := [a]) (r := []) (A := [p]) (B := []) h rfl (by simp)
    simp only [List.append_nil] at this
    refine TriN.mono this (Nat.le_refl _) ?_
    rintro b _ ⟨_, rfl, hb, rfl⟩
    exact ⟨hb, rfl⟩
  unfold quickStep
  dsimp only
  rw [if_neg (by omega), if_neg hlim]
  simp only [Bool.not_true, Bool.false_eq_true, if_false, Bool.true_and]
  refine TriL.pureB ?_
  refine TriN.bind0 (on (Q := fun b => b.1 < v.len) (TriN.mono (TriN.of_tri (choosePivot_spec C (by omega) (by simp)) H.EP) (Nat.le_refl _) ?_)) ?_
  · rintro b ys ⟨h1, h2⟩
    exact ⟨h2, List.perm_replicate.mp h1⟩
  rintro ⟨pivot, likely⟩ _ _ ⟨hpv, rfl⟩
  dsimp only at hpv ⊢
  refine TriN.bind0 (Q' := fun b ys => b = false ∧ ys = p :: List.replicate v.len r) ?_ ?_
  · by_cases hc : (part && likely) = true
    · rw [if_pos hc]
      exact on (partialInsertionLoop_same H hv 5)
    · rw [if_neg hc]
      exact TriN.pure ⟨rfl, rfl⟩
  rintro _ _ _ ⟨rfl, rfl⟩
  simp only [Bool.false_eq_true, if_false]
  refine TriN.bind0 (Q' := fun b ys => b = true ∧ ys = p :: List.replicate v.len r) ?_ ?_
  · unfold predCheck
    refine TriL.get_cell (j := 0) (by simp [qrg]) fun p' hp => ?_
    obtain rfl : p = p' := by simpa using hp
    unfold View.idx
    rw [if_pos hpv]
    refine TriL.get_cell (j := pivot + 1) (by show (a :: v.region)[pivot + 1]? = _; rw [List.getElem?_cons_succ]; exact View.region_get v hpv) fun x hx => ?_
    rw [List.getElem?_cons_succ] at hx
    obtain rfl := getElem?_replicate_eq hx
    exact TriN.mono (H.lessB H.pr (n := 0) (TriN.pure (Q := fun b ys => b = true ∧ ys = p :: List.replicate v.len x) ⟨rfl, rfl⟩)) (by omega) (fun _ _ h => h)
  rintro _ _ _ ⟨rfl, rfl⟩
  rw [if_pos rfl]
  refine TriN.mono (n := v.len - 1 + 0) (TriN.bind (on (partitionEqual_same H (by omega) hpv)) ?_) (by omega) (fun _ _ h => h)
  rintro _ _ _ ⟨rfl, rfl⟩
  refine TriL.splitAt (by omega) ?_
  exact TriN.pure ⟨rfl, rfl⟩

/-- The comparisons of the loop on `k` elements. -/
def oddSum : Nat → Nat
  | 0 => 0
  | k + 1 => if k + 1 ≤ 20 then 0 else k + oddSum k

omit H in
theorem oddSum_ge (k : Nat) : k * k ≤ 2 * oddSum k + k + 380 := by
  induction k with
  | zero => omega
  | succ k ih =>
    unfold oddSum
    split
    · have : (k + 1) * (k + 1) ≤ 20 * (k + 1) := Nat.mul_le_mul_right _ (by omega)
      omega
    · rw [show (k + 1) * (k + 1) = k * k + 2 * k + 1 by ring]
      omega

theorem quickLoop_same {maxSeq : Option Nat} {rec : View → Option Addr → Nat → Prog α ι ω Unit} {a : Addr} {limit : Nat} {part : Bool}
    (hlim : limit ≠ 0) (k : Nat) : ∀ (v : View) (n : Nat), v.len = k → k < n →
    TriN C.R (qrg (some a) v) (Prog.loop (quickStep cfg C.less maxSeq rec) n ⟨v, some a, limit, true, part⟩) (p :: List.replicate v.len r) (oddSum k)
      (fun _ _ => True) := by
  induction k with
  | zero =>
    intro v n hv hn
    obtain ⟨n, rfl⟩ : ∃ m, n = m + 1 := ⟨n - 1, by omega⟩
    unfold Prog.loop quickStep
    dsimp only
    rw [if_pos (by omega), if_neg (by omega)]
    exact TriN.pure trivial
  | succ k ih =>
    intro v n hv hn
    obtain ⟨n, rfl⟩ : ∃ m, n = m + 1 := ⟨n - 1, by omega⟩
    unfold Prog.loop
    by_cases h20 : v.len ≤ 20
    · rw [show oddSum (k + 1) = 0 by unfold oddSum; rw [if_pos (by omega)]]
      refine TriN.bind0 (Q' := fun o _ => o = .inr ()) ?_ ?_
      · unfold quickStep
        dsimp only
        rw [if_pos h20]
        by_cases h2 : v.len ≥ 2
        · rw [if_pos h2]
          refine TriN.bind0 (Q' := fun _ _ => True) ?_ (fun _ ys _ _ => TriN.pure (b := Sum.inr ()) (Q := fun o _ => o = .inr ()) rfl)
          refine TriN.mono (TriN.of_tri (Tri.onView (pred := some a) (P := [p]) rfl (by simp) (.refl _)
            (insertionSortShiftLeft_spec C (by omega) (by omega) (by simp))) ?_) (Nat.le_refl _) (fun _ _ _ => trivial)
          exact fun e ys h => H.pan h.2.1
        · rw [if_neg h2]; exact TriN.pure (b := Sum.inr ()) (Q := fun o _ => o = .inr ()) rfl
      · rintro _ _ _ rfl
        exact TriN.pure trivial
    · rw [show oddSum (k + 1) = (v.len - 1) + oddSum k by conv => lhs; unfold oddSum
                                                          rw [if_neg (by omega), hv]; rfl]
      refine TriN.bind (quickStep_same H (by omega) hlim) ?_
      rintro _ _ _ ⟨rfl, rfl⟩
      have hs : v.region = (v.sub 0 1).region ++ (v.sub 1 (v.len - 1)).region := by
        have := View.region_split v (a := 1) (n := v.len - 1) (by omega)
        rw [this, show v.len - (1 + (v.len - 1)) = 0 by omega]
        simp [View.region]
      have hl : (v.sub 1 (v.len - 1)).len = v.len - 1 := rfl
      refine TriN.within (ih (v.sub 1 (v.len - 1)) n (by rw [hl]; omega) (by omega)) ?_ ?_
      · unfold qrg
        rw [hs]
        exact (List.sublist_append_right _ _).append_left _
      · intro m hm
        unfold qrg at hm ⊢
        rw [hs] at hm
        rw [hl, hv] at *
        simp only [Option.toList_some, List.singleton_append, List.map_cons, List.map_append, List.cons.injEq] at hm ⊢
        refine ⟨hm.1, ?_⟩
        have := congrArg (List.drop 1) hm.2
        rw [List.drop_left' (by simp), List.drop_replicate] at this
        exact this

/-! ### The first round -/

/-- The array: a quarter `p`, and `p` at all but one of the positions `choose_pivot` looks at; the rest `r`. -/
def oddArray (p r : α) (n : Nat) : List α :=
  List.replicate (n / 4 - 1) p ++ [r, p, p] ++ List.replicate (n / 4 - 3) r ++ [p, p, p] ++ List.replicate (n / 4 - 3) r ++ [p, p, p] ++
    List.replicate (n - (n / 4 * 3 + 2)) r

omit H in
theorem oddArray_length {n : Nat} (hn : 100 ≤ n) : (oddArray p r n).length = n := by
  simp [oddArray]; omega

omit H in
theorem oddArray_get {n i : Nat} (hn : 100 ≤ n) (hi : i = n / 4 - 1 ∨ i = n / 4 ∨ i = n / 4 + 1 ∨ i = n / 4 * 2 - 1 ∨ i = n / 4 * 2 ∨
      i = n / 4 * 2 + 1 ∨ i = n / 4 * 3 - 1 ∨ i = n / 4 * 3 ∨ i = n / 4 * 3 + 1) :
    (oddArray p r n)[i]? = some (if i = n / 4 - 1 then r else p) := by
  unfold oddArray
  generalize hq : n / 4 = q at *
  have e1 : ∀ {A B : List α} {j : Nat}, A.length ≤ j → (A ++ B)[j]? = B[j - A.length]? := fun h => List.getElem?_append_right h
  have e2 : ∀ {A B : List α} {j : Nat}, j < A.length → (A ++ B)[j]? = A[j]? := fun h => List.getElem?_append_left h
  rw [e2 (by simp; omega)]
  by_cases h3 : q * 3 - 1 ≤ i
  · rw [e1 (by simp; omega), if_neg (by omega)]
    have : i - (List.replicate (q - 1) p ++ [r, p, p] ++ List.replicate (q - 3) r ++ [p, p, p] ++ List.replicate (q - 3) r).length = i - (q * 3 - 1) := by
      simp; omega
    rw [this]
    rcases (by omega : i - (q * 3 - 1) = 0 ∨ i - (q * 3 - 1) = 1 ∨ i - (q * 3 - 1) = 2) with h | h | h <;> rw [h] <;> rfl
  · rw [e2 (by simp; omega), e2 (by simp; omega)]
    by_cases h2 : q * 2 - 1 ≤ i
    · rw [e1 (by simp; omega), if_neg (by omega)]
      have : i - (List.replicate (q - 1) p ++ [r, p, p] ++ List.replicate (q - 3) r).length = i - (q * 2 - 1) := by
        simp; omega
      rw [this]
      rcases (by omega : i - (q * 2 - 1) = 0 ∨ i - (q * 2 - 1) = 1 ∨ i - (q * 2 - 1) = 2) with h | h | h <;> rw [h] <;> rfl
    · rw [e2 (by simp; omega), e2 (by simp; omega), e1 (by simp; omega)]
      have : i - (List.replicate (q - 1) p).length = i - (q - 1) := by simp
      rw [this]
      rcases (by omega : i - (q - 1) = 0 ∨ i - (q - 1) = 1 ∨ i - (q - 1) = 2) with h | h | h <;> rw [h]
      · rw [if_pos (by omega)]; rfl
      · rw [if_neg (by omega)]; rfl
      · rw [if_neg (by omega)]; rfl

omit H in
theorem oddArray_mem {n : Nat} {x : α} (h : x ∈ oddArray p r n) : x = p ∨ x = r := by
  simp only [oddArray, List.mem_append, List.mem_replicate, List.mem_cons, List.not_mem_nil, or_false] at h
  grind

omit H in
theorem oddArray_count [DecidableEq α] {n : Nat} (hn : 100 ≤ n) (hpr : p ≠ r) : (oddArray p r n).count p = n / 4 + 7 := by
  have : r ≠ p := fun h => hpr h.symm
  simp [oddArray, List.count_append, List.count_replicate, this]
  omega

theorem sort2_val {v : View} {a b s : Nat} {x y : α} {c : Bool} (ha : a < v.len) (hb : b < v.len) (hx : xs[a]? = some x) (hy : xs[b]? = some y)
    (hc : ∀ d, C.ans y x d → d = c) :
    Tri C.R v.region (sort2 C.less v a b s) xs (fun o ys => o = (if c then (b, a, s + 1) else (a, b, s)) ∧ ys = xs) (fun _ _ => False) := by
  unfold sort2
  refine Tri.vget hb fun y' hy' => Tri.vget ha fun x' hx' => ?_
  rw [hx] at hx'; rw [hy] at hy'
  injection hx' with hx'; injection hy' with hy'
  subst hx'; subst hy'
  refine Tri.lessB C (fun d hd => ?_) (fun h => H.pan h)
  obtain rfl := hc d hd
  cases d with
  | true => exact Tri.pure ⟨rfl, rfl⟩
  | false => exact Tri.pure ⟨rfl, rfl⟩

theorem sort3_ppp {v : View} {a b c s : Nat} (ha : a < v.len) (hb : b < v.len) (hc : c < v.len) (ea : xs[a]? = some p) (eb : xs[b]? = some p)
    (ec : xs[c]? = some p) :
    Tri C.R v.region (sort3 C.less v a b c s) xs (fun o ys => o = (c, b, a, s + 3) ∧ ys = xs) (fun _ _ => False) := by
  unfold sort3
  refine Tri.bind (sort2_val H ha hb ea eb H.pp) ?_
  rintro _ _ _ ⟨rfl, rfl⟩
  refine Tri.bind (sort2_val H ha hc ea ec H.pp) ?_
  rintro _ _ _ ⟨rfl, rfl⟩
  refine Tri.bind (sort2_val H hb hc eb ec H.pp) ?_
  rintro _ _ _ ⟨rfl, rfl⟩
  exact Tri.pure ⟨rfl, rfl⟩

theorem sort3_rpp {v : View} {a b c s : Nat} (ha : a < v.len) (hb : b < v.len) (hc : c < v.len) (ea : xs[a]? = some r) (eb : xs[b]? = some p)
    (ec : xs[c]? = some p) :
    Tri C.R v.region (sort3 C.less v a b c s) xs (fun o ys => o = (a, c, b, s + 1) ∧ ys = xs) (fun _ _ => False) := by
  unfold sort3
  refine Tri.bind (sort2_val H ha hb ea eb H.pr) ?_
  rintro _ _ _ ⟨rfl, rfl⟩
  refine Tri.bind (sort2_val H hb hc eb ec H.pp) ?_
  rintro _ _ _ ⟨rfl, rfl⟩
  refine Tri.bind (sort2_val H ha hc ea ec H.pr) ?_
  rintro _ _ _ ⟨rfl, rfl⟩
  exact Tri.pure ⟨rfl, rfl⟩

theorem choosePivot_first {v : View} (hv : 100 ≤ v.len) :
    Tri C.R v.region (choosePivot cfg C.less v) (oddArray p r v.len)
      (fun o ys => o = (v.len / 4 * 2, false) ∧ ys = oddArray p r v.len) (fun _ _ => False) := by
  have P : ∀ i, i ≠ v.len / 4 - 1 → (i = v.len / 4 - 1 ∨ i = v.len / 4 ∨ i = v.len / 4 + 1 ∨ i = v.len / 4 * 2 - 1 ∨ i = v.len / 4 * 2 ∨
      i = v.len / 4 * 2 + 1 ∨ i = v.len / 4 * 3 - 1 ∨ i = v.len / 4 * 3 ∨ i = v.len / 4 * 3 + 1) → (oddArray p r v.len)[i]? = some p := by
    intro i h1 h2
    rw [oddArray_get hv h2, if_neg h1]
  unfold choosePivot
  refine Tri.bind (Q' := fun o ys => o = (v.len / 4 * 2, 10) ∧ ys = oddArray p r v.len) ?_ ?_
  · unfold chooseMedian
    dsimp only
    rw [if_pos (by omega)]
    refine Tri.bind (Q' := fun o ys => o = (v.len / 4 + 1, v.len / 4 * 2, v.len / 4 * 3, 7) ∧ ys = oddArray p r v.len) ?_ ?_
    · rw [if_pos (by omega)]
      refine Tri.bind (Q' := fun o ys => o = (v.len / 4 + 1, 1) ∧ ys = oddArray p r v.len) ?_ ?_
      · unfold sortAdjacent
        refine Tri.usub (by omega) (Tri.bind (sort3_rpp H (by omega) (by omega) (by omega) ?_ (P _ (by omega) (by omega)) (P _ (by omega) (by omega))) ?_)
        · rw [oddArray_get hv (by omega), if_pos rfl]
        · rintro _ _ _ ⟨rfl, rfl⟩
          exact Tri.pure ⟨rfl, rfl⟩
      rintro _ _ _ ⟨rfl, rfl⟩
      dsimp only
      refine Tri.bind (Q' := fun o ys => o = (v.len / 4 * 2, 4) ∧ ys = oddArray p r v.len) ?_ ?_
      · unfold sortAdjacent
        refine Tri.usub (by omega) (Tri.bind (sort3_ppp H (by omega) (by omega) (by omega) (P _ (by omega) (by omega)) (P _ (by omega) (by omega))
          (P _ (by omega) (by omega))) ?_)
        rintro _ _ _ ⟨rfl, rfl⟩
        exact Tri.pure ⟨rfl, rfl⟩
      rintro _ _ _ ⟨rfl, rfl⟩
      dsimp only
      refine Tri.bind (Q' := fun o ys => o = (v.len / 4 * 3, 7) ∧ ys = oddArray p r v.len) ?_ ?_
      · unfold sortAdjacent
        refine Tri.usub (by omega) (Tri.bind (sort3_ppp H (by omega) (by omega) (by omega) (P _ (by omega) (by omega)) (P _ (by omega) (by omega))
          (P _ (by omega) (by omega))) ?_)
        rintro _ _ _ ⟨rfl, rfl⟩
        exact Tri.pure ⟨rfl, rfl⟩
      rintro _ _ _ ⟨rfl, rfl⟩
      exact Tri.pure ⟨rfl, rfl⟩
    · rintro _ _ _ ⟨rfl, rfl⟩
      dsimp only
      refine Tri.bind (sort3_ppp H (by omega) (by omega) (by omega) (P _ (by omega) (by omega)) (P _ (by omega) (by omega))
          (P _ (by omega) (by omega))) ?_
      rintro _ _ _ ⟨rfl, rfl⟩
      exact Tri.pure ⟨rfl, rfl⟩
  · rintro _ _ _ ⟨rfl, rfl⟩
    dsimp only
    rw [if_pos (by omega)]
    exact Tri.pure ⟨rfl, rfl⟩

/-- The first partition takes off the elements `p`, and leaves the elements `r` with predecessor `p`. -/
theorem quickStep_first [DecidableEq α] {d : Nat} {v : View} {limit : Nat} (hpr : p ≠ r) (hv : 100 ≤ v.len) (hlim : limit ≠ 0)
    (hd : DepthOk none (d + 1) v.len) :
    TriN C.R v.region (quickStep cfg C.less none (recurse cfg C.less none d) ⟨v, none, limit, true, true⟩) (oddArray p r v.len) 0
      (fun o ys => ∃ part A, A.length = v.len / 4 + 6 ∧ ys = A ++ p :: List.replicate (v.len - (v.len / 4 + 7)) r ∧
        o = .inl ⟨v.sub (v.len / 4 + 7) (v.len - (v.len / 4 + 7)), some (v.addr (v.len / 4 + 6)), limit, true, part⟩) := by
  unfold quickStep
  dsimp only
  rw [if_neg (by omega), if_neg hlim]
  simp only [Bool.not_true, Bool.false_eq_true, if_false, Bool.true_and]
  refine TriL.pureB ?_
  refine TriN.bind0 (TriN.of_tri (choosePivot_first H hv) (fun _ _ h => h)) ?_
  rintro _ _ _ ⟨rfl, rfl⟩
  dsimp only
  simp only [Bool.false_eq_true, if_false]
  refine TriL.pureB ?_
  simp only [Bool.false_eq_true, if_false]
  unfold predCheck
  refine TriL.pureB ?_
  simp only [Bool.false_eq_true, if_false]
  unfold quickSplit
  dsimp only
  refine TriN.bind0 (TriN.of_tri (partition_spec C (oddArray_length hv) (by omega)) H.EP) ?_
  rintro ⟨mid, wasP⟩ _ _ ⟨hperm, p', A, B, hp', rfl, hm, hA, hB⟩
  dsimp only at hm
  rw [oddArray_get hv (by omega), if_neg (by omega)] at hp'
  injection hp' with hp'
  subst hp'
  have hrp : r ≠ p := fun h => hpr h.symm
  have hA' : A = List.replicate A.length p := by
    refine List.eq_replicate_iff.mpr ⟨rfl, fun a ha => ?_⟩
    rcases oddArray_mem (hperm.mem_iff.mp (show a ∈ A ++ p :: B by simp [ha])) with rfl | rfl
    · rfl
    · exact absurd (H.rp _ (hA _ ha)) (by simp)
  have hB' : B = List.replicate B.length r := by
    refine List.eq_replicate_iff.mpr ⟨rfl, fun a ha => ?_⟩
    rcases oddArray_mem (hperm.mem_iff.mp (show a ∈ A ++ p :: B by simp [ha])) with rfl | rfl
    · exact absurd (H.pp _ (hB _ ha)) (by simp)
    · rfl
  have hl := hperm.length_eq
  rw [oddArray_length hv] at hl
  have hc := hperm.count_eq p
  rw [oddArray_count hv hpr, hA', hB'] at hc
  simp [List.count_append, List.count_replicate, hrp] at hc hl
  have hmid : mid = v.len / 4 + 6 := by omega
  have hAl : A.length = v.len / 4 + 6 := by omega
  have hBl : B.length = v.len - (v.len / 4 + 7) := by omega
  subst hmid
  rw [hBl] at hB'
  refine TriL.usub (by omega) (TriL.splitAt (by omega) ?_)
  dsimp only
  refine TriL.splitAt (by simp; omega) ?_
  dsimp only
  unfold View.ref
  rw [if_pos (by simp)]
  refine TriL.pureB ?_
  rw [View.sub_sub, View.sub_addr, View.sub_addr, Nat.add_zero, Nat.add_zero, View.sub_len,
    show v.len - (v.len / 4 + 6) - 1 = v.len - (v.len / 4 + 7) by omega]
  unfold quickDescend goesSeq
  dsimp only
  rw [if_pos rfl, View.sub_len, View.sub_len, if_pos (by omega)]
  have hrec := recurse_spec (C := C) (cfg := cfg) none d (v.sub 0 (v.len / 4 + 6)) none limit [] A (hd.half (by simp; omega) (by omega)) rfl hAl
  have hreg := region_three (v := v) (mid := v.len / 4 + 6) (by omega)
  rw [hreg]
  have := Tri.part (l := []) (A := []) (r := v.addr (v.len / 4 + 6) :: (v.sub (v.len / 4 + 6 + 1) (v.len - (v.len / 4 + 6 + 1))).region)
    (B := p :: B) hrec rfl (by simp [qrg, hAl])
  simp only [List.nil_append] at this
  refine TriN.bind0 (TriN.of_tri this ?_) ?_
  · rintro e _ ⟨_, _, _, h⟩
    exact H.pan h.2.1
  · rintro _ _ _ ⟨A1, hl1, rfl, _⟩
    refine TriN.pure ⟨wasP, A1, hl1.trans hAl, by rw [hB'], ?_⟩
    rw [decide_eq_true (by omega)]

theorem quickSort_odd [DecidableEq α] {v : View} (hz : cfg.zst = false) (hpr : p ≠ r) (hv : 100 ≤ v.len) :
    TriN C.R v.region (quickSort cfg C.less v) (oddArray p r v.len) (oddSum (v.len - (v.len / 4 + 7))) (fun _ _ => True) := by
  unfold quickSort
  rw [if_neg (by simp [hz])]
  unfold recurse
  unfold Prog.loop
  have hb : bitLen v.len ≠ 0 := by unfold bitLen; rw [if_neg (by omega)]; omega
  refine TriN.bind0 (quickStep_first H hpr hv hb ⟨Nat.lt_log2_self, by omega⟩) ?_
  rintro _ _ _ ⟨part, A, hA, rfl, rfl⟩
  have hreg := region_three (v := v) (mid := v.len / 4 + 6) (by omega)
  refine TriN.within (quickLoop_same H hb _ (v.sub (v.len / 4 + 7) (v.len - (v.len / 4 + 7))) v.len rfl (by simp; omega)) ?_ ?_
  · rw [hreg]
    exact List.sublist_append_right _ _
  · intro m hm
    rw [hreg, List.map_append] at hm
    exact (List.append_inj hm (by simp [hA])).2

end Slow

end NdSlice
