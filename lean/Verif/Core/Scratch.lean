import Verif.Core.Tri

/-
Triples for programs which use scratch memory besides the array: the scratch cells may be used freely and their contents
are of no interest.
-/

namespace NdSlice

variable {α ι ω : Type} {R : ι → Option ω → Prop} {β γ : Type}

/-- `p` works on the cells `rg` with contents `xs`, using the cells `sc` as scratch memory. -/
def TriS (R : ι → Option ω → Prop) (rg sc : List Addr) {β : Type} (p : Prog α ι ω β) (xs : List α)
    (Q : β → List α → Prop) (E : Panic → List α → Prop) : Prop :=
  ∀ bs, bs.length = sc.length → Tri R (rg ++ sc) p (xs ++ bs)
    (fun b zs => ∃ ys bs', ys.length = xs.length ∧ bs'.length = sc.length ∧ zs = ys ++ bs' ∧ Q b ys)
    (fun e zs => ∃ ys bs', ys.length = xs.length ∧ bs'.length = sc.length ∧ zs = ys ++ bs' ∧ E e ys)

namespace TriS

variable {rg sc : List Addr} {xs : List α}

theorem of_length {p : Prog α ι ω β} {Q : β → List α → Prop} {E : Panic → List α → Prop}
    (h : xs.length = rg.length → TriS R rg sc p xs Q E) : TriS R rg sc p xs Q E := by
  intro bs hbs
  refine Tri.of_length fun hl => ?_
  exact h (by simp at hl; omega) bs hbs

theorem of_tri {p : Prog α ι ω β} {Q : β → List α → Prop} {E : Panic → List α → Prop}
    (h : Tri R rg p xs Q E) : TriS R rg sc p xs Q E := by
  refine of_length fun hl => ?_
  intro bs hbs
  have := Tri.part (l := []) (r := sc) (A := []) (B := bs) h rfl hl
  simp only [List.nil_append] at this
  refine Tri.mono this ?_ ?_
  · rintro b zs _ ⟨ys, h1, rfl, h2⟩
    exact ⟨ys, bs, h1, hbs, rfl, h2⟩
  · rintro b zs _ ⟨ys, h1, rfl, h2⟩
    exact ⟨ys, bs, h1, hbs, rfl, h2⟩

theorem mono {p : Prog α ι ω β} {Q Q' : β → List α → Prop} {E E' : Panic → List α → Prop}
    (h : TriS R rg sc p xs Q E) (hQ : ∀ b ys, ys.length = xs.length → Q b ys → Q' b ys)
    (hE : ∀ e ys, ys.length = xs.length → E e ys → E' e ys) : TriS R rg sc p xs Q' E' := by
  intro bs hbs
  refine Tri.mono (h bs hbs) ?_ ?_
  · rintro b zs _ ⟨ys, bs', h1, h2, rfl, h3⟩
    exact ⟨ys, bs', h1, h2, rfl, hQ _ _ h1 h3⟩
  · rintro b zs _ ⟨ys, bs', h1, h2, rfl, h3⟩
    exact ⟨ys, bs', h1, h2, rfl, hE _ _ h1 h3⟩

theorem bind {p : Prog α ι ω β} {f : β → Prog α ι ω γ} {Q' : β → List α → Prop}
    {Q : γ → List α → Prop} {E : Panic → List α → Prop}
    (h : TriS R rg sc p xs Q' E) (hf : ∀ b ys, ys.length = xs.length → Q' b ys → TriS R rg sc (f b) ys Q E) :
    TriS R rg sc (p >>= f) xs Q E := by
  intro bs hbs
  refine Tri.bind (h bs hbs) ?_
  rintro b zs _ ⟨ys, bs', h1, h2, rfl, h3⟩
  refine Tri.mono (hf b ys h1 h3 bs' h2) ?_ ?_
  · rintro c ws _ ⟨us, bs'', g1, g2, rfl, g3⟩
    exact ⟨us, bs'', g1.trans h1, g2, rfl, g3⟩
  · rintro c ws _ ⟨us, bs'', g1, g2, rfl, g3⟩
    exact ⟨us, bs'', g1.trans h1, g2, rfl, g3⟩

theorem pure {b : β} {Q : β → List α → Prop} {E : Panic → List α → Prop} (h : Q b xs) :
    TriS R rg sc (Pure.pure b : Prog α ι ω β) xs Q E :=
  fun bs hbs => Tri.pure ⟨xs, bs, rfl, hbs, rfl, h⟩

theorem pureB {b : β} {f : β → Prog α ι ω γ} {Q : γ → List α → Prop} {E : Panic → List α → Prop}
    (h : TriS R rg sc (f b) xs Q E) : TriS R rg sc ((Pure.pure b : Prog α ι ω β) >>= f) xs Q E := h

theorem throw {e : Panic} {Q : β → List α → Prop} {E : Panic → List α → Prop} (h : E e xs) :
    TriS R rg sc (Prog.throw e : Prog α ι ω β) xs Q E :=
  fun bs hbs => Tri.throw ⟨xs, bs, rfl, hbs, rfl, h⟩

theorem onPanic {p : Prog α ι ω β} {g : Prog α ι ω Unit} {Q : β → List α → Prop}
    {E E' : Panic → List α → Prop} (h : TriS R rg sc p xs Q E')
    (hg : ∀ e ys, ys.length = xs.length → E' e ys → TriS R rg sc g ys (fun _ zs => E e zs) E) :
    TriS R rg sc (p.onPanic g) xs Q E := by
  intro bs hbs
  refine Tri.onPanic (h bs hbs) ?_
  rintro e zs _ ⟨ys, bs', h1, h2, rfl, h3⟩
  refine Tri.mono (hg e ys h1 h3 bs' h2) ?_ ?_
  · rintro c ws _ ⟨us, bs'', g1, g2, rfl, g3⟩
    exact ⟨us, bs'', g1.trans h1, g2, rfl, g3⟩
  · rintro c ws _ ⟨us, bs'', g1, g2, rfl, g3⟩
    exact ⟨us, bs'', g1.trans h1, g2, rfl, g3⟩

theorem loop {s r : Type} {body : s → Prog α ι ω (s ⊕ r)} {Inv : s → List α → Prop}
    {μ : s → Nat} {Q : r → List α → Prop} {E : Panic → List α → Prop} {n : Nat} {x : s}
    (hI : Inv x xs) (hn : μ x < n)
    (hb : ∀ x ys, ys.length = xs.length → Inv x ys → TriS R rg sc (body x) ys
      (fun o zs => match o with
        | .inl x' => Inv x' zs ∧ μ x' < μ x
        | .inr y => Q y zs) E) :
    TriS R rg sc (Prog.loop body n x) xs Q E := by
  suffices H : ∀ n x ys, ys.length = xs.length → Inv x ys → μ x < n → TriS R rg sc (Prog.loop body n x) ys Q E from
    H n x xs rfl hI hn
  intro n
  induction n with
  | zero => intro x ys _ _ h; exact absurd h (Nat.not_lt_zero _)
  | succ n ih =>
    intro x ys hl hx hlt
    refine bind (hb x ys hl hx) ?_
    intro o zs hl' ho
    cases o with
    | inl x' => exact ih x' zs (hl'.trans hl) ho.1 (by have := ho.2; omega)
    | inr y => exact pure ho

/-- Work on a part of the region, with all of the scratch memory. -/
theorem part {l mid r : List Addr} {p : Prog α ι ω β} {A ys B : List α} {Q : β → List α → Prop} {E : Panic → List α → Prop}
    (h : TriS R mid sc p ys Q E) (hA : A.length = l.length) (hy : ys.length = mid.length) :
    TriS R (l ++ mid ++ r) sc p (A ++ ys ++ B)
      (fun b zs => ∃ ys', ys'.length = ys.length ∧ zs = A ++ ys' ++ B ∧ Q b ys')
      (fun e zs => ∃ ys', ys'.length = ys.length ∧ zs = A ++ ys' ++ B ∧ E e ys') := by
  refine of_length fun hl => ?_
  have hB : B.length = r.length := by simp at hl; omega
  intro bs hbs
  refine Tri.mono (Tri.frame (sub := mid ++ sc) (rest := l ++ r) (ys := ys ++ bs) (zs := A ++ B)
    (arr := fun us => A ++ us.take ys.length ++ B ++ us.drop ys.length) ?_ ?_ ?_ (h bs hbs)) ?_ ?_
  · have h1 : (l ++ mid ++ r ++ sc).Perm ((mid ++ (l ++ r)) ++ sc) := by
      refine List.Perm.append_right _ ?_
      rw [← List.append_assoc]
      exact List.Perm.append_right _ List.perm_append_comm
    refine h1.trans ?_
    rw [List.append_assoc mid, List.append_assoc mid]
    exact List.Perm.append_left _ List.perm_append_comm
  · intro m hm
    simp only [List.map_append] at hm ⊢
    obtain ⟨hm, h4⟩ := List.append_inj hm (by simp; omega)
    obtain ⟨hm, h3⟩ := List.append_inj hm (by simp; omega)
    obtain ⟨h1, h2⟩ := List.append_inj hm (by simp; omega)
    rw [h1, h2, h3, h4]
    exact ⟨rfl, rfl⟩
  · intro m hm
    simp only [List.map_append] at hm ⊢
    obtain ⟨h1, h2⟩ := List.append_inj hm (by simp; omega)
    rw [h1, h2, List.take_left' (by simp; omega), List.drop_left' (by simp; omega)]
  · rintro b ws _ ⟨us, h1, rfl, ys', bs', h2, h3, rfl, h4⟩
    refine ⟨A ++ ys' ++ B, bs', by simp; omega, h3, ?_, ys', h2, rfl, h4⟩
    rw [List.take_left' (by omega), List.drop_left' (by omega)]
  · rintro b ws _ ⟨us, h1, rfl, ys', bs', h2, h3, rfl, h4⟩
    refine ⟨A ++ ys' ++ B, bs', by simp; omega, h3, ?_, ys', h2, rfl, h4⟩
    rw [List.take_left' (by omega), List.drop_left' (by omega)]

/-- Work on a sub-view, with all of the scratch memory. -/
theorem subMono {v : View} {a n : Nat} {p : Prog α ι ω β} {Q' Q : β → List α → Prop} {E' E : Panic → List α → Prop}
    (ha : a + n ≤ v.len) (h : TriS R (v.sub a n).region sc p ((xs.drop a).take n) Q' E')
    (hQ : ∀ b ys, ys.length = n → Q' b ys → Q b (xs.take a ++ ys ++ xs.drop (a + n)))
    (hE : ∀ e ys, ys.length = n → E' e ys → E e (xs.take a ++ ys ++ xs.drop (a + n))) :
    TriS R v.region sc p xs Q E := by
  refine of_length fun hx => ?_
  rw [View.region_length] at hx
  have hl : ((xs.drop a).take n).length = n := by simp; omega
  have hx' : xs = xs.take a ++ (xs.drop a).take n ++ xs.drop (a + n) := by
    rw [List.append_assoc, ← List.drop_drop, List.take_append_drop, List.take_append_drop]
  have := part (r := (v.sub (a + n) (v.len - (a + n))).region) (l := (v.sub 0 a).region) (A := xs.take a) (B := xs.drop (a + n)) h
    (by simp; omega) (by simpa using hl)
  rw [← View.region_split v ha, ← hx', hl] at this
  refine mono this ?_ ?_
  · rintro b _ _ ⟨ys, h1, rfl, h2⟩; exact hQ b ys h1 h2
  · rintro b _ _ ⟨ys, h1, rfl, h2⟩; exact hE b ys h1 h2

theorem slice {v : View} {a b : Nat} {k : View → Prog α ι ω β} {Q : β → List α → Prop} {E : Panic → List α → Prop}
    (hab : a ≤ b) (hb : b ≤ v.len)
    (h : TriS R rg sc (k (v.sub a (b - a))) xs Q E) : TriS R rg sc (v.slice a b >>= k) xs Q E :=
  fun bs hbs => Tri.slice hab hb (h bs hbs)

theorem usub {cfg : Cfg} {a b : Nat} {k : Nat → Prog α ι ω β} {Q : β → List α → Prop} {E : Panic → List α → Prop} (hab : b ≤ a)
    (h : TriS R rg sc (k (a - b)) xs Q E) : TriS R rg sc (NdSlice.usub cfg a b >>= k) xs Q E :=
  fun bs hbs => Tri.usub hab (h bs hbs)

theorem debugAssert {cfg : Cfg} {c : Bool} {k : Unit → Prog α ι ω β} {Q : β → List α → Prop} {E : Panic → List α → Prop} (hc : c = true)
    (h : TriS R rg sc (k ()) xs Q E) : TriS R rg sc (NdSlice.debugAssert cfg c >>= k) xs Q E :=
  fun bs hbs => Tri.debugAssert hc (h bs hbs)

end TriS

end NdSlice
