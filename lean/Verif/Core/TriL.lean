import Verif.Core.Tri

/-
Triples which also speak about the questions asked: `TriL R rg p xs Q E` is like `Tri R rg p xs Q E`, and `Q` and `E` are given
the questions asked (and the answers) while `p` ran.
-/

namespace NdSlice

variable {α ι ω : Type} {R : ι → Option ω → Prop}

/-- See the top of this file. -/
def TriL (R : ι → Option ω → Prop) (rg : List Addr) {β : Type} (p : Prog α ι ω β) (xs : List α)
    (Q : β → List α → List (ι × Option ω) → Prop) (E : Panic → List α → List (ι × Option ω) → Prop) : Prop :=
  ∀ m lg, rg.Nodup → rg.map m = xs →
    wp R p (· ∈ rg) (fun b m' lg' => ∃ d, lg' = lg ++ d ∧ Q b (rg.map m') d) (fun e m' lg' => ∃ d, lg' = lg ++ d ∧ E e (rg.map m') d) m lg

variable {rg : List Addr} {β γ : Type} {xs : List α}

namespace TriL

theorem mono {p : Prog α ι ω β} {Q Q' : β → List α → List (ι × Option ω) → Prop} {E E' : Panic → List α → List (ι × Option ω) → Prop}
    (h : TriL R rg p xs Q E) (hQ : ∀ b ys d, ys.length = xs.length → Q b ys d → Q' b ys d)
    (hE : ∀ e ys d, ys.length = xs.length → E e ys d → E' e ys d) : TriL R rg p xs Q' E' := by
  intro m lg nd hm
  have hl : ∀ m' : Mem α, (rg.map m').length = xs.length := by intro m'; rw [← hm]; simp
  refine wp_mono (h m lg nd hm) (fun _ h => h) ?_ ?_
  · rintro b m' _ ⟨d, rfl, h⟩; exact ⟨d, rfl, hQ b _ d (hl m') h⟩
  · rintro b m' _ ⟨d, rfl, h⟩; exact ⟨d, rfl, hE b _ d (hl m') h⟩

theorem bind {p : Prog α ι ω β} {f : β → Prog α ι ω γ} {Q' : β → List α → List (ι × Option ω) → Prop}
    {Q : γ → List α → List (ι × Option ω) → Prop} {E E' : Panic → List α → List (ι × Option ω) → Prop}
    (h : TriL R rg p xs Q' E')
    (hf : ∀ b ys d, ys.length = xs.length → Q' b ys d →
      TriL R rg (f b) ys (fun c zs d' => Q c zs (d ++ d')) (fun e zs d' => E e zs (d ++ d')))
    (hE : ∀ e ys d, E' e ys d → E e ys d) :
    TriL R rg (p >>= f) xs Q E := by
  intro m lg nd hm
  have hl : ∀ m' : Mem α, (rg.map m').length = xs.length := by intro m'; rw [← hm]; simp
  refine wp_bind (wp_mono (h m lg nd hm) (fun _ h => h) ?_ ?_)
  · rintro b m' _ ⟨d, rfl, h⟩
    refine wp_mono (hf b _ d (hl m') h m' (lg ++ d) nd rfl) (fun _ h => h) ?_ ?_
    · rintro c m'' _ ⟨d', rfl, h⟩; exact ⟨d ++ d', by simp, h⟩
    · rintro c m'' _ ⟨d', rfl, h⟩; exact ⟨d ++ d', by simp, h⟩
  · rintro e m' _ ⟨d, rfl, h⟩; exact ⟨d, rfl, hE _ _ _ h⟩

theorem pure {b : β} {Q : β → List α → List (ι × Option ω) → Prop} {E : Panic → List α → List (ι × Option ω) → Prop} (h : Q b xs []) :
    TriL R rg (Pure.pure b : Prog α ι ω β) xs Q E := by
  intro m lg nd hm
  subst hm
  exact ⟨[], by simp, h⟩

theorem pureB {b : β} {f : β → Prog α ι ω γ} {Q : γ → List α → List (ι × Option ω) → Prop}
    {E : Panic → List α → List (ι × Option ω) → Prop} (h : TriL R rg (f b) xs Q E) :
    TriL R rg ((Pure.pure b : Prog α ι ω β) >>= f) xs Q E := h

theorem throw {e : Panic} {Q : β → List α → List (ι × Option ω) → Prop} {E : Panic → List α → List (ι × Option ω) → Prop} (h : E e xs []) :
    TriL R rg (Prog.throw e : Prog α ι ω β) xs Q E := by
  intro m lg nd hm
  subst hm
  exact ⟨[], by simp, h⟩

theorem call {q : ι} {k : Option ω → Prog α ι ω β} {Q : β → List α → List (ι × Option ω) → Prop}
    {E : Panic → List α → List (ι × Option ω) → Prop}
    (h : ∀ r, R q r → TriL R rg (k r) xs (fun b ys d => Q b ys ((q, r) :: d)) (fun e ys d => E e ys ((q, r) :: d))) :
    TriL R rg (Prog.call q k) xs Q E := by
  intro m lg nd hm r hr
  refine wp_mono (h r hr m (lg ++ [(q, r)]) nd hm) (fun _ h => h) ?_ ?_
  · rintro b m' _ ⟨d, rfl, h⟩; exact ⟨_, by simp, h⟩
  · rintro b m' _ ⟨d, rfl, h⟩; exact ⟨_, by simp, h⟩

theorem onPanic {p : Prog α ι ω β} {g : Prog α ι ω Unit} {Q : β → List α → List (ι × Option ω) → Prop}
    {E E' : Panic → List α → List (ι × Option ω) → Prop} (h : TriL R rg p xs Q E')
    (hg : ∀ e ys d, ys.length = xs.length → E' e ys d →
      TriL R rg g ys (fun _ zs d' => E e zs (d ++ d')) (fun e zs d' => E e zs (d ++ d'))) :
    TriL R rg (p.onPanic g) xs Q E := by
  intro m lg nd hm
  have hl : ∀ m' : Mem α, (rg.map m').length = xs.length := by intro m'; rw [← hm]; simp
  refine wp_onPanic (wp_mono (h m lg nd hm) (fun _ h => h) (fun _ _ _ h => h) ?_)
  rintro b m' _ ⟨d, rfl, h⟩
  refine wp_mono (hg b _ d (hl m') h m' (lg ++ d) nd rfl) (fun _ h => h) ?_ ?_
  · rintro c m'' _ ⟨d', rfl, h⟩; exact ⟨d ++ d', by simp, h⟩
  · rintro c m'' _ ⟨d', rfl, h⟩; exact ⟨d ++ d', by simp, h⟩

theorem loop {s r : Type} {body : s → Prog α ι ω (s ⊕ r)} {Inv : s → List α → List (ι × Option ω) → Prop}
    {μ : s → Nat} {Q : r → List α → List (ι × Option ω) → Prop} {E : Panic → List α → List (ι × Option ω) → Prop} {n : Nat} {x : s}
    {d : List (ι × Option ω)}
    (hI : Inv x xs d) (hn : μ x < n)
    (hb : ∀ x ys d, ys.length = xs.length → Inv x ys d → TriL R rg (body x) ys
      (fun o zs d' => match o with
        | .inl x' => Inv x' zs (d ++ d') ∧ μ x' < μ x
        | .inr y => Q y zs (d ++ d')) (fun e zs d' => E e zs (d ++ d'))) :
    TriL R rg (Prog.loop body n x) xs (fun y zs d' => Q y zs (d ++ d')) (fun e zs d' => E e zs (d ++ d')) := by
  have main : ∀ n x (ys : List α) d, ys.length = xs.length → Inv x ys d → μ x < n →
      TriL R rg (Prog.loop body n x) ys (fun y zs d' => Q y zs (d ++ d')) (fun e zs d' => E e zs (d ++ d')) := by
    intro n
    induction n with
    | zero => exact fun _ _ _ _ _ h => absurd h (Nat.not_lt_zero _)
    | succ n ih =>
      intro x ys d hl hI hn
      refine TriL.bind (hb x ys d hl hI) ?_ (fun _ _ _ h => h)
      intro o zs d' hz ho
      cases o with
      | inl x' =>
        refine TriL.mono (ih x' zs (d ++ d') (hz.trans hl) ho.1 (by have := ho.2; omega)) ?_ ?_
        · intro b ws d'' _ h; rwa [← List.append_assoc]
        · intro b ws d'' _ h; rwa [← List.append_assoc]
      | inr y => exact TriL.pure (by rw [List.append_nil]; exact ho)
  exact main n x xs d rfl hI hn

/-- `loop` from an empty log. -/
theorem loop0 {s r : Type} {body : s → Prog α ι ω (s ⊕ r)} {Inv : s → List α → List (ι × Option ω) → Prop}
    {μ : s → Nat} {Q : r → List α → List (ι × Option ω) → Prop} {E : Panic → List α → List (ι × Option ω) → Prop} {n : Nat} {x : s}
    (hI : Inv x xs []) (hn : μ x < n)
    (hb : ∀ x ys d, ys.length = xs.length → Inv x ys d → TriL R rg (body x) ys
      (fun o zs d' => match o with
        | .inl x' => Inv x' zs (d ++ d') ∧ μ x' < μ x
        | .inr y => Q y zs (d ++ d')) (fun e zs d' => E e zs (d ++ d'))) :
    TriL R rg (Prog.loop body n x) xs Q E := loop (d := []) hI hn hb

theorem choose {k : Bool → Prog α ι ω β} {Q : β → List α → List (ι × Option ω) → Prop}
    {E : Panic → List α → List (ι × Option ω) → Prop} (h : ∀ b, TriL R rg (k b) xs Q E) : TriL R rg (Prog.choose k) xs Q E :=
  fun m lg nd hm b => h b m lg nd hm

/-- A program that touches no memory leaves it unchanged. -/
theorem untouched {p : Prog α ι ω β} {Q : β → List α → List (ι × Option ω) → Prop}
    {E : Panic → List α → List (ι × Option ω) → Prop} (h : TriL R [] p [] Q E) :
    TriL R rg p xs (fun b ys d => ys = xs ∧ Q b [] d) (fun e ys d => ys = xs ∧ E e [] d) := by
  intro m lg nd hm
  refine wp_mono (wp_unchanged (h m lg List.nodup_nil rfl)) (fun _ h => absurd h List.not_mem_nil) ?_ ?_
  · rintro b m' _ ⟨⟨d, rfl, h⟩, hu⟩
    exact ⟨d, rfl, by rw [← hm]; exact List.map_congr_left fun a _ => hu a List.not_mem_nil, h⟩
  · rintro b m' _ ⟨⟨d, rfl, h⟩, hu⟩
    exact ⟨d, rfl, by rw [← hm]; exact List.map_congr_left fun a _ => hu a List.not_mem_nil, h⟩

/-- `rayon::join` on separate parts of the region: the questions of the two sides are asked in any order. -/
theorem rayonJoin {rg1 rg2 : List Addr} {p : Prog α ι ω β} {q : Prog α ι ω γ}
    {A B : List α} {Q1 : β → List α → List (ι × Option ω) → Prop} {E1 : Panic → List α → List (ι × Option ω) → Prop}
    {Q2 : γ → List α → List (ι × Option ω) → Prop} {E2 : Panic → List α → List (ι × Option ω) → Prop}
    {Q : β × γ → List α → List (ι × Option ω) → Prop} {E : Panic → List α → List (ι × Option ω) → Prop}
    (hA : A.length = rg1.length)
    (hp : TriL R rg1 p A Q1 E1) (hq : TriL R rg2 q B Q2 E2)
    (h1 : ∀ b c A' B' d1 d2 d, A'.length = A.length → B'.length = B.length → Q1 b A' d1 → Q2 c B' d2 → d.Perm (d1 ++ d2) → Q (b, c) (A' ++ B') d)
    (h2 : ∀ e c A' B' d1 d2 d, A'.length = A.length → B'.length = B.length → E1 e A' d1 → Q2 c B' d2 → d.Perm (d1 ++ d2) → E e (A' ++ B') d)
    (h3 : ∀ b e A' B' d1 d2 d, A'.length = A.length → B'.length = B.length → Q1 b A' d1 → E2 e B' d2 → d.Perm (d1 ++ d2) → E e (A' ++ B') d)
    (h4 : ∀ e e' A' B' d1 d2 d, A'.length = A.length → B'.length = B.length → E1 e A' d1 → E2 e' B' d2 → d.Perm (d1 ++ d2) → E e (A' ++ B') d) :
    TriL R (rg1 ++ rg2) (Prog.rayonJoin p q) (A ++ B) Q E := by
  intro m lg nd hm
  rw [List.map_append] at hm
  obtain ⟨hm1, hm2⟩ := List.append_inj hm (by simp [hA])
  rw [List.nodup_append] at nd
  refine ⟨(· ∈ rg1), (· ∈ rg2), fun a h => by simp [h], fun a h => by simp [h], fun a h1 h2 => nd.2.2 a h1 a h2 rfl,
    fun r m' l => match r with | .ok b => Q1 b (rg1.map m') l | .panic e => E1 e (rg1.map m') l,
    fun r m' l => match r with | .ok b => Q2 b (rg2.map m') l | .panic e => E2 e (rg2.map m') l,
    wp_mono (hp m [] nd.1 hm1) (fun _ h => h) (by rintro b m' _ ⟨d, rfl, h⟩; exact h) (by rintro b m' _ ⟨d, rfl, h⟩; exact h),
    wp_mono (hq m [] nd.2.1 hm2) (fun _ h => h) (by rintro b m' _ ⟨d, rfl, h⟩; exact h) (by rintro b m' _ ⟨d, rfl, h⟩; exact h), ?_⟩
  intro r t m1 m2 l1 l2 hr ht m' d e1 e2 _ hd
  have f1 : rg1.map m' = rg1.map m1 := List.map_congr_left fun a ha => e1 a ha
  have f2 : rg2.map m' = rg2.map m2 := List.map_congr_left fun a ha => e2 a ha
  have la : (rg1.map m1).length = A.length := by simp [hA]
  have lb : (rg2.map m2).length = B.length := by rw [← hm2]; simp
  have fm : (rg1 ++ rg2).map m' = rg1.map m1 ++ rg2.map m2 := by rw [List.map_append, f1, f2]
  cases r with
  | ok b =>
    cases t with
    | ok c => exact ⟨d, rfl, fm ▸ h1 b c _ _ _ _ d la lb hr ht hd⟩
    | panic e => exact ⟨d, rfl, fm ▸ h3 b e _ _ _ _ d la lb hr ht hd⟩
  | panic e =>
    cases t with
    | ok c => exact ⟨d, rfl, fm ▸ h2 e c _ _ _ _ d la lb hr ht hd⟩
    | panic e' => exact ⟨d, rfl, fm ▸ h4 e e' _ _ _ _ d la lb hr ht hd⟩

theorem of_length {p : Prog α ι ω β} {Q : β → List α → List (ι × Option ω) → Prop} {E : Panic → List α → List (ι × Option ω) → Prop}
    (h : rg.length = xs.length → TriL R rg p xs Q E) : TriL R rg p xs Q E := by
  intro m lg nd hm
  exact h (by rw [← hm]; simp) m lg nd hm

theorem of_nodup {p : Prog α ι ω β} {Q : β → List α → List (ι × Option ω) → Prop} {E : Panic → List α → List (ι × Option ω) → Prop}
    (h : rg.Nodup → TriL R rg p xs Q E) : TriL R rg p xs Q E :=
  fun m lg nd hm => h nd m lg nd hm

/-- Every fact about contents is one which does not look at the log. -/
theorem tri {p : Prog α ι ω β} {Q : β → List α → Prop} {E : Panic → List α → Prop}
    (h : TriL R rg p xs (fun b ys _ => Q b ys) (fun e ys _ => E e ys)) : Tri R rg p xs Q E := by
  intro m lg nd hm
  refine wp_mono (h m lg nd hm) (fun _ h => h) ?_ ?_
  · rintro b m' _ ⟨d, rfl, h⟩; exact h
  · rintro b m' _ ⟨d, rfl, h⟩; exact h

theorem of_tri {p : Prog α ι ω β} {Q : β → List α → Prop} {E : Panic → List α → Prop}
    (h : Tri R rg p xs Q E) : TriL R rg p xs (fun b ys _ => Q b ys) (fun e ys _ => E e ys) := by
  intro m lg nd hm
  have := wp_log (l0 := lg) (l1 := lg) (lg := []) (by simpa using h m lg nd hm)
  rw [List.append_nil] at this
  refine wp_mono this (fun _ h => h) ?_ ?_
  · rintro b m' _ ⟨d, rfl, h⟩; exact ⟨d, rfl, h⟩
  · rintro b m' _ ⟨d, rfl, h⟩; exact ⟨d, rfl, h⟩

variable {v : View} {Q : β → List α → List (ι × Option ω) → Prop} {E : Panic → List α → List (ι × Option ω) → Prop}

theorem get_cell {j : Nat} {a : Addr} {k : α → Prog α ι ω β}
    (hj : rg[j]? = some a) (h : ∀ x, xs[j]? = some x → TriL R rg (k x) xs Q E) : TriL R rg (Prog.get a k) xs Q E := by
  intro m lg nd hm
  refine ⟨List.mem_of_getElem? hj, h (m a) ?_ m lg nd hm⟩
  rw [← hm, List.getElem?_map, hj]; rfl

theorem set_cell {j : Nat} {a : Addr} {x : α} {k : Prog α ι ω β}
    (hj : rg[j]? = some a) (h : TriL R rg k (xs.set j x) Q E) : TriL R rg (Prog.set a x k) xs Q E := by
  intro m lg nd hm
  exact ⟨List.mem_of_getElem? hj, h (upd m a x) lg nd (by rw [Tri.map_upd nd hj, hm])⟩

theorem vget {i : Nat} {k : α → Prog α ι ω β} (hi : i < v.len)
    (h : ∀ x, xs[i]? = some x → TriL R v.region (k x) xs Q E) : TriL R v.region (v.get i >>= k) xs Q E := by
  unfold View.get
  rw [if_pos hi]
  exact get_cell (View.region_get v hi) h

theorem vidx {i : Nat} {k : α → Prog α ι ω β} (hi : i < v.len)
    (h : ∀ x, xs[i]? = some x → TriL R v.region (k x) xs Q E) : TriL R v.region (v.idx i >>= k) xs Q E := by
  unfold View.idx
  rw [if_pos hi]
  exact get_cell (View.region_get v hi) h

theorem vset {i : Nat} {x : α} {k : Unit → Prog α ι ω β} (hi : i < v.len)
    (h : TriL R v.region (k ()) (xs.set i x) Q E) : TriL R v.region (v.set i x >>= k) xs Q E := by
  unfold View.set
  rw [if_pos hi]
  exact set_cell (View.region_get v hi) h

theorem vsetU {i : Nat} {x : α} {Q : Unit → List α → List (ι × Option ω) → Prop} (hi : i < v.len) (h : Q () (xs.set i x) []) :
    TriL R v.region (v.set i x) xs Q E := by
  unfold View.set
  rw [if_pos hi]
  exact set_cell (View.region_get v hi) (TriL.pure h)

theorem vuswap {i i' : Nat} {k : Unit → Prog α ι ω β} (hi : i < v.len) (hi' : i' < v.len)
    (h : ∀ x y, xs[i]? = some x → xs[i']? = some y → TriL R v.region (k ()) ((xs.set i y).set i' x) Q E) :
    TriL R v.region (v.uswap i i' >>= k) xs Q E := by
  refine bind (E' := fun _ _ _ => False)
    (Q' := fun _ ys d => ∃ x y, xs[i]? = some x ∧ xs[i']? = some y ∧ ys = (xs.set i y).set i' x ∧ d = []) ?_ ?_ (fun _ _ _ h => h.elim)
  · refine vget hi fun x hx => vget hi' fun y hy => vset hi ?_
    exact vsetU hi' ⟨x, y, hx, hy, rfl, rfl⟩
  · rintro _ ys _ _ ⟨x, y, hx, hy, rfl, rfl⟩
    exact h x y hx hy

theorem vswap {i i' : Nat} {k : Unit → Prog α ι ω β} (hi : i < v.len) (hi' : i' < v.len)
    (h : ∀ x y, xs[i]? = some x → xs[i']? = some y → TriL R v.region (k ()) ((xs.set i y).set i' x) Q E) :
    TriL R v.region (v.swap i i' >>= k) xs Q E := by
  refine bind (E' := fun _ _ _ => False)
    (Q' := fun _ ys d => ∃ x y, xs[i]? = some x ∧ xs[i']? = some y ∧ ys = (xs.set i y).set i' x ∧ d = []) ?_ ?_ (fun _ _ _ h => h.elim)
  · refine vidx hi fun x hx => vidx hi' fun y hy => vset hi ?_
    exact vsetU hi' ⟨x, y, hx, hy, rfl, rfl⟩
  · rintro _ ys _ _ ⟨x, y, hx, hy, rfl, rfl⟩
    exact h x y hx hy

theorem usub {cfg : Cfg} {a b : Nat} {k : Nat → Prog α ι ω β} (hab : b ≤ a)
    (h : TriL R rg (k (a - b)) xs Q E) : TriL R rg (NdSlice.usub cfg a b >>= k) xs Q E := by
  unfold NdSlice.usub
  rw [if_pos hab]
  exact h

theorem debugAssert {cfg : Cfg} {c : Bool} {k : Unit → Prog α ι ω β} (hc : c = true)
    (h : TriL R rg (k ()) xs Q E) : TriL R rg (NdSlice.debugAssert cfg c >>= k) xs Q E := by
  subst hc
  unfold NdSlice.debugAssert
  simp only [Bool.not_true, Bool.and_false]
  exact h

theorem splitAt {a : Nat} {k : View × View → Prog α ι ω β} (ha : a ≤ v.len)
    (h : TriL R rg (k (v.sub 0 a, v.sub a (v.len - a))) xs Q E) : TriL R rg (v.splitAt a >>= k) xs Q E := by
  unfold View.splitAt
  rw [if_pos ha]
  exact h

end TriL

end NdSlice
