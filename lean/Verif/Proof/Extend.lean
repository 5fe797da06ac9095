import Verif.Model.Extend
import Verif.Proof.Select
import Verif.Proof.InSort

/-
Selecting many elements with the user code of the collection (`Verif/Model/Extend.lean`).
-/

namespace NdSlice

variable {α ι ω σ : Type}

/-! ### Programs asking the comparator only -/

/-- The answers to questions of the comparator are those `R` allows; `extend` does anything. -/
def extRel (R : ι → Option ω → Prop) : ExtQ α ι → Option (ExtA α ω) → Prop
  | .ask q, r => R q (r.map (·.1))
  | .extend _ _, _ => True

theorem wp_asking {R : ι → Option ω → Prop} {β : Type} {p : Prog α ι ω β} {F : Addr → Prop}
    {Q : β → Mem α → List (ι × Option ω) → Prop} {E : Panic → Mem α → List (ι × Option ω) → Prop} {m : Mem α} {lg : List (ι × Option ω)}
    (h : wp R p F Q E m lg) (lg' : List (ExtQ α ι × Option (ExtA α ω))) :
    wp (extRel R) p.asking F (fun b m _ => ∃ l, Q b m l) (fun e m _ => ∃ l, E e m l) m lg' := by
  induction p generalizing m lg lg' F E with
  | ret b => exact ⟨_, h⟩
  | get a k ih => exact ⟨h.1, ih _ h.2 _⟩
  | set a x k ih => exact ⟨h.1, ih h.2 _⟩
  | call q k ih => exact fun r hr => ih _ (h _ hr) _
  | choose k ih => exact fun b => ih b (h b) _
  | throw e => exact ⟨_, h⟩
  | ub => exact h
  | diverge => exact h
  | join p q k ihp ihq ihk =>
    obtain ⟨F1, F2, h1, h2, hd, P1, P2, hp, hq, hk⟩ := h
    refine ⟨F1, F2, h1, h2, hd, fun r m _ => ∃ l, P1 r m l, fun r m _ => ∃ l, P2 r m l, ihp hp [], ihq hq [], ?_⟩
    rintro r t m1 m2 _ _ ⟨l1, hl1⟩ ⟨l2, hl2⟩ m' d e1 e2 e3 _
    exact ihk r t (hk r t m1 m2 l1 l2 hl1 hl2 m' (l1 ++ l2) e1 e2 e3 (.refl _)) _

/-- The comparator in the presence of a collection. -/
def Cmp.withExt (C : Cmp α ι ω) : Cmp α (ExtQ α ι) (ExtA α ω) where
  R := extRel C.R
  less x y := (C.less x y).asking
  ans := C.ans
  pan := C.pan
  ok x y m lg := wp_mono (wp_asking (C.ok x y m []) lg) (fun _ h => h) (fun _ _ _ ⟨_, h⟩ => h) (fun _ _ _ ⟨_, h⟩ => h)

/-- A question of the comparator. -/
def ExtQ.IsAsk : ExtQ α ι → Prop
  | .ask _ => True
  | .extend _ _ => False

theorem init_asking {X : α → Prop} {ok : ι → Prop} {β : Type} {p : Prog α ι ω β} {Q : β → (Addr → Prop) → Prop} {E : (Addr → Prop) → Prop}
    {I : Addr → Prop} (h : Init X ok p Q E I) : Init X ExtQ.IsAsk p.asking Q E I := by
  induction p generalizing I E with
  | ret b => exact h
  | get a k ih => exact ⟨h.1, fun x hx => ih x (h.2 x hx)⟩
  | set a x k ih => exact ⟨h.1, ih h.2⟩
  | call q k ih => exact ⟨trivial, fun r => ih _ (h.2 _)⟩
  | choose k ih => exact fun b => ih b (h b)
  | throw e => exact h
  | ub => trivial
  | diverge => trivial
  | join p q k ihp ihq ih =>
    obtain ⟨Q1, E1, Q2, E2, h1, h2, h3⟩ := h
    exact ⟨Q1, E1, Q2, E2, ihp h1, ihq h2, fun r t J J1 J2 hJ hJ1 hJ2 hr ht => ih r t (h3 r t J J1 J2 hJ hJ1 hJ2 hr ht)⟩

/-- The questions a program may ask are in the log. -/
theorem wp_only {R : ι → Option ω → Prop} {ok : ι → Prop} {β : Type} {p : Prog α ι ω β} {F : Addr → Prop}
    {Q : β → Mem α → List (ι × Option ω) → Prop} {E : Panic → Mem α → List (ι × Option ω) → Prop} {m : Mem α} {lg : List (ι × Option ω)}
    {Q' : β → (Addr → Prop) → Prop} {E' : (Addr → Prop) → Prop} {I : Addr → Prop}
    (h : wp R p F Q E m lg) (hi : Init (fun _ => True) ok p Q' E' I) :
    wp R p F (fun b m' lg' => Q b m' lg' ∧ (∃ d, lg' = lg ++ d ∧ ∀ x ∈ d, ok x.1) ∧ ∃ J, Q' b J)
      (fun e m' lg' => E e m' lg' ∧ (∃ d, lg' = lg ++ d ∧ ∀ x ∈ d, ok x.1) ∧ ∃ J, E' J) m lg := by
  induction p generalizing m lg F E I E' with
  | ret b => exact ⟨h, ⟨[], by simp, by simp⟩, I, hi⟩
  | get a k ih => exact ⟨h.1, ih _ h.2 (hi.2 _ trivial)⟩
  | set a x k ih => exact ⟨h.1, ih h.2 hi.2⟩
  | call q k ih =>
    intro r hr
    refine wp_mono (ih r (h r hr) (hi.2 r)) (fun _ h => h) ?_ ?_
    · rintro b m' _ ⟨h1, ⟨d, rfl, h2⟩, h3⟩
      refine ⟨h1, ⟨(q, r) :: d, by simp, ?_⟩, h3⟩
      intro x hx
      rcases List.mem_cons.mp hx with rfl | hx
      · exact hi.1
      · exact h2 x hx
    · rintro b m' _ ⟨h1, ⟨d, rfl, h2⟩, h3⟩
      refine ⟨h1, ⟨(q, r) :: d, by simp, ?_⟩, h3⟩
      intro x hx
      rcases List.mem_cons.mp hx with rfl | hx
      · exact hi.1
      · exact h2 x hx
  | choose k ih => exact fun b => ih b (h b) (hi b)
  | throw e => exact ⟨h, ⟨[], by simp, by simp⟩, I, hi⟩
  | ub => exact h
  | diverge => exact h
  | join p q k ihp ihq ihk =>
    obtain ⟨F1, F2, h1, h2, hd, P1, P2, hp, hq, hk⟩ := h
    obtain ⟨Q1, E1, Q2, E2, i1, i2, i3⟩ := hi
    refine ⟨F1, F2, h1, h2, hd, fun r m l => P1 r m l ∧ (∀ x ∈ l, ok x.1) ∧ ∃ J, ResInit Q1 E1 r J,
      fun r m l => P2 r m l ∧ (∀ x ∈ l, ok x.1) ∧ ∃ J, ResInit Q2 E2 r J,
      wp_mono (ihp hp i1) (fun _ h => h) ?_ ?_, wp_mono (ihq hq i2) (fun _ h => h) ?_ ?_, ?_⟩
    · rintro b m' _ ⟨h1, ⟨d, rfl, h2⟩, h3⟩; exact ⟨h1, by simpa using h2, h3⟩
    · rintro b m' _ ⟨h1, ⟨d, rfl, h2⟩, h3⟩; exact ⟨h1, by simpa using h2, h3⟩
    · rintro b m' _ ⟨h1, ⟨d, rfl, h2⟩, h3⟩; exact ⟨h1, by simpa using h2, h3⟩
    · rintro b m' _ ⟨h1, ⟨d, rfl, h2⟩, h3⟩; exact ⟨h1, by simpa using h2, h3⟩
    rintro r t m1 m2 l1 l2 ⟨g1, g2, J1, g3⟩ ⟨g4, g5, J2, g6⟩ m' d e1 e2 e3 e4
    have hok : ∀ x ∈ d, ok x.1 := by
      intro x hx
      rcases List.mem_append.mp (e4.mem_iff.mp hx) with hx | hx
      · exact g2 x hx
      · exact g5 x hx
    refine wp_mono (ihk r t (hk r t m1 m2 l1 l2 g1 g4 m' d e1 e2 e3 e4)
      (i3 r t (fun a => I a ∨ J1 a ∨ J2 a) J1 J2 (fun _ h => .inl h) (fun _ h => .inr (.inl h)) (fun _ h => .inr (.inr h)) g3 g6))
      (fun _ h => h) ?_ ?_
    · rintro b m'' _ ⟨f1, ⟨d', rfl, f2⟩, f3⟩
      refine ⟨f1, ⟨d ++ d', by simp, ?_⟩, f3⟩
      intro x hx
      rcases List.mem_append.mp hx with hx | hx
      · exact hok x hx
      · exact f2 x hx
    · rintro b m'' _ ⟨f1, ⟨d', rfl, f2⟩, f3⟩
      refine ⟨f1, ⟨d ++ d', by simp, ?_⟩, f3⟩
      intro x hx
      rcases List.mem_append.mp hx with hx | hx
      · exact hok x hx
      · exact f2 x hx

/-! ### Calls of `extend` -/

/-- The calls of `extend` among the questions: index, elements held, answer. -/
def exts : List (ExtQ α ι × Option (ExtA α ω)) → List (Nat × List α × Option (ExtA α ω))
  | [] => []
  | (.ask _, _) :: d => exts d
  | (.extend i xs, r) :: d => (i, xs, r) :: exts d

theorem exts_append (d d' : List (ExtQ α ι × Option (ExtA α ω))) : exts (d ++ d') = exts d ++ exts d' := by
  induction d with
  | nil => rfl
  | cons x d ih =>
    obtain ⟨q, r⟩ := x
    cases q with
    | ask q => exact ih
    | extend i xs => show _ :: exts (d ++ d') = _; rw [ih]; rfl

theorem exts_ask {d : List (ExtQ α ι × Option (ExtA α ω))} (h : ∀ x ∈ d, ExtQ.IsAsk x.1) : exts d = [] := by
  induction d with
  | nil => rfl
  | cons x d ih =>
    obtain ⟨q, r⟩ := x
    cases q with
    | ask q => exact ih fun y hy => h y (by simp [hy])
    | extend i xs => exact (h (.extend i xs, r) (by simp)).elim

/-- What a call of `extend` leaves in the elements held. -/
def leaves (xs : List α) : Option (ExtA α ω) → List α
  | none => xs
  | some r => r.2.1.take xs.length ++ xs.drop r.2.1.length

/-- The call of `extend` panics. -/
def Panics : Option (ExtA α ω) → Prop
  | none => True
  | some r => r.2.2 = true

/-- `Given H ev js zs H'`: starting with references to elements `H`, the calls `ev` of `extend` hand out the elements `zs` for the indices `js` one
by one.  Each call sees what the one before has left, and `H'` is left by the last one. -/
inductive Given : List α → List (Nat × List α × Option (ExtA α ω)) → List Nat → List α → List α → Prop where
  | nil {H : List α} : Given H [] [] [] H
  | cons {H H' : List α} {i : Nat} {z : α} {r : Option (ExtA α ω)} {ev : List (Nat × List α × Option (ExtA α ω))} {js : List Nat} {zs : List α}
      (h : Given (leaves (H ++ [z]) r) ev js zs H') : Given H ((i, H ++ [z], r) :: ev) (i :: js) (z :: zs) H'

theorem Given.append {H H1 H2 : List α} {ev ev' : List (Nat × List α × Option (ExtA α ω))} {js js' : List Nat} {zs zs' : List α}
    (h : Given H ev js zs H1) (h' : Given H1 ev' js' zs' H2) : Given H (ev ++ ev') (js ++ js') (zs ++ zs') H2 := by
  induction h with
  | nil => exact h'
  | cons _ ih => exact .cons (ih h')

theorem wp_readAll {R : ι → Option ω → Prop} {as : List Addr} {F : Addr → Prop}
    {Q : List α → Mem α → List (ι × Option ω) → Prop} {E : Panic → Mem α → List (ι × Option ω) → Prop} {m : Mem α} {lg : List (ι × Option ω)}
    (ha : ∀ a ∈ as, F a) (h : Q (as.map m) m lg) : wp R (readAll as) F Q E m lg := by
  induction as generalizing Q with
  | nil => exact h
  | cons a as ih =>
    refine ⟨ha a (by simp), ?_⟩
    show wp R ((readAll as).bind fun xs => .ret (m a :: xs)) F Q E m lg
    exact wp_bind (ih (fun b hb => ha b (by simp [hb])) h)

theorem wp_writeAll {R : ι → Option ω → Prop} {as : List Addr} {xs : List α} {F : Addr → Prop}
    {E : Panic → Mem α → List (ι × Option ω) → Prop} {m : Mem α} {lg : List (ι × Option ω)} (ha : ∀ a ∈ as, F a) (nd : as.Nodup) :
    wp R (writeAll as xs) F (fun _ m' lg' => lg' = lg ∧ as.map m' = xs.take as.length ++ (as.map m).drop xs.length ∧ ∀ a, a ∉ as → m' a = m a)
      E m lg := by
  induction as generalizing xs m with
  | nil => unfold writeAll; exact ⟨rfl, by simp, fun _ _ => rfl⟩
  | cons a as ih =>
    cases xs with
    | nil => exact ⟨rfl, by simp, fun _ _ => rfl⟩
    | cons x xs =>
      have hn := List.nodup_cons.mp nd
      refine ⟨ha a (by simp), wp_mono (ih (fun b hb => ha b (by simp [hb])) hn.2) (fun _ h => h) ?_ (fun _ _ _ h => h)⟩
      rintro _ m' _ ⟨rfl, h1, h2⟩
      refine ⟨rfl, ?_, fun b hb => ?_⟩
      · have e : as.map (upd m a x) = as.map m := List.map_congr_left fun b hb => by
          simp only [upd]; rw [if_neg]; rintro rfl; exact hn.1 hb
        rw [e] at h1
        simp only [List.map_cons, List.length_cons, List.take_succ_cons, List.drop_succ_cons, List.cons_append, h1]
        rw [h2 a hn.1]
        simp [upd]
      · simp only [List.mem_cons, not_or] at hb
        rw [h2 b hb.2]
        simp [upd, hb.1]

theorem wp_extendWith {R : ι → Option ω → Prop} {i : Nat} {hs : List Addr} {F : Addr → Prop} {m : Mem α} {lg : List (ExtQ α ι × Option (ExtA α ω))}
    (ha : ∀ a ∈ hs, F a) (nd : hs.Nodup) :
    wp (extRel R) (extendWith i hs) F
      (fun _ m' lg' => ∃ r, lg' = lg ++ [(.extend i (hs.map m), r)] ∧ ¬ Panics r ∧ hs.map m' = leaves (hs.map m) r ∧ ∀ a, a ∉ hs → m' a = m a)
      (fun e m' lg' => e = .user ∧ ∃ r, lg' = lg ++ [(.extend i (hs.map m), r)] ∧ Panics r ∧ hs.map m' = leaves (hs.map m) r ∧
        ∀ a, a ∉ hs → m' a = m a) m lg := by
  refine wp_bind (wp_readAll ha ?_)
  intro r _
  cases r with
  | none => exact ⟨rfl, _, rfl, trivial, rfl, fun _ _ => rfl⟩
  | some r =>
    refine wp_bind (wp_mono (wp_writeAll (xs := r.2.1) (E := fun _ _ _ => False) ha nd) (fun _ h => h) ?_ (fun _ _ _ h => h.elim))
    rintro _ m' _ ⟨rfl, h1, h2⟩
    have e : hs.map m' = leaves (hs.map m) (some r) := by rw [h1]; simp [leaves]
    by_cases hp : r.2.2 = true
    · simp only [hp, if_true]
      exact ⟨rfl, some r, rfl, hp, e, h2⟩
    · simp only [hp]
      exact ⟨some r, rfl, hp, e, h2⟩

/-! ### The selection -/

variable (C : Cmp α ι ω) {cfg : Cfg} {v : View}

/-- `m'` with the elements `zs` put back to the places with the indices `js` is a permutation of `m` on `v`, and these elements are selected. -/
def Back (v : View) (off : Nat) (m m' : Mem α) (js : List Nat) (zs : List α) : Prop :=
  ∃ m0 : Mem α, (∀ a, a ∉ js.map (fun i => v.addr (i - off)) → m0 a = m' a) ∧ js.map (fun i => m0 (v.addr (i - off))) = zs ∧
    (v.contents m0).Perm (v.contents m) ∧ ∀ lt, C.Good lt → ∀ i ∈ js, SelectedAt lt (i - off) (v.contents m0)

/-- Why the call panicked, given the calls of `extend`. -/
def Why (cfg : Cfg) (bad : Prop) (e : Panic) (ev : List (Nat × List α × Option (ExtA α ω))) : Prop :=
  ((∀ x ∈ ev, ¬ Panics x.2.2) ∧ ((e = .user ∧ C.pan) ∨ (e = .debugAssert ∧ cfg.dbg = true) ∨
    (bad ∧ (e = .index ∨ (e = .overflow ∧ cfg.dbg = true))))) ∨
  (e = .user ∧ ∃ l x, ev = l ++ [x] ∧ Panics x.2.2 ∧ ∀ y ∈ l, ¬ Panics y.2.2)

theorem addr_inj (hv : v.WF) {i j : Nat} (hi : i < v.len) (hj : j < v.len) (h : v.addr i = v.addr j) : i = j := by
  have := (List.nodup_iff_getElem?_ne_getElem?.mp (View.region_nodup hv))
  rcases Nat.lt_trichotomy i j with hl | hl | hl
  · exact absurd (by rw [View.region_get v hi, View.region_get v hj, h]) (this i j hl (by simpa))
  · exact hl
  · exact absurd (by rw [View.region_get v hi, View.region_get v hj, h]) (this j i hl (by simpa))

theorem mem_cells {a : Addr} : a ∈ v.region ↔ ∃ i, i < v.len ∧ a = v.addr i := by
  unfold View.region
  simp only [List.mem_map, List.mem_range]
  exact ⟨fun ⟨i, h, e⟩ => ⟨i, h, e.symm⟩, fun ⟨i, h, e⟩ => ⟨i, h, e.symm⟩⟩

/-- The contents in three parts. -/
theorem contents_parts {k : Nat} (hk : k < v.len) (m : Mem α) :
    v.contents m = (v.sub 0 k).contents m ++ m (v.addr k) :: (v.sub (k + 1) (v.len - (k + 1))).contents m := by
  unfold View.contents
  rw [View.region_split v (a := k) (n := 1) (by omega)]
  simp [View.region, View.sub_addr]

theorem mem_left {k : Nat} {a : Addr} : a ∈ (v.sub 0 k).region ↔ ∃ i, i < k ∧ a = v.addr i := by
  rw [mem_cells]; simp [View.sub_addr]

theorem mem_right {k : Nat} {a : Addr} : a ∈ (v.sub (k + 1) (v.len - (k + 1))).region ↔ ∃ i, k < i ∧ i < v.len ∧ a = v.addr i := by
  rw [mem_cells]
  simp only [View.sub_len, View.sub_addr]
  exact ⟨fun ⟨i, h, e⟩ => ⟨k + 1 + i, by omega, by omega, e⟩, fun ⟨i, h, h', e⟩ => ⟨i - (k + 1), by omega, by rw [e]; congr 1; omega⟩⟩

theorem wp_partitionAtIndexExt (hz : cfg.zst = true → Subsingleton α) (hl : LessIn (fun _ => True) ExtQ.IsAsk C.withExt.less) (hv : v.WF)
    {k : Nat} (hk : k < v.len) {m : Mem α} {lg : List (ExtQ α ι × Option (ExtA α ω))} :
    wp (extRel C.R) (partitionAtIndex cfg C.withExt.less v k) (· ∈ v.region)
      (fun r m' lg' => r = (v.sub 0 k, v.addr k, v.sub (k + 1) (v.len - (k + 1))) ∧ (v.contents m').Perm (v.contents m) ∧
        (∀ lt, C.Good lt → SelectedAt lt k (v.contents m')) ∧ (∃ d, lg' = lg ++ d ∧ exts d = []) ∧ ∀ a, a ∉ v.region → m' a = m a)
      (fun e m' lg' => ((e = .user ∧ C.pan) ∨ (e = .debugAssert ∧ cfg.dbg = true)) ∧ (v.contents m').Perm (v.contents m) ∧
        (∃ d, lg' = lg ++ d ∧ exts d = []) ∧ ∀ a, a ∉ v.region → m' a = m a) m lg := by
  have h := partitionAtIndex_spec C.withExt hz (View.contents_length v m) hk m lg (View.region_nodup hv) rfl
  have hi := In.partitionAtIndex_in (cfg := cfg) (ω := ExtA α ω) (X := fun _ => True) (ok := ExtQ.IsAsk) (less := C.withExt.less) (@hl) (I := (· ∈ v.region)) (v := v) (k := k)
    (fun i hi => mem_cells.mpr ⟨i, hi, rfl⟩) _ (Sub.refl _)
  refine wp_mono (wp_only (wp_unchanged h) hi) (fun _ h => h) ?_ ?_
  · rintro r m' lg' ⟨⟨⟨h1, h2, h3⟩, h4⟩, ⟨d, h5, h6⟩, _⟩
    exact ⟨h1, h2, fun lt hg => h3 lt hg, ⟨d, h5, exts_ask h6⟩, h4⟩
  · rintro r m' lg' ⟨⟨⟨h1, h2⟩, h4⟩, ⟨d, h5, h6⟩, _⟩
    exact ⟨h1, h2, ⟨d, h5, exts_ask h6⟩, h4⟩

variable {C}

theorem Back.nil {off : Nat} {m m' : Mem α} (h : (v.contents m').Perm (v.contents m)) : Back C v off m m' [] [] :=
  ⟨m', fun _ _ => rfl, rfl, h, fun _ _ _ h => absurd h List.not_mem_nil⟩

theorem Back.left {off pivot : Nat} {m m1 m2 : Mem α} {js : List Nat} {zs : List α} (hv : v.WF) (hlo : off ≤ pivot) (hk : pivot - off < v.len)
    (hperm : (v.contents m1).Perm (v.contents m)) (hsel : ∀ lt, C.Good lt → SelectedAt lt (pivot - off) (v.contents m1))
    (h : Back C (v.sub 0 (pivot - off)) off m1 m2 js zs) (hjs : ∀ i ∈ js, off ≤ i ∧ i < pivot)
    (h2 : ∀ i, pivot - off ≤ i → i < v.len → m2 (v.addr i) = m1 (v.addr i)) : Back C v off m m2 js zs := by
  obtain ⟨m0, g1, g2, g3, g4⟩ := h
  have ha : ∀ i, (v.sub 0 (pivot - off)).addr (i - off) = v.addr (i - off) := fun i => by rw [View.sub_addr, Nat.zero_add]
  simp only [ha] at g1 g2
  have e : ∀ i, pivot - off ≤ i → i < v.len → m0 (v.addr i) = m1 (v.addr i) := by
    intro i h1 h3
    rw [g1, h2 i h1 h3]
    intro hm
    obtain ⟨j, hj, he⟩ := List.mem_map.mp hm
    have := hjs j hj
    have := addr_inj hv (by omega) h3 he
    omega
  have e2 : (v.sub (pivot - off + 1) (v.len - (pivot - off + 1))).contents m0 = (v.sub (pivot - off + 1) (v.len - (pivot - off + 1))).contents m1 := by
    refine List.map_congr_left fun a ha => ?_
    obtain ⟨i, h1, h3, rfl⟩ := mem_right.mp ha
    exact e i (by omega) h3
  have e1 := e (pivot - off) (Nat.le_refl _) hk
  have c0 := contents_parts hk m0
  have c1 := contents_parts hk m1
  rw [e1, e2] at c0
  refine ⟨m0, g1, g2, ?_, fun lt hg i hi => ?_⟩
  · rw [c0]
    refine List.Perm.trans ?_ hperm
    rw [c1]
    exact g3.append_right _
  · have hs := hsel lt hg
    rw [c1] at hs
    have hh := (show SelectedAt lt ((v.sub 0 (pivot - off)).contents m1).length _ by rw [View.contents_length]; exact hs).halves
    rw [c0]
    exact SelectedAt.left hg.1 (g4 lt hg i hi) g3 hh.1 hh.2

theorem Back.both {off pivot : Nat} {m m1 m2 m3 m4 : Mem α} {I J : List Nat} {zs ws : List α} (hv : v.WF) (hlo : off ≤ pivot)
    (hk : pivot - off < v.len)
    (hperm : (v.contents m1).Perm (v.contents m)) (hsel : ∀ lt, C.Good lt → SelectedAt lt (pivot - off) (v.contents m1))
    (h : Back C (v.sub 0 (pivot - off)) off m1 m2 I zs) (hI : ∀ i ∈ I, off ≤ i ∧ i < pivot)
    (h' : Back C (v.sub (pivot - off + 1) (v.len - (pivot - off + 1))) (pivot + 1) m3 m4 J ws) (hJ : ∀ i ∈ J, pivot < i ∧ i - off < v.len)
    (h3 : ∀ i, pivot - off < i → i < v.len → m3 (v.addr i) = m1 (v.addr i))
    (h4 : ∀ i, i < pivot - off → v.addr i ∉ I.map (fun i => v.addr (i - off)) → m4 (v.addr i) = m2 (v.addr i)) :
    Back C v off m m4 (I ++ pivot :: J) (zs ++ m1 (v.addr (pivot - off)) :: ws) := by
  classical
  obtain ⟨m0, g1, g2, g3, g4⟩ := h
  obtain ⟨n0, f1, f2, f3, f4⟩ := h'
  have ha : ∀ i, (v.sub 0 (pivot - off)).addr (i - off) = v.addr (i - off) := fun i => by rw [View.sub_addr, Nat.zero_add]
  simp only [ha] at g1 g2
  have hb : J.map (fun i => (v.sub (pivot - off + 1) (v.len - (pivot - off + 1))).addr (i - (pivot + 1))) = J.map (fun i => v.addr (i - off)) :=
    List.map_congr_left fun i hi => by have := hJ i hi; rw [View.sub_addr]; congr 1; omega
  have hb' : J.map (fun i => n0 ((v.sub (pivot - off + 1) (v.len - (pivot - off + 1))).addr (i - (pivot + 1)))) = J.map (fun i => n0 (v.addr (i - off))) :=
    List.map_congr_left fun i hi => by have := hJ i hi; rw [View.sub_addr]; congr 2; omega
  rw [hb] at f1
  rw [hb'] at f2
  let M : Mem α := fun a => if a ∈ (v.sub 0 (pivot - off)).region then m0 a else if a = v.addr (pivot - off) then m1 a else n0 a
  have eL : ∀ i, i < pivot - off → M (v.addr i) = m0 (v.addr i) := fun i hi => if_pos (mem_left.mpr ⟨i, hi, rfl⟩)
  have nL : ∀ i, pivot - off ≤ i → i < v.len → ¬ v.addr i ∈ (v.sub 0 (pivot - off)).region := by
    intro i hi hi' hm
    obtain ⟨j, hj, he⟩ := mem_left.mp hm
    have := addr_inj hv hi' (by omega) he
    omega
  have eP : M (v.addr (pivot - off)) = m1 (v.addr (pivot - off)) := by
    show ite _ _ _ = _
    rw [if_neg (nL _ (Nat.le_refl _) hk), if_pos rfl]
  have eR : ∀ i, pivot - off < i → i < v.len → M (v.addr i) = n0 (v.addr i) := by
    intro i hi hi'
    show ite _ _ _ = _
    rw [if_neg (nL _ (by omega) hi'), if_neg]
    intro he
    have := addr_inj hv hi' hk he
    omega
  have cL : (v.sub 0 (pivot - off)).contents M = (v.sub 0 (pivot - off)).contents m0 :=
    List.map_congr_left fun a ha => by obtain ⟨i, hi, rfl⟩ := mem_left.mp ha; exact eL i hi
  have cR : (v.sub (pivot - off + 1) (v.len - (pivot - off + 1))).contents M = (v.sub (pivot - off + 1) (v.len - (pivot - off + 1))).contents n0 :=
    List.map_congr_left fun a ha => by obtain ⟨i, hi, hi', rfl⟩ := mem_right.mp ha; exact eR i hi hi'
  have c3 : (v.sub (pivot - off + 1) (v.len - (pivot - off + 1))).contents m3 = (v.sub (pivot - off + 1) (v.len - (pivot - off + 1))).contents m1 :=
    List.map_congr_left fun a ha => by obtain ⟨i, hi, hi', rfl⟩ := mem_right.mp ha; exact h3 i hi hi'
  rw [c3] at f3
  have c0 := contents_parts hk M
  have c1 := contents_parts hk m1
  rw [cL, cR, eP] at c0
  refine ⟨M, ?_, ?_, ?_, fun lt hg i hi => ?_⟩
  · intro a hna
    simp only [List.map_append, List.map_cons, List.mem_append, List.mem_cons, not_or] at hna
    show ite _ _ _ = _
    split
    · rename_i hm
      obtain ⟨i, hi, rfl⟩ := mem_left.mp hm
      rw [g1 _ hna.1, h4 i hi hna.1]
    · rw [if_neg hna.2.1]
      exact f1 a hna.2.2
  · rw [List.map_append, List.map_cons]
    congr 1
    · rw [← g2]
      exact List.map_congr_left fun i hi => eL _ (by have := hI i hi; omega)
    · rw [eP, ← f2]
      congr 1
      exact List.map_congr_left fun i hi => eR _ (by have := hJ i hi; omega) (hJ i hi).2
  · rw [c0]
    refine List.Perm.trans ?_ hperm
    rw [c1]
    exact g3.append (f3.cons _)
  · have hs := hsel lt hg
    rw [c1] at hs
    have hs' := (show SelectedAt lt ((v.sub 0 (pivot - off)).contents m1).length _ by rw [View.contents_length]; exact hs)
    have hh := hs'.halves
    rw [c0]
    rcases List.mem_append.mp hi with hi | hi
    · exact SelectedAt.left hg.1 (g4 lt hg i hi) g3 hh.1 (fun b hb => hh.2 b (f3.mem_iff.mp hb))
    · rcases List.mem_cons.mp hi with rfl | hi
      · have := hs'.perm_parts g3 f3
        rwa [View.contents_length] at this
      · have h1 := hJ i hi
        have := SelectedAt.right hg.1 (A := (v.sub 0 (pivot - off)).contents m0) (f4 lt hg i hi) f3 (fun b hb => hh.1 b (g3.mem_iff.mp hb)) hh.2
        rw [View.contents_length] at this
        rwa [show (v.sub 0 (pivot - off)).len + 1 + (i - (pivot + 1)) = i - off by simp; omega] at this

variable (C) in
/-- How a call ends normally. -/
def ExtOk (v : View) (off : Nat) (is : List Nat) (held : List Addr) (m : Mem α) (lg : List (ExtQ α ι × Option (ExtA α ω)))
    (r : List Addr) (m' : Mem α) (lg' : List (ExtQ α ι × Option (ExtA α ω))) : Prop :=
  ValidIdx off v.len is ∧ r = held ++ is.map (fun i => v.addr (i - off)) ∧ ∃ d zs, lg' = lg ++ d ∧
    Given (held.map m) (exts d) is zs (r.map m') ∧ Back C v off m m' is zs ∧ ∀ x ∈ exts d, ¬ Panics x.2.2

variable (C) in
/-- How a call ends with a panic, after the elements for the indices `js` have been handed out. -/
def ExtBad (cfg : Cfg) (v : View) (off : Nat) (is : List Nat) (held : List Addr) (m : Mem α) (lg : List (ExtQ α ι × Option (ExtA α ω)))
    (e : Panic) (m' : Mem α) (lg' : List (ExtQ α ι × Option (ExtA α ω))) : Prop :=
  ∃ d js zs, lg' = lg ++ d ∧ js <+: is ∧ ValidIdx off v.len js ∧
    Given (held.map m) (exts d) js zs ((held ++ js.map fun i => v.addr (i - off)).map m') ∧
    Back C v off m m' js zs ∧ Why C cfg (¬ ValidIdx off v.len is) e (exts d)

theorem ValidIdx.nil {off len : Nat} : ValidIdx off len [] := ⟨List.Pairwise.nil, by simp⟩

theorem ExtBad.start {off : Nat} {is : List Nat} {held : List Addr} {m m' : Mem α} {lg d : List (ExtQ α ι × Option (ExtA α ω))} {e : Panic}
    (hd : exts d = []) (hm : (v.contents m').Perm (v.contents m)) (hh : held.map m' = held.map m)
    (h : (e = .user ∧ C.pan) ∨ (e = .debugAssert ∧ cfg.dbg = true) ∨ (¬ ValidIdx off v.len is ∧ (e = .index ∨ (e = .overflow ∧ cfg.dbg = true)))) :
    ExtBad C cfg v off is held m lg e m' (lg ++ d) := by
  refine ⟨d, [], [], rfl, List.nil_prefix, .nil, ?_, .nil hm, .inl ⟨?_, h⟩⟩
  · rw [hd]
    simp only [List.map_nil, List.append_nil, hh]
    exact .nil
  · rw [hd]
    exact fun x hx => absurd hx List.not_mem_nil

theorem prefix_split {js I J : List Nat} {p : Nat} (h : js <+: J) : I ++ p :: js <+: I ++ p :: J := by
  obtain ⟨t, rfl⟩ := h
  exact ⟨t, by simp⟩

/-- Everything about `partition_at_indices` with a collection. -/
theorem partitionAtIndicesExt_spec (hz : cfg.zst = true → Subsingleton α) (hl : LessIn (fun _ => True) ExtQ.IsAsk C.withExt.less)
    {n off : Nat} {is : List Nat} {held : List Addr} {m : Mem α} {lg : List (ExtQ α ι × Option (ExtA α ω))} (hv : v.WF)
    (hh : ∀ a ∈ held, a ∉ v.region) (nd : held.Nodup) (hn : is.length < n) (hb : 2 * (off + v.len) ≤ 2 ^ cfg.bits) :
    wp (extRel C.R) (partitionAtIndicesExt cfg C.less n v off is held) (fun a => a ∈ held ∨ a ∈ v.region)
      (ExtOk C v off is held m lg) (ExtBad C cfg v off is held m lg) m lg := by
  induction n generalizing v off is held m lg with
  | zero => omega
  | succ n ih =>
    unfold partitionAtIndicesExt
    split
    · rename_i h
      have : is = [] := by
        rw [List.getElem?_eq_none_iff] at h
        exact List.eq_nil_of_length_eq_zero (by omega)
      subst this
      exact ⟨.nil, by simp, [], [], by simp, .nil, .nil (.refl _), fun x hx => absurd hx List.not_mem_nil⟩
    · rename_i pivot h
      have hsp := split_mid h
      generalize hI : is.take (is.length / 2) = I at hsp ⊢
      generalize hJ : is.drop (is.length / 2 + 1) = J at hsp ⊢
      clear h hI hJ
      subst hsp
      simp only [List.length_append, List.length_cons] at hn
      have start : ∀ e, (e = .index ∨ (e = .overflow ∧ cfg.dbg = true)) → ¬ ValidIdx off v.len (I ++ pivot :: J) →
          ExtBad C cfg v off (I ++ pivot :: J) held m lg e m lg := by
        intro e he hbad
        have := ExtBad.start (C := C) (cfg := cfg) (v := v) (off := off) (is := I ++ pivot :: J) (held := held) (m := m) (m' := m) (lg := lg) (d := [])
          (e := e) rfl (.refl _) rfl (.inr (.inr ⟨hbad, he⟩))
        rwa [List.append_nil] at this
      by_cases hlo : pivot < off
      · have hbad : ¬ ValidIdx off v.len (I ++ pivot :: J) := fun h => by
          have := h.2 pivot (by simp); omega
        unfold usub
        rw [if_neg (by omega)]
        by_cases hd : cfg.dbg = true
        · rw [if_pos hd]
          exact start _ (.inr ⟨rfl, hd⟩) hbad
        · rw [if_neg hd]
          have hbig : v.len ≤ (2 ^ cfg.bits - (off - pivot) % 2 ^ cfg.bits) % 2 ^ cfg.bits := by
            rw [Nat.mod_eq_of_lt (a := off - pivot) (by omega), Nat.mod_eq_of_lt (by omega)]
            omega
          show wp _ (Prog.bind (partitionAtIndex cfg _ v _) _) _ _ _ m lg
          unfold partitionAtIndex
          rw [if_pos hbig]
          exact start _ (.inl rfl) hbad
      have hus : (usub cfg pivot off : Prog α (ExtQ α ι) (ExtA α ω) Nat) = .ret (pivot - off) := by
        unfold usub; rw [if_pos (by omega)]; rfl
      rw [hus]
      show wp _ (Prog.bind (partitionAtIndex cfg C.withExt.less v (pivot - off)) _) _ _ _ m lg
      by_cases hhi : off + v.len ≤ pivot
      · have hbad : ¬ ValidIdx off v.len (I ++ pivot :: J) := fun h => by
          have := h.2 pivot (by simp); omega
        unfold partitionAtIndex
        rw [if_pos (by omega)]
        exact start _ (.inl rfl) hbad
      have hk : pivot - off < v.len := by omega
      refine wp_bind (wp_mono (wp_partitionAtIndexExt C hz hl hv hk) (fun _ h => .inr h) ?_ ?_)
      rotate_left
      · rintro e m' _ ⟨h1, h2, ⟨d, rfl, h3⟩, h4⟩
        refine ExtBad.start h3 h2 (List.map_congr_left fun a ha => h4 a (hh a ha)) ?_
        rcases h1 with h1 | h1
        · exact .inl h1
        · exact .inr (.inl h1)
      rintro _ m1 _ ⟨rfl, hperm, hsel, ⟨d1, rfl, hd1⟩, hfr1⟩
      dsimp only
      have hvL : (v.sub 0 (pivot - off)).WF := View.sub_WF hv (by omega)
      have hvR : (v.sub (pivot - off + 1) (v.len - (pivot - off + 1))).WF := View.sub_WF hv (by omega)
      have subL : ∀ a, a ∈ (v.sub 0 (pivot - off)).region → a ∈ v.region := fun a ha => by
        obtain ⟨i, hi, rfl⟩ := mem_left.mp ha
        exact mem_cells.mpr ⟨i, by omega, rfl⟩
      have subR : ∀ a, a ∈ (v.sub (pivot - off + 1) (v.len - (pivot - off + 1))).region → a ∈ v.region := fun a ha => by
        obtain ⟨i, hi, hi', rfl⟩ := mem_right.mp ha
        exact mem_cells.mpr ⟨i, by omega, rfl⟩
      have hmap1 : held.map m1 = held.map m := List.map_congr_left fun a ha => hfr1 a (hh a ha)
      have haL : ∀ js : List Nat, js.map (fun i => (v.sub 0 (pivot - off)).addr (i - off)) = js.map (fun i => v.addr (i - off)) := fun js =>
        List.map_congr_left fun i _ => by rw [View.sub_addr, Nat.zero_add]
      have notL : ∀ i, pivot - off ≤ i → i < v.len → ¬ (v.addr i ∈ held ∨ v.addr i ∈ (v.sub 0 (pivot - off)).region) := by
        rintro i hi hi' (hm | hm)
        · exact hh _ hm (mem_cells.mpr ⟨i, hi', rfl⟩)
        · obtain ⟨j, hj, he⟩ := mem_left.mp hm
          have := addr_inj hv hi' (by omega) he
          omega
      refine wp_bind (wp_mono (wp_unchanged (ih (v := v.sub 0 (pivot - off)) (is := I) (held := held) (off := off) hvL (fun a ha h => hh a ha (subL a h)) nd
        (by omega) (by simp; omega))) (fun a h => h.imp id (subL a)) ?_ ?_)
      rotate_left
      · rintro e m2 lg2 ⟨⟨d, js, zs, rfl, hpre, hval, hg, hbk, hwhy⟩, hfr2⟩
        have hjs : ∀ i ∈ js, off ≤ i ∧ i < pivot := fun i hi => by have := hval.2 i hi; simp at this; omega
        refine ⟨d1 ++ d, js, zs, by simp, hpre.trans (List.prefix_append _ _), ⟨hval.1, fun i hi => by have := hjs i hi; omega⟩, ?_,
          Back.left hv (by omega) hk hperm hsel hbk hjs (fun i hi hi' => hfr2 _ (notL i hi hi')), ?_⟩
        · rw [exts_append, hd1, ← hmap1, ← haL]
          exact hg
        · rw [exts_append, hd1]
          refine hwhy.imp (fun h => ⟨h.1, h.2.imp id (Or.imp id fun h => ⟨fun hvi => h.1 ?_, h.2⟩)⟩) id
          have := (validIdx_split.mp hvi).2.1
          simpa using this
      rintro _ m2 _ ⟨⟨hvI, rfl, d2, zs, rfl, hgI, hbI, hnp2⟩, hfr2⟩
      rw [haL]
      have hIr : ∀ i ∈ I, off ≤ i ∧ i < pivot := fun i hi => by have := hvI.2 i hi; simp at this; omega
      have hvI' : ValidIdx off (pivot - off) I := by simpa using hvI
      -- the references held from here on
      have hpiv2 : m2 (v.addr (pivot - off)) = m1 (v.addr (pivot - off)) := hfr2 _ (notL _ (Nat.le_refl _) hk)
      have memI : ∀ a, a ∈ I.map (fun i => v.addr (i - off)) → ∃ i, i < pivot - off ∧ a = v.addr i := fun a ha => by
        obtain ⟨i, hi, rfl⟩ := List.mem_map.mp ha
        have := hIr i hi
        exact ⟨i - off, by omega, rfl⟩
      have ndI : (I.map fun i => v.addr (i - off)).Nodup := by
        refine List.Nodup.map_on ?_ (hvI.1.imp fun h => by omega)
        intro i hi j hj he
        have h1 := hIr i hi
        have h2 := hIr j hj
        have := addr_inj hv (by omega) (by omega) he
        omega
      have nd' : (held ++ I.map (fun i => v.addr (i - off)) ++ [v.addr (pivot - off)]).Nodup := by
        rw [List.nodup_append]
        refine ⟨?_, by simp, ?_⟩
        · rw [List.nodup_append]
          refine ⟨nd, ndI, ?_⟩
          rintro a ha _ hb rfl
          obtain ⟨i, hi, rfl⟩ := memI a hb
          exact hh _ ha (mem_cells.mpr ⟨i, by omega, rfl⟩)
        · rintro a ha b hb rfl
          rw [List.mem_singleton] at hb
          subst hb
          rcases List.mem_append.mp ha with ha | ha
          · exact hh _ ha (mem_cells.mpr ⟨_, hk, rfl⟩)
          · obtain ⟨i, hi, he⟩ := memI _ ha
            have := addr_inj hv hk (by omega) he
            omega
      have held'F : ∀ a, a ∈ held ++ I.map (fun i => v.addr (i - off)) ++ [v.addr (pivot - off)] → a ∈ held ∨ a ∈ v.region := by
        intro a ha
        simp only [List.mem_append, List.mem_singleton] at ha
        rcases ha with (ha | ha) | rfl
        · exact .inl ha
        · obtain ⟨i, hi, rfl⟩ := memI _ ha
          exact .inr (mem_cells.mpr ⟨i, by omega, rfl⟩)
        · exact .inr (mem_cells.mpr ⟨_, hk, rfl⟩)
      have notH : ∀ i, i < v.len → v.addr i ∉ I.map (fun i => v.addr (i - off)) → i ≠ pivot - off →
          v.addr i ∉ held ++ I.map (fun i => v.addr (i - off)) ++ [v.addr (pivot - off)] := by
        intro i hi hni hne ha
        simp only [List.mem_append, List.mem_singleton] at ha
        rcases ha with (ha | ha) | ha
        · exact hh _ ha (mem_cells.mpr ⟨i, hi, rfl⟩)
        · exact hni ha
        · exact hne (addr_inj hv hi hk ha)
      have notI : ∀ i, pivot - off < i → i < v.len → v.addr i ∉ I.map (fun i => v.addr (i - off)) := by
        intro i hi hi' ha
        obtain ⟨j, hj, he⟩ := memI _ ha
        have := addr_inj hv hi' (by omega) he
        omega
      have map2 : (held ++ I.map (fun i => v.addr (i - off)) ++ [v.addr (pivot - off)]).map m2 =
          (held ++ I.map (fun i => v.addr (i - off))).map m2 ++ [m1 (v.addr (pivot - off))] := by
        rw [List.map_append, List.map_singleton, hpiv2]
      have hgI' : Given (held.map m) (exts (d1 ++ d2)) I zs ((held ++ I.map (fun i => v.addr (i - off))).map m2) := by
        rw [exts_append, hd1, ← hmap1]
        rw [haL] at hgI
        exact hgI
      have hR0 : ∀ m3 : Mem α, (∀ a, a ∉ held ++ I.map (fun i => v.addr (i - off)) ++ [v.addr (pivot - off)] → m3 a = m2 a) →
          ∀ i, pivot - off < i → i < v.len → m3 (v.addr i) = m1 (v.addr i) := by
        intro m3 hm3 i hi hi'
        rw [hm3 _ (notH i hi' (notI i hi hi') (by omega)), hfr2 _ (notL i (by omega) hi')]
      have hgP : ∀ (m3 : Mem α) (r : Option (ExtA α ω)),
          (held ++ I.map (fun i => v.addr (i - off)) ++ [v.addr (pivot - off)]).map m3 =
            leaves ((held ++ I.map (fun i => v.addr (i - off)) ++ [v.addr (pivot - off)]).map m2) r →
          Given (held.map m) (exts (d1 ++ d2 ++ [(.extend pivot ((held ++ I.map (fun i => v.addr (i - off)) ++ [v.addr (pivot - off)]).map m2), r)]))
            (I ++ [pivot]) (zs ++ [m1 (v.addr (pivot - off))])
            ((held ++ I.map (fun i => v.addr (i - off)) ++ [v.addr (pivot - off)]).map m3) := by
        intro m3 r hleft
        rw [exts_append]
        refine hgI'.append ?_
        show Given _ [(pivot, _, r)] _ _ _
        rw [hleft, map2]
        exact .cons .nil
      refine wp_bind (wp_mono (wp_extendWith held'F nd') (fun _ h => h) ?_ ?_)
      rotate_left
      · rintro e m3 _ ⟨rfl, r, rfl, hpan, hleft, hfr3⟩
        refine ⟨d1 ++ d2 ++ [(.extend pivot ((held ++ I.map (fun i => v.addr (i - off)) ++ [v.addr (pivot - off)]).map m2), r)], I ++ [pivot], zs ++ [m1 (v.addr (pivot - off))], by simp, prefix_split (List.nil_prefix), ?_, ?_, ?_, ?_⟩
        · exact validIdx_split.mpr ⟨by omega, hvI', .nil⟩
        · rw [show (held ++ (I ++ [pivot]).map fun i => v.addr (i - off)) = held ++ I.map (fun i => v.addr (i - off)) ++ [v.addr (pivot - off)] by simp]
          exact hgP m3 r hleft
        · refine Back.both hv (by omega) hk hperm hsel hbI hIr (m3 := m3) (.nil (.refl _)) (by simp) (hR0 m3 hfr3) ?_
          intro i hi hni
          exact hfr3 _ (notH i (by omega) hni (by omega))
        · refine .inr ⟨rfl, exts (d1 ++ d2), _, by rw [exts_append]; rfl, hpan, ?_⟩
          rw [exts_append, hd1]
          exact hnp2
      rintro _ m3 _ ⟨r, rfl, hnpan, hleft, hfr3⟩
      have hnp3 : ∀ x ∈ exts (d1 ++ d2 ++ [((.extend pivot ((held ++ I.map (fun i => v.addr (i - off)) ++ [v.addr (pivot - off)]).map m2), r) :
          ExtQ α ι × Option (ExtA α ω))]), ¬ Panics x.2.2 := by
        rw [exts_append, exts_append, hd1]
        intro x hx
        rcases List.mem_append.mp hx with hx | hx
        · exact hnp2 x hx
        · rw [show x = (pivot, (held ++ I.map (fun i => v.addr (i - off)) ++ [v.addr (pivot - off)]).map m2, r) from List.mem_singleton.mp hx]
          exact hnpan
      have haR : ∀ js : List Nat, (∀ i ∈ js, pivot < i) →
          js.map (fun i => (v.sub (pivot - off + 1) (v.len - (pivot - off + 1))).addr (i - (pivot + 1))) = js.map (fun i => v.addr (i - off)) := fun js hjs =>
        List.map_congr_left fun i hi => by have := hjs i hi; rw [View.sub_addr]; congr 1; omega
      have hh' : ∀ a ∈ held ++ I.map (fun i => v.addr (i - off)) ++ [v.addr (pivot - off)],
          a ∉ (v.sub (pivot - off + 1) (v.len - (pivot - off + 1))).region := by
        intro a ha hm
        obtain ⟨i, hi, hi', rfl⟩ := mem_right.mp hm
        exact notH i hi' (notI i hi hi') (by omega) ha
      refine wp_mono (wp_unchanged (ih (v := v.sub (pivot - off + 1) (v.len - (pivot - off + 1))) (is := J) (off := pivot + 1) hvR hh' nd'
        (by omega) (by simp; omega))) (fun a h => h.elim (held'F a) (fun h => .inr (subR a h))) ?_ ?_
      · rintro _ m4 _ ⟨⟨hvJ, rfl, d4, ws, rfl, hgJ, hbJ, hnp4⟩, hfr4⟩
        have hJr : ∀ i ∈ J, pivot < i ∧ i - off < v.len := fun i hi => by have := hvJ.2 i hi; simp at this; omega
        refine ⟨validIdx_split.mpr ⟨by omega, hvI', by simpa using hvJ⟩, ?_, d1 ++ d2 ++ [(.extend pivot ((held ++ I.map (fun i => v.addr (i - off)) ++ [v.addr (pivot - off)]).map m2), r)] ++ d4, zs ++ m1 (v.addr (pivot - off)) :: ws, ?_, ?_, ?_, ?_⟩
        · rw [haR J fun i hi => (hJr i hi).1]; simp
        · simp
        · have := (hgP m3 r hleft).append hgJ
          rw [haR J fun i hi => (hJr i hi).1, ← exts_append, List.append_assoc I, List.append_assoc zs] at this
          rw [haR J fun i hi => (hJr i hi).1]
          exact this
        · refine Back.both hv (by omega) hk hperm hsel hbI hIr hbJ hJr (hR0 m3 hfr3) ?_
          intro i hi hni
          rw [hfr4, hfr3]
          · exact notH i (by omega) hni (by omega)
          · rintro (hm | hm)
            · exact notH i (by omega) hni (by omega) hm
            · obtain ⟨j, hj, hj', he⟩ := mem_right.mp hm
              have := addr_inj hv (by omega) hj' he
              omega
        · rw [exts_append]
          intro x hx
          rcases List.mem_append.mp hx with hx | hx
          · exact hnp3 x hx
          · exact hnp4 x hx
      · rintro e m4 _ ⟨⟨d4, js, ws, rfl, hpre, hval, hgJ, hbJ, hwhy⟩, hfr4⟩
        have hJr : ∀ i ∈ js, pivot < i ∧ i - off < v.len := fun i hi => by have := hval.2 i hi; simp at this; omega
        refine ⟨d1 ++ d2 ++ [(.extend pivot ((held ++ I.map (fun i => v.addr (i - off)) ++ [v.addr (pivot - off)]).map m2), r)] ++ d4, I ++ pivot :: js, zs ++ m1 (v.addr (pivot - off)) :: ws, ?_, prefix_split hpre, ?_, ?_, ?_, ?_⟩
        · simp
        · exact validIdx_split.mpr ⟨by omega, hvI', by simpa using hval⟩
        · have := (hgP m3 r hleft).append hgJ
          rw [haR js fun i hi => (hJr i hi).1, ← exts_append, List.append_assoc I, List.append_assoc zs] at this
          rw [show (held ++ (I ++ pivot :: js).map fun i => v.addr (i - off)) =
            held ++ I.map (fun i => v.addr (i - off)) ++ [v.addr (pivot - off)] ++ js.map (fun i => v.addr (i - off)) by simp]
          exact this
        · refine Back.both hv (by omega) hk hperm hsel hbI hIr hbJ hJr (hR0 m3 hfr3) ?_
          intro i hi hni
          rw [hfr4, hfr3]
          · exact notH i (by omega) hni (by omega)
          · rintro (hm | hm)
            · exact notH i (by omega) hni (by omega) hm
            · obtain ⟨j, hj, hj', he⟩ := mem_right.mp hm
              have := addr_inj hv (by omega) hj' he
              omega
        · rw [exts_append]
          rcases hwhy with ⟨h1, h2⟩ | ⟨h1, l, x, h2, h3, h4⟩
          · refine .inl ⟨?_, h2.imp id (Or.imp id fun h => ⟨fun hvi => h.1 ?_, h.2⟩)⟩
            · intro x hx
              rcases List.mem_append.mp hx with hx | hx
              · exact hnp3 x hx
              · exact h1 x hx
            · have := (validIdx_split.mp hvi).2.2
              simpa using this
          · refine .inr ⟨h1, _ ++ l, x, by rw [h2]; exact (List.append_assoc _ _ _).symm, h3, ?_⟩
            intro y hy
            rcases List.mem_append.mp hy with hy | hy
            · exact hnp3 y hy
            · exact h4 y hy

end NdSlice
