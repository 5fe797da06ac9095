import Verif.Proof.SelectSlow
import Verif.Proof.Within

/-
The parallel quicksort against the adversary of `Verif.Proof.Adversary` for which decided elements are the greatest ones: how many comparisons it
makes at least.
-/

namespace NdSlice

variable {α β : Type} [DecidableEq α]

/-! ### Undecided elements -/

/-- How many of the elements `xs` are not in `e`. -/
def gas (e xs : List α) : Nat := xs.countP (fun x => decide (x ∉ e))

theorem gas_perm {e xs ys : List α} (h : xs.Perm ys) : gas e xs = gas e ys := h.countP_eq _

theorem gas_append {e xs ys : List α} : gas e (xs ++ ys) = gas e xs + gas e ys := List.countP_append

theorem gas_le {e xs : List α} : gas e xs ≤ xs.length := List.countP_le_length

theorem gas_mono {e e' xs : List α} (h : e ⊆ e') : gas e' xs ≤ gas e xs := by
  refine List.countP_mono_left fun x _ hx => ?_
  simp only [decide_eq_true_eq] at hx ⊢
  exact fun h' => hx (h h')

theorem gas_zero {e xs : List α} (h : ∀ x ∈ xs, x ∈ e) : gas e xs = 0 := by
  unfold gas
  rw [List.countP_eq_zero]
  intro x hx
  simp [h x hx]

theorem gas_snoc {e xs : List α} {y : α} (hy : y ∈ xs) (he : y ∉ e) : gas (e ++ [y]) xs + 1 ≤ gas e xs := by
  induction xs with
  | nil => cases hy
  | cons x xs ih =>
    have hm : gas (e ++ [y]) xs ≤ gas e xs := gas_mono (List.subset_append_left _ _)
    by_cases hxy : x = y
    · subst hxy
      have e1 : gas (e ++ [x]) (x :: xs) = gas (e ++ [x]) xs := List.countP_cons_of_neg (by simp)
      have e2 : gas e (x :: xs) = gas e xs + 1 := List.countP_cons_of_pos (by simp [he])
      omega
    · have := ih ((List.mem_cons.1 hy).resolve_left (fun h => hxy h.symm))
      by_cases hxe : x ∈ e
      · have e1 : gas (e ++ [y]) (x :: xs) = gas (e ++ [y]) xs := List.countP_cons_of_neg (by simp [hxe])
        have e2 : gas e (x :: xs) = gas e xs := List.countP_cons_of_neg (by simp [hxe])
        omega
      · have e1 : gas (e ++ [y]) (x :: xs) = gas (e ++ [y]) xs + 1 := List.countP_cons_of_pos (by simp [hxe, hxy])
        have e2 : gas e (x :: xs) = gas e xs + 1 := List.countP_cons_of_pos (by simp [hxe])
        omega

/-- Each decision makes at most one element of a list without duplicates decided. -/
theorem gas_grow {e e' xs : List α} (h : e <+: e') (nd : xs.Nodup) : gas e xs + e.length ≤ gas e' xs + e'.length := by
  obtain ⟨d, rfl⟩ := h
  induction d generalizing e with
  | nil => simp
  | cons y d ih =>
    have h1 := ih (e := e ++ [y])
    rw [List.append_assoc, List.singleton_append] at h1
    have h2 : gas e xs ≤ gas (e ++ [y]) xs + 1 := by
      clear h1 ih
      induction xs with
      | nil => simp [gas]
      | cons x xs ih =>
        obtain ⟨n1, n2⟩ := List.nodup_cons.1 nd
        have h3 := ih n2
        by_cases hxe : x ∈ e
        · have e1 : gas (e ++ [y]) (x :: xs) = gas (e ++ [y]) xs := List.countP_cons_of_neg (by simp [hxe])
          have e2 : gas e (x :: xs) = gas e xs := List.countP_cons_of_neg (by simp [hxe])
          omega
        · have e2 : gas e (x :: xs) = gas e xs + 1 := List.countP_cons_of_pos (by simp [hxe])
          by_cases hxy : x = y
          · subst hxy
            have e1 : gas (e ++ [x]) (x :: xs) = gas (e ++ [x]) xs := List.countP_cons_of_neg (by simp)
            have : gas e xs = gas (e ++ [x]) xs := by
              refine List.countP_congr fun z hz => ?_
              have : z ≠ x := fun h => n1 (h ▸ hz)
              simp [this]
            omega
          · have e1 : gas (e ++ [y]) (x :: xs) = gas (e ++ [y]) xs + 1 := List.countP_cons_of_pos (by simp [hxe, hxy])
            omega
    simp only [List.length_append, List.length_cons, List.length_nil] at h1 ⊢
    omega

variable {K : Nat} {T : List α} {cfg : Cfg} {v : View} {s : StA α}

/-- If only elements of `xs` are compared, then as many elements are decided as fewer of `xs` are undecided. -/
theorem Trace.env_gas {up : Bool} {e e' xs : List α} {d : List ((α × α) × Option Bool)} (h : Trace (adv up K) e d e') (hd : ∀ x ∈ d, x.1.2 ∈ xs) :
    gas e' xs + e'.length ≤ gas e xs + e.length := by
  induction h with
  | nil => omega
  | @cons e e' q d h ih =>
    have h1 := ih fun x hx => hd x (List.mem_cons_of_mem _ hx)
    have hq : q.2 ∈ xs := hd _ List.mem_cons_self
    by_cases hf : q.1 ≠ q.2 ∧ q.1 ∉ e ∧ q.2 ∉ e ∧ e.length < K
    · have e2 : ((adv up K).ask e q).2 = e ++ [q.2] := by simp only [adv, if_pos hf]
      rw [e2] at h1
      have := gas_snoc hq hf.2.2.1
      simp only [List.length_append, List.length_cons, List.length_nil] at h1
      omega
    · have e2 : ((adv up K).ask e q).2 = e := by simp only [adv, if_neg hf]
      rw [e2] at h1
      exact h1

namespace AT

variable {up : Bool} {n : Nat}

/-- Only elements of `v` are compared. -/
theorem closed {p : Prog α (α × α) Bool β} {Q : β → StA α → Prop} (h : AT up K T p v s n Q)
    (hp : ∀ D : Sim α (α × α) Bool (List α) α (α × α) Bool (List α), D.LessRel lessO lessO → D.VRel v v → D.P p p Eq) :
    AT up K T p v s n (fun b s' => Q b s' ∧ gas s'.env (v.contents s.mem) + s'.env.length ≤ gas s.env (v.contents s.mem) + s.env.length) := by
  intro hT
  obtain ⟨b, s', e1, e2, e3, e4⟩ := h hT
  refine ⟨b, s', e1, e2, e3, e4, ?_⟩
  obtain ⟨d, h1, h2⟩ := run_trace (o := adv up K) (fun _ => rfl) p s
  have hl : (within (adv up K) v.region (· ∈ v.contents s.mem) s.log (fun d => ∀ x ∈ d, x.1.2 ∈ v.contents s.mem)).LessRel lessO lessO := by
    refine ⟨?_⟩
    rintro x _ y _ ⟨rfl, hx⟩ ⟨rfl, hy⟩ s₁ s₂ ⟨hm, he, d, h1, h2⟩
    have he : s₁.env = s₂.env := he
    have er : ∀ t : StA α, run (adv up K) (lessO x y) t = (match ((adv up K).ask t.env (x, y)).1 with
        | none => .panic .user
        | some b => .ok b, ⟨t.mem, ((adv up K).ask t.env (x, y)).2, t.log ++ [((x, y), ((adv up K).ask t.env (x, y)).1)]⟩) := by
      intro t
      unfold lessO Style.less
      simp only [run]
      cases ((adv up K).ask t.env (x, y)).1 <;> rfl
    show OutRel Eq (run (adv up K) (lessO x y) s₁).1 (run (adv up K) (lessO x y) s₂).1 ∧
      (∀ a b, a = b ∧ a ∈ v.region → (run (adv up K) (lessO x y) s₁).2.mem a = (run (adv up K) (lessO x y) s₂).2.mem b ∧
        (run (adv up K) (lessO x y) s₁).2.mem a ∈ v.contents s.mem) ∧
      (run (adv up K) (lessO x y) s₁).2.env = (run (adv up K) (lessO x y) s₂).2.env ∧
      ∃ d, (run (adv up K) (lessO x y) s₁).2.log = s.log ++ d ∧ ∀ x ∈ d, x.1.2 ∈ v.contents s.mem
    rw [er, er, he]
    refine ⟨?_, hm, rfl, d ++ [((x, y), ((adv up K).ask s₂.env (x, y)).1)], ?_, ?_⟩
    · cases ((adv up K).ask s₂.env (x, y)).1 with
      | none => exact .panic _
      | some b => exact .ok rfl
    · show s₁.log ++ _ = _
      rw [h1, List.append_assoc]
    · intro z hz
      rcases List.mem_append.1 hz with hz | hz
      · exact h2 z hz
      · rw [List.mem_singleton] at hz
        subst hz
        exact hy
  obtain ⟨d', h3, h4⟩ := within_run (hp _ hl (within_vrel fun _ h => h)) (by simp) fun a ha => List.mem_map.2 ⟨a, ha, rfl⟩
  rw [h1] at h3
  have := List.append_cancel_left h3
  subst this
  rw [e1] at h2
  exact h2.env_gas h4

/-- One comparison against the adversary. -/
theorem ask {x y : α} (hxy : x ≠ y) (hK : s.env.length < K) :
    AT true K T (lessO x y) v s 1 (fun b s' => s'.mem = s.mem ∧
      ((b = true ∧ s.env <+: s'.env ∧ s'.env.length ≤ s.env.length + 1) ∨ (b = false ∧ s'.env = s.env ∧ x ∈ s.env))) := by
  intro _
  have er : run (adv true K) (lessO x y) s = (match ((adv true K).ask s.env (x, y)).1 with
      | none => .panic .user
      | some b => .ok b, ⟨s.mem, ((adv true K).ask s.env (x, y)).2, s.log ++ [((x, y), ((adv true K).ask s.env (x, y)).1)]⟩) := by
    unfold lessO Style.less
    simp only [run]
    cases ((adv true K).ask s.env (x, y)).1 <;> rfl
  rw [er]
  by_cases hf : x ∉ s.env ∧ y ∉ s.env
  · have e : (adv true K).ask s.env (x, y) = (some true, s.env ++ [y]) := by
      simp only [adv]
      rw [if_pos ⟨hxy, hf.1, hf.2, hK⟩]
    rw [e]
    exact ⟨true, _, rfl, by simp, fun _ _ => rfl, rfl, .inl ⟨rfl, List.prefix_append _ _, by simp⟩⟩
  · have e : (adv true K).ask s.env (x, y) = (some (ltT true s.env x y), s.env) := by
      simp only [adv]
      rw [if_neg (fun h => hf ⟨h.2.1, h.2.2.1⟩)]
    rw [e]
    refine ⟨ltT true s.env x y, _, rfl, by simp, fun _ _ => rfl, rfl, ?_⟩
    cases hb : ltT true s.env x y with
    | true => exact .inl ⟨rfl, List.prefix_rfl, by dsimp only; omega⟩
    | false =>
      refine .inr ⟨rfl, rfl, ?_⟩
      simp only [ltT, if_true, decide_eq_false_iff_not] at hb
      by_contra hx
      have hy : y ∈ s.env := by
        by_contra hy
        exact hf ⟨hx, hy⟩
      have := List.idxOf_lt_length_iff.2 hy
      rw [List.idxOf_eq_length hx] at hb
      omega

theorem vget {i : Nat} {k : α → Prog α (α × α) Bool β} {w : View} {Q : β → StA α → Prop} (hi : i < w.len)
    (h : AT up K T (k (s.mem (w.addr i))) v s n Q) : AT up K T (w.get i >>= k) v s n Q := by
  unfold View.get
  rw [if_pos hi]
  exact h

end AT

/-! ### `partial_insertion_sort` -/

section

omit [DecidableEq α]

theorem getElem_contents {m : Mem α} {i : Nat} (hi : i < v.len) : (v.contents m)[i]? = some (m (v.addr i)) := by
  unfold View.contents
  rw [List.getElem?_map, View.region_get v hi]
  rfl

theorem take_succ_contents {m : Mem α} {i : Nat} (hi : i < v.len) : (v.contents m).take (i + 1) = (v.contents m).take i ++ [m (v.addr i)] := by
  rw [List.take_add_one, getElem_contents hi]
  rfl

theorem contents_ne {m : Mem α} (nd : (v.contents m).Nodup) {i j : Nat} (hij : i < j) (hj : j < v.len) : m (v.addr j) ≠ m (v.addr i) := by
  intro h
  have h1 := getElem_contents (m := m) (Nat.lt_trans hij hj)
  have h2 := getElem_contents (m := m) hj
  rw [← h, ← h2] at h1
  exact (List.nodup_iff_getElem?_ne_getElem?.1 nd) i j hij (by rw [v.contents_length]; exact hj) h1

end

/-- Looking for an element that is less than the one before it: undecided elements are found. -/
theorem findOutOfOrder_AT {i n : Nat} (hi : 1 ≤ i) (hn : i + n = v.len) (nd : (v.contents s.mem).Nodup) (hK : s.env.length < K) :
    AT true K T (findOutOfOrder cfg lessO v i n) v s 0 (fun r s' => s'.mem = s.mem ∧ i ≤ r ∧ r ≤ v.len ∧ s'.env.length ≤ s.env.length + 1 ∧
      gas s'.env ((v.contents s.mem).take r) ≤ gas s.env ((v.contents s.mem).take i)) := by
  induction n generalizing i s with
  | zero => exact AT.pure ⟨rfl, Nat.le_refl _, by omega, by omega, Nat.le_refl _⟩
  | succ n ih =>
    unfold findOutOfOrder
    refine AT.usub hi (AT.vget (by omega) (AT.vget (by omega) ?_))
    refine (AT.bind (n1 := 1) (n2 := 0) (AT.ask (contents_ne nd (by omega) (by omega)) hK) ?_).mono (by omega) fun _ _ h => h
    rintro b s' ⟨h1, h2⟩ -
    rcases h2 with ⟨rfl, h2, h3⟩ | ⟨rfl, h2, h3⟩
    · exact AT.pure ⟨h1, Nat.le_refl _, by omega, h3, gas_mono h2.subset⟩
    · refine (ih (by omega) (by omega) (by rw [h1]; exact nd) (by rw [h2]; exact hK)).mono (Nat.le_refl _) ?_
      rintro r s'' ⟨g1, g2, g3, g4, g5⟩
      rw [h1] at g1 g5
      rw [h2] at g4 g5
      refine ⟨g1, by omega, g3, g4, Nat.le_trans g5 ?_⟩
      rw [take_succ_contents (by omega), gas_append, gas_zero (xs := [_]) (by simpa using h3)]
      omega

theorem AT.framed {up : Bool} {n : Nat} {p : Prog α (α × α) Bool β} {Q : β → StA α → Prop} (h : AT up K T p v s n Q) :
    AT up K T p v s n (fun b s' => Q b s' ∧ ∀ a, a ∉ v.region → s'.mem a = s.mem a) := by
  intro hT
  obtain ⟨b, s', e1, e2, e3, e4⟩ := h hT
  exact ⟨b, s', e1, e2, e3, e4, e3⟩

theorem AT.grows {up : Bool} {n : Nat} {p : Prog α (α × α) Bool β} {Q : β → StA α → Prop} (h : AT up K T p v s n Q) :
    AT up K T p v s n (fun b s' => Q b s' ∧ s.env <+: s'.env) := by
  intro hT
  obtain ⟨b, s', e1, e2, e3, e4⟩ := h hT
  refine ⟨b, s', e1, e2, e3, e4, ?_⟩
  have := run_env_prefix (up := up) (K := K) (s := s) p
  rw [e1] at this
  exact this

/-- Sorting some elements at the beginning. -/
theorem prefix_AT (hK : T.length ≤ K) (hv : v.WF) {r : Nat} (hr : r ≤ v.len) {p : Prog α (α × α) Bool β} {Q : β → List α → Prop}
    {E : Panic → List α → Prop} (hp : Tri (relT true T) (v.sub 0 r).region p ((v.sub 0 r).contents s.mem) Q E) (hE : ∀ e ys, ¬ E e ys)
    (hQ : ∀ b ys, Q b ys → ys.Perm ((v.sub 0 r).contents s.mem))
    (hs : ∀ D : Sim α (α × α) Bool (List α) α (α × α) Bool (List α), D.LessRel lessO lessO → D.VRel (v.sub 0 r) (v.sub 0 r) → D.P p p Eq) :
    AT true K T p v s 0 (fun _ s' => (v.contents s'.mem).Perm (v.contents s.mem) ∧
      ((v.contents s'.mem).take r).Perm ((v.contents s.mem).take r) ∧
      gas s'.env ((v.contents s.mem).take r) + s'.env.length ≤ gas s.env ((v.contents s.mem).take r) + s.env.length) := by
  refine (((AT.tri hK (View.sub_WF hv (by omega)) hp hE).closed hs).framed.sub (v := v) ?_).mono (Nat.le_refl _) ?_
  · intro a ha
    rw [← View.sub_region_append v hr]
    simp [ha]
  · rintro b s' ⟨⟨h1, h2⟩, h3⟩
    have h1 := hQ _ _ h1
    rw [(v.sub_contents hr s.mem).1] at h2
    rw [(v.sub_contents hr s.mem).1, (v.sub_contents hr s'.mem).1] at h1
    refine ⟨?_, h1, h2⟩
    rw [← List.take_append_drop r (v.contents s'.mem), ← List.take_append_drop r (v.contents s.mem)]
    refine h1.append (List.Perm.of_eq ?_)
    rw [← (v.sub_contents hr s.mem).2, ← (v.sub_contents hr s'.mem).2]
    refine List.map_congr_left fun a ha => h3 a fun h => ?_
    have := View.region_nodup hv
    rw [← View.sub_region_append v hr, List.nodup_append] at this
    exact this.2.2 a h a ha rfl

theorem swap_AT (hT : T.length ≤ K) (hv : v.WF) {i j : Nat} (hi : i < v.len) (hj : j < v.len) :
    AT true K T (v.swap i j) v s 0 (fun _ s' => (∃ x y, (v.contents s.mem)[i]? = some x ∧ (v.contents s.mem)[j]? = some y ∧
      v.contents s'.mem = ((v.contents s.mem).set i y).set j x) ∧ s'.env.length ≤ s.env.length) := by
  refine AT.silent (AT.tri (E := fun _ _ => False) (Q := fun _ ys => ∃ x y, (v.contents s.mem)[i]? = some x ∧ (v.contents s.mem)[j]? = some y ∧
      ys = ((v.contents s.mem).set i y).set j x) hT hv ?_ fun _ _ h => h) Silent.swap
  unfold View.swap
  exact Tri.vidx hi fun x hx => Tri.vidx hj fun y hy => Tri.vset hi (Tri.vsetU hj ⟨x, y, hx, hy, rfl⟩)

/-- `partial_insertion_sort` decides about a few elements only, and gives up as long as more are undecided. -/
theorem partialInsertionLoop_AT (hT : T.length ≤ K) {n i k : Nat} (hv : v.WF) (hi : 1 ≤ i) (hiv : i ≤ v.len) (nd : (v.contents s.mem).Nodup)
    (hk : gas s.env ((v.contents s.mem).take i) ≤ k) (hK : s.env.length + n * (k + n + 1) ≤ K) :
    AT true K T (partialInsertionLoop cfg lessO v n i) v s 0 (fun b s' => (v.contents s'.mem).Perm (v.contents s.mem) ∧
      s'.env.length ≤ s.env.length + n * (k + n + 1) ∧ (b = true → gas s'.env (v.contents s'.mem) ≤ k + n)) := by
  induction n generalizing i k s with
  | zero => exact AT.pure ⟨.refl _, by omega, by simp⟩
  | succ n ih =>
    have en : (n + 1) * (k + (n + 1) + 1) = n * (k + 1 + n + 1) + (k + n + 2) := by rw [Nat.add_one_mul]; congr 1; congr 1; omega
    unfold partialInsertionLoop
    refine (AT.bind (n2 := 0) (findOutOfOrder_AT hi (by omega) nd (by omega)) ?_).mono (Nat.le_refl _) fun _ _ h => h
    rintro r s1 ⟨m1, r1, r2, v1, g1⟩ -
    by_cases hr : r = v.len
    · subst hr
      rw [if_pos (by simp)]
      refine AT.pure ⟨by rw [m1], by omega, fun _ => ?_⟩
      rw [List.take_of_length_le (by rw [v.contents_length])] at g1
      rw [m1]
      omega
    · rw [if_neg (by simpa using hr)]
      split
      · exact AT.pure ⟨by rw [m1], by omega, by simp⟩
      · refine AT.usub (by omega) ?_
        refine (AT.bind (n2 := 0) (swap_AT hT hv (by omega) (by omega)).grows ?_).mono (Nat.le_refl _) fun _ _ h => h
        rintro _ s2 ⟨⟨⟨x, y, hx, hy, h2⟩, v2⟩, e2⟩ -
        have p2 : (v.contents s2.mem).Perm (v.contents s.mem) := by
          rw [h2, ← m1]
          exact swap_perm hx hy
        have g2 : gas s2.env ((v.contents s2.mem).take r) ≤ k + 1 := by
          obtain ⟨r', rfl⟩ : ∃ r', r = r' + 1 := ⟨r - 1, by omega⟩
          have e : (v.contents s2.mem).take r' = (v.contents s.mem).take r' := by
            rw [h2, ← m1, List.take_set_of_le (by omega), List.take_set_of_le (by omega)]
          have h3 : gas s2.env ((v.contents s.mem).take r') ≤ gas s1.env ((v.contents s.mem).take r') := gas_mono e2.subset
          have h4 := gas_le (e := s2.env) (xs := [s2.mem (v.addr r')])
          rw [take_succ_contents (by omega), gas_append] at g1 ⊢
          rw [e]
          simp only [List.length_cons, List.length_nil] at h4
          omega
        have nd2 := p2.nodup_iff.2 nd
        by_cases hr2 : r ≥ 2
        · rw [if_pos hr2]
          refine AT.slice (Nat.zero_le _) r2 ?_
          refine (AT.bind (n2 := 0) (prefix_AT (r := r) hT hv r2 (insertionSortShiftLeft_spec (ordCmp (relT true T)) (by omega)
            (by rw [View.sub_len]; omega) ((v.sub 0 r).contents_length s2.mem)) (fun _ _ h => relT_pan true T h.2.1) (fun _ _ h => h.1)
            fun D h h' => Sim.insertionSortShiftLeft_sim h h').grows ?_).mono (Nat.le_refl _) fun _ _ h => h
          rintro _ s3 ⟨⟨p3, q3, v3⟩, e3⟩ -
          refine AT.slice (Nat.zero_le _) r2 ?_
          refine (AT.bind (n2 := 0) (prefix_AT (r := r) hT hv r2 (insertionSortShiftRight_spec (ordCmp (relT true T)) (by omega)
            (by rw [View.sub_len]; omega) (by rw [View.sub_len]; omega) (by rw [View.sub_len]; omega) ((v.sub 0 r).contents_length s3.mem))
            (fun _ _ h => relT_pan true T h.2.1) (fun _ _ h => h.1)
            fun D h h' => Sim.insertionSortShiftRight_sim h h').grows ?_).mono (Nat.le_refl _) fun _ _ h => h
          rintro _ s4 ⟨⟨p4, q4, v4⟩, e4⟩ -
          have a3 := gas_perm (e := s3.env) q3
          have a4 := gas_perm (e := s4.env) q4
          have l3 := e3.length_le
          have l4 := e4.length_le
          have pp := p4.trans (p3.trans p2)
          refine (ih (k := k + 1) (by omega) (by omega) (pp.nodup_iff.2 nd) (by omega) (by omega)).mono (Nat.le_refl _) ?_
          rintro b s5 ⟨h5, h6, h7⟩
          exact ⟨h5.trans pp, by omega, fun hb => by have := h7 hb; omega⟩
        · rw [if_neg hr2]
          refine (ih (k := k + 1) (by omega) (by omega) nd2 g2 (by omega)).mono (Nat.le_refl _) ?_
          rintro b s3 ⟨h3, h4, h5⟩
          exact ⟨h3.trans p2, by omega, fun hb => by have := h5 hb; omega⟩

/-! ### `par_quick_sort` -/

/-- The two tasks of `rayon::join` run one after the other. -/
theorem AT.rayonJoin {up : Bool} {n1 n2 : Nat} {γ : Type} {p : Prog α (α × α) Bool β} {q : Prog α (α × α) Bool γ} {Q' : β → StA α → Prop}
    {Q : γ → StA α → Prop} (h : AT up K T p v s n1 Q')
    (hq : ∀ b s', Q' b s' → (∀ a, a ∉ v.region → s'.mem a = s.mem a) → AT up K T q v s' n2 Q) :
    AT up K T (Prog.rayonJoin p q) v s (n1 + n2) (fun r s' => Q r.2 s') := by
  intro hT
  have e : run (adv up K) (Prog.rayonJoin p q) s = match run (adv up K) p s with
      | (.ok b, s1) => match run (adv up K) q s1 with
        | (.ok c, s2) => (.ok (b, c), s2)
        | (.panic e, s2) => (.panic e, s2)
        | (.ub, s2) => (.ub, s2)
        | (.diverge, s2) => (.diverge, s2)
      | (.panic e, s1) => match run (adv up K) q s1 with
        | (.ok _, s2) => (.panic e, s2)
        | (.panic _, s2) => (.panic e, s2)
        | (.ub, s2) => (.ub, s2)
        | (.diverge, s2) => (.diverge, s2)
      | (.ub, s1) => (.ub, s1)
      | (.diverge, s1) => (.diverge, s1) := by
    unfold Prog.rayonJoin
    simp only [run]
    rcases run (adv up K) p s with ⟨_ | _ | _ | _, s1⟩ <;> dsimp only
    · rcases run (adv up K) q s1 with ⟨_ | _ | _ | _, s2⟩ <;> rfl
    · rcases run (adv up K) q s1 with ⟨_ | _ | _ | _, s2⟩ <;> rfl
  have h1 : (run (adv up K) p s).2.env <+: (run (adv up K) (Prog.rayonJoin p q) s).2.env := by
    rw [e]
    rcases run (adv up K) p s with ⟨_ | _ | _ | _, s1⟩ <;> dsimp only
    · have := run_env_prefix (up := up) (K := K) (s := s1) q
      revert this
      rcases run (adv up K) q s1 with ⟨_ | _ | _ | _, s2⟩ <;> exact fun h => h
    · have := run_env_prefix (up := up) (K := K) (s := s1) q
      revert this
      rcases run (adv up K) q s1 with ⟨_ | _ | _ | _, s2⟩ <;> exact fun h => h
    · exact List.prefix_rfl
    · exact List.prefix_rfl
  obtain ⟨b, s1, e1, e2, e3, e4⟩ := h (h1.trans hT)
  rw [e, e1] at hT
  rw [e, e1]
  dsimp only at hT ⊢
  have h2 : (run (adv up K) q s1).2.env <+: T := by
    revert hT
    rcases run (adv up K) q s1 with ⟨_ | _ | _ | _, s2⟩ <;> exact fun h => h
  obtain ⟨c, s2, g1, g2, g3, g4⟩ := hq b s1 e4 e3 h2
  rw [g1]
  exact ⟨_, s2, rfl, by omega, fun a ha => (g3 a ha).trans (e3 a ha), g4⟩

/-- Elements in the order of decision: an undecided one is less than a decided one. -/
theorem ltT_undecided {e : List α} {x p : α} (he : e <+: T) (hp : p ∈ e) (hx : x ∉ e) : ltT true T x p = true := by
  have h1 := (idxOf_prefix he p).1 hp
  have h2 := ((idxOf_prefix he x).2 hx).1
  have h3 := List.idxOf_lt_length_iff.2 hp
  simp only [ltT, if_true, decide_eq_true_eq]
  omega

omit [DecidableEq α] in
theorem left_contents {s : StA α} {A B : List α} {p : α} (h : v.contents s.mem = A ++ p :: B) :
    (v.sub 0 A.length).contents s.mem = A ∧ A.length + 1 + B.length = v.len := by
  have hl := v.contents_length s.mem
  rw [h] at hl
  simp at hl
  refine ⟨?_, by omega⟩
  rw [(View.sub_contents v (w := A.length) (by omega) s.mem).1, h]
  exact List.take_left' rfl

/-- As long as enough elements are undecided, a call of `recurse` partitions once, and then calls itself for all but a constant number of them. -/
theorem recurse_AT (hT : T.length ≤ K) {q X d limit : Nat} (hX : 2000 < X) (hd : v.len < d) (hl : limit ≠ 0) (hv : v.WF)
    (nd : (v.contents s.mem).Nodup) (hg : X + 48 * q ≤ gas s.env (v.contents s.mem)) (hK : s.env.length + 50 * v.len ≤ K) :
    AT true K T (recurse cfg lessO (some 2000) d v none limit) v s (q * X) (fun _ _ => True) := by
  induction q generalizing d v s with
  | zero =>
    rw [Nat.zero_mul]
    refine (AT.tri hT hv (recurse_spec (C := ordCmp (relT true T)) (some 2000) d v none limit [] (v.contents s.mem) hd rfl (v.contents_length s.mem))
      fun _ _ h => relT_pan true T h.2.1).mono (Nat.le_refl _) fun _ _ _ => trivial
  | succ q ih =>
    obtain ⟨d, rfl⟩ : ∃ d', d = d' + 1 := ⟨d - 1, by omega⟩
    have hgl : gas s.env (v.contents s.mem) ≤ v.len := by
      have := gas_le (e := s.env) (xs := v.contents s.mem)
      rwa [v.contents_length] at this
    unfold recurse Prog.loop
    refine (AT.bind (n1 := (q + 1) * X) (n2 := 0) (Q' := fun r _ => r = .inr ()) ?_ ?_).mono (Nat.le_refl _) fun _ _ h => h
    · unfold quickStep
      dsimp only
      rw [if_neg (by omega), if_neg hl]
      rw [if_neg (by simp)]
      refine (AT.bind (n1 := 0) (n2 := (q + 1) * X) (Q' := fun l s' => l = limit ∧ s' = s) (AT.pure ⟨rfl, rfl⟩) ?_).mono (by omega) fun _ _ h => h
      rintro limit s ⟨rfl, rfl⟩ -
      refine (AT.bind (n1 := 0) (n2 := (q + 1) * X) ((AT.tri hT hv (choosePivot_spec (cfg := cfg) (ordCmp (relT true T)) (by omega)
        (v.contents_length s.mem)) (fun _ _ h => relT_pan true T h.2.1)).cost (choosePivot_cost lessO_asks)).grows ?_).mono (by omega) fun _ _ h => h
      rintro ⟨pivot, likely⟩ s1 ⟨⟨⟨p1, hp⟩, v1⟩, e1⟩ -
      dsimp only at hp ⊢
      have nd1 := p1.nodup_iff.2 nd
      have g1 := gas_grow e1 nd
      have a1 := gas_perm (e := s1.env) p1
      refine (AT.bind (n1 := 0) (n2 := (q + 1) * X) (Q' := fun b s2 => (b = false ∧ (v.contents s2.mem).Perm (v.contents s1.mem) ∧
        s2.env.length ≤ s1.env.length + 35) ∧ s1.env <+: s2.env) (AT.grows ?_) ?_).mono (by omega) fun _ _ h => h
      · split
        · unfold partialInsertionSort
          have := gas_le (e := s1.env) (xs := (v.contents s1.mem).take 1)
          have hl := List.length_take_le 1 (v.contents s1.mem)
          refine (partialInsertionLoop_AT (k := 1) hT hv (Nat.le_refl _) (by omega) nd1 (by omega) (by omega)).grows.mono (Nat.le_refl _) ?_
          rintro b s2 ⟨⟨p2, v2, h2⟩, e2⟩
          refine ⟨?_, p2, by omega⟩
          cases b with
          | false => rfl
          | true =>
            exfalso
            have h2 := h2 rfl
            have g2 := gas_grow e2 nd1
            rw [gas_perm p2] at h2
            omega
        · exact AT.pure ⟨rfl, .refl _, by omega⟩
      · rintro _ s2 ⟨⟨rfl, p2, v2⟩, e2⟩ -
        have nd2 := p2.nodup_iff.2 nd1
        have g2 := gas_grow e2 nd1
        have a2 := gas_perm (e := s2.env) p2
        rw [if_neg (by simp)]
        show AT true K T (quickSplit cfg lessO (some 2000) (recurse cfg lessO (some 2000) d) ⟨v, none, limit, true, true⟩ limit pivot) v s2 _ _
        unfold quickSplit
        have hqX : (q + 1) * X = q * X + X := Nat.succ_mul _ _
        refine (AT.bind (n1 := v.len - 1) (n2 := q * X) (partition_AT hT hv nd2 hp).grows ?_).mono (by omega) fun _ _ h => h
        rintro ⟨_, was⟩ s3 ⟨⟨p, A, B, h1, rfl, p3, hA, hB, v3, hp3, -⟩, e3⟩ -
        refine AT.env fun hT3 => ?_
        have g3 := gas_grow e3 nd2
        have a3 := gas_perm (e := s3.env) p3
        have nd3 := p3.nodup_iff.2 nd2
        obtain ⟨h4, h5⟩ := left_contents h1
        have el : s3.env.length < K := by omega
        have e0 : gas s3.env (v.contents s3.mem) = gas s3.env A + gas s3.env [p] + gas s3.env B := by
          rw [h1, show A ++ p :: B = A ++ ([p] ++ B) by simp, gas_append, gas_append]
          omega
        have hpe : p ∈ s3.env := by
          apply hp3 el
          by_contra hc
          have h6 : gas s3.env A = 0 := gas_zero fun x hx => by
            by_contra h
            exact hc ⟨x, by simp [hx], h⟩
          have h7 : gas s3.env B = 0 := gas_zero fun x hx => by
            by_contra h
            exact hc ⟨x, by simp [hx], h⟩
          have h8 := gas_le (e := s3.env) (xs := [p])
          simp only [List.length_cons, List.length_nil] at h8
          omega
        have hBg : gas s3.env B = 0 := gas_zero fun x hx => by
          by_contra h
          have := ltT_undecided hT3 hpe h
          rw [hB x hx] at this
          cases this
        have hpg : gas s3.env [p] = 0 := gas_zero (by simpa using hpe)
        have hAl := gas_le (e := s3.env) (xs := A)
        dsimp only
        refine AT.usub (by omega) (AT.splitAt (by omega) (AT.splitAt (by simp; omega) (AT.vref (by simp) ?_)))
        unfold quickDescend
        rw [if_neg (by simp [goesSeq]; omega)]
        refine (AT.bind (n1 := q * X) (n2 := 0) (Q' := fun _ _ => True) ?_ fun _ _ _ _ => AT.pure rfl).mono (by omega) fun _ _ h => h
        refine (AT.rayonJoin (n1 := q * X) (n2 := 0) (Q' := fun _ _ => True) (Q := fun _ _ => True) ?_ ?_).mono (by omega) fun _ _ _ => trivial
        · refine (ih (v := v.sub 0 A.length) ?_ (View.sub_WF hv (by omega)) ?_ ?_ ?_).sub ?_
          · rw [View.sub_len]; omega
          · rw [h4]
            rw [h1] at nd3
            exact nd3.of_append_left
          · rw [h4]; omega
          · rw [View.sub_len]; omega
          · intro a ha
            rw [← View.sub_region_append v (w := A.length) (by omega)]
            simp [ha]
        · rintro _ s4 - -
          have er : (v.sub A.length (v.len - A.length)).region = qrg (some (v.addr A.length)) (v.sub (A.length + 1) (v.len - A.length - 1)) := by
            have := View.sub_region_append (v.sub A.length (v.len - A.length)) (w := 1) (by simp; omega)
            rw [← this, View.sub_sub, View.sub_sub, View.sub_len]
            show [(v.sub A.length 1).addr 0] ++ _ = [_] ++ _
            rw [View.sub_addr]
            rfl
          have hw : (v.sub A.length (v.len - A.length)).WF := View.sub_WF hv (by omega)
          have hx : (v.sub A.length (v.len - A.length)).contents s4.mem = [s4.mem (v.addr A.length)] ++
              (v.sub (A.length + 1) (v.len - A.length - 1)).contents s4.mem := by
            unfold View.contents
            rw [er]
            rfl
          refine (AT.tri (v := v.sub A.length (v.len - A.length)) (s := s4) (up := true) (E := QE (ordCmp (relT true T)) [s4.mem (v.addr A.length)]
            ((v.sub (A.length + 1) (v.len - A.length - 1)).contents s4.mem)) (Q := fun _ _ => True) hT hw ?_
            fun _ _ h => relT_pan true T h.2.1).sub ?_ |>.mono (Nat.le_refl _) fun _ _ _ => trivial
          · rw [hx, er, View.sub_sub, View.sub_sub, View.sub_len, View.sub_addr, Nat.add_zero]
            exact Tri.mono (recurse_spec (C := ordCmp (relT true T)) (some 2000) d (v.sub (A.length + 1) (v.len - A.length - 1)) (some (v.addr A.length))
              limit [s4.mem (v.addr A.length)] _ (by show _ < _; rw [View.sub_len]; omega) rfl (View.contents_length _ _)) (fun _ _ _ _ => trivial)
              fun _ _ _ h => h
          · intro a ha
            rw [← View.sub_region_append v (w := A.length) (by omega)]
            simp [ha]
    · rintro _ s' rfl -
      exact AT.pure trivial

end NdSlice
