import Verif.Proof.Adversary
import Verif.Props.Dedup

/-
Selection against the adversary of `Verif.Proof.Adversary`: how many comparisons it makes at least.
-/

namespace NdSlice

variable {α β : Type}

/-! ### The lower bound as a function -/

/-- A number of comparisons `median_of_medians` makes at least with index `k` if all but `K` elements are equal. -/
def slowBound (K : Nat) : Nat → Nat → Nat
  | 0, k => if k < K + 12 then 0 else 1
  | j + 1, k => k / (2 * (K + 1)) * slowBound K j (k / 4096)

theorem slowBound_mono {K j k k' : Nat} (h : k ≤ k') : slowBound K j k ≤ slowBound K j k' := by
  induction j generalizing k k' with
  | zero =>
    unfold slowBound
    split
    · omega
    · rw [if_neg (by omega)]
  | succ j ih => exact Nat.mul_le_mul (Nat.div_le_div_right h) (ih (Nat.div_le_div_right h))

theorem slowBound_big {K j k : Nat} (h : slowBound K j k ≠ 0) : K + 12 ≤ k := by
  induction j generalizing k with
  | zero =>
    unfold slowBound at h
    split at h
    · exact absurd rfl h
    · omega
  | succ j ih =>
    have : slowBound K j (k / 4096) ≠ 0 := by
      intro h0
      apply h
      rw [slowBound, h0, Nat.mul_zero]
    have := ih this
    omega

/-- The bound grows faster than every power. -/
theorem slowBound_grows (K j : Nat) : ∃ c N, ∀ k, N ≤ k → k ^ j ≤ c * slowBound K j k := by
  induction j with
  | zero => exact ⟨1, K + 12, fun k hk => by rw [slowBound, if_neg (by omega)]; simp⟩
  | succ j ih =>
    obtain ⟨c, N, h⟩ := ih
    refine ⟨4 * (K + 1) * (8192 ^ j * c), 4096 * (N + 1) + 2 * (K + 1), fun k hk => ?_⟩
    have h1 : k ≤ 8192 * (k / 4096) := by omega
    have h2 : k ≤ 4 * (K + 1) * (k / (2 * (K + 1))) := by
      generalize hg : 2 * (K + 1) = g at hk ⊢
      have e : 4 * (K + 1) = 2 * g := by omega
      rw [e]
      have h3 : k < g * (k / g + 1) := Nat.lt_mul_div_succ k (by omega)
      have h4 : 1 ≤ k / g := (Nat.one_le_div_iff (by omega)).2 (by omega)
      have h5 : g * 1 ≤ g * (k / g) := Nat.mul_le_mul_left _ h4
      rw [Nat.mul_add] at h3
      rw [Nat.mul_assoc]
      omega
    have h3 := h (k / 4096) (by omega)
    calc k ^ (j + 1) = k ^ j * k := Nat.pow_succ _ _
      _ ≤ (8192 * (k / 4096)) ^ j * (4 * (K + 1) * (k / (2 * (K + 1)))) := Nat.mul_le_mul (Nat.pow_le_pow_left h1 _) h2
      _ = 8192 ^ j * (k / 4096) ^ j * (4 * (K + 1) * (k / (2 * (K + 1)))) := by rw [Nat.mul_pow]
      _ ≤ 8192 ^ j * (c * slowBound K j (k / 4096)) * (4 * (K + 1) * (k / (2 * (K + 1)))) :=
        Nat.mul_le_mul_right _ (Nat.mul_le_mul_left _ h3)
      _ = _ := by rw [slowBound]; ac_rfl

/-! ### `median_of_medians` -/

variable [DecidableEq α] {K : Nat} {T : List α} {cfg : Cfg} {v : View} {s : StA α}

theorem no_ED {xs ys : List α} {e : Panic} (hd : cfg.dbg = false) : ¬ ED (ordCmp (relT false T)) cfg xs e ys := by
  rintro ⟨⟨_, h⟩ | ⟨_, h⟩, _⟩
  · exact relT_pan false T h
  · rw [hd] at h; cases h

/-- `partition` compares at all. -/
theorem partition_AT_one (hK : T.length ≤ K) (hv : v.WF) {pivot : Nat} (hp : pivot < v.len) (h2 : 2 ≤ v.len) :
    AT false K T (partition cfg lessO v pivot) v s 1 (fun _ _ => True) := by
  intro hT
  have sp : ∀ R : α × α → Option Bool → Prop, Tri R v.region (partition cfg lessO v pivot) (v.contents s.mem) _ _ := fun R =>
    partition_spec (cfg := cfg) (v := v) (ordCmp R) (v.contents_length s.mem) hp
  obtain ⟨r, s', e1, -, e3, -⟩ := AT.tri hK hv (sp (relT false T)) (fun _ _ h => relT_pan false T h.2.1) hT
  refine ⟨r, s', e1, ?_, e3, trivial⟩
  obtain ⟨d, h1, -⟩ := run_trace (o := adv false K) (fun _ => rfl) (partition cfg lessO v pivot) s
  rw [e1] at h1
  dsimp only at h1
  rw [h1, List.length_append]
  cases d with
  | cons => simp
  | nil =>
    exfalso
    have := run_sound_log (o := adv false K) (s := s) (R := fun _ _ => False) (L := []) (by simp) (by rw [e1]; dsimp only; rw [h1])
      (sp (fun _ _ => False) s.mem s.log (View.region_nodup hv) rfl)
    rcases this with ⟨b, s'', g1, g4, p', A', B', g5, g6, g7, g8, g9⟩ | ⟨_, s'', g1, _⟩
    · have hl := congrArg List.length g6
      simp only [List.length_map, View.region_length, List.length_append, List.length_cons] at hl
      cases A' with
      | cons a _ => exact g8 a List.mem_cons_self
      | nil =>
        cases B' with
        | cons b _ => exact g9 b List.mem_cons_self
        | nil => simp at hl; omega
    · rw [e1] at g1
      injection g1 with g1 g2
      cases g1

theorem fracOf_ge (n : Nat) : n / 1024 ≤ fracOf cfg n := by
  unfold fracOf
  split
  · omega
  · split <;> omega

theorem medianOfNinthers_AT (hK : T.length ≤ K) (hd : cfg.dbg = false) {d X : Nat} {rec : View → Nat → Prog α (α × α) Bool Unit}
    (hrec : MomOk (cfg := cfg) (ordCmp (relT false T)) d rec)
    (hX : ∀ w (s' : StA α), w.WF → (w.contents s'.mem).Nodup → w.len < 2 ^ d → v.len / 1024 ≤ w.len → AT false K T (rec w (w.len / 2)) w s' X fun _ _ => True)
    (hl : v.len < 2 ^ (d + 1)) (h10 : 10 < v.len) (hv : v.WF) (nd : (v.contents s.mem).Nodup) :
    AT false K T (medianOfNinthers cfg lessO rec v) v s (X + 1) (fun r s' => ∃ p A B, v.contents s'.mem = A ++ p :: B ∧
      (v.contents s'.mem).Perm (v.contents s.mem) ∧ r = A.length ∧ A.length ≤ K) := by
  have h1 : AT false K T (medianOfNinthers cfg lessO rec v) v s (X + 1) (fun _ _ => True) := by
    unfold medianOfNinthers
    dsimp only
    have hf := fracOf_le (cfg := cfg) v.len
    have hg := fracOf_ge (cfg := cfg) v.len
    generalize fracOf cfg v.len = frac at hf hg ⊢
    rw [Nat.pow_succ] at hl
    refine AT.usub (by omega) (AT.usub (by omega) (AT.usub (by omega) (AT.usub (by omega) ?_)))
    refine (AT.bind (n1 := 0) (n2 := X + 1) (Q' := fun _ s' => (v.contents s'.mem).Perm (v.contents s.mem)) ?_ ?_).mono (by omega) fun _ _ h => h
    · exact AT.tri hK hv (nintherLoop_spec (ordCmp (relT false T)) (.refl _) (by omega) (by omega) (by omega) (by omega)) (fun _ _ h => relT_pan false T h.2.1)
    · rintro _ s1 p1 -
      refine AT.slice (by omega) (by omega) ?_
      rw [Nat.add_sub_cancel_left]
      refine AT.bind (Q' := fun _ _ => True) ?_ ?_
      · have hw := hX (v.sub (v.len / 2 - frac / 2) frac) s1 (View.sub_WF hv (by omega)) ?_ (by simp; omega) (by simpa using hg)
        · rw [View.sub_len] at hw
          refine hw.sub fun a ha => ?_
          rw [View.region_split v (a := v.len / 2 - frac / 2) (n := frac) (by omega)]
          simp [ha]
        · have := p1.nodup_iff.2 nd
          unfold View.contents at this ⊢
          rw [View.region_split v (a := v.len / 2 - frac / 2) (n := frac) (by omega), List.map_append, List.map_append] at this
          exact (this.of_append_left).of_append_right
      · rintro _ s2 - -
        refine (AT.bind (n2 := 0) (partition_AT_one hK hv (by omega) (by omega)) ?_).mono (by omega) fun _ _ h => h
        rintro ⟨p, b⟩ s3 _ _
        exact AT.pure trivial
  refine (h1.and (AT.tri hK hv (medianOfNinthers_spec (ordCmp (relT false T)) hrec hl (v.contents_length s.mem) h10)
    fun _ _ => no_ED hd)).mono (Nat.le_refl _) ?_
  rintro r s' ⟨-, p1, p, A, B, h2, h3, h4, h5⟩
  refine ⟨p, A, B, h2, p1, h3, ?_⟩
  have nd' := p1.nodup_iff.2 nd
  rw [h2] at nd'
  have : A.length ≤ T.length := (nd'.of_append_left.subperm fun x hx => ltT_mem ((relT_good false T).2 _ _ _ (h4 x hx)).symm).length_le
  omega

omit [DecidableEq α] in
theorem right_contents {s : StA α} {A B : List α} {p : α} (h : v.contents s.mem = A ++ p :: B) :
    (v.sub (A.length + 1) (v.len - (A.length + 1))).contents s.mem = B ∧ A.length + 1 + B.length = v.len := by
  have hl := v.contents_length s.mem
  rw [h] at hl
  simp at hl
  refine ⟨?_, by omega⟩
  rw [(View.sub_contents v (w := A.length + 1) (by omega) s.mem).2, h, show A ++ p :: B = (A ++ [p]) ++ B by simp]
  exact List.drop_left' (by simp)

theorem momLoop_AT (hK : T.length ≤ K) (hd : cfg.dbg = false) {d X r0 : Nat} {rec : View → Nat → Prog α (α × α) Bool Unit}
    (hrec : MomOk (cfg := cfg) (ordCmp (relT false T)) d rec)
    (hX : ∀ w (s' : StA α), w.WF → (w.contents s'.mem).Nodup → w.len < 2 ^ d → r0 / 1024 ≤ w.len → AT false K T (rec w (w.len / 2)) w s' X fun _ _ => True)
    (h10 : 11 ≤ r0) {n q k : Nat} (hn : v.len < n) (hl : v.len < 2 ^ (d + 1)) (hv : v.WF) (nd : (v.contents s.mem).Nodup) (hk : k + 2 ≤ v.len)
    (hq : r0 + q * (K + 1) ≤ k) : AT false K T (momLoop cfg lessO rec n v k) v s (q * (X + 1)) (fun _ _ => True) := by
  induction q generalizing n v k s with
  | zero =>
    rw [Nat.zero_mul]
    exact (AT.tri hK hv (momLoop_spec (ordCmp (relT false T)) hrec hl (v.contents_length s.mem) hn (.inl (by omega)))
      fun _ _ => no_ED hd).mono (Nat.le_refl _) fun _ _ _ => trivial
  | succ q ih =>
    rw [Nat.succ_mul] at hq
    cases n with
    | zero => omega
    | succ n =>
      unfold momLoop
      rw [if_neg (by omega)]
      refine AT.usub (by omega) ?_
      rw [if_neg (by omega), if_neg (by omega), Nat.succ_mul, Nat.add_comm]
      refine AT.bind (medianOfNinthers_AT hK hd hrec (fun w s' h1 h2 h3 h4 => hX w s' h1 h2 h3 ?_) hl (by omega) hv nd) ?_
      · exact Nat.le_trans (Nat.div_le_div_right (by omega)) h4
      · rintro _ s1 ⟨p, A, B, h1, h2, rfl, h3⟩ -
        obtain ⟨h4, h5⟩ := right_contents h1
        rw [if_neg (by omega), if_neg (by omega)]
        refine AT.splitAt (by omega) (AT.usub (by omega) ?_)
        refine (ih (v := v.sub (A.length + 1) (v.len - (A.length + 1))) ?_ ?_ (View.sub_WF hv (by omega)) ?_ ?_ ?_).sub ?_
        · rw [View.sub_len]; omega
        · rw [View.sub_len]; omega
        · rw [h4]
          have := h2.nodup_iff.2 nd
          rw [h1] at this
          exact (List.nodup_cons.1 this.of_append_right).2
        · rw [View.sub_len]; omega
        · omega
        · intro a ha
          rw [← View.sub_region_append v (w := A.length + 1) (by omega)]
          simp [ha]

/-- `median_of_medians` needs many comparisons if all but a few elements are equal. -/
theorem medianOfMedians_AT (hK : T.length ≤ K) (hd : cfg.dbg = false) (hz : cfg.zst = false) (j : Nat) {d k : Nat} (hl : v.len < 2 ^ d)
    (hv : v.WF) (nd : (v.contents s.mem).Nodup) (hk : k + 2 ≤ v.len) :
    AT false K T (medianOfMedians cfg lessO d v k) v s (slowBound K j k) (fun _ _ => True) := by
  induction j generalizing d v k s with
  | zero =>
    cases d with
    | zero => simp at hl; omega
    | succ d =>
      by_cases hb : k < K + 12
      · rw [slowBound, if_pos hb]
        exact (AT.tri hK hv (medianOfMedians_spec (ordCmp (relT false T)) hz (d + 1) v k _ hl (by omega) (v.contents_length s.mem) (.inl (by omega)))
          fun _ _ => no_ED hd).mono (Nat.le_refl _) fun _ _ _ => trivial
      · rw [slowBound, if_neg hb]
        unfold medianOfMedians
        refine AT.debugAssert hd (AT.debugAssert hd ?_)
        refine (momLoop_AT (X := 0) (r0 := 11) (q := 1) hK hd (medianOfMedians_spec (ordCmp (relT false T)) hz d) ?_ (Nat.le_refl _) (by omega) hl hv nd hk
          (by omega)).mono (by omega) fun _ _ h => h
        intro w s' h1 h2 h3 h4
        by_cases hw : 1 ≤ d
        · refine (AT.tri hK h1 (medianOfMedians_spec (ordCmp (relT false T)) hz d w _ _ h3 hw (w.contents_length s'.mem) ?_)
            fun _ _ => no_ED hd).mono (Nat.le_refl _) fun _ _ _ => trivial
          omega
        · obtain rfl : d = 0 := by omega
          simp at hl
          omega
  | succ j ih =>
    cases d with
    | zero => simp at hl; omega
    | succ d =>
      by_cases hb : slowBound K j (k / 4096) = 0
      · rw [slowBound, hb, Nat.mul_zero]
        exact (AT.tri hK hv (medianOfMedians_spec (ordCmp (relT false T)) hz (d + 1) v k _ hl (by omega) (v.contents_length s.mem) (.inl (by omega)))
          fun _ _ => no_ED hd).mono (Nat.le_refl _) fun _ _ _ => trivial
      · have hb' := slowBound_big hb
        unfold medianOfMedians
        refine AT.debugAssert hd (AT.debugAssert hd ?_)
        refine (momLoop_AT (X := slowBound K j (k / 4096)) (r0 := k / 2) (q := k / (2 * (K + 1))) hK hd
          (medianOfMedians_spec (ordCmp (relT false T)) hz d) ?_ (by omega) (by omega) hl hv nd hk ?_).mono ?_ fun _ _ h => h
        · intro w s' h1 h2 h3 h4
          exact (ih h3 h1 h2 (by omega)).mono (slowBound_mono (by omega)) fun _ _ h => h
        · have : k / (2 * (K + 1)) * (2 * (K + 1)) ≤ k := Nat.div_mul_le_self _ _
          have e : k / (2 * (K + 1)) * (2 * (K + 1)) = 2 * (k / (2 * (K + 1)) * (K + 1)) := by ac_rfl
          omega
        · rw [slowBound]
          exact Nat.mul_le_mul_left _ (by omega)

/-! ### Forcing `partition_at_index_loop` into `median_of_medians` -/

/-- What is known about the element before the slice. -/
def SelPredOk (T : List α) (v : View) (s : StA α) (pred : Option Addr) : Prop :=
  ∀ a, pred = some a → a ∉ v.region ∧ ∀ y ∈ v.contents s.mem, ltT false T (s.mem a) y = true

theorem selPredCheck_AT (hK : T.length ≤ K) {pivot : Nat} (hp : pivot < v.len) {pred : Option Addr} (hpr : SelPredOk T v s pred) :
    AT false K T (selPredCheck lessO v pivot pred) v s 0 (fun c s' => c = false ∧ s'.mem = s.mem ∧ s'.env.length ≤ s.env.length + 1) := by
  cases pred with
  | none => exact AT.pure ⟨rfl, rfl, by omega⟩
  | some a =>
    intro hT
    obtain ⟨d, h1, h2⟩ := run_trace (o := adv false K) (fun _ => rfl) (selPredCheck lessO v pivot (some a)) s
    have h3 := h2.answers hT hK
    have h4 := h2.env_count
    have hy : s.mem (v.addr pivot) ∈ v.contents s.mem := List.mem_map.2 ⟨_, View.mem_region v hp, rfl⟩
    have hans := (hpr a rfl).2 _ hy
    have e : selPredCheck (lessO (α := α)) v pivot (some a) = Prog.get a fun x => Prog.get (v.addr pivot) fun y =>
        Prog.call (x, y) fun | none => .throw .user | some b => .ret !b := by
      unfold selPredCheck View.idx
      rw [if_pos hp]
      show Prog.get a _ = _
      congr 1; funext x
      show Prog.get (v.addr pivot) _ = _
      congr 1; funext y
      show Prog.call (x, y) _ = _
      congr 1; funext r
      cases r <;> rfl
    have hask : ((adv false K).ask s.env (s.mem a, s.mem (v.addr pivot))).1 = some true := by
      rw [e] at h1
      have hlog : ((s.mem a, s.mem (v.addr pivot)), ((adv false K).ask s.env (s.mem a, s.mem (v.addr pivot))).1) ∈ d := by
        have hp := run_log_prefix (adv false K) (match ((adv false K).ask s.env (s.mem a, s.mem (v.addr pivot))).1 with
          | none => (Prog.throw .user : Prog α (α × α) Bool Bool) | some b => .ret !b)
          { s with env := ((adv false K).ask s.env (s.mem a, s.mem (v.addr pivot))).2,
                   log := s.log ++ [((s.mem a, s.mem (v.addr pivot)), ((adv false K).ask s.env (s.mem a, s.mem (v.addr pivot))).1)] }
        obtain ⟨L', hL, -⟩ := prefix_cut hp (L := d) (by rw [← h1]; exact List.prefix_rfl)
        rw [hL]
        exact List.mem_cons_self
      have := h3 _ hlog
      dsimp only at this
      rw [this, hans]
    have er : run (adv false K) (selPredCheck lessO v pivot (some a)) s = (.ok false, { s with
        env := ((adv false K).ask s.env (s.mem a, s.mem (v.addr pivot))).2,
        log := s.log ++ [((s.mem a, s.mem (v.addr pivot)), some true)] }) := by
      rw [e]
      simp only [run, hask]
      rfl
    refine ⟨false, _, er, ?_, fun _ _ => rfl, rfl, rfl, ?_⟩
    · simp
    · rw [er] at h1 h4
      dsimp only at h1 h4 ⊢
      have := congrArg List.length h1
      simp at this
      omega

theorem selLoop_AT (hK : T.length ≤ K) (hd : cfg.dbg = false) (hz : cfg.zst = false) (j : Nat) {ρ l n k : Nat} {bal : Bool} {pred : Option Addr}
    (hρ : ρ = l + (if bal then 1 else 0)) (hn : v.len < n) (hv : v.WF) (nd : (v.contents s.mem).Nodup) (hk : v.len = k + 2)
    (hbig : (ρ + 8) * (K + 1) + 10 ≤ k) (hpr : SelPredOk T v s pred) (henv : s.env.length + 14 * ρ < K) :
    AT false K T (selLoop cfg lessO n v k pred l bal) v s (slowBound K j (k - ρ * (K + 1))) (fun _ _ => True) := by
  induction ρ generalizing l n k bal pred v s with
  | zero =>
    obtain ⟨rfl, hb⟩ : l = 0 ∧ bal = false := by
      cases bal <;> simp at hρ
      exact ⟨hρ.symm, rfl⟩
    cases n with
    | zero => omega
    | succ n =>
      unfold selLoop
      rw [if_neg (by omega), if_pos rfl]
      exact (medianOfMedians_AT hK hd hz j Nat.lt_log2_self hv nd (by omega)).mono (slowBound_mono (by omega)) fun _ _ h => h
  | succ ρ ih =>
    cases n with
    | zero => omega
    | succ n =>
      have eb : (ρ + 1 + 8) * (K + 1) = (ρ + 8) * (K + 1) + (K + 1) := by rw [← Nat.succ_mul]
      have e8 : (ρ + 8) * (K + 1) = ρ * (K + 1) + 8 * (K + 1) := by rw [Nat.add_mul]
      unfold selLoop
      rw [if_neg (by omega)]
      by_cases hl0 : l = 0
      · rw [if_pos hl0]
        exact (medianOfMedians_AT hK hd hz j Nat.lt_log2_self hv nd (by omega)).mono (slowBound_mono (by omega)) fun _ _ h => h
      · rw [if_neg hl0]
        -- prepare
        refine (AT.bind (n1 := 0) (n2 := slowBound K j (k - (ρ + 1) * (K + 1))) (Q' := fun l' s' => l' = ρ ∧
          (v.contents s'.mem).Perm (v.contents s.mem) ∧ s'.env.length ≤ s.env.length) ?_ ?_).mono (by omega) fun _ _ h => h
        · cases bal with
          | true => exact AT.pure ⟨by simp at hρ; omega, .refl _, Nat.le_refl _⟩
          | false =>
            refine AT.bind (n1 := 0) (n2 := 0) (AT.silent (AT.tri hK hv (breakPatterns_spec (E := fun _ _ => False)
              (v.contents_length s.mem)) fun _ _ h => h) breakPatterns_silent) ?_
            rintro _ s1 ⟨h1, h2⟩ -
            unfold NdSlice.usub
            rw [if_pos (by omega)]
            exact AT.pure ⟨by simp at hρ; omega, h1, h2⟩
        · rintro l' s1 ⟨rfl, p1, v1⟩ f1
          -- choose a pivot
          refine (AT.bind (n1 := 0) (n2 := slowBound K j (k - (l' + 1) * (K + 1))) (AT.cost (AT.tri hK hv
            (choosePivot_spec (cfg := cfg) (ordCmp (relT false T)) (by omega) (v.contents_length s1.mem)) fun _ _ h => relT_pan false T h.2.1)
            (choosePivot_cost lessO_asks)) ?_).mono (by omega) fun _ _ h => h
          rintro ⟨pivot, likely⟩ s2 ⟨⟨p2, hpv⟩, v2⟩ f2
          dsimp only at hpv ⊢
          -- not equal to the element before
          have hpr2 : SelPredOk T v s2 pred := by
            intro a ha
            obtain ⟨g1, g2⟩ := hpr a ha
            refine ⟨g1, fun y hy => ?_⟩
            rw [f2 a g1, f1 a g1]
            exact g2 y (p1.mem_iff.1 (p2.mem_iff.1 hy))
          refine (AT.bind (n1 := 0) (n2 := slowBound K j (k - (l' + 1) * (K + 1))) (selPredCheck_AT hK hpv hpr2) ?_).mono (by omega) fun _ _ h => h
          rintro _ s3 ⟨rfl, m3, v3⟩ -
          rw [if_neg (by simp)]
          -- partition
          have nd3 : (v.contents s3.mem).Nodup := by
            rw [m3]
            exact (p2.trans p1).nodup_iff.2 nd
          refine (AT.bind (n1 := v.len - 1) (n2 := slowBound K j (k - (l' + 1) * (K + 1))) (partition_AT hK hv nd3 hpv) ?_).mono
            (by omega) fun _ _ h => h
          rintro ⟨_, was⟩ s4 ⟨p, A, B, h1, rfl, p4, hA, hB, v4, hsolid⟩ f4
          refine AT.env fun hT4 => ?_
          obtain ⟨h4, h5⟩ := right_contents h1
          have nd4 := p4.nodup_iff.2 nd3
          rw [h1] at nd4
          have hAK : A.length ≤ T.length := (nd4.of_append_left.subperm fun x hx => ltT_mem (hA x hx)).length_le
          have hp4 : p ∈ T := hT4.subset (hsolid.2 (by omega) (by omega))
          dsimp only
          refine AT.usub (by omega) (AT.splitAt (by omega) (AT.splitAt (by simp; omega) (AT.vref (by simp) ?_)))
          rw [if_pos (by omega)]
          refine AT.usub (by omega) (AT.usub (by omega) ?_)
          dsimp only
          rw [View.sub_sub, View.sub_sub, View.sub_len, View.sub_addr, Nat.add_zero,
            show v.len - A.length - 1 = v.len - (A.length + 1) by omega]
          rw [show decide (min A.length (v.len - A.length) ≥ v.len / 8) = false by
            rw [decide_eq_false_iff_not]; omega]
          have hreg := region_three (v := v) (mid := A.length) (by omega)
          have hnd := View.region_nodup hv
          rw [hreg] at hnd
          refine (AT.sub (w := v.sub (A.length + 1) (v.len - (A.length + 1))) (ih (by simp) ?_ (View.sub_WF hv (by omega)) ?_ ?_ ?_ ?_ ?_) ?_).mono
            (slowBound_mono ?_) fun _ _ h => h
          · rw [View.sub_len]; omega
          · rw [h4]
            exact (List.nodup_cons.1 nd4.of_append_right).2
          · rw [View.sub_len]; omega
          · omega
          · intro a ha
            injection ha with ha
            subst ha
            rw [h4]
            refine ⟨(List.nodup_cons.1 hnd.of_append_right).1, fun y hy => ?_⟩
            have e1 : s4.mem (v.addr A.length) = p := by
              have := View.contents_get (m := s4.mem) v (i := A.length) (by omega)
              rw [h1] at this
              simpa using this.symm
            rw [Nat.add_zero, e1]
            refine ltT_of_not hp4 ?_ (hB y hy)
            rintro rfl
            exact (List.nodup_cons.1 nd4.of_append_right).1 hy
          · omega
          · intro a ha
            rw [hreg]
            simp [ha]
          · rw [Nat.succ_mul]; omega

end NdSlice
