import Verif.Proof.Extend
import Verif.Props.Panics

/-
C65: the user code of the collection which `select_many_nth_unstable*` extends by references (`Verif/Model/Extend.lean`).

The definitions below are about the part `d` of the log that this run has written: all the questions user code was asked, with the answers.
`exts d` are the calls of `extend` among them, `leaves xs r` are the elements after such a call, and `Given [] (exts d) js zs ys` says that
these calls hand out the elements `zs` for the indices `js` one by one, where each call finds the elements given before as the previous
call has left them, and that `ys` is left by the last one (all in `Verif/Proof/Extend.lean`).
-/

namespace NdSlice

open Style

variable {α κ ι ω σ : Type} {st : Style} {cfg : Cfg} {v : View}

/-- The comparator of user code. -/
def cmpPart (o : Oracle σ (ExtQ α ι) (ExtA α ω)) : Oracle σ ι ω :=
  ⟨fun e q => ((o.ask e (.ask q)).1.map (·.1), (o.ask e (.ask q)).2), o.flip⟩

/-- The answer is a panic. -/
def ExtPanic : ExtQ α ι → Option (ExtA α ω) → Prop
  | .ask _, r => r = none
  | .extend _ _, r => Panics r

/-- `m'` with the elements `zs` put back to the places `js` is `xs`, a permutation of `m` on the view. -/
def PutBack (v : View) (m m' : Mem α) (js : List Nat) (zs xs : List α) : Prop :=
  xs.Perm (v.contents m) ∧ (∀ i, i ∉ js → xs[i]? = (v.contents m')[i]?) ∧ js.map (xs[·]?) = zs.map some

theorem extRel_sat (o : Oracle σ (ExtQ α ι) (ExtA α ω)) : o.Sat (extRel (rel (cmpPart o))) := fun s q => by
  cases q with
  | ask q => exact ⟨s, rfl⟩
  | extend i xs => trivial

theorem lessAsk (st : Style) : LessIn (ω := ExtA α (st.A κ)) (fun _ => True) ExtQ.IsAsk (fun x y : α => (st.less (κ := κ) x y).asking) := by
  intro I x y hx hy J hJ
  cases st with
  | ord => exact ⟨trivial, fun r => by cases r <;> trivial⟩
  | cmp => exact ⟨trivial, fun r => by cases r <;> trivial⟩
  | key =>
    refine ⟨trivial, fun r => ?_⟩
    cases r with
    | none => trivial
    | some r =>
      refine ⟨trivial, fun r => ?_⟩
      cases r with
      | none => trivial
      | some r => exact ⟨trivial, fun r => by cases r <;> trivial⟩

theorem Back.putBack {C : Cmp α ι ω} (hv : v.WF) {m m' : Mem α} {js : List Nat} {zs : List α} (hj : ValidIdx 0 v.len js)
    (h : Back C v 0 m m' js zs) : ∃ xs, PutBack v m m' js zs xs ∧ ∀ lt, C.Good lt → ∀ i ∈ js, SelectedAt lt i xs := by
  obtain ⟨m0, h1, h2, h3, h4⟩ := h
  have hj' := (validIdx_iff.mp hj).2
  refine ⟨v.contents m0, ⟨h3, fun i hi => ?_, ?_⟩, fun lt hl i hi => by simpa using h4 lt hl i hi⟩
  · by_cases hl : i < v.len
    · rw [View.contents, View.contents, List.getElem?_map, List.getElem?_map, View.region_get v hl]
      simp only [Option.map_some]
      rw [h1]
      intro hm
      obtain ⟨j, hj, he⟩ := List.mem_map.mp hm
      have := addr_inj hv hl (by simpa using hj' j hj) he.symm
      exact hi (by simpa [this] using hj)
    · rw [List.getElem?_eq_none (by rw [View.contents_length]; omega), List.getElem?_eq_none (by rw [View.contents_length]; omega)]
  · rw [← h2, List.map_map]
    refine List.map_congr_left fun i hi => ?_
    rw [View.contents, List.getElem?_map, View.region_get v (hj' i hi)]
    simp

/-- C65: `select_many_nth_unstable*` with any comparator, any indices and any code in `extend` (which may keep the references, change
through them what it has been given before, and panic) ends without undefined behaviour.

If it returns then the indices were good and the references to the elements at the indices have been handed out in order, one by one.  Each element
was the one of its rank if the comparator is consistent.  From then on only `extend` changed it.
With the elements handed out put back the array is a permutation, and nothing outside the view changed.

If it panics this holds for the elements handed out so far, to a first part `js` of the indices. -/
theorem select_many_extend (o : Oracle σ (ExtQ α (st.Q α κ)) (ExtA α (st.A κ))) (hz : cfg.zst = true → Subsingleton α) (hv : v.WF)
    (hb : 2 * v.len ≤ 2 ^ cfg.bits) (is : List Nat) (s : St α (ExtQ α (st.Q α κ)) (ExtA α (st.A κ)) σ) :
    EndsS o (selectManyExt st cfg v is) s
      (fun r s' => GoodIndices v.len is ∧ r = is.map v.addr ∧ (∀ a, a ∉ v.region → s'.mem a = s.mem a) ∧
        ∃ d zs xs, s'.log = s.log ++ d ∧ Given [] (exts d) is zs (r.map s'.mem) ∧ PutBack v s.mem s'.mem is zs xs ∧
          ∀ lt, SWO lt → Agrees st (cmpPart o) lt → ∀ i ∈ is, SelectedAt lt i xs)
      (fun e s' => (∀ a, a ∉ v.region → s'.mem a = s.mem a) ∧
        ∃ d js zs xs, s'.log = s.log ++ d ∧ js <+: is ∧ GoodIndices v.len js ∧ Given [] (exts d) js zs ((js.map v.addr).map s'.mem) ∧
          PutBack v s.mem s'.mem js zs xs ∧ (∀ lt, SWO lt → Agrees st (cmpPart o) lt → ∀ i ∈ js, SelectedAt lt i xs) ∧
          ((e = .user ∧ (¬ NoPanic (cmpPart o) ∨ ∃ x ∈ exts d, Panics x.2.2)) ∨ (e = .debugAssert ∧ cfg.dbg = true) ∨
            (¬ GoodIndices v.len is ∧ (e = .index ∨ (e = .overflow ∧ cfg.dbg = true))))) := by
  have hw := wp_unchanged (partitionAtIndicesExt_spec (C := st.toCmp (rel (cmpPart o))) (cfg := cfg) (v := v) (n := is.length + 1) (off := 0) (is := is)
    (held := []) (m := s.mem) (lg := s.log) hz (lessAsk st) hv (by simp) List.nodup_nil (by omega) (by omega))
  refine EndsS.mono (wp.endsS (extRel_sat o) hw) ?_ ?_
  · rintro r s' ⟨⟨h1, rfl, d, zs, h2, h3, h4, h5⟩, h6⟩
    obtain ⟨xs, h7, h8⟩ := h4.putBack hv h1
    exact ⟨validIdx_iff.mp h1, by simp, fun a ha => h6 a (by simpa using ha), d, zs, xs, h2, h3, h7, fun lt so ho => h8 lt (good_of_agrees ho so)⟩
  · rintro e s' ⟨⟨d, js, zs, h1, h2, h3, h4, h5, h6⟩, h7⟩
    obtain ⟨xs, h8, h9⟩ := h5.putBack hv h3
    refine ⟨fun a ha => h7 a (by simpa using ha), d, js, zs, xs, h1, h2, validIdx_iff.mp h3, by simpa using h4, h8,
      fun lt so ho => h9 lt (good_of_agrees ho so), ?_⟩
    rcases h6 with ⟨-, h6 | h6 | h6⟩ | ⟨rfl, l, x, h6, h10, -⟩
    · exact .inl ⟨h6.1, .inl fun hn => pan_iff hn h6.2⟩
    · exact .inr (.inl h6)
    · exact .inr (.inr ⟨fun h => h6.1 (validIdx_iff.mpr h), h6.2⟩)
    · exact .inl ⟨rfl, .inr ⟨x, by rw [h6]; simp, h10⟩⟩

/-! ### Panics -/

/-- `l'` is `l` and answers of user code. -/
def Logged (o : Oracle σ ι ω) (l l' : List (ι × Option ω)) : Prop := ∃ d, l' = l ++ d ∧ ∀ x ∈ d, ∃ e, (o.ask e x.1).1 = x.2

theorem Logged.refl {o : Oracle σ ι ω} {l : List (ι × Option ω)} : Logged o l l := ⟨[], by simp, by simp⟩

theorem Logged.trans {o : Oracle σ ι ω} {l l' l'' : List (ι × Option ω)} (h : Logged o l l') (h' : Logged o l' l'') : Logged o l l'' := by
  obtain ⟨d, rfl, h1⟩ := h
  obtain ⟨d', rfl, h2⟩ := h'
  exact ⟨d ++ d', by simp, fun x hx => (List.mem_append.mp hx).elim (h1 x) (h2 x)⟩

/-- What a run writes to the log are answers of user code. -/
theorem run_logged (o : Oracle σ ι ω) {β : Type} (p : Prog α ι ω β) (s : St α ι ω σ) : Logged o s.log (run o p s).2.log := by
  induction p generalizing s with
  | ret b => exact .refl
  | get a k ih => exact ih _ _
  | set a x k ih => exact ih { s with mem := upd s.mem a x }
  | call q k ih =>
    exact Logged.trans ⟨[(q, (o.ask s.env q).1)], rfl, fun x hx => ⟨s.env, by rw [List.mem_singleton.mp hx]⟩⟩
      (ih (o.ask s.env q).1 { s with env := (o.ask s.env q).2, log := s.log ++ [(q, (o.ask s.env q).1)] })
  | choose k ih => exact ih (o.flip s.env).1 { s with env := (o.flip s.env).2 }
  | throw e => exact .refl
  | ub => exact .refl
  | diverge => exact .refl
  | join p q k ihp ihq ih =>
    have h1 := ihp s
    rw [run]
    rcases hp : run o p s with ⟨_ | _ | _ | _, s1⟩ <;> rw [hp] at h1 <;> dsimp only at h1 ⊢
    · have h2 := ihq s1
      rcases hq : run o q s1 with ⟨_ | _ | _ | _, s2⟩ <;> rw [hq] at h2 <;> dsimp only at h2 ⊢
      · exact h1.trans (h2.trans (ih _ _ s2))
      · exact h1.trans (h2.trans (ih _ _ s2))
      · exact h1.trans h2
      · exact h1.trans h2
    · have h2 := ihq s1
      rcases hq : run o q s1 with ⟨_ | _ | _ | _, s2⟩ <;> rw [hq] at h2 <;> dsimp only at h2 ⊢
      · exact h1.trans (h2.trans (ih _ _ s2))
      · exact h1.trans (h2.trans (ih _ _ s2))
      · exact h1.trans h2
      · exact h1.trans h2
    · exact h1
    · exact h1

theorem Dead.asking {X : Panic → Prop} {β : Type} {p : Prog α ι ω β} (h : Dead X p) : Dead X p.asking := by
  induction p with
  | get a k ih => exact fun x => ih x (h x)
  | set a x k ih => exact ih h
  | throw e => exact h
  | ub => trivial
  | diverge => trivial
  | ret b => exact h
  | call q k ih => exact h
  | choose k ih => exact h
  | join p q k ihp ihq ih => exact h

theorem Prompt.asking {X : Panic → Prop} {β : Type} {p : Prog α ι ω β} (h : Prompt AnsPanic X p) : Prompt ExtPanic X p.asking := by
  induction p with
  | ret b => trivial
  | get a k ih => exact fun x => ih x (h x)
  | set a x k ih => exact ih h
  | call q k ih =>
    intro r
    cases r with
    | none => exact ⟨fun _ => ((h none).1 rfl).asking, fun hn => absurd rfl hn⟩
    | some r => exact ⟨nofun, fun _ => ih _ ((h (some r.1)).2 nofun)⟩
  | choose k ih => exact fun b => ih b (h b)
  | throw e => exact h
  | ub => trivial
  | diverge => trivial
  | join p q k ihp ihq ih => exact h

theorem Quiet.readAll {as : List Addr} : Quiet (readAll as : Prog α ι ω (List α)) := by
  induction as with
  | nil => trivial
  | cons a as ih => exact Quiet.bind Quiet.deref fun _ => Quiet.bind ih fun _ => trivial

theorem Quiet.writeAll {as : List Addr} {xs : List α} : Quiet (writeAll as xs : Prog α ι ω Unit) := by
  induction as generalizing xs with
  | nil => unfold NdSlice.writeAll; trivial
  | cons a as ih =>
    cases xs with
    | nil => trivial
    | cons x xs => exact ih

theorem writeAll_dead {X : Panic → Prop} {as : List Addr} {xs : List α} {p : Prog α ι ω Unit} (h : Dead X p) :
    Dead X ((writeAll as xs).bind fun _ => p) := by
  induction as generalizing xs with
  | nil => unfold writeAll; exact h
  | cons a as ih =>
    cases xs with
    | nil => exact h
    | cons x xs => exact ih

theorem extendWith_pr {X : Panic → Prop} {i : Nat} {held : List Addr} :
    Prompt ExtPanic X (extendWith i held : Prog α (ExtQ α ι) (ExtA α ω) Unit) := by
  refine Prompt.bind (Quiet.prompt Quiet.readAll) fun xs r => ?_
  cases r with
  | none => exact ⟨fun _ => .inl rfl, fun h => absurd trivial h⟩
  | some r =>
    obtain ⟨w, l, b⟩ := r
    cases b with
    | false => exact ⟨nofun, fun _ => Prompt.bind (Quiet.prompt Quiet.writeAll) fun _ => Prompt.pure⟩
    | true => exact ⟨fun _ => writeAll_dead (.inl rfl), fun h => absurd rfl h⟩

theorem partitionAtIndicesExt_pr {X : Panic → Prop} {n off : Nat} {is : List Nat} {held : List Addr} :
    Prompt ExtPanic X (partitionAtIndicesExt (α := α) cfg (st.less (κ := κ)) n v off is held) := by
  induction n generalizing v off is held with
  | zero => exact Prompt.diverge
  | succ n ih =>
    unfold partitionAtIndicesExt
    split
    · exact Prompt.pure
    · exact Prompt.bind (Quiet.prompt Quiet.usub) fun _ => Prompt.bind (Prompt.partitionAtIndex_pr fun x y => (st.less_pr x y).asking) fun _ =>
        Prompt.bind ih fun _ => Prompt.bind extendWith_pr fun _ => ih

/-- C65: a panic of the comparator or of `extend` is passed on at once, and there is no other one. -/
theorem select_many_extend_passes_on (o : Oracle σ (ExtQ α (st.Q α κ)) (ExtA α (st.A κ))) (hz : cfg.zst = true → Subsingleton α) (hv : v.WF)
    (hb : 2 * v.len ≤ 2 ^ cfg.bits) (is : List Nat) (s : St α (ExtQ α (st.Q α κ)) (ExtA α (st.A κ)) σ) :
    PassesOn ExtPanic o (selectManyExt st cfg v is) s :=
  Prompt.passesOn (X := fun _ => False) partitionAtIndicesExt_pr (select_many_extend o hz hv hb is s).weak fun _ _ _ h => h

/-- C65 in release builds: with good indices, a consistent comparator and an `extend` that does not panic it returns. -/
theorem select_many_extend_returns {o : Oracle σ (ExtQ α (st.Q α κ)) (ExtA α (st.A κ))} {lt : α → α → Bool} (so : SWO lt)
    (ho : Agrees st (cmpPart o) lt) (hn : ∀ e i xs, ¬ Panics (o.ask e (.extend i xs)).1) (hz : cfg.zst = true → Subsingleton α)
    (hdbg : cfg.dbg = false) (hv : v.WF) (hb : 2 * v.len ≤ 2 ^ cfg.bits) {is : List Nat} (his : GoodIndices v.len is)
    (s : St α (ExtQ α (st.Q α κ)) (ExtA α (st.A κ)) σ) :
    ∃ s' d zs xs, run o (selectManyExt st cfg v is) s = (.ok (is.map v.addr), s') ∧ s'.log = s.log ++ d ∧
      Given [] (exts d) is zs ((is.map v.addr).map s'.mem) ∧ PutBack v s.mem s'.mem is zs xs ∧
      (∀ i ∈ is, ∀ ys, Sorted lt ys → ys.Perm (v.contents s.mem) →
        ∃ p q, xs[i]? = some p ∧ ys[i]? = some q ∧ eqv lt p q = true) ∧
      ∀ a, a ∉ v.region → s'.mem a = s.mem a := by
  rcases select_many_extend o hz hv hb is s with ⟨r, s', h, -, rfl, h1, d, zs, xs, h2, h3, h4, h5⟩ | ⟨e, s', h, -, d, js, zs, xs, -, -, -, -, -, -, h1⟩
  · exact ⟨s', d, zs, xs, h, h2, h3, h4, fun i hi ys h6 h7 => (h5 lt so ho i hi).order_statistic so (h4.1.trans h7.symm) h6, h1⟩
  · exfalso
    have hu : e ≠ .user := by
      rintro rfl
      obtain ⟨d, h2, h3⟩ := select_many_extend_passes_on o hz hv hb is s
      obtain ⟨d', h4, h5⟩ := run_logged o (selectManyExt st cfg v is) s
      obtain rfl := List.append_cancel_left (h2.symm.trans h4)
      rcases h3 with ⟨-, h3⟩ | ⟨d', q, r, rfl, h6, -, -⟩
      · exact h3 (by rw [h])
      · obtain ⟨e, he⟩ := h5 (q, r) (by simp)
        cases q with
        | ask q => exact noPanic_of_agrees ho e q (by rw [show r = none from h6] at he; simp [cmpPart, he])
        | extend i xs => exact hn e i xs (by rw [he]; exact h6)
    rcases h1 with h1 | h1 | h1
    · exact hu h1.1
    · rw [hdbg] at h1; exact Bool.false_ne_true h1.2
    · exact h1.1 his

/-! ### The hypotheses can be met -/

namespace Sample

/-- A collection that, whenever it is given a reference, adds 1000 to all elements it has been given. -/
def adding (st : Style) : Oracle Unit (ExtQ Nat (st.Q Nat Nat)) (ExtA Nat (st.A Nat)) :=
  ⟨fun e q => match q with
    | .ask q => (some (answer lt st q, [], false), e)
    | .extend _ xs => (some (match st with | .ord => false | .cmp => .eq | .key => (0, false), xs.map (· + 1000), false), e), fun _ => (true, ())⟩

/-- A collection that overwrites the first element it has been given, and panics at its third call; the comparator is nonsense. -/
def clobbering (st : Style) : Oracle (Nat × Nat) (ExtQ Nat (st.Q Nat Nat)) (ExtA Nat (st.A Nat)) :=
  ⟨fun e q => match q with
    | .ask q => (some (answer (fun x y => (x * e.1 + y) % 3 == 0) st q, [], false), (e.1 + 1, e.2))
    | .extend i _ => (some (match st with | .ord => false | .cmp => .eq | .key => (0, false), [i], e.2 == 2), (e.1, e.2 + 1)), fun e => (true, e)⟩

theorem adding_agrees (st : Style) : Agrees st (cmpPart (adding st)) lt := by
  have := agrees st
  cases st <;> exact this

def estate (st : Style) : St Nat (ExtQ Nat (st.Q Nat Nat)) (ExtA Nat (st.A Nat)) Unit := ⟨mem, (), []⟩
def cstate (st : Style) : St Nat (ExtQ Nat (st.Q Nat Nat)) (ExtA Nat (st.A Nat)) (Nat × Nat) := ⟨mem, (0, 0), []⟩

end Sample

example (st : Style) := select_many_extend (st := st) (Sample.clobbering st) (cfg := Sample.cfg) Sample.notZst Sample.wf (by decide)
  [3, 17, 18, 59] (Sample.cstate st)
example (st : Style) := select_many_extend_passes_on (st := st) (Sample.clobbering st) (cfg := Sample.cfg) Sample.notZst Sample.wf (by decide)
  [3, 17, 17, 59] (Sample.cstate st)
example (st : Style) := select_many_extend_returns (st := st) Sample.swo (Sample.adding_agrees st) (fun _ _ _ h => by cases h)
  (cfg := Sample.release) Sample.notZst rfl Sample.wf (by decide) Sample.goodIndices (Sample.estate st)

/-- The last call of `extend` sees the elements given before with what has been added to them. -/
example : ((exts (run (Sample.adding .ord) (selectManyExt (κ := Nat) .ord Sample.release ⟨0, 1, 5⟩ [0, 2, 4])
    ⟨fun a => [30, 10, 50, 20, 40].getD a.toNat 0, (), []⟩).2.log).map fun x => (x.1, x.2.1)) =
    [(0, [10]), (2, [1010, 30]), (4, [2010, 1030, 50])] := by decide

end NdSlice
