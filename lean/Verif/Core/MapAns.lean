import Verif.Core.TriL

/-
The same program for user code that gives more than the program looks at: `p.mapAns g` is `p`, where an answer `r` is read as `g r`.
-/

namespace NdSlice

variable {α ι ω ω' : Type}

/-- See the top of this file. -/
def Prog.mapAns (g : Option ω' → Option ω) {β : Type} : Prog α ι ω β → Prog α ι ω' β
  | .ret b => .ret b
  | .get a k => .get a fun x => (k x).mapAns g
  | .set a x k => .set a x (k.mapAns g)
  | .call q k => .call q fun r => (k (g r)).mapAns g
  | .choose k => .choose fun b => (k b).mapAns g
  | .throw e => .throw e
  | .ub => .ub
  | .diverge => .diverge
  | .join p q k => .join (p.mapAns g) (q.mapAns g) fun r t => (k r t).mapAns g

/-- A question and its answer, as `p.mapAns g` reads them. -/
def readAs (g : Option ω' → Option ω) (q : ι × Option ω') : ι × Option ω := (q.1, g q.2)

theorem wp_mapAns {g : Option ω' → Option ω} {R : ι → Option ω' → Prop} {β : Type} {p : Prog α ι ω β} {F : Addr → Prop}
    {Q : β → Mem α → List (ι × Option ω) → Prop} {E : Panic → Mem α → List (ι × Option ω) → Prop} {m : Mem α} {lg d : List (ι × Option ω')}
    (h : wp (fun q r => ∃ r', R q r' ∧ g r' = r) p F Q E m (d.map (readAs g))) :
    wp R (p.mapAns g) F (fun b m l => ∃ d, l = lg ++ d ∧ Q b m (d.map (readAs g))) (fun e m l => ∃ d, l = lg ++ d ∧ E e m (d.map (readAs g)))
      m (lg ++ d) := by
  induction p generalizing F E m lg d with
  | ret b => exact ⟨d, rfl, h⟩
  | get a k ih => exact ⟨h.1, ih _ h.2⟩
  | set a x k ih => exact ⟨h.1, ih h.2⟩
  | call q k ih =>
    intro r hr
    rw [List.append_assoc]
    refine ih _ ?_
    rw [List.map_append]
    exact h _ ⟨r, hr, rfl⟩
  | choose k ih => exact fun b => ih b (h b)
  | throw e => exact ⟨d, rfl, h⟩
  | ub => exact h
  | diverge => exact h
  | join p q k ihp ihq ihk =>
    obtain ⟨F1, F2, h1, h2, h3, P1, P2, h4, h5, h6⟩ := h
    refine ⟨F1, F2, h1, h2, h3, fun r m l => ∃ d, l = [] ++ d ∧ P1 r m (d.map (readAs g)), fun r m l => ∃ d, l = [] ++ d ∧ P2 r m (d.map (readAs g)),
      ihp (lg := []) (d := []) h4, ihq (lg := []) (d := []) h5, ?_⟩
    rintro r t m1 m2 _ _ ⟨l1, rfl, hr⟩ ⟨l2, rfl, ht⟩ m' d' e1 e2 e3 hd
    rw [List.append_assoc]
    refine ihk _ _ ?_
    rw [List.map_append]
    refine h6 r t m1 m2 _ _ hr ht m' _ e1 e2 e3 ?_
    rw [← List.map_append]
    exact List.Perm.map _ hd

theorem TriL.mapAns {g : Option ω' → Option ω} {R : ι → Option ω' → Prop} {rg : List Addr} {β : Type} {p : Prog α ι ω β} {xs : List α}
    {Q : β → List α → List (ι × Option ω) → Prop} {E : Panic → List α → List (ι × Option ω) → Prop}
    (h : TriL (fun q r => ∃ r', R q r' ∧ g r' = r) rg p xs Q E) :
    TriL R rg (p.mapAns g) xs (fun b ys d => Q b ys (d.map (readAs g))) (fun e ys d => E e ys (d.map (readAs g))) := by
  intro m lg nd hm
  have := wp_mapAns (lg := lg) (d := []) (h m [] nd hm)
  rw [List.append_nil] at this
  refine wp_mono this (fun _ h => h) ?_ ?_
  · rintro b m' _ ⟨d, rfl, _, h1, h2⟩
    rw [List.nil_append] at h1; subst h1
    exact ⟨d, rfl, h2⟩
  · rintro b m' _ ⟨d, rfl, _, h1, h2⟩
    rw [List.nil_append] at h1; subst h1
    exact ⟨d, rfl, h2⟩

end NdSlice
