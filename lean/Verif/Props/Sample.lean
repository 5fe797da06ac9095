import Verif.Props.Base

/-
A concrete array, comparators and states: used to show that the hypotheses of the property theorems can be met.
-/

namespace NdSlice.Sample

/-- A debug build on a 64 bit machine, elements that are not zero sized. -/
def cfg : Cfg := ⟨true, 64, false⟩

/-- The same in a release build. -/
def release : Cfg := ⟨false, 64, false⟩

/-- Every other element of some memory, backwards: 60 elements. -/
def view : View := ⟨200, -2, 60⟩

/-- Memory with some pattern and repeated values. -/
def mem : Mem Nat := fun a => (a.toNat * 37 + 11) % 23

/-- What the view shows. -/
def contents : List Nat := view.contents mem

def lt (x y : Nat) : Bool := decide (x < y)

theorem swo : SWO lt where
  irrefl := by simp [lt]
  trans := by simp only [lt, decide_eq_true_eq]; omega
  ntrans := by simp only [lt, decide_eq_false_iff_not]; omega

theorem wf : view.WF := .inl (by decide)

theorem notZst {d : Bool} : (Cfg.mk d 64 false).zst = true → Subsingleton Nat := fun h => by cases h

/-- Answers a comparison by a function of the elements. Keys are the elements themselves. -/
def answer (f : Nat → Nat → Bool) : (st : Style) → st.Q Nat Nat → st.A Nat
  | .ord, q => f q.1 q.2
  | .cmp, q => if f q.1 q.2 then Ordering.lt else if f q.2 q.1 then Ordering.gt else Ordering.eq
  | .key, q => match (q : KeyQ Nat Nat) with
    | .key x => (x, true)
    | .lt k l => (0, f k l)

/-- A consistent comparator. -/
def oracle (st : Style) : Oracle Unit (st.Q Nat Nat) (st.A Nat) := ⟨fun _ q => (some (answer lt st q), ()), fun _ => (true, ())⟩

theorem agrees (st : Style) : Agrees st (oracle st) lt := by
  cases st with
  | ord => exact fun _ _ _ => rfl
  | cmp =>
    refine ⟨fun x y => answer lt .cmp (x, y), fun _ _ _ => rfl, fun x y => ?_⟩
    show lt x y = ((if lt x y then Ordering.lt else if lt y x then Ordering.gt else Ordering.eq) == .lt)
    cases lt x y with
    | true => rfl
    | false => cases lt y x <;> rfl
  | key => exact ⟨id, lt, fun _ _ => ⟨_, rfl⟩, fun _ _ _ => ⟨_, rfl⟩, fun _ _ => rfl⟩

/-- A comparator which always says "less": not an order. -/
def stubborn (st : Style) : Oracle Unit (st.Q Nat Nat) (st.A Nat) :=
  ⟨fun _ q => (some (answer (fun _ _ => true) st q), ()), fun _ => (true, ())⟩

theorem stubborn_noPanic (st : Style) : NoPanic (stubborn st) := fun _ _ => Option.some_ne_none _

/-- Answers depending on the number of earlier calls; panics at the tenth call. -/
def nonsense (st : Style) : Oracle Nat (st.Q Nat Nat) (st.A Nat) :=
  ⟨fun n q => (if n = 9 then none else some (answer (fun x y => (x * n + y) % 3 == 0) st q), n + 1), fun n => (n % 2 == 0, n)⟩

def state (st : Style) : St Nat (st.Q Nat Nat) (st.A Nat) Unit := ⟨mem, (), []⟩
def nstate (st : Style) : St Nat (st.Q Nat Nat) (st.A Nat) Nat := ⟨mem, 0, []⟩

end NdSlice.Sample
