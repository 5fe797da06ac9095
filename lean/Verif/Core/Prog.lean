/-
The program representation every function of the crate is modelled in.

`Prog α ι ω β` is a syntax tree of a program which reads and writes memory cells holding values
of type `α`, calls user code (comparators, key functions, predicates) with questions of type `ι`
and answers of type `ω`, and finally returns a `β` or panics.  It carries no proofs and no
specification: only what the Rust code does, step by step.
-/

namespace NdSlice

/-- Address of one element in memory, counted in elements. -/
abbrev Addr := Int

/-- Memory holding the array elements (and scratch buffers). -/
abbrev Mem (α : Type) := Addr → α

/-- Why a Rust panic started. -/
inductive Panic where
  /-- User code (comparator, key function, predicate) panicked. -/
  | user
  /-- A checked operation failed: `v[i]`, `slice_mut`, `split_at`, `assert!`, `unwrap`. -/
  | check
  /-- A `debug_assert!` failed (builds with debug assertions only). -/
  | debugAssert
  /-- Arithmetic overflow (builds with overflow checks only). -/
  | overflow
  /-- The explicit `panic!` of `partition_at_index`. -/
  | index
  /-- The allocator returned null. -/
  | alloc
  deriving DecidableEq, Repr

/-- How a (sub)program ended. -/
inductive Res (β : Type) where
  | ok (b : β)
  | panic (e : Panic)
  deriving DecidableEq, Repr

/-- Programs. -/
inductive Prog (α ι ω : Type) : Type → Type 1 where
  /-- Return a value. -/
  | ret {β : Type} (b : β) : Prog α ι ω β
  /-- Read the cell at an address. -/
  | get {β : Type} (a : Addr) (k : α → Prog α ι ω β) : Prog α ι ω β
  /-- Write the cell at an address. -/
  | set {β : Type} (a : Addr) (x : α) (k : Prog α ι ω β) : Prog α ι ω β
  /-- Call user code; the answer `none` means that the user code panicked. -/
  | call {β : Type} (q : ι) (k : Option ω → Prog α ι ω β) : Prog α ι ω β
  /-- A choice made by the environment (allocator, task scheduler). -/
  | choose {β : Type} (k : Bool → Prog α ι ω β) : Prog α ι ω β
  /-- A panic leaves the program. -/
  | throw {β : Type} (e : Panic) : Prog α ι ω β
  /-- Undefined behaviour (e.g. an unchecked access out of bounds). -/
  | ub {β : Type} : Prog α ι ω β
  /-- A loop ran longer than the bound the model gives it.  The model never relies on this
  outcome: every safety theorem shows that it does not happen. -/
  | diverge {β : Type} : Prog α ι ω β
  /-- `rayon::join`: run two programs, in any interleaving, then continue with how they ended. -/
  | join {β γ δ : Type} (p : Prog α ι ω β) (q : Prog α ι ω γ)
      (k : Res β → Res γ → Prog α ι ω δ) : Prog α ι ω δ

namespace Prog

variable {α ι ω : Type}

/-- Sequential composition; a panic skips the rest. -/
def bind {β γ : Type} : Prog α ι ω β → (β → Prog α ι ω γ) → Prog α ι ω γ
  | ret b, f => f b
  | get a k, f => get a (fun x => (k x).bind f)
  | set a x k, f => set a x (k.bind f)
  | call q k, f => call q (fun r => (k r).bind f)
  | choose k, f => choose (fun b => (k b).bind f)
  | throw e, _ => throw e
  | ub, _ => ub
  | diverge, _ => diverge
  | join p q k, f => join p q (fun r s => (k r s).bind f)

instance : Monad (Prog α ι ω) where
  pure := ret
  bind := bind

/-- Run `p`; should it panic, run the drop glue `h` and continue panicking. -/
def onPanic {β : Type} : Prog α ι ω β → Prog α ι ω Unit → Prog α ι ω β
  | ret b, _ => ret b
  | get a k, h => get a (fun x => (k x).onPanic h)
  | set a x k, h => set a x (k.onPanic h)
  | call q k, h => call q (fun r => (k r).onPanic h)
  | choose k, h => choose (fun b => (k b).onPanic h)
  | throw e, h => h.bind (fun _ => throw e)
  | ub, _ => ub
  | diverge, _ => diverge
  | join p q k, h => join p q (fun r s => (k r s).onPanic h)

/-- `while`/`loop` with a bound on the number of iterations.  The body yields `.inl` to go on with
a new loop state and `.inr` to leave the loop. -/
def loop {s r : Type} (body : s → Prog α ι ω (s ⊕ r)) : Nat → s → Prog α ι ω r
  | 0, _ => diverge
  | n + 1, x => do
    match ← body x with
    | .inl x' => loop body n x'
    | .inr y => pure y

/-- `for i in a..a + n { body(i) }`. -/
def forUp (body : Nat → Prog α ι ω Unit) : Nat → Nat → Prog α ι ω Unit
  | _, 0 => pure ()
  | a, n + 1 => do
    body a
    forUp body (a + 1) n

/-- `for i in (a..a + n).rev() { body(i) }`. -/
def forDown (body : Nat → Prog α ι ω Unit) (a : Nat) : Nat → Prog α ι ω Unit
  | 0 => pure ()
  | n + 1 => do
    body (a + n)
    forDown body a n

/-- `rayon::join(p, q)`: both closures are executed; if one of them panics the panic is propagated
after the other one has ended (that of `p` if both panic). -/
def rayonJoin {β γ : Type} (p : Prog α ι ω β) (q : Prog α ι ω γ) : Prog α ι ω (β × γ) :=
  join p q fun r t => match r, t with
    | .ok b, .ok c => ret (b, c)
    | .panic e, _ => throw e
    | .ok _, .panic e => throw e

end Prog
end NdSlice
