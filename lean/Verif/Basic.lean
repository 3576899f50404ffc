/-!
# Outcomes of modelled Go functions

Every modelled Go function that can panic returns a `Res`.

* `ok a`   : the function returned `a` (Go error values are part of `a` where they matter);
* `panic`  : an explicit `panic(..)`, an index or slice out of range, a nil dereference, or an integer
             division by zero;
* `stuck`  : the fuel given to the model ran out.  This is an artefact of the model: theorems that talk
             about a Go call must exclude it.
-/

namespace Verif

/-- Outcome of a modelled Go call. -/
inductive Res (α : Type) where
  | ok (a : α)
  | panic
  | stuck
  deriving DecidableEq, Repr

namespace Res

/-- Sequencing of Go statements: a panic (or exhausted fuel) aborts the rest. -/
def bind {α β : Type} (x : Res α) (f : α → Res β) : Res β :=
  match x with
  | ok a => f a
  | panic => panic
  | stuck => stuck

instance : Monad Res where
  pure := ok
  bind := bind

@[simp] theorem bind_ok {α β : Type} (a : α) (f : α → Res β) : (Res.ok a >>= f) = f a := rfl
@[simp] theorem bind_panic {α β : Type} (f : α → Res β) : (Res.panic >>= f) = Res.panic := rfl
@[simp] theorem bind_stuck {α β : Type} (f : α → Res β) : (Res.stuck >>= f) = Res.stuck := rfl
@[simp] theorem pure_eq {α : Type} (a : α) : (pure a : Res α) = Res.ok a := rfl

/-- Indexing a Go slice: out of range panics. -/
def idx {α : Type} (l : List α) (i : Nat) : Res α :=
  match l[i]? with
  | some a => ok a
  | none => panic

theorem idx_of_some {α : Type} {l : List α} {i : Nat} {a : α} (h : l[i]? = some a) :
    idx l i = ok a := by
  simp [idx, h]

theorem bind_eq_ok {α β : Type} {x : Res α} {f : α → Res β} {b : β} :
    (x >>= f) = ok b ↔ ∃ a, x = ok a ∧ f a = ok b := by
  cases x <;> simp

end Res

end Verif
