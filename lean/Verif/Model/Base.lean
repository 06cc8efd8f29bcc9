import Mathlib.Logic.Function.Basic

/-!
# Outcomes of C code

`ub` : undefined behaviour (an access outside an allocated array, a division by zero, ...).
`diverge` : the fuel was used up; a function terminates on an input when for all large enough
fuels the outcome is not `diverge`.
-/

namespace H2Pack

inductive Res (α : Type) where
  | ok (a : α)
  | ub
  | diverge
deriving DecidableEq, Repr

namespace Res

@[inline] def bind {α β : Type} : Res α → (α → Res β) → Res β
  | .ok a, f => f a
  | .ub, _ => .ub
  | .diverge, _ => .diverge

instance : Monad Res where
  pure := .ok
  bind := Res.bind

@[simp] theorem bind_ok {α β : Type} (a : α) (f : α → Res β) : (Res.ok a >>= f) = f a := rfl
@[simp] theorem bind_ub {α β : Type} (f : α → Res β) : ((Res.ub : Res α) >>= f) = .ub := rfl
@[simp] theorem bind_div {α β : Type} (f : α → Res β) : ((Res.diverge : Res α) >>= f) = .diverge := rfl
@[simp] theorem pure_eq {α : Type} (a : α) : (pure a : Res α) = .ok a := rfl

end Res

/-- The program terminates with result `a` without undefined behaviour: for all large enough fuels. -/
def Returns {α : Type} (p : Nat → Res α) (a : α) : Prop := ∃ F, ∀ fuel ≥ F, p fuel = .ok a

/-- The program never terminates. -/
def Diverges {α : Type} (p : Nat → Res α) : Prop := ∀ fuel, p fuel = .diverge

end H2Pack
