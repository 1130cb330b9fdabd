import Verif.Model.Nonlinear
import Mathlib.Logic.Function.Iterate
/-
Floating-point arithmetic as far as the end of a line search depends on it: halving a number often enough gives zero, and a zero
has no effect.
-/
namespace Tom

/-- The laws of `double` used.  `fin`: finite numbers; `zero`: `+0` and `-0`; `plain`: finite numbers other than `-0`; `nonneg`: numbers
`>= 0` including `+inf` (and not nan).  `double` satisfies them with `rounds = 1075`: `2^-1074` is the smallest positive number. -/
structure Underflows (α : Type) [Dbl α] (rounds : ℕ) where
  fin : α → Prop
  zero : α → Prop
  plain : α → Prop
  nonneg : α → Prop
  /-- `1 * 0.5 * 0.5 * ...` (`rounds` times) is zero -/
  halves : zero ((fun a => Arith.mul a (lit 5 (-1)))^[rounds] (Dbl.ofInt 1))
  fin_zero : fin Arith.zero
  zero_zero : zero Arith.zero
  lit_mul : ∀ {a}, zero a → zero (Arith.mul (lit 4 (-1)) a)
  mul_zero : ∀ {v a}, fin v → zero a → zero (Arith.mul v a)
  zero_mul : ∀ {a v}, zero a → fin v → zero (Arith.mul a v)
  zero_add : ∀ {a b}, zero a → zero b → zero (Arith.add a b)
  /-- adding a zero changes nothing (except that `-0 + +0` is `+0`) -/
  add_zero : ∀ {v a}, plain v → zero a → Arith.add v a = v
  /-- ... and nothing at all in a square -/
  square : ∀ {v a}, fin v → zero a → Arith.mul (Arith.add v a) (Arith.add v a) = Arith.mul v v
  square_nonneg : ∀ {v}, fin v → nonneg (Arith.mul v v)
  add_nonneg : ∀ {a b}, nonneg a → nonneg b → nonneg (Arith.add a b)
  le_refl : ∀ {a}, nonneg a → Arith.le a a = true

end Tom
