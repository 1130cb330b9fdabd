import Verif.Model.Double
import Mathlib.Algebra.BigOperators.Group.List.Basic
/-
Sums of doubles in an unspecified order (`std::valarray::sum`).
-/
namespace Tom
variable {L : Libm}

/-- `SomeOrder xs s`: `s` is obtained by adding up the numbers `xs` in some order and grouping, possibly with zeros added: what the C++
standard allows `valarray::sum` to do.  (libstdc++ adds from the first to the last, starting with 0, for a stored valarray, and from the
last to the first for an expression like `a * b`; the model `sumV` is parametric in the order.) -/
inductive SomeOrder : List (Double L) → Double L → Prop
  | none : SomeOrder [] Arith.zero
  | one (x : Double L) : SomeOrder [x] x
  | add {xs ys zs : List (Double L)} {x y : Double L} (hx : SomeOrder xs x) (hy : SomeOrder ys y) (h : zs.Perm (xs ++ ys)) :
      SomeOrder zs (Arith.add x y)

/-- the number, 0 if not finite -/
def Double.rat (x : Double L) : ℚ := x.raw.toRat

/-- a finite number -/
def Double.Finite (x : Double L) : Prop := x.raw.isInvalid = false

/-- the unit roundoff -/
def unitRound : ℚ := 1 / 2 ^ 53

end Tom
