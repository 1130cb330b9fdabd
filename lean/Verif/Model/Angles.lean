import Verif.Model.Nonlinear
/-
Models src/tomsolver/math_operator.h:9-19.  `radians` and `degrees` are templates `T f(T &&t)`:
* called with a temporary `double` (`radians(30.0)`, as in tests/subs_test.cpp:41) `T` is `double`: the functions below;
* called with a temporary `int` `T` is `int`: the computation is in `double`, the result is converted to `int`;
* called with a variable `T` is a reference type, so that the result would be a reference to a temporary: rejected by the compiler for a
  non-const variable, and dangling for a const one.  Not modelled.
-/
namespace Tom
variable {α : Type} [Dbl α]

/-- math_operator.h:9 `constexpr double PI = M_PI` (the literal of <math.h>) -/
def piConst : α := lit 314159265358979323846 (-20)

/-- math_operator.h:11-14 `radians` for `T = double` -/
def radians (t : α) : α := Arith.mul (Arith.div t (Dbl.ofInt 180)) piConst

/-- math_operator.h:16-19 `degrees` for `T = double` -/
def degrees (t : α) : α := Arith.div (Arith.mul t (Dbl.ofInt 180)) piConst

/-- the conversion of a `double` result to the return type `int`; undefined where it does not fit -/
def toIntResult (x : α) : Res Int :=
  match Dbl.toInt32 x with
  | some i => .ok i
  | none => .ub

/-- math_operator.h:11-14 `radians` for `T = int` -/
def radiansInt (α : Type) [Dbl α] (t : Int) : Res Int := toIntResult (radians (Dbl.ofInt t : α))

/-- math_operator.h:16-19 `degrees` for `T = int` -/
def degreesInt (α : Type) [Dbl α] (t : Int) : Res Int := toIntResult (degrees (Dbl.ofInt t : α))

end Tom
