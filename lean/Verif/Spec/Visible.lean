import Verif.Spec.Anchored
import Mathlib.LinearAlgebra.Matrix.Defs
/-
Equations that cannot be evaluated at nan.
-/
namespace Tom
variable {L : Libm}

/-- a literal with a property -/
def Expr.LitWith (P : ℚ → Prop) (e : Expr (Double L)) : Prop := ∃ c q, e = .num c ∧ c.Is q ∧ P q

/-- `x` occurs in a place from where nan reaches the value of the expression: anywhere but in a power, or in both parts of a
power, or in the base of a power with a literal exponent other than 0, or in the exponent of a power with a literal base other than 1. -/
def Expr.Shows (x : Str) : Expr (Double L) → Prop
  | .num _ => False
  | .var y => y = x
  | .un _ e => e.Shows x
  | .bin o a b => (o ≠ .pow ∧ (a.Shows x ∨ b.Shows x)) ∨
      (o = .pow ∧ ((a.Shows x ∧ b.Shows x) ∨ (a.Shows x ∧ b.LitWith (· ≠ 0)) ∨ (b.Shows x ∧ a.LitWith (· ≠ 1))))

/-- The equation shows `x`, and is not `x` itself (a bare variable is not checked when it is evaluated). -/
def Expr.Visible (x : Str) (e : Expr (Double L)) : Prop := e.Shows x ∧ e ≠ .var x

/-- An expression that simplification does not turn into a number. -/
def Expr.Rigid : Expr (Double L) → Prop
  | .num _ => False
  | .var _ => True
  | .un _ e => e.Rigid
  | .bin o a b =>
    match o with
    | .mul => (a.Rigid ∧ b.Rigid) ∨ (a.Rigid ∧ b.LitWith (· ≠ 0)) ∨ (a.LitWith (· ≠ 0) ∧ b.Rigid)
    | .div => a.Rigid
    | .pow => a.Rigid
    | _ => a.Rigid ∨ b.Rigid

/-- Every occurrence of `y` is the argument of `exp` or `atan`, a denominator, an exponent, or the base of a power whose exponent is a literal
`≤ 0` or an expression that is not a number: the places `Anchored` leaves out. -/
def Expr.Buried (y : Str) : Expr (Double L) → Prop
  | .num _ => True
  | .var z => z ≠ y
  | .un o e => (e = .var y ∧ (o = .exp ∨ o = .atan)) ∨ e.Buried y
  | .bin o a b => (a.Buried y ∨ (o = .pow ∧ a = .var y ∧ (b.Rigid ∨ b.LitWith (· ≤ 0)))) ∧
      (b.Buried y ∨ (b = .var y ∧ (o = .div ∨ o = .pow)))

/-- The equations notice when `y` is not a number: in one of them it occurs at a place where it must be finite (`Anchored`); or in one of them
it occurs at a place from where nan spreads, and it occurs nowhere as an operand of `+`, `-`, `*`, as a numerator or as the base of a power
with a positive exponent. -/
def Pinned {r : ℕ} (f : Matrix (Fin r) (Fin 1) (Expr (Double L))) (y : Str) : Prop :=
  (∃ i, (f i 0).Anchored y) ∨ ((∃ i, (f i 0).Visible y) ∧ ∀ i, (f i 0).Buried y)

/-- equal, or zeros of either sign -/
def Double.Same (x y : Double L) : Prop := x = y ∨ ((∃ s, x.raw = .zero s) ∧ ∃ s, y.raw = .zero s)

/-- What the C standard (Annex F) says about the functions of `<cmath>` at nan and at zeros, as far as it is used: nan gives nan, except for
`pow(nan, 0)` and `pow(1, nan)`; a finite result does not depend on the sign of a zero argument, but for the sign of a zero. -/
structure Libm.SpecialPoints (L : Libm) : Prop where
  nan : ∀ (o : UnOp) (x : Double L), x.raw = .nan → (o.apply x).raw = .nan
  pow_nan : ∀ (x y : Double L) (q : ℚ), x.raw = .nan → y.Is q → q ≠ 0 → (Dbl.pow x y).raw = .nan
  nan_pow : ∀ (x y : Double L) (q : ℚ), y.raw = .nan → x.Is q → q ≠ 1 → (Dbl.pow x y).raw = .nan
  pow_nan_nan : ∀ x y : Double L, x.raw = .nan → y.raw = .nan → (Dbl.pow x y).raw = .nan
  zero : ∀ (o : UnOp) (x x' : Double L) (r : ℚ), x.Same x' → (o.apply x).Is r → (o.apply x').Is r
  pow_zero : ∀ (x x' y y' : Double L) (r : ℚ), x.Same x' → y.Same y' → (Dbl.pow x y).Is r → (Dbl.pow x' y').Is r

end Tom
