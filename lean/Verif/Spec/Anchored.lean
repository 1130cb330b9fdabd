import Verif.Spec.Expr
import Verif.Model.Double
/-
Equations that cannot be evaluated at inf or nan.
-/
namespace Tom
variable {L : Libm}

/-- every literal is a finite number -/
def Expr.FiniteLits : Expr (Double L) → Prop
  | .num v => Dbl.isInvalid v = false
  | .var _ => True
  | .un _ e => e.FiniteLits
  | .bin _ a b => a.FiniteLits ∧ b.FiniteLits

/-- The variable `x` occurs as an operand of `+`, `-` or `*`, as a numerator, as the base of a power with a positive literal as exponent, or
as the argument of a sign or function other than `exp` and `atan` (which are finite at infinity). -/
def Expr.Anchored (x : Str) : Expr (Double L) → Prop
  | .num _ => False
  | .var _ => False
  | .un o e => (e = .var x ∧ o ≠ .exp ∧ o ≠ .atan) ∨ e.Anchored x
  | .bin o a b => (a = .var x ∧ (o = .add ∨ o = .sub ∨ o = .mul ∨ o = .div ∨ (o = .pow ∧ ∃ c q, b = .num c ∧ c.Is q ∧ 0 < q))) ∨
      (b = .var x ∧ (o = .add ∨ o = .sub ∨ o = .mul)) ∨ a.Anchored x ∨ b.Anchored x

/-- What the C standard (Annex F) says about the functions of `<cmath>` at inf and nan, as far as it is used: all of them but `exp` and `atan`
give inf or nan there; and the logarithms of 2 and 10 are finite. -/
structure Libm.AtInfinity (L : Libm) : Prop where
  sin : ∀ x : Double L, Dbl.isInvalid x = true → Dbl.isInvalid (Dbl.sin x) = true
  cos : ∀ x : Double L, Dbl.isInvalid x = true → Dbl.isInvalid (Dbl.cos x) = true
  tan : ∀ x : Double L, Dbl.isInvalid x = true → Dbl.isInvalid (Dbl.tan x) = true
  asin : ∀ x : Double L, Dbl.isInvalid x = true → Dbl.isInvalid (Dbl.asin x) = true
  acos : ∀ x : Double L, Dbl.isInvalid x = true → Dbl.isInvalid (Dbl.acos x) = true
  sqrt : ∀ x : Double L, Dbl.isInvalid x = true → Dbl.isInvalid (Dbl.sqrt x) = true
  log : ∀ x : Double L, Dbl.isInvalid x = true → Dbl.isInvalid (Dbl.log x) = true
  log2 : ∀ x : Double L, Dbl.isInvalid x = true → Dbl.isInvalid (Dbl.log2 x) = true
  log10 : ∀ x : Double L, Dbl.isInvalid x = true → Dbl.isInvalid (Dbl.log10 x) = true
  pow : ∀ (x y : Double L) (q : ℚ), Dbl.isInvalid x = true → y.Is q → 0 < q → Dbl.isInvalid (Dbl.pow x y) = true
  ln_two : Dbl.isInvalid (Dbl.log (Dbl.ofInt 2) : Double L) = false
  ln_ten : Dbl.isInvalid (Dbl.log (Dbl.ofInt 10) : Double L) = false

end Tom
