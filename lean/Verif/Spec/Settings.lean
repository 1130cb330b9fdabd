import Verif.Model.Settings
/-
Comparing configurations, for C110 and C111.
-/
namespace Tom
variable {α : Type}

/-- `c'` forbids less than `c`: it does not check more for invalid values, does not reject indeterminate equations that `c` accepts, and has no
lower limit of iterations; everything else is the same.  (For Levenberg-Marquardt a negative limit means none.) -/
structure Looser (c c' : Config α) : Prop where
  epsilon : c'.epsilon = c.epsilon
  method : c'.nonlinearMethod = c.nonlinearMethod
  initial : c'.initialValue = c.initialValue
  invalid : c'.throwOnInvalidValue = true → c.throwOnInvalidValue = true
  indeterminate : c.allowIndeterminateEquation = true → c'.allowIndeterminateEquation = true
  limit : c.maxIterations ≤ c'.maxIterations
  nonneg : c.nonlinearMethod = .lm → 0 ≤ c.maxIterations

/-- The member a statement assigns to (`none`: all of them). -/
inductive Member
  | throwOnInvalidValue | epsilon | logLevel | maxIterations | nonlinearMethod | initialValue | allowIndeterminateEquation
  deriving DecidableEq

def SettingStmt.member : SettingStmt α → Option Member
  | .throwOnInvalidValue _ => some .throwOnInvalidValue
  | .epsilon _ => some .epsilon
  | .logLevel _ => some .logLevel
  | .maxIterations _ => some .maxIterations
  | .nonlinearMethod _ => some .nonlinearMethod
  | .initialValue _ => some .initialValue
  | .allowIndeterminateEquation _ => some .allowIndeterminateEquation
  | .reset => none

end Tom
