import Verif.Spec.Expr
import Verif.Spec.SymMatrix
import Verif.Model.Double
/-
The equation of C133.
-/
namespace Tom
namespace Double
variable {L : Libm}

/-- the expression `v * v - a`, for a literal `a` -/
def squareMinus (v : Str) (a : Double L) : Expr (Double L) := .bin .sub (.bin .mul (.var v) (.var v)) (.num a)

/-- the one equation `v * v - a = 0` -/
def squareEquation (v : Str) (a : Double L) : Matrix (Fin 1) (Fin 1) (Expr (Double L)) := fun _ _ => squareMinus v a

end Double
end Tom
