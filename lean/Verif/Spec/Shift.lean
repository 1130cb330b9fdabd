import Verif.Spec.Expr
import Verif.Spec.SymMatrix
import Verif.Model.Double
/-
The equations of C136.
-/
namespace Tom
namespace Double
variable {L : Libm}

/-- the operator `+` or `-` -/
def shiftOp (plus : Bool) : BinOp := if plus then .add else .sub

/-- the expression `v + a` or `v - a`, for a literal `a` -/
def shifted (plus : Bool) (v : Str) (a : Double L) : Expr (Double L) := .bin (shiftOp plus) (.var v) (.num a)

/-- the one equation `v + a = 0` or `v - a = 0` -/
def shiftEquation (plus : Bool) (v : Str) (a : Double L) : Matrix (Fin 1) (Fin 1) (Expr (Double L)) := fun _ _ => shifted plus v a

/-- the text `v+u` or `v-u` -/
def shiftText (plus : Bool) (v u : Str) : Str := v ++ [if plus then '+' else '-'] ++ u

end Double
end Tom
