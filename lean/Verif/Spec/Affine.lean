import Verif.Spec.Shift
/-
The equations of C137.
-/
namespace Tom
namespace Double
variable {L : Libm}

/-- the expression `k * v + a` or `k * v - a`, for literals `k` and `a` -/
def affine (plus : Bool) (v : Str) (k a : Double L) : Expr (Double L) := .bin (shiftOp plus) (.bin .mul (.num k) (.var v)) (.num a)

/-- the one equation `k * v + a = 0` or `k * v - a = 0` -/
def affineEquation (plus : Bool) (v : Str) (k a : Double L) : Matrix (Fin 1) (Fin 1) (Expr (Double L)) := fun _ _ => affine plus v k a

/-- the text `k*v+u` or `k*v-u` -/
def affineText (plus : Bool) (k v u : Str) : Str := k ++ ['*'] ++ shiftText plus v u

end Double
end Tom
