import Verif.Spec.RoundedNewton
/-
What C126 asks of one equation in one unknown around a root, beyond `RoundedRegion`.
-/
namespace Tom

/-- The constants of the region (`M`: the slope is at least `1 / M`; `change`: it changes at most by that; `eA`, `eF`: the errors of the computed
slopes and values; `a`: a bound of the slope; `ε`: epsilon).  The root is well-conditioned: the slope is not too small compared with the damping
`1e-5` of the method, and with epsilon, and changes little; slopes and values are computed accurately, and epsilon is above what rounding the
point does to the value of the equation; the numbers stay away from overflow and underflow. -/
structure LMRoom (z : Fin 1 → ℝ) (r M change a eF eA ε : ℝ) : Prop where
  M_pos : 0 < M
  damping : M ^ 2 ≤ 4000
  pivot : M ^ 2 * ε ≤ 1 / 4
  steady : M * change ≤ 1 / 10
  slope : M * eA ≤ 1 / 1000
  value : eF ≤ ε / 1000
  point : a * ((‖z‖ + r) / 2 ^ 53) ≤ ε / 1000
  eps : 1 / 2 ^ 100 ≤ ε
  big : a + eA ≤ 2 ^ 100 ∧ a * r + eF ≤ 2 ^ 100 ∧ ‖z‖ + r ≤ 2 ^ 100

end Tom
