import Verif.Spec.Real
/-
Smoothness of an expression at a point, without counting differentiations.
-/
namespace Tom

/-- `e` is smooth at `ρ`: every subexpression has a value, functions are applied strictly inside their domain (to literals: anywhere
in it), divisors are nonzero, a power has a positive base, or an integer literal exponent and a nonzero base, or a natural literal
exponent, or is a literal constant; no `& | %`.  (Unlike `Smooth n` this does not count differentiations: `x^2` and `arctan(x)` are
smooth at 0.) -/
def SmoothHere (ρ : Str → ℝ) : Expr (XNum ℝ) → Prop
  | .num v => ∃ u, v = .fin u
  | .var _ => True
  | .un o e => SmoothHere ρ e ∧ ∃ u, realVal ρ e = some u ∧ (o.smoothAt 0 u ∨ (e.isNum = true ∧ ∃ r, o.real u = some r))
  | .bin .add a b => SmoothHere ρ a ∧ SmoothHere ρ b
  | .bin .sub a b => SmoothHere ρ a ∧ SmoothHere ρ b
  | .bin .mul a b => SmoothHere ρ a ∧ SmoothHere ρ b
  | .bin .div a b => SmoothHere ρ a ∧ SmoothHere ρ b ∧ ∃ w, realVal ρ b = some w ∧ w ≠ 0
  | .bin .pow a b => SmoothHere ρ a ∧ SmoothHere ρ b ∧ ∃ u, realVal ρ a = some u ∧
      (0 < u ∨ (∃ c, b = .num (.fin c) ∧ ((u ≠ 0 ∧ ∃ k : ℤ, c = k) ∨ ∃ k : ℕ, c = k)) ∨
        (a.isNum = true ∧ b.isNum = true ∧ ∃ w r, realVal ρ b = some w ∧ realPow u w = some r))
  | .bin .and _ _ => False
  | .bin .or _ _ => False
  | .bin .mod _ _ => False

end Tom
