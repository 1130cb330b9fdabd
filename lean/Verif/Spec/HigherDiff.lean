import Verif.Spec.DoubleDiff
/-
What C131 says about higher derivatives in IEEE doubles.
-/
namespace Tom

/-- The rules of differentiation, applied `n` times, produce no rounded literal: literals are finite, there is no `log2`, `log10`, and for every
literal exponent `c`, the numbers `c - 1`, ..., `c - n` are doubles. -/
def Expr.ExactRulesFor {L : Libm} (n : ℕ) : Expr (Double L) → Prop
  | .num x => Dbl.isInvalid x = false
  | .var _ => True
  | .un o e => o ≠ .log2 ∧ o ≠ .log10 ∧ e.ExactRulesFor n
  | .bin o a b => a.ExactRulesFor n ∧ b.ExactRulesFor n ∧
      (o = .pow → ∀ c, b = .num c → ∀ k : ℕ, 1 ≤ k → k ≤ n → IsDouble (c.raw.toRat - k))

end Tom
