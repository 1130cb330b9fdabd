import Verif.Spec.Expr
import Verif.Model.Double
/-
C135: expressions whose value is bounded away from zero, whatever the variables are.
-/
namespace Tom
namespace Double
variable {L : Libm}

/-- What every `<cmath>` guarantees about signs: square roots, exponentials and squares are not negative. -/
structure _root_.Tom.Libm.Signs (L : Libm) : Prop where
  sqrt : ∀ (x : Double L) (p : ℚ), (Dbl.sqrt x).Is p → 0 ≤ p
  exp : ∀ (x : Double L) (p : ℚ), (Dbl.exp x).Is p → 0 ≤ p
  square : ∀ (x two : Double L) (p : ℚ), two.Is 2 → (Dbl.pow x two).Is p → 0 ≤ p

/-- `p` or `-p` -/
def signed (s : Bool) (p : ℚ) : ℚ := if s then p else -p

/-- `Side true q e`: it can be seen from the way `e` is written that it is at least `q`; `Side false q e`: that `-e` is. -/
inductive Side : Bool → ℚ → Expr (Double L) → Prop
  /-- a literal -/
  | num {s : Bool} {q p : ℚ} {a : Double L} : a.Is p → q ≤ signed s p → Side s q (.num a)
  /-- `a + b` where `b` has the same sign -/
  | addLeft {s : Bool} {q : ℚ} {a b : Expr (Double L)} : Side s q a → Side s 0 b → Side s q (.bin .add a b)
  | addRight {s : Bool} {q : ℚ} {a b : Expr (Double L)} : Side s 0 a → Side s q b → Side s q (.bin .add a b)
  /-- `a - b` where `b` has the other sign -/
  | subLeft {s : Bool} {q : ℚ} {a b : Expr (Double L)} : Side s q a → Side (!s) 0 b → Side s q (.bin .sub a b)
  | subRight {s : Bool} {q : ℚ} {a b : Expr (Double L)} : Side s 0 a → Side (!s) q b → Side s q (.bin .sub a b)
  | neg {s : Bool} {q : ℚ} {a : Expr (Double L)} : Side (!s) q a → Side s q (.un .neg a)
  /-- products of expressions of known sign, and `e * e` for any `e` -/
  | mul {s t : Bool} {a b : Expr (Double L)} : Side s 0 a → Side t 0 b → Side (s == t) 0 (.bin .mul a b)
  | mulSelf {e : Expr (Double L)} : Side true 0 (.bin .mul e e)
  /-- `e ^ 2` for any `e` -/
  | square {e : Expr (Double L)} {two : Double L} : two.Is 2 → Side true 0 (.bin .pow e (.num two))
  | sqrt {e : Expr (Double L)} : Side true 0 (.un .sqrt e)
  | exp {e : Expr (Double L)} : Side true 0 (.un .exp e)

end Double
end Tom
