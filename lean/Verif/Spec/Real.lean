import Verif.Spec.Tree
import Verif.Model.Num
import Mathlib.Analysis.SpecialFunctions.Trigonometric.Inverse
import Mathlib.Analysis.SpecialFunctions.Trigonometric.Arctan
import Mathlib.Analysis.SpecialFunctions.Pow.Real
import Mathlib.Analysis.SpecialFunctions.Log.Base
import Mathlib.Analysis.Calculus.Deriv.Basic
/-
The meaning of expressions over the real numbers: partial functions of the variables.  This is the specification the
properties about `Simplify` and `Diff` refer to.  Rounding is not modelled here: literals and intermediate results are exact.
-/
namespace Tom

/-- truncation towards zero, where the result fits in `int` -/
noncomputable def realTrunc (x : ℝ) : Option ℤ :=
  let i := if 0 ≤ x then ⌊x⌋ else ⌈x⌉
  if -2147483648 ≤ i ∧ i ≤ 2147483647 then some i else none

open Classical in
/-- The function a unary operator denotes; `none` outside its domain. -/
noncomputable def UnOp.real : UnOp → ℝ → Option ℝ
  | pos, u => some u
  | neg, u => some (-u)
  | sin, u => some (Real.sin u)
  | cos, u => some (Real.cos u)
  | tan, u => if Real.cos u = 0 then none else some (Real.tan u)
  | asin, u => if -1 ≤ u ∧ u ≤ 1 then some (Real.arcsin u) else none
  | acos, u => if -1 ≤ u ∧ u ≤ 1 then some (Real.arccos u) else none
  | atan, u => some (Real.arctan u)
  | sqrt, u => if 0 ≤ u then some (Real.sqrt u) else none
  | log, u => if 0 < u then some (Real.log u) else none
  | log2, u => if 0 < u then some (Real.logb 2 u) else none
  | log10, u => if 0 < u then some (Real.logb 10 u) else none
  | exp, u => some (Real.exp u)

open Classical in
/-- Real power where it is defined: positive base; base 0 and exponent ≥ 0 (with `0^0 = 1`, as C `pow`); negative base and
integer exponent. -/
noncomputable def realPow (u w : ℝ) : Option ℝ :=
  if 0 < u ∨ (u = 0 ∧ 0 ≤ w) ∨ (u < 0 ∧ ∃ n : ℤ, w = n) then some (u ^ w) else none

open Classical in
/-- The function a binary operator denotes; `none` outside its domain. -/
noncomputable def BinOp.real : BinOp → ℝ → ℝ → Option ℝ
  | add, u, w => some (u + w)
  | sub, u, w => some (u - w)
  | mul, u, w => some (u * w)
  | div, u, w => if w = 0 then none else some (u / w)
  | pow, u, w => realPow u w
  | and, u, w => do
    let a ← realTrunc u
    let b ← realTrunc w
    return ((cAnd a b : ℤ) : ℝ)
  | or, u, w => do
    let a ← realTrunc u
    let b ← realTrunc w
    return ((cOr a b : ℤ) : ℝ)
  | mod, u, w => do
    let a ← realTrunc u
    let b ← realTrunc w
    if b = 0 ∨ (a = -2147483648 ∧ b = -1) then none else some ((a.tmod b : ℤ) : ℝ)

open Classical in
/-- Exact real arithmetic with one invalid value, as an instance of the arithmetic the model is generic in. -/
noncomputable instance : Dbl (XNum ℝ) where
  zero := .fin 0
  one := .fin 1
  add := .map2 (· + ·)
  sub := .map2 (· - ·)
  mul := .map2 (· * ·)
  div := .map2O fun x y => if y = 0 then none else some (x / y)
  neg := .map fun x => -x
  abs := .map fun x => |x|
  lt := XNum.cmp fun x y => decide (x < y)
  le := XNum.cmp fun x y => decide (x ≤ y)
  eq := XNum.cmp fun x y => decide (x = y)
  ofInt i := .fin i
  sin := .mapO UnOp.sin.real
  cos := .mapO UnOp.cos.real
  tan := .mapO UnOp.tan.real
  asin := .mapO UnOp.asin.real
  acos := .mapO UnOp.acos.real
  atan := .mapO UnOp.atan.real
  sqrt := .mapO UnOp.sqrt.real
  log := .mapO UnOp.log.real
  log2 := .mapO UnOp.log2.real
  log10 := .mapO UnOp.log10.real
  exp := .mapO UnOp.exp.real
  pow := .map2O realPow
  nan := .bad
  inf := .bad
  toInt32 x := x.val?.bind realTrunc
  isInvalid x := match x with
    | .fin _ => false
    | .bad => true
  ofDec m e := some (.fin ((m : ℝ) * (10 : ℝ) ^ e))
  ofHex m e := some (.fin ((m : ℝ) * (2 : ℝ) ^ e))
  toStr _ := []

/-- The value of an expression at a point; `none` where it has none. -/
noncomputable def realVal (ρ : Str → ℝ) : Expr (XNum ℝ) → Option ℝ
  | .num v => v.val?
  | .var x => some (ρ x)
  | .un o e => (realVal ρ e).bind o.real
  | .bin o a b => (realVal ρ a).bind fun u => (realVal ρ b).bind fun w => o.real u w

/-- The point `ρ` with the coordinate `x` moved to `t`. -/
noncomputable def at_ (ρ : Str → ℝ) (x : Str) (t : ℝ) : Str → ℝ := fun y => if y = x then t else ρ y

/-- `d` is the partial derivative with respect to `x`, at `ρ`, of the function `e` denotes: `e` has a value at all points near
`ρ` on the line parallel to the axis `x`, and that function of one variable has derivative `d` there. -/
def HasPartialDeriv (ρ : Str → ℝ) (x : Str) (e : Expr (XNum ℝ)) (d : ℝ) : Prop :=
  ∃ f : ℝ → ℝ, (∀ᶠ t in nhds (ρ x), realVal (at_ ρ x t) e = some (f t)) ∧ HasDerivAt f d (ρ x)

/-- `d` is the `n`-th partial derivative with respect to `x`, at `ρ`: `g 0` is the function `e` denotes along the axis, each
`g (k+1)` is the derivative of `g k` near the point, and `g n` has the value `d` there. -/
def HasNthPartialDeriv (ρ : Str → ℝ) (x : Str) (e : Expr (XNum ℝ)) (n : ℕ) (d : ℝ) : Prop :=
  ∃ g : ℕ → ℝ → ℝ, (∀ᶠ t in nhds (ρ x), realVal (at_ ρ x t) e = some (g 0 t)) ∧
    (∀ k < n, ∀ᶠ t in nhds (ρ x), HasDerivAt (g k) (g (k + 1) t) t) ∧ g n (ρ x) = d

/-- Where the derivative formula of a unary operator applies, `n` times: strictly inside the domain.  (The formulas for
arcsin, arccos and arctan contain `u^2`, whose third derivative the library writes as `0 * u^(-1)`.) -/
def UnOp.smoothAt (n : ℕ) : UnOp → ℝ → Prop
  | tan, u => Real.cos u ≠ 0
  | asin, u => -1 < u ∧ u < 1 ∧ (u ≠ 0 ∨ n ≤ 3)
  | acos, u => -1 < u ∧ u < 1 ∧ (u ≠ 0 ∨ n ≤ 3)
  | atan, u => u ≠ 0 ∨ n ≤ 3
  | sqrt, u => 0 < u
  | log, u => 0 < u
  | log2, u => 0 < u
  | log10, u => 0 < u
  | pos, _ => True
  | neg, _ => True
  | sin, _ => True
  | cos, _ => True
  | exp, _ => True

/-- `e` is smooth at `ρ` in the sense of the differentiation rules, for `n` differentiations: every subexpression has a value,
functions are applied strictly inside their domain (to literals: anywhere in it), divisors are nonzero, a power has
a positive base, or an integer literal exponent and a nonzero base, or a natural literal exponent `≥ n`, or is a literal
constant; no `& | %`. -/
def Smooth (n : ℕ) (ρ : Str → ℝ) : Expr (XNum ℝ) → Prop
  | .num v => ∃ u, v = .fin u
  | .var _ => True
  | .un o e => Smooth n ρ e ∧ ∃ u, realVal ρ e = some u ∧ (o.smoothAt n u ∨ (e.isNum = true ∧ ∃ r, o.real u = some r))
  | .bin .add a b => Smooth n ρ a ∧ Smooth n ρ b
  | .bin .sub a b => Smooth n ρ a ∧ Smooth n ρ b
  | .bin .mul a b => Smooth n ρ a ∧ Smooth n ρ b
  | .bin .div a b => Smooth n ρ a ∧ Smooth n ρ b ∧ ∃ w, realVal ρ b = some w ∧ w ≠ 0
  | .bin .pow a b => Smooth n ρ a ∧ Smooth n ρ b ∧ ∃ u, realVal ρ a = some u ∧
      (0 < u ∨ (∃ c, b = .num (.fin c) ∧ ((u ≠ 0 ∧ ∃ k : ℤ, c = k) ∨ ∃ k : ℕ, n ≤ k ∧ c = k)) ∨
        (a.isNum = true ∧ b.isNum = true ∧ ∃ w r, realVal ρ b = some w ∧ realPow u w = some r))
  | .bin .and _ _ => False
  | .bin .or _ _ => False
  | .bin .mod _ _ => False

end Tom
