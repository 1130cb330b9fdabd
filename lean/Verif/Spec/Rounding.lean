import Verif.Model.Double
import Verif.Spec.Real
import Verif.Spec.Printing
/-
Rounding errors: an a-priori enclosure of what a computation with IEEE doubles returns, written without reference to the program.
The exact value of an expression is its real value; with it goes a bound for the distance of the computed number.
-/
namespace Tom

/-- the real number a double stands for -/
noncomputable def Double.toReal {L : Libm} (x : Double L) : XNum ℝ :=
  if Dbl.isInvalid x then .bad else .fin (x.raw.toRat : ℝ)

/-- a real number that is a double -/
def IsDoubleReal (r : ℝ) : Prop := ∃ q : ℚ, IsDouble q ∧ (q : ℝ) = r

/-- The libm has the relative accuracy `δ` (and absolute accuracy `2^-1074` next to zero) wherever the real function is defined and
below `2^1023`. glibc documents errors below a few units of the last place, that is `δ` of a few `2^-53`. -/
structure Libm.Within (L : Libm) (δ : ℝ) : Prop where
  nonneg : 0 ≤ δ
  un : ∀ o : UnOp, o ≠ .pos → o ≠ .neg → ∀ (x : Double L) (p : ℚ) (r : ℝ), x.Is p → o.real p = some r → |r| < 2 ^ 1023 →
    ∃ q : ℚ, (o.apply x).Is q ∧ |(q : ℝ) - r| ≤ δ * |r| + 1 / 2 ^ 1074
  pow : ∀ (x y : Double L) (p s : ℚ) (r : ℝ), x.Is p → y.Is s → realPow p s = some r → |r| < 2 ^ 1023 →
    ∃ q : ℚ, (Dbl.pow x y).Is q ∧ |(q : ℝ) - r| ≤ δ * |r| + 1 / 2 ^ 1074

open Classical in
/-- How far the value of a function may move when the argument `v` moves by at most `E`; `none`: no bound is given. -/
noncomputable def UnOp.spread (o : UnOp) (v E : ℝ) : Option ℝ :=
  match o with
  | .pos | .neg | .sin | .cos | .atan => some E
  | .exp => some (Real.exp v * (Real.exp E - 1))
  | .sqrt => if E = 0 then some 0 else if E < v then some (E / Real.sqrt v) else none
  | .log => if E < v then some (E / (v - E)) else none
  | .log2 => if E < v then some (E / (v - E) / Real.log 2) else none
  | .log10 => if E < v then some (E / (v - E) / Real.log 10) else none
  | .tan => if E = 0 then some 0 else if E < |Real.cos v| then some (E / (|Real.cos v| * (|Real.cos v| - E))) else none
  | .asin | .acos => if E = 0 then some 0 else if |v| + E < 1 then some (E / Real.sqrt (1 - (|v| + E) ^ 2)) else none

open Classical in
/-- The same for two arguments `v`, `w` that move by at most `E`, `F`. -/
noncomputable def BinOp.spread (o : BinOp) (v E w F : ℝ) : Option ℝ :=
  match o with
  | .add | .sub => some (E + F)
  | .mul => some (|v| * F + |w| * E + E * F)
  | .div => if F < |w| then some ((E + |v / w| * F) / (|w| - F)) else none
  | .pow => if E = 0 ∧ F = 0 then some 0
      else if F = 0 ∧ ∃ n : ℕ, w = n then some ((|v| + E) ^ ⌊w⌋₊ - |v| ^ ⌊w⌋₊)
      else if E < |v| ∧ (0 < v ∨ (F = 0 ∧ ∃ n : ℤ, w = n)) then
        some (|v| ^ w * (Real.exp ((|w| + F) * (E / (|v| - E)) + F * |Real.log (|v|)|) - 1))
      else none
  | .and | .or | .mod => if E = 0 ∧ F = 0 then some 0 else none

/-- The rounding error of one unary operation whose exact result is within `D` of `r`. -/
noncomputable def UnOp.roundoff (δ : ℝ) (o : UnOp) (r D : ℝ) : ℝ :=
  match o with
  | .pos | .neg => 0
  | _ => δ * (|r| + D) + 1 / 2 ^ 1074

open Classical in
/-- The rounding error of one binary operation whose exact result is within `D` of `r`: half a unit of the last place; nothing if
the exact result is known to be a double. -/
noncomputable def BinOp.roundoff (δ : ℝ) (o : BinOp) (r D : ℝ) : ℝ :=
  match o with
  | .add | .sub => if D = 0 ∧ IsDoubleReal r then 0 else 1 / 2 ^ 53 * (|r| + D)
  | .mul | .div => if D = 0 ∧ IsDoubleReal r then 0 else 1 / 2 ^ 53 * (|r| + D) + 1 / 2 ^ 1075
  | .pow => δ * (|r| + D) + 1 / 2 ^ 1074
  | .and | .or | .mod => 0

open Classical in
/-- The exact value of an expression, with a bound for the error of evaluating it with doubles; `none` if it has no value, if a number
in the computation may reach `2^1023`, or if no bound is known. -/
noncomputable def enclosure {L : Libm} (δ : ℝ) (ρ : Str → ℝ) : Expr (Double L) → Option (ℝ × ℝ)
  | .num x => if Dbl.isInvalid x then none else some (x.raw.toRat, 0)
  | .var s => some (ρ s, 0)
  | .un o e => (enclosure δ ρ e).bind fun (v, E) => (o.real v).bind fun r => (o.spread v E).bind fun D =>
      if |r| + D < 2 ^ 1023 then some (r, D + o.roundoff δ r D) else none
  | .bin o a b => (enclosure δ ρ a).bind fun (v, E) => (enclosure δ ρ b).bind fun (w, F) => (o.real v w).bind fun r =>
      (o.spread v E w F).bind fun D => if |r| + D < 2 ^ 1023 then some (r, D + o.roundoff δ r D) else none

open Classical in
/-- the number, if a double can represent it -/
noncomputable def ifDouble (r : ℚ) : Option ℚ := if IsDouble r then some r else none

/-- The exact rational value of an expression built with signs and `+ - * /`, if this and all intermediate results are doubles. -/
noncomputable def exactRat {L : Libm} (ρ : Str → ℚ) : Expr (Double L) → Option ℚ
  | .num x => if Dbl.isInvalid x then none else some x.raw.toRat
  | .var s => some (ρ s)
  | .un .pos e => exactRat ρ e
  | .un .neg e => (exactRat ρ e).map fun v => -v
  | .bin .add a b => (exactRat ρ a).bind fun v => (exactRat ρ b).bind fun w => ifDouble (v + w)
  | .bin .sub a b => (exactRat ρ a).bind fun v => (exactRat ρ b).bind fun w => ifDouble (v - w)
  | .bin .mul a b => (exactRat ρ a).bind fun v => (exactRat ρ b).bind fun w => ifDouble (v * w)
  | .bin .div a b => (exactRat ρ a).bind fun v => (exactRat ρ b).bind fun w => if w = 0 then none else ifDouble (v / w)
  | _ => none

/-- the integer, if it is within `2^53` -/
def ifSmall (r : ℤ) : Option ℤ := if |r| ≤ 2 ^ 53 then some r else none

/-- The value of an integer expression built with signs and `+ - *`, if this and all intermediate results are within `2^53`. -/
def intVal {L : Libm} (ρ : Str → ℤ) : Expr (Double L) → Option ℤ
  | .num x => if Dbl.isInvalid x then none else if x.raw.toRat.den = 1 then some x.raw.toRat.num else none
  | .var s => some (ρ s)
  | .un .pos e => intVal ρ e
  | .un .neg e => (intVal ρ e).map fun v => -v
  | .bin .add a b => (intVal ρ a).bind fun v => (intVal ρ b).bind fun w => ifSmall (v + w)
  | .bin .sub a b => (intVal ρ a).bind fun v => (intVal ρ b).bind fun w => ifSmall (v - w)
  | .bin .mul a b => (intVal ρ a).bind fun v => (intVal ρ b).bind fun w => ifSmall (v * w)
  | _ => none

/-- an expression built with signs, `+`, `-` and `*` -/
def Expr.Polynomial {α : Type} : Expr α → Prop
  | .num _ => True
  | .var _ => True
  | .un o e => (o = .pos ∨ o = .neg) ∧ e.Polynomial
  | .bin o a b => (o = .add ∨ o = .sub ∨ o = .mul) ∧ a.Polynomial ∧ b.Polynomial

/-- the number of additions, subtractions and multiplications -/
def Expr.ops {α : Type} : Expr α → ℕ
  | .num _ => 0
  | .var _ => 0
  | .un _ e => e.ops
  | .bin _ a b => a.ops + b.ops + 1

/-- the exact value of a polynomial expression (0 for others) -/
def polyVal {L : Libm} (ρ : Str → ℚ) : Expr (Double L) → ℚ
  | .num x => x.raw.toRat
  | .var s => ρ s
  | .un .pos e => polyVal ρ e
  | .un .neg e => -polyVal ρ e
  | .bin .add a b => polyVal ρ a + polyVal ρ b
  | .bin .sub a b => polyVal ρ a - polyVal ρ b
  | .bin .mul a b => polyVal ρ a * polyVal ρ b
  | _ => 0

/-- the value with all numbers replaced by their absolute values and every `-` by `+`; each product counts `2^-1022` more, for
underflow -/
def absVal {L : Libm} (ρ : Str → ℚ) : Expr (Double L) → ℚ
  | .num x => |x.raw.toRat|
  | .var s => |ρ s|
  | .un .pos e => absVal ρ e
  | .un .neg e => absVal ρ e
  | .bin .add a b => absVal ρ a + absVal ρ b
  | .bin .sub a b => absVal ρ a + absVal ρ b
  | .bin .mul a b => absVal ρ a * absVal ρ b + 1 / 2 ^ 1022
  | _ => 0

end Tom
