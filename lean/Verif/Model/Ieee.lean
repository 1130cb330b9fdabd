import Verif.Model.Format
/-
The C++ type `double` as IEEE 754 binary64, rounding to nearest, ties to even (the only mode the library runs in).  The library names
no arithmetic of its own: every `+ - * / < <= ==` on `double` in /repo (math_operator.cpp:273-343, mat.cpp, linear.cpp, nonlinear.cpp) is
one of these operations.  The functions of libm are not modelled: Model/Double takes them as parameters.
The payload and the sign of a NaN are not distinguished.
-/
namespace Tom

/-- a datum of binary64; the number in `num` is not zero -/
inductive F64 : Type
  | nan
  | inf (neg : Bool)
  | zero (neg : Bool)
  | num (q : Rat)
  deriving DecidableEq, Repr

/-- `⌊log2 (n / d)⌋` for positive `n`, `d` -/
def ilog2 (n d : Nat) : Int :=
  let e : Int := (Nat.log2 n : Int) - Nat.log2 d
  if d * 2 ^ e.toNat ≤ n * 2 ^ (-e).toNat then e else e - 1

/-- the exponent of the last of 53 binary places of `n / d`; never below -1074 -/
def ulpExp (n d : Nat) : Int := max (ilog2 n d - 52) (-1074)

/-- `2^e` -/
def pow2 (e : Int) : Rat := if 0 ≤ e then 2 ^ e.toNat else 1 / 2 ^ (-e).toNat

/-- `n / d` in units of `2^e`, rounded to nearest, ties to even -/
def roundUnits (n d : Nat) (e : Int) : Nat := roundHalfEven (n * 2 ^ (-e).toNat) (d * 2 ^ e.toNat)

namespace F64

/-- The datum nearest to `q`, ties to even; `z` is the sign of the result if `q` is 0.  From `2^1024 - 2^970` on the result is
infinite. -/
def round (z : Bool) (q : Rat) : F64 :=
  if q = 0 then .zero z
  else
    let e := ulpExp q.num.natAbs q.den
    let m := roundUnits q.num.natAbs q.den e
    if m = 0 then .zero (decide (q < 0))
    else
      let v := (m : Rat) * pow2 e
      if 2 ^ 1024 ≤ v then .inf (decide (q < 0)) else .num (if q < 0 then -v else v)

/-- the sign bit -/
def signBit : F64 → Bool
  | .nan => false
  | .inf s => s
  | .zero s => s
  | .num q => decide (q < 0)

/-- unary minus -/
def neg : F64 → F64
  | .nan => .nan
  | .inf s => .inf (!s)
  | .zero s => .zero (!s)
  | .num q => .num (-q)

/-- `std::abs` -/
def abs : F64 → F64
  | .nan => .nan
  | .inf _ => .inf false
  | .zero _ => .zero false
  | .num q => .num (if q < 0 then -q else q)

/-- IEEE addition -/
def add : F64 → F64 → F64
  | .nan, _ => .nan
  | _, .nan => .nan
  | .inf s, .inf t => if s = t then .inf s else .nan
  | .inf s, _ => .inf s
  | _, .inf t => .inf t
  | .zero s, .zero t => .zero (s && t)
  | .zero _, .num q => .num q
  | .num p, .zero _ => .num p
  | .num p, .num q => round false (p + q)

/-- IEEE subtraction -/
def sub (a b : F64) : F64 := add a (neg b)

/-- IEEE multiplication -/
def mul : F64 → F64 → F64
  | .nan, _ => .nan
  | _, .nan => .nan
  | .inf _, .zero _ => .nan
  | .zero _, .inf _ => .nan
  | .num p, .num q => round false (p * q)
  | .inf s, b => .inf (xor s b.signBit)
  | a, .inf t => .inf (xor a.signBit t)
  | a, b => .zero (xor a.signBit b.signBit)

/-- IEEE division -/
def div : F64 → F64 → F64
  | .nan, _ => .nan
  | _, .nan => .nan
  | .inf _, .inf _ => .nan
  | .zero _, .zero _ => .nan
  | .num p, .num q => round false (p / q)
  | .inf s, b => .inf (xor s b.signBit)
  | a, .inf t => .zero (xor a.signBit t)
  | a, .zero t => .inf (xor a.signBit t)
  | .zero s, b => .zero (xor s b.signBit)

/-- the finite number, 0 for both zeros (and, without meaning, for the other data) -/
def toRat : F64 → Rat
  | .num q => q
  | _ => 0

/-- `a < b` -/
def lt : F64 → F64 → Bool
  | .nan, _ => false
  | _, .nan => false
  | .inf true, b => decide (b ≠ .inf true)
  | .inf false, _ => false
  | _, .inf t => !t
  | a, b => decide (a.toRat < b.toRat)

/-- `a == b` -/
def eq : F64 → F64 → Bool
  | .nan, _ => false
  | _, .nan => false
  | .inf s, .inf t => decide (s = t)
  | .inf _, _ => false
  | _, .inf _ => false
  | a, b => decide (a.toRat = b.toRat)

/-- `a <= b` -/
def le (a b : F64) : Bool := lt a b || eq a b

/-- the conversion from `int` -/
def ofInt (i : Int) : F64 := round false i

/-- `(int)v`: truncation; `none` where the result does not fit -/
def toInt32 : F64 → Option Int
  | .zero _ => some 0
  | .num q =>
    let i := q.num.tdiv q.den
    if -2147483648 ≤ i ∧ i ≤ 2147483647 then some i else none
  | _ => none

/-- `v == inf || v == -inf || v != v` (math_operator.cpp:349-350) -/
def isInvalid : F64 → Bool
  | .nan => true
  | .inf _ => true
  | _ => false

/-- `std::stod` of a numeral of the value `q >= 0`: correctly rounded; `std::out_of_range` (`none`) if the result overflows, or if it
is below `2^-1022` and not exact (glibc reports ERANGE then). -/
def ofNumeral (q : Rat) : Option F64 :=
  match round false q with
  | .inf _ => none
  | .zero s => if q = 0 then some (.zero s) else none
  | .num v => if v * 2 ^ 1022 < 1 ∧ v ≠ q then none else some (.num v)
  | .nan => none

/-- `tomsolver::ToString(double)` (config.cpp:21-38): infinities are printed by the first strategy, NaN by the second; glibc spells
them `inf`, `-inf`, `nan`. -/
def toStr : F64 → Str
  | .nan => ['n', 'a', 'n']
  | .inf s => (if s then ['-'] else []) ++ ['i', 'n', 'f']
  | .zero _ => ['0']
  | .num q => formatDouble q

end F64
end Tom
