import Verif.Model.Basic
/-
Models src/tomsolver/math_operator.h and math_operator.cpp (operator table and `Calc`).
-/
namespace Tom

/-- math_operator.h:21-53 `enum class MathOperator`. -/
inductive MathOp
  | null
  | positive | negative
  | sin | cos | tan | arcsin | arccos | arctan | sqrt | log | log2 | log10 | exp
  | add | sub | mul | div | pow | and | or | mod
  | lparen | rparen
  deriving DecidableEq, Repr

/-- math_operator.cpp:12-69 `MathOperatorToStr`. -/
def MathOp.toStr : MathOp → Str
  | .null => []
  | .positive => ['+']
  | .negative => ['-']
  | .sin => ['s','i','n']
  | .cos => ['c','o','s']
  | .tan => ['t','a','n']
  | .arcsin => ['a','s','i','n']
  | .arccos => ['a','c','o','s']
  | .arctan => ['a','t','a','n']
  | .sqrt => ['s','q','r','t']
  | .log => ['l','o','g']
  | .log2 => ['l','o','g','2']
  | .log10 => ['l','o','g','1','0']
  | .exp => ['e','x','p']
  | .add => ['+']
  | .sub => ['-']
  | .mul => ['*']
  | .div => ['/']
  | .pow => ['^']
  | .and => ['&']
  | .or => ['|']
  | .mod => ['%']
  | .lparen => ['(']
  | .rparen => [')']

/-- math_operator.cpp:71-109 `GetOperatorNum`.  In the `assert(0)` branches (no operator, parentheses)
the release value 0 is returned; callers of the model that depend on it say so. -/
def operatorNum : MathOp → Nat
  | .positive | .negative | .sin | .cos | .tan | .arcsin | .arccos | .arctan | .sqrt
  | .log | .log2 | .log10 | .exp => 1
  | .add | .sub | .mul | .div | .pow | .and | .or | .mod => 2
  | .null | .lparen | .rparen => 0

/-- math_operator.cpp:111-157 `Rank` (0 also in the `assert(0)` branch). -/
def rank : MathOp → Nat
  | .sin | .cos | .tan | .arcsin | .arccos | .arctan | .sqrt | .log | .log2 | .log10 | .exp => 15
  | .positive | .negative => 14
  | .mod => 13
  | .and | .or => 12
  | .pow => 11
  | .mul | .div => 10
  | .add | .sub => 5
  | .lparen | .rparen => 0
  | .null => 0

/-- math_operator.cpp:159-195 `IsLeft2Right`. -/
def isLeft2Right : MathOp → Bool
  | .mod | .and | .or | .mul | .div | .add | .sub => true
  | .positive | .negative | .pow => false
  | .sin | .cos | .tan | .arcsin | .arccos | .arctan | .sqrt | .log | .log2 | .log10 | .exp
  | .lparen | .rparen => true
  | .null => false

/-- math_operator.cpp:197-235 `InAssociativeLaws`. -/
def inAssociativeLaws : MathOp → Bool
  | .add | .mul => true
  | _ => false

/-- math_operator.cpp:237-271 `IsFunction`. -/
def isFunction : MathOp → Bool
  | .sin | .cos | .tan | .arcsin | .arccos | .arctan | .sqrt | .log | .log2 | .log10 | .exp => true
  | _ => false

/-- The arithmetic the matrix code applies to `double`: `+ - * /`, unary minus, `std::abs`,
comparisons, the literals 0 and 1.  No laws are assumed. -/
class Arith (α : Type) where
  zero : α
  one : α
  add : α → α → α
  sub : α → α → α
  mul : α → α → α
  div : α → α → α
  neg : α → α
  abs : α → α
  /-- C++ `<` -/
  lt : α → α → Bool
  /-- C++ `<=` -/
  le : α → α → Bool
  /-- C++ `==` (IEEE) -/
  eq : α → α → Bool
  /-- The order in which the implementation of `std::valarray` adds up `n` numbers, which the C++ standard leaves open: with `k` of them
  left, the positions of the two to be replaced by their sum (modulo the number of positions).  libc++ and MSVC take the first two
  (the default here); see `libstdcxxOrder` for libstdc++. -/
  sumOrder : (n k : Nat) → Nat × Nat := fun _ _ => (0, 0)

/-- libstdc++ (valarray_after.h, `_Expr::sum`): from the last to the first.  With `k` numbers left of `n`, the sum so far is the first. -/
def libstdcxxOrder (n k : Nat) : Nat × Nat := if k = n then (k - 1, k - 2) else (0, k - 2)

/-- All operations the library applies to `double`.  No laws are assumed, so a theorem that is generic
in `Dbl` holds for IEEE doubles with any libm. -/
class Dbl (α : Type) extends Arith α where
  /-- the conversion from `int` (`ret = (int)v1 % (int)v2`, integer literals in the source) -/
  ofInt : Int → α
  sin : α → α
  cos : α → α
  tan : α → α
  asin : α → α
  acos : α → α
  atan : α → α
  sqrt : α → α
  log : α → α
  log2 : α → α
  log10 : α → α
  exp : α → α
  pow : α → α → α
  /-- quiet NaN, used as the dummy right operand of a unary operator -/
  nan : α
  /-- infinity, the value `std::stod` gives to the word `inf` -/
  inf : α
  /-- `(int)v`; `none` when the truncated value does not fit (undefined behaviour in C++) -/
  toInt32 : α → Option Int
  /-- `v == inf || v == -inf || v != v` (math_operator.cpp:349-350) -/
  isInvalid : α → Bool
  /-- `std::stod` of a decimal numeral of value `m * 10^e`; `none` is `std::out_of_range` -/
  ofDec : Nat → Int → Option α
  /-- `std::stod` of a hexadecimal numeral of value `m * 2^e`; `none` is `std::out_of_range` -/
  ofHex : Nat → Int → Option α
  /-- `tomsolver::ToString(double)` (config.cpp:21-38); given a concrete model in Model/Format -/
  toStr : α → Str

/-- C++ `a & b` on 32-bit two's complement `int`. -/
def cAnd (a b : Int) : Int := (BitVec.ofInt 32 a &&& BitVec.ofInt 32 b).toInt

/-- C++ `a | b` on 32-bit two's complement `int`. -/
def cOr (a b : Int) : Int := (BitVec.ofInt 32 a ||| BitVec.ofInt 32 b).toInt

/-- math_operator.cpp:273-343, the `switch` computing `ret`.  Casts of out-of-range values, `% 0` and
`INT_MIN % -1` are undefined behaviour; an operator without a rule is `assert(0)`. -/
def calcRaw {α : Type} [Dbl α] (op : MathOp) (v1 v2 : α) : Res α :=
  match op with
  | .sin => .ok (Dbl.sin v1)
  | .cos => .ok (Dbl.cos v1)
  | .tan => .ok (Dbl.tan v1)
  | .arcsin => .ok (Dbl.asin v1)
  | .arccos => .ok (Dbl.acos v1)
  | .arctan => .ok (Dbl.atan v1)
  | .sqrt => .ok (Dbl.sqrt v1)
  | .log => .ok (Dbl.log v1)
  | .log2 => .ok (Dbl.log2 v1)
  | .log10 => .ok (Dbl.log10 v1)
  | .exp => .ok (Dbl.exp v1)
  | .positive => .ok v1
  | .negative => .ok (Arith.neg v1)
  | .mod =>
    match Dbl.toInt32 v1, Dbl.toInt32 v2 with
    | some a, some b =>
      if b = 0 then .ub
      else if a = -2147483648 ∧ b = -1 then .ub
      else .ok (Dbl.ofInt (a.tmod b))
    | _, _ => .ub
  | .and =>
    match Dbl.toInt32 v1, Dbl.toInt32 v2 with
    | some a, some b => .ok (Dbl.ofInt (cAnd a b))
    | _, _ => .ub
  | .or =>
    match Dbl.toInt32 v1, Dbl.toInt32 v2 with
    | some a, some b => .ok (Dbl.ofInt (cOr a b))
    | _, _ => .ub
  | .pow => .ok (Dbl.pow v1 v2)
  | .add => .ok (Arith.add v1 v2)
  | .sub => .ok (Arith.sub v1 v2)
  | .mul => .ok (Arith.mul v1 v2)
  | .div => .ok (Arith.div v1 v2)
  | .null | .lparen | .rparen => .assertFail

/-- math_operator.cpp:273-371 `Calc`: compute, then throw `ERROR_INVALID_NUMBER` on inf, -inf, nan when
`Config::throwOnInvalidValue`. -/
def calcOp {α : Type} [Dbl α] (cfg : Config α) (op : MathOp) (v1 v2 : α) : Res α := do
  let ret ← calcRaw op v1 v2
  if cfg.throwOnInvalidValue = false then .ok ret
  else if Dbl.isInvalid ret then .throw (.math .invalidNumber)
  else .ok ret

end Tom
