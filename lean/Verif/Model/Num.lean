import Verif.Model.Format
/-
Number systems on which the generic model can be instantiated: a field extended by one "invalid" value that
stands for inf, -inf and nan.  `XNum Rat` is computable and serves for concrete witnesses.
-/
namespace Tom

/-- A finite number or an invalid one (inf, -inf, nan are not distinguished). -/
inductive XNum (K : Type) : Type
  | fin (x : K)
  | bad
  deriving DecidableEq, Repr

namespace XNum
variable {K : Type}

/-- apply a total function -/
def map (f : K → K) : XNum K → XNum K
  | fin x => fin (f x)
  | bad => bad

/-- apply a partial function; outside its domain the result is invalid -/
def mapO (f : K → Option K) : XNum K → XNum K
  | fin x => match f x with
    | some y => fin y
    | none => bad
  | bad => bad

/-- apply a total binary function -/
def map2 (f : K → K → K) : XNum K → XNum K → XNum K
  | fin x, fin y => fin (f x y)
  | _, _ => bad

/-- apply a partial binary function -/
def map2O (f : K → K → Option K) : XNum K → XNum K → XNum K
  | fin x, fin y => match f x y with
    | some z => fin z
    | none => bad
  | _, _ => bad

/-- a comparison; false on invalid operands -/
def cmp (r : K → K → Bool) : XNum K → XNum K → Bool
  | fin x, fin y => r x y
  | _, _ => false

/-- the finite value -/
def val? : XNum K → Option K
  | fin x => some x
  | bad => none

end XNum

/-- truncation towards zero into `int`, where it fits -/
def ratToInt32 (q : Rat) : Option Int :=
  let i := q.num.tdiv q.den
  if -2147483648 ≤ i ∧ i ≤ 2147483647 then some i else none

/-- C `pow` on rationals, for integer exponents (other exponents: not represented, invalid). -/
def ratPow (x y : Rat) : Option Rat :=
  if y.den = 1 then
    if 0 ≤ y.num then some (x ^ y.num.toNat)
    else if x = 0 then none else some ((1 / x) ^ (-y.num).toNat)
  else none

/-- Exact rational arithmetic with transcendental functions known only at 0 or 1 (invalid elsewhere): a computable
instance for concrete witnesses. -/
instance : Dbl (XNum Rat) where
  zero := .fin 0
  one := .fin 1
  add := .map2 (· + ·)
  sub := .map2 (· - ·)
  mul := .map2 (· * ·)
  div := .map2O fun x y => if y = 0 then none else some (x / y)
  neg := .map fun x => -x
  abs := .map fun x => if x < 0 then -x else x
  lt := XNum.cmp fun x y => decide (x < y)
  le := XNum.cmp fun x y => decide (x ≤ y)
  eq := XNum.cmp fun x y => decide (x = y)
  ofInt i := .fin i
  sin := .mapO fun x => if x = 0 then some 0 else none
  cos := .mapO fun x => if x = 0 then some 1 else none
  tan := .mapO fun x => if x = 0 then some 0 else none
  asin := .mapO fun x => if x = 0 then some 0 else none
  acos := .mapO fun x => if x = 1 then some 0 else none
  atan := .mapO fun x => if x = 0 then some 0 else none
  sqrt := .mapO fun x => if x = 0 then some 0 else if x = 1 then some 1 else none
  log := .mapO fun x => if x = 1 then some 0 else none
  log2 := .mapO fun x => if x = 1 then some 0 else none
  log10 := .mapO fun x => if x = 1 then some 0 else none
  exp := .mapO fun x => if x = 0 then some 1 else none
  pow := .map2O ratPow
  nan := .bad
  inf := .bad
  toInt32 x := x.val?.bind ratToInt32
  isInvalid x := match x with
    | .fin _ => false
    | .bad => true
  ofDec m e := some (.fin (if 0 ≤ e then m * 10 ^ e.toNat else m / 10 ^ (-e).toNat))
  ofHex m e := some (.fin (if 0 ≤ e then m * 2 ^ e.toNat else m / 2 ^ (-e).toNat))
  toStr x := match x with
    | .fin q => formatDouble q
    | .bad => ['n', 'a', 'n']

/-- The default configuration (config.h:12-41) over the rationals. -/
def defaultConfig : Config (XNum Rat) where
  throwOnInvalidValue := true
  epsilon := .fin (1 / 1000000000)
  maxIterations := 100
  nonlinearMethod := .newtonRaphson
  initialValue := .fin 1
  allowIndeterminateEquation := false

end Tom
