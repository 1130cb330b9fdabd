import Verif.Model.Ops
/-
Models `tomsolver::ToString(double)` (src/tomsolver/config.cpp:12-38) on the exact rational value of a finite
double.  `snprintf("%.16f")` and `snprintf("%.16e")` are taken to round correctly, ties to even (glibc).
-/
namespace Tom

/-- The nearest integer to `n / d`, ties to even. -/
def roundHalfEven (n d : Nat) : Nat :=
  let q := n / d
  let r := n % d
  if 2 * r < d then q
  else if 2 * r > d then q + 1
  else if q % 2 = 0 then q else q + 1

/-- decimal digits of `n`, padded on the left with zeros to at least `w` digits -/
def padDigits (w n : Nat) : Str :=
  let ds := Nat.toDigits 10 n
  List.replicate (w - ds.length) '0' ++ ds

/-- `|v|` as a fraction: numerator and denominator -/
def ratAbsNum (v : Rat) : Nat := v.num.natAbs

/-- `snprintf(buf, 64, "%.16f", v)` for a finite `v` (config.cpp:36, second strategy) -/
def fmtFixed16 (v : Rat) : Str :=
  let n := roundHalfEven (ratAbsNum v * 10 ^ 16) v.den
  (if v < 0 then ['-'] else []) ++ Nat.toDigits 10 (n / 10 ^ 16) ++ ['.'] ++ padDigits 16 (n % 10 ^ 16)

/-- decimal exponent of `n / d > 0` -/
def decExponent (n d : Nat) : Int :=
  if d ≤ n then ((Nat.toDigits 10 (n / d)).length : Int) - 1
  else -((Nat.toDigits 10 ((d + n - 1) / n - 1)).length : Int)

/-- `snprintf(buf, 64, "%.16e", v)` for a finite non-zero `v` (config.cpp:36, first strategy) -/
def fmtSci16 (v : Rat) : Str :=
  let n := ratAbsNum v
  let e := decExponent n v.den
  let m := if e ≤ 16 then roundHalfEven (n * 10 ^ (16 - e).toNat) v.den
    else roundHalfEven n (v.den * 10 ^ (e - 16).toNat)
  let (m, e) := if m = 10 ^ 17 then (10 ^ 16, e + 1) else (m, e)
  (if v < 0 then ['-'] else []) ++
  (match Nat.toDigits 10 m with
    | [] => []
    | d :: ds => d :: '.' :: ds) ++
  ['e', if e < 0 then '-' else '+'] ++ padDigits 2 e.natAbs

/-- does `0+$` match here? (one or more zeros up to the end) -/
def zerosToEnd : Str → Bool
  | [] => false
  | cs => cs.all (· == '0')

/-- does `\.?0+(?=$)` match here? -/
def matchEnd : Str → Bool
  | '.' :: cs => zerosToEnd cs
  | cs => zerosToEnd cs

/-- `std::regex_replace(buf, \.?0+(?=$), "")`: the leftmost match is removed; it extends to the end. -/
def stripEnd : Str → Str
  | [] => []
  | c :: cs => if matchEnd (c :: cs) then [] else c :: stripEnd cs

/-- if `0+(?=e)` matches here, the rest after the match -/
def zerosToE : Str → Option Str
  | '0' :: 'e' :: cs => some ('e' :: cs)
  | '0' :: cs => zerosToE cs
  | _ => none

/-- if `\.?0+(?=e)` matches here, the rest after the match -/
def matchE : Str → Option Str
  | '.' :: cs => zerosToE cs
  | cs => zerosToE cs

/-- `std::regex_replace(buf, \.?0+(?=e), "")`.  After the first match only an exponent is left, in which no
further match is possible. -/
def stripE : Str → Str
  | [] => []
  | c :: cs =>
    match matchE (c :: cs) with
    | some rest => rest
    | none => c :: stripE cs

/-- config.cpp:21-38 `ToString(double)` for a finite value given exactly.  The thresholds `1.0e16` and `1.0e-16` are
the decimal constants (the doubles nearest to them differ for `1e-16` only in the 33rd decimal). -/
def formatDouble (v : Rat) : Str :=
  if v = 0 then ['0']
  else
    let a : Rat := if v < 0 then -v else v
    if a ≥ 10 ^ 16 ∨ a * 10 ^ 16 ≤ 1 then stripE (fmtSci16 v)
    else stripEnd (fmtFixed16 v)

end Tom
