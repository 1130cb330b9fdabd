import Verif.Model.Ieee
import Mathlib.Data.EReal.Operations
/-
IEEE 754 binary64 as the standard describes it: the interchange encoding, rounding to nearest with ties to even, and the rules for the
operations, written without reference to how Model/Ieee computes them.
-/
namespace Tom

/-- The positive number encoded by the exponent and fraction fields `n = biased exponent * 2^52 + fraction` (IEEE 754, 3.4). -/
def fieldsValue (n : ℕ) : ℚ :=
  if n / 2 ^ 52 = 0 then (n % 2 ^ 52 : ℕ) * (2 : ℚ) ^ (-1074 : ℤ)
  else (2 ^ 52 + n % 2 ^ 52 : ℕ) * (2 : ℚ) ^ ((n / 2 ^ 52 : ℕ) - 1075 : ℤ)

/-- The datum with the sign bit `s` and these fields. -/
def decodeFields (s : Bool) (n : ℕ) : F64 :=
  if n = 0 then .zero s
  else if n < 2047 * 2 ^ 52 then .num (if s then -fieldsValue n else fieldsValue n)
  else if n = 2047 * 2 ^ 52 then .inf s
  else .nan

/-- The datum a 64-bit pattern encodes. -/
def decode (b : BitVec 64) : F64 := decodeFields (decide (2 ^ 63 ≤ b.toNat)) (b.toNat % 2 ^ 63)

/-- the sign bit is set (meaningless for NaN) -/
def F64.negative : F64 → Prop
  | .nan => False
  | .inf s => s = true
  | .zero s => s = true
  | .num q => q < 0

/-- the extended real number a datum other than NaN stands for -/
noncomputable def F64.val : F64 → EReal
  | .nan => 0
  | .inf s => if s then ⊥ else ⊤
  | .zero _ => 0
  | .num q => ((q : ℝ) : EReal)

/-- `r` is the non-zero number `q` rounded to nearest, ties to even (IEEE 754, 4.3.1): from `2^1024 - 2^970` on the infinity of the same
sign; otherwise a finite datum of the same sign none is nearer than, and if there are two, the one whose encoding is even. -/
def NearestEven (q : ℚ) (r : F64) : Prop :=
  (r.negative ↔ q < 0) ∧
  if 2 ^ 1024 - 2 ^ 970 ≤ |q| then ∃ s, r = .inf s
  else ∃ v, r.val = ((v : ℚ) : ℝ) ∧ r.isInvalid = false ∧
    (∀ b w, (decode b).isInvalid = false → (decode b).val = ((w : ℚ) : ℝ) → |v - q| ≤ |w - q| ∧
      (|v - q| = |w - q| → v ≠ w → ∃ b, decode b = r ∧ b.toNat % 2 = 0))

/-- `r` is `x + y` (IEEE 754, 5.4.1, 6.1, 6.3, 7.2): NaN from a NaN and from infinities of opposite signs; with one infinite operand
that infinity; otherwise the rounded sum, and where the sum is 0, `-0` exactly if both operands have the sign bit set. -/
def IeeeAdd (x y r : F64) : Prop :=
  (r = .nan ↔ x = .nan ∨ y = .nan ∨ ∃ s, x = .inf s ∧ y = .inf (!s)) ∧
  (r ≠ .nan → (∃ s, x = .inf s ∨ y = .inf s) → r.val = x.val + y.val ∧ r.isInvalid = true) ∧
  (∀ p q : ℚ, x.isInvalid = false → y.isInvalid = false → x.val = (p : ℝ) → y.val = (q : ℝ) →
    (p + q ≠ 0 → NearestEven (p + q) r) ∧
    (p + q = 0 → ∃ s, r = .zero s ∧ (s = true ↔ x.negative ∧ y.negative)))

/-- `r` is `x - y`: the sum with `y` of the opposite sign. -/
def IeeeSub (x y r : F64) : Prop :=
  ∃ y' : F64, (∃ b, decode b = y') ∧ (y' = .nan ↔ y = .nan) ∧ (y ≠ .nan → (y'.negative ↔ ¬ y.negative)) ∧ y'.val = -y.val ∧ IeeeAdd x y' r

/-- `r` is `x * y` (IEEE 754, 5.4.1, 6.1, 6.3, 7.2): NaN from a NaN and from `0 * ∞`; the sign is the exclusive or of the signs; infinite
with an infinite operand; otherwise the rounded product. -/
def IeeeMul (x y r : F64) : Prop :=
  (r = .nan ↔ x = .nan ∨ y = .nan ∨ (∃ s t, x = .inf s ∧ y = .zero t) ∨ (∃ s t, x = .zero s ∧ y = .inf t)) ∧
  (r ≠ .nan → (r.negative ↔ ¬ (x.negative ↔ y.negative))) ∧
  (r ≠ .nan → (∃ s, x = .inf s ∨ y = .inf s) → ∃ s, r = .inf s) ∧
  (∀ p q : ℚ, x.isInvalid = false → y.isInvalid = false → x.val = (p : ℝ) → y.val = (q : ℝ) →
    (p * q ≠ 0 → NearestEven (p * q) r) ∧ (p * q = 0 → ∃ s, r = .zero s))

/-- `r` is `x / y` (IEEE 754, 5.4.1, 6.1, 6.3, 7.2, 7.3): NaN from a NaN, `0 / 0` and `∞ / ∞`; the sign is the exclusive or of the
signs; infinite if `x` is infinite or `y` is zero; zero if `y` is infinite or `x` is zero; otherwise the rounded quotient. -/
def IeeeDiv (x y r : F64) : Prop :=
  (r = .nan ↔ x = .nan ∨ y = .nan ∨ (∃ s t, x = .inf s ∧ y = .inf t) ∨ (∃ s t, x = .zero s ∧ y = .zero t)) ∧
  (r ≠ .nan → (r.negative ↔ ¬ (x.negative ↔ y.negative))) ∧
  (r ≠ .nan → (∃ s, x = .inf s ∨ y = .zero s) → ∃ s, r = .inf s) ∧
  (r ≠ .nan → (∃ s, y = .inf s ∨ x = .zero s) → ∃ s, r = .zero s) ∧
  (∀ p q : ℚ, x.isInvalid = false → y.isInvalid = false → x.val = (p : ℝ) → y.val = (q : ℝ) → p ≠ 0 → q ≠ 0 →
    NearestEven (p / q) r)

end Tom
