import Verif.Lemmas.Ieee
/-
The C++ type `double` as an instance of the arithmetic the model is generic in: binary64 (Model/Ieee) with an arbitrary libm.
-/
namespace Tom

/-- the data of binary64: the number in `num` is a non-zero number a `double` can represent -/
def F64.Ok : F64 → Prop
  | .num q => q ≠ 0 ∧ IsDouble q
  | _ => True

namespace F64

theorem ok_round (z : Bool) (q : ℚ) : (round z q).Ok := by
  rw [round_eq]
  split_ifs with h1 h2 h3
  · trivial
  · trivial
  · trivial
  · exact ⟨h2, isDouble_rnd q (not_le.mp h3)⟩

theorem ok_neg {a : F64} (h : a.Ok) : (neg a).Ok := by
  cases a <;> first | trivial | exact ⟨neg_ne_zero.mpr h.1, isDouble_neg h.2⟩

theorem ok_abs {a : F64} (h : a.Ok) : (abs a).Ok := by
  cases a <;> try trivial
  simp only [abs]
  split
  · exact ⟨neg_ne_zero.mpr h.1, isDouble_neg h.2⟩
  · exact h

theorem ok_add {a b : F64} (ha : a.Ok) (hb : b.Ok) : (add a b).Ok := by
  cases a <;> cases b <;> first | trivial | exact ok_round _ _ | assumption | skip
  simp only [add]; split <;> trivial

theorem ok_sub {a b : F64} (ha : a.Ok) (hb : b.Ok) : (sub a b).Ok := ok_add ha (ok_neg hb)

theorem ok_mul {a b : F64} (_ : a.Ok) (_ : b.Ok) : (mul a b).Ok := by
  cases a <;> cases b <;> first | trivial | exact ok_round _ _

theorem ok_div {a b : F64} (_ : a.Ok) (_ : b.Ok) : (div a b).Ok := by
  cases a <;> cases b <;> first | trivial | exact ok_round _ _

theorem ok_ofNumeral {q : ℚ} {v : F64} (h : ofNumeral q = some v) : v.Ok := by
  have hr := ok_round false q
  unfold ofNumeral at h
  split at h
  · simp at h
  · split at h <;> simp at h; subst h; trivial
  · rename_i w hw
    rw [hw] at hr
    split at h <;> simp at h; subst h; exact hr
  · simp at h

end F64

/-- the values of the type `double` -/
def B64 : Type := { x : F64 // x.Ok }

instance : DecidableEq B64 := inferInstanceAs (DecidableEq { x : F64 // x.Ok })

/-- What the platform determines: the functions of `<cmath>` the library calls (math_operator.cpp:276-343) and the order of
`valarray::sum`.  Nothing is assumed about them. -/
structure Libm where
  sin : B64 → B64
  cos : B64 → B64
  tan : B64 → B64
  asin : B64 → B64
  acos : B64 → B64
  atan : B64 → B64
  sqrt : B64 → B64
  log : B64 → B64
  log2 : B64 → B64
  log10 : B64 → B64
  exp : B64 → B64
  pow : B64 → B64 → B64
  /-- the order in which `std::valarray` adds up, see `Arith.sumOrder` -/
  sumOrder : Nat → Nat → Nat × Nat := fun _ _ => (0, 0)

/-- `double`, on a machine with the given libm -/
def Double (_ : Libm) : Type := B64

variable {L : Libm}

/-- the datum -/
def Double.raw (x : Double L) : F64 := x.1

theorem Double.ok (x : Double L) : x.raw.Ok := x.2

instance : DecidableEq (Double L) := inferInstanceAs (DecidableEq B64)

theorem Double.ext {x y : Double L} (h : x.raw = y.raw) : x = y := Subtype.ext h

/-- The operations on `double` (math_operator.cpp:273-343, mat.cpp, linear.cpp, nonlinear.cpp, config.cpp:21-38). -/
instance : Dbl (Double L) where
  zero := ⟨.zero false, trivial⟩
  one := ⟨F64.round false 1, F64.ok_round _ _⟩
  add a b := ⟨.add a.1 b.1, F64.ok_add a.2 b.2⟩
  sub a b := ⟨.sub a.1 b.1, F64.ok_sub a.2 b.2⟩
  mul a b := ⟨.mul a.1 b.1, F64.ok_mul a.2 b.2⟩
  div a b := ⟨.div a.1 b.1, F64.ok_div a.2 b.2⟩
  neg a := ⟨.neg a.1, F64.ok_neg a.2⟩
  abs a := ⟨.abs a.1, F64.ok_abs a.2⟩
  lt a b := F64.lt a.1 b.1
  le a b := F64.le a.1 b.1
  eq a b := F64.eq a.1 b.1
  sumOrder := L.sumOrder
  ofInt i := ⟨F64.ofInt i, F64.ok_round _ _⟩
  sin := L.sin
  cos := L.cos
  tan := L.tan
  asin := L.asin
  acos := L.acos
  atan := L.atan
  sqrt := L.sqrt
  log := L.log
  log2 := L.log2
  log10 := L.log10
  exp := L.exp
  pow := L.pow
  nan := ⟨.nan, trivial⟩
  inf := ⟨.inf false, trivial⟩
  toInt32 a := F64.toInt32 a.1
  isInvalid a := F64.isInvalid a.1
  ofDec m e :=
    match h : F64.ofNumeral (if 0 ≤ e then m * 10 ^ e.toNat else m / 10 ^ (-e).toNat) with
    | some v => some ⟨v, F64.ok_ofNumeral h⟩
    | none => none
  ofHex m e :=
    match h : F64.ofNumeral (if 0 ≤ e then m * 2 ^ e.toNat else m / 2 ^ (-e).toNat) with
    | some v => some ⟨v, F64.ok_ofNumeral h⟩
    | none => none
  toStr a := F64.toStr a.1

namespace Double

/-- the double nearest to a rational number -/
def near (L : Libm) (q : ℚ) : Double L := ⟨F64.round false q, F64.ok_round _ _⟩

/-- `x` is the finite number `q` -/
def Is (x : Double L) (q : ℚ) : Prop := x.raw.isInvalid = false ∧ x.raw.toRat = q

end Double
end Tom
