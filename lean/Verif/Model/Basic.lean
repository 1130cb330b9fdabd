/-
Outcomes, exceptions, configuration.  Models src/tomsolver/error_type.h, config.h, and the C++
abstract machine's notions of exception, undefined behaviour, `noexcept` and `assert`.
-/
namespace Tom

/-- `std::string` / `StringView`: the list of its characters. -/
abbrev Str := List Char

/-- error_type.h:8-25 `enum class ErrorType`. -/
inductive ErrorType
  | invalidNumber | illegalChar | invalidVarname | wrongExpression | emptyInput
  | undefinedVariable | subsNotEqual | notLinkVariableTable | outOfDomain
  | varCountNotEqualNumCount | varHasBeenDefined | indeterminateEquation
  | singularMatrix | infinitySolutions | overDeterminedEquations | sizeNotMatch
  deriving DecidableEq, Repr

/-- The exceptions the library throws.  `math` is `MathError` (error_type.h:29-41, only its
`GetErrorType`), `singleParse`/`multiParse` are `SingleParseError`/`MultiParseError` with the
columns they report (parse.h:70-108; the line is always 0), `runtime` is a plain
`std::runtime_error`, `outOfRange` is `std::out_of_range`.  Message texts are not modelled. -/
inductive Exc
  | math (e : ErrorType)
  | singleParse (pos : Nat)
  | multiParse (poss : List Nat)
  | runtime
  | outOfRange
  deriving DecidableEq, Repr

/-- `ParseError` is the base class of exactly these two (parse.h:64-108). -/
def Exc.isParseError : Exc → Bool
  | .singleParse _ => true
  | .multiParse _ => true
  | _ => false

/-- Outcome of running a piece of C++: normal return, exception, undefined behaviour,
`std::terminate` (exception leaving a `noexcept` function), a violated `assert`
(abort in debug builds, out-of-contract in release builds), or a loop that has not
finished within the fuel given to the model. -/
inductive Res (β : Type) : Type
  | ok (b : β)
  | throw (e : Exc)
  | ub
  | terminate
  | assertFail
  | diverge
  deriving DecidableEq, Repr

namespace Res

/-- Sequencing: only a normal return continues. -/
def bind {β γ : Type} (r : Res β) (f : β → Res γ) : Res γ :=
  match r with
  | ok b => f b
  | throw e => throw e
  | ub => ub
  | terminate => terminate
  | assertFail => assertFail
  | diverge => diverge

instance : Monad Res where
  pure := ok
  bind := bind

/-- An exception that reaches the boundary of a `noexcept` function calls `std::terminate`. -/
def noexcept {β : Type} : Res β → Res β
  | throw _ => terminate
  | r => r

/-- `assert(c)`. -/
def assert (c : Bool) : Res Unit := if c then ok () else assertFail

@[simp] theorem bind_ok {β γ : Type} (b : β) (f : β → Res γ) : (ok b >>= f) = f b := rfl
@[simp] theorem bind_throw {β γ : Type} (e : Exc) (f : β → Res γ) : ((throw e : Res β) >>= f) = throw e := rfl
@[simp] theorem bind_ub {β γ : Type} (f : β → Res γ) : ((ub : Res β) >>= f) = ub := rfl
@[simp] theorem bind_terminate {β γ : Type} (f : β → Res γ) : ((terminate : Res β) >>= f) = terminate := rfl
@[simp] theorem bind_assertFail {β γ : Type} (f : β → Res γ) : ((assertFail : Res β) >>= f) = assertFail := rfl
@[simp] theorem bind_diverge {β γ : Type} (f : β → Res γ) : ((diverge : Res β) >>= f) = diverge := rfl
@[simp] theorem pure_eq {β : Type} (b : β) : (pure b : Res β) = ok b := rfl
@[simp] theorem noexcept_ok {β : Type} (b : β) : noexcept (ok b) = ok b := rfl
@[simp] theorem noexcept_throw {β : Type} (e : Exc) : noexcept (throw e : Res β) = terminate := rfl
@[simp] theorem noexcept_ub {β : Type} : noexcept (ub : Res β) = ub := rfl
@[simp] theorem noexcept_terminate {β : Type} : noexcept (terminate : Res β) = terminate := rfl
@[simp] theorem noexcept_assertFail {β : Type} : noexcept (assertFail : Res β) = assertFail := rfl
@[simp] theorem noexcept_diverge {β : Type} : noexcept (diverge : Res β) = diverge := rfl
@[simp] theorem assert_true : assert true = ok () := rfl
@[simp] theorem assert_false : assert false = assertFail := rfl

theorem bind_assoc' {β γ δ : Type} (r : Res β) (f : β → Res γ) (g : γ → Res δ) :
    ((r >>= f) >>= g) = (r >>= fun b => f b >>= g) := by
  cases r <;> rfl

theorem bind_eq_ok {β γ : Type} {r : Res β} {f : β → Res γ} {c : γ} :
    (r >>= f) = ok c ↔ ∃ b, r = ok b ∧ f b = ok c := by
  cases r <;> simp

@[simp] theorem bind_pure' {β : Type} (r : Res β) : (r >>= fun b => ok b) = r := by
  cases r <;> rfl

end Res

/-- config.h:10 `enum class NonlinearMethod` (the last constructor is any other integer value, which
`Solve` rejects, nonlinear.cpp:267-268). -/
inductive NonlinearMethod
  | newtonRaphson | lm | other
  deriving DecidableEq, Repr

/-- config.h:12-41 `struct Config`, without `logLevel` (logging is not modelled).  The C++ singleton
`Config::Get()` becomes an explicit parameter. -/
structure Config (α : Type) where
  throwOnInvalidValue : Bool
  epsilon : α
  maxIterations : Int
  nonlinearMethod : NonlinearMethod
  initialValue : α
  allowIndeterminateEquation : Bool

end Tom
