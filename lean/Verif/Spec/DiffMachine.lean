import Verif.Model.DiffMachine
import Verif.Spec.Printing
/-
Specification for the program examples/diff_machine: what one round of it does, as a list of cases.
-/
namespace Tom
variable {α : Type} [Dbl α]

/-- what the program writes before every answer to an expression with several variables -/
def machineQuestion : List Wrote :=
  [.out "more than 1 variable. who do you want to differentiate?\n".toList, .out ">>".toList]

/-- what the program writes as an answer -/
def machineAnswer (text : Str) : List Wrote := [.out "ans = \n".toList, .out ("  ".toList ++ text ++ "\n".toList)]

/-- What a round does with the word `w`, whatever the input `ws` after it. -/
inductive RoundDoes (cfg : Config α) (w : Str) (ws : List Str) : List Wrote × List Str × Res Unit → Prop
  /-- not an expression: the message of the parse error -/
  | refused (e : Exc) : parse w = (.throw e : Res (Raw α)) → RoundDoes cfg w ws ([.out ">>".toList, .err e], ws, .ok ())
  /-- one of the texts on which `Parse` has undefined behaviour -/
  | undefined : parse w = (.ub : Res (Raw α)) → RoundDoes cfg w ws ([.out ">>".toList], ws, .ub)
  /-- no variable: an assertion is violated -/
  | constant (e : Expr α) : parse w = .ok (embed e) → e.vars = [] → RoundDoes cfg w ws ([.out ">>".toList], ws, .assertFail)
  /-- one variable -/
  | one (e e' : Expr α) (x : Str) : parse w = .ok (embed e) → e.vars ≠ [] → (∀ y ∈ e.vars, y = x) →
      diff cfg (embed e) x 1 = .ok (embed e') →
      RoundDoes cfg w ws (.out ">>".toList :: machineAnswer (infixText none e'), ws, .ok ())
  | oneRefused (e : Expr α) (x : Str) : parse w = .ok (embed e) → e.vars ≠ [] → (∀ y ∈ e.vars, y = x) → e.hasIntOp = true →
      RoundDoes cfg w ws ([.out ">>".toList, .err .runtime], ws, .ok ())
  | oneAborted (e : Expr α) (x : Str) : parse w = .ok (embed e) → e.vars ≠ [] → (∀ y ∈ e.vars, y = x) →
      diff cfg (embed e) x 1 = .terminate → RoundDoes cfg w ws ([.out ">>".toList], ws, .terminate)
  /-- several variables, and the next word is one of them -/
  | many (e e' : Expr α) (x y z : Str) : parse w = .ok (embed e) → y ∈ e.vars → z ∈ e.vars → y ≠ z → x ∈ e.vars → ws.head?.getD [] = x →
      diff cfg (embed e) x 1 = .ok (embed e') →
      RoundDoes cfg w ws (.out ">>".toList :: machineQuestion ++ machineAnswer (infixText none e'), ws.tail, .ok ())
  | manyRefused (e : Expr α) (x y z : Str) : parse w = .ok (embed e) → y ∈ e.vars → z ∈ e.vars → y ≠ z → x ∈ e.vars →
      ws.head?.getD [] = x → e.hasIntOp = true →
      RoundDoes cfg w ws (.out ">>".toList :: machineQuestion ++ [.err .runtime], ws.tail, .ok ())
  | manyAborted (e : Expr α) (x y z : Str) : parse w = .ok (embed e) → y ∈ e.vars → z ∈ e.vars → y ≠ z → x ∈ e.vars →
      ws.head?.getD [] = x → diff cfg (embed e) x 1 = .terminate →
      RoundDoes cfg w ws (.out ">>".toList :: machineQuestion, ws.tail, .terminate)
  /-- several variables, and the next word (or the empty text at the end of the input) is none of them -/
  | unknown (e : Expr α) (y z : Str) : parse w = .ok (embed e) → y ∈ e.vars → z ∈ e.vars → y ≠ z → ws.head?.getD [] ∉ e.vars →
      RoundDoes cfg w ws (.out ">>".toList :: machineQuestion ++ [.err .runtime], ws.tail, .ok ())

end Tom
