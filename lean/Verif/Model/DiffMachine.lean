import Verif.Model.Tree
import Verif.Model.Parse
import Verif.Model.VarsTable
/-
Models examples/diff_machine/main.cpp, the interactive program that differentiates what the user types.  Standard input is the list of its
words: `cin >> s` skips blanks and reads up to the next blank.  What is written to `cerr` for an exception is represented by the exception.
-/
namespace Tom
variable {α : Type} [Dbl α]

/-- Something the program writes: text on `cout`, or the message of an exception on `cerr`. -/
inductive Wrote
  | out (text : Str)
  | err (e : Exc)
  deriving DecidableEq, Repr

/-- A piece of an interactive program: from the input that is left to what is written, the input then left, and how it ended. -/
def Prog (β : Type) : Type := List Str → List Wrote × List Str × Res β

namespace Prog

/-- sequencing: what was written stays written whatever happens later -/
def bind {β γ : Type} (m : Prog β) (f : β → Prog γ) : Prog γ := fun input =>
  match m input with
  | (ws, input, .ok b) => (ws ++ (f b input).1, (f b input).2)
  | (ws, input, .throw e) => (ws, input, .throw e)
  | (ws, input, .ub) => (ws, input, .ub)
  | (ws, input, .terminate) => (ws, input, .terminate)
  | (ws, input, .assertFail) => (ws, input, .assertFail)
  | (ws, input, .diverge) => (ws, input, .diverge)

instance : Monad Prog where
  pure b := fun input => ([], input, .ok b)
  bind := bind

/-- a computation without input and output -/
def run {β : Type} (r : Res β) : Prog β := fun input => ([], input, r)

/-- `cout << text` -/
def write (text : String) : Prog Unit := fun input => ([.out text.toList], input, .ok ())

/-- `cout << text << endl` -/
def writeLine (text : Str) : Prog Unit := fun input => ([.out (text ++ ['\n'])], input, .ok ())

/-- `std::string s; cin >> s;`: the next word; at the end of the input `s` stays empty -/
def readWord : Prog Str
  | [] => ([], [], .ok [])
  | w :: ws => ([], ws, .ok w)

end Prog

/-- Which exceptions `catch (const std::runtime_error &)` catches: `MathError` and the parse errors are derived from it (error_type.h:29,
parse.h:64), `std::out_of_range` is a `std::logic_error`. -/
def Exc.isRuntimeError : Exc → Bool
  | .outOfRange => false
  | _ => true

/-- main.cpp:37-50: the variable to differentiate by -/
def askVariable (table : VarsTable α) : Prog Str :=
  match table.vars with
  | [] => pure []
  | [x] => pure x
  | _ => do
    Prog.writeLine "more than 1 variable. who do you want to differentiate?".toList
    Prog.write ">>"
    let varname ← Prog.readWord
    if table.has varname = false then Prog.run (.throw .runtime) else pure varname

/-- main.cpp:29-54, the `try` block.  (`VarsTable` of no names violates the assertion of `Vec(0)`.) -/
def tryBlock (cfg : Config α) (expr : Str) : Prog Unit := do
  let node ← Prog.run (parse expr)
  let names ← Prog.run (getAllVarNames node)
  let table ← Prog.run (VarsTable.ofVars names (Dbl.ofInt 0 : α))
  let varname ← askVariable table
  let dnode ← Prog.run (diff cfg node varname 1)
  Prog.writeLine "ans = ".toList
  let text ← Prog.run (toStringNode dnode)
  Prog.writeLine ("  ".toList ++ text)

/-- main.cpp:29-55: `try` and `catch`.  An exception that is not caught ends the program (`std::terminate`). -/
def tryCatch (cfg : Config α) (expr : Str) : Prog Unit := fun input =>
  match tryBlock cfg expr input with
  | (ws, input, .throw e) => if e.isRuntimeError then (ws ++ [.err e], input, .ok ()) else (ws, input, .terminate)
  | other => other

/-- main.cpp:24-55, one round of `while (1)` -/
def machineRound (cfg : Config α) : Prog Unit := do
  Prog.write ">>"
  let expr ← Prog.readWord
  tryCatch cfg expr

/-- main.cpp:23-56: the first `n` rounds of `while (1)` -/
def diffMachine (cfg : Config α) : Nat → Prog Unit
  | 0 => pure ()
  | n + 1 => do
    machineRound cfg
    diffMachine cfg n

end Tom
