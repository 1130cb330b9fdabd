import Verif.Model.Parse
/-
The texts of the exceptions: src/tomsolver/error_type.cpp, parse.h:64-108, parse.cpp:115-138, and Parse again with the
texts its exceptions are made from (the other models only keep the columns).
-/
namespace Tom

/-- error_type.cpp:8-63 `GetErrorInfo` -/
def getErrorInfo : ErrorType → Str
  | .invalidNumber => "invalid number".toList
  | .illegalChar => "illegal character".toList
  | .invalidVarname => "invalid variable name (must start with an underscore \"_\" or a letter)".toList
  | .wrongExpression => "invalid expression".toList
  | .emptyInput => "empty input".toList
  | .undefinedVariable => "undefined variable".toList
  | .subsNotEqual => "number of substitutions does not match the number of items to be replaced".toList
  | .notLinkVariableTable => "not linked variable table".toList
  | .outOfDomain => "out of domain".toList
  | .varCountNotEqualNumCount => "the number of variable is not equal with number count".toList
  | .varHasBeenDefined => "variable redefined".toList
  | .indeterminateEquation => "indeterminate equation".toList
  | .singularMatrix => "singular matrix".toList
  | .infinitySolutions => "infinite solutions".toList
  | .overDeterminedEquations => "overdetermined equations".toList
  | .sizeNotMatch => "size does not match".toList

/-- error_type.h:29-41 `MathError`: the type and the message -/
structure MathErrorObj where
  errorType : ErrorType
  errInfo : Str
  deriving DecidableEq

/-- error_type.cpp:65-71, the constructor -/
def mathError (e : ErrorType) (extInfo : Str) : MathErrorObj :=
  let errInfo := getErrorInfo e
  ⟨e, if extInfo = [] then errInfo else errInfo ++ (": \"".toList ++ extInfo ++ "\"".toList)⟩

/-- error_type.cpp:73-75 `what` -/
def MathErrorObj.what (m : MathErrorObj) : Str := m.errInfo

/-- error_type.cpp:77-79 `GetErrorType` -/
def MathErrorObj.getErrorType (m : MathErrorObj) : ErrorType := m.errorType

/-- math_operator.cpp:353-367: the text about the operation that gave an invalid value -/
def calcInfo {α : Type} [Dbl α] (op : MathOp) (v1 v2 : α) : Str :=
  "expression: \"".toList ++
  (if operatorNum op = 1 then MathOp.toStr op ++ " ".toList ++ Dbl.toStr v1
   else Dbl.toStr v1 ++ " ".toList ++ MathOp.toStr op ++ " ".toList ++ Dbl.toStr v2) ++ "\"".toList

/-- parse.h:70-98 `SingleParseError`, with `errInfo` as the one text its parts are appended to -/
structure SingleErr where
  line : Nat
  pos : Nat
  content : Str
  info : Str
  deriving DecidableEq, Repr

/-- `stream << n` -/
def natText (n : Nat) : Str := (toString n).toList

/-- parse.h:76-83: the message -/
def SingleErr.what (e : SingleErr) : Str :=
  "[Parse Error] ".toList ++ e.info ++ " at(".toList ++ natText e.line ++ ", ".toList ++ natText e.pos ++ "):\n".toList ++
  e.content ++ "\n".toList ++ List.replicate e.pos ' ' ++ "^---- error position".toList

/-- parse.cpp:127-134 `MultiParseError`: the messages from the last error to the first, each followed by a line break -/
def multiWhat (es : List SingleErr) : Str := es.reverse.flatMap fun e => e.what ++ "\n".toList

/-- the two parse errors -/
inductive PErr
  | single (e : SingleErr)
  | multi (es : List SingleErr)
  deriving DecidableEq, Repr

/-- `what()` of a parse error -/
def PErr.what : PErr → Str
  | .single e => e.what
  | .multi es => multiWhat es

/-- Outcome of a part of Parse: a parse error with its texts, or anything else. -/
inductive DRes (β : Type) : Type
  | plain (r : Res β)
  | parseError (e : PErr)
  deriving DecidableEq, Repr

namespace DRes

/-- sequencing -/
def bind {β γ : Type} (d : DRes β) (f : β → DRes γ) : DRes γ :=
  match d with
  | .plain (.ok b) => f b
  | .plain (.throw e) => .plain (.throw e)
  | .plain .ub => .plain .ub
  | .plain .terminate => .plain .terminate
  | .plain .assertFail => .plain .assertFail
  | .plain .diverge => .plain .diverge
  | .parseError e => .parseError e

instance : Monad DRes where
  pure b := .plain (.ok b)
  bind := bind

end DRes

variable {α : Type} [Dbl α]

/-- parse.h:112-122 `Token` -/
structure DTok (α : Type) where
  node : Raw α
  s : Str
  line : Nat
  pos : Nat
  content : Str

/-- parse.cpp:151-183 `tryComfirmToken`.  In the error the word `exp` is passed as the content of the line. -/
def dConfirm (content word : Str) (start : Nat) (ret : List (DTok α)) : DRes (List (DTok α)) :=
  if word = [] then .plain (.ok ret)
  else
    match (stodFull word : Option α) with
    | some d => .plain (.ok (ret ++ [⟨mkNum d, word, 0, start, content⟩]))
    | none =>
      let op := str2Function word
      if op ≠ .null then do
        let n ← .plain (mkOp op)
        .plain (.ok (ret ++ [⟨n, word, 0, start, content⟩]))
      else if varNameIsLegal word = false then
        .parseError (.single ⟨0, start, word, "Invalid variable name: \"".toList ++ word ++ "\"".toList⟩)
      else do
        let n ← .plain (mkVar word)
        .plain (.ok (ret ++ [⟨n, word, 0, start, content⟩]))

/-- parse.cpp:188-189 -/
def dUnaryPosition (ret : List (DTok α)) : Bool :=
  match ret.getLast? with
  | none => true
  | some t => t.node.isOperator && t.node.op != .rparen

/-- parse.cpp:185-205 -/
def dLexLoop (content : Str) : Str → Nat → Str → Nat → List (DTok α) → DRes (List (DTok α))
  | [], _, word, start, ret => dConfirm content word start ret
  | c :: cs, pos, word, start, ret =>
    if isBasicOperator c then do
      let ret ← dConfirm content word start ret
      let n ← .plain (mkOp (baseOperatorCharToEnum c (dUnaryPosition ret)))
      dLexLoop content cs (pos + 1) [] (pos + 1) (ret ++ [⟨n, [c], 0, pos, content⟩])
    else if isSpaceChar c then do
      let ret ← dConfirm content word start ret
      dLexLoop content cs (pos + 1) [] (pos + 1) ret
    else dLexLoop content cs (pos + 1) (word ++ [c]) start ret

/-- parse.cpp:142-206 `ParseToTokens`.  For the empty input the text "empty input" is passed as the content of the line, and the
content as the explanation. -/
def dParseToTokens (content : Str) : DRes (List (DTok α)) :=
  if content = [] then .parseError (.single ⟨0, 0, "empty input".toList, content⟩) else dLexLoop content content 0 [] 0 []

/-- parse.cpp:248-250 -/
def dPopToParen : List (DTok α) → List (DTok α) → DRes (List (DTok α) × List (DTok α))
  | [], _ => .plain .ub
  | t :: stk, out => if t.node.op = .lparen then .plain (.ok (stk, out)) else dPopToParen stk (out ++ [t])

/-- parse.cpp:251-253 -/
def dPopFunction (stk out : List (DTok α)) : List (DTok α) × List (DTok α) :=
  match stk with
  | t :: stk' => if isFunction t.node.op then (stk', out ++ [t]) else (stk, out)
  | [] => (stk, out)

/-- parse.cpp:254-257 -/
def dPopSigns : List (DTok α) → List (DTok α) → List (DTok α) × List (DTok α)
  | t :: stk, out => if t.node.op = .positive ∨ t.node.op = .negative then dPopSigns stk (out ++ [t]) else (t :: stk, out)
  | [], out => ([], out)

/-- parse.cpp:262-280 -/
def dPopRank (f : MathOp) : List (DTok α) → List (DTok α) → List (DTok α) × List (DTok α)
  | t :: stk, out =>
    if (if isLeft2Right f then rank f ≤ rank t.node.op else rank f < rank t.node.op) then dPopRank f stk (out ++ [t])
    else (t :: stk, out)
  | [], out => ([], out)

/-- parse.cpp:241, 295: the unmatched parenthesis -/
def parenErr (t : DTok α) : PErr :=
  .single ⟨t.line, t.pos, t.content, "Parenthesis not match: \"".toList ++ t.s ++ "\"".toList⟩

/-- parse.cpp:287-299 -/
def dFlushStack : List (DTok α) → List (DTok α) → DRes (List (DTok α))
  | [], out => .plain (.ok out)
  | t :: stk, out => if t.node.op = .lparen then .parseError (parenErr t) else dFlushStack stk (out ++ [t])

/-- parse.cpp:219-285 -/
def dShunt : List (DTok α) → Nat → List (DTok α) → List (DTok α) → DRes (List (DTok α))
  | [], _, stk, out => dFlushStack stk out
  | f :: rest, bal, stk, out =>
    match f.node with
    | .nil => .plain .ub
    | .mk .number .. | .mk .variable .. => dShunt rest bal stk (out ++ [f])
    | .mk .operator op _ _ _ _ =>
      match op with
      | .lparen => dShunt rest (bal + 1) (f :: stk) out
      | .positive | .negative => dShunt rest bal (f :: stk) out
      | .rparen =>
        if bal = 0 then .parseError (parenErr f)
        else do
          let (stk, out) ← dPopToParen stk out
          let (stk, out) := dPopFunction stk out
          let (stk, out) := dPopSigns stk out
          dShunt rest bal stk out
      | op =>
        let (stk, out) := dPopRank op stk out
        dShunt rest bal (f :: stk) out

/-- parse.cpp:314-355 -/
def dBuildLoop : List (DTok α) → List (DTok α) → DRes (List (DTok α))
  | [], stk => .plain (.ok stk)
  | t :: rest, stk =>
    match t.node with
    | .nil => .plain .ub
    | .mk .number .. | .mk .variable .. => dBuildLoop rest (t :: stk)
    | .mk .operator op _ _ _ _ =>
      if operatorNum op = 2 then
        match stk with
        | [] => .plain (.throw (.math .wrongExpression))
        | [_] => .plain (.throw (.math .wrongExpression))
        | r :: l :: stk => dBuildLoop rest ({ t with node := (t.node.setRight r.node).setLeft l.node } :: stk)
      else if operatorNum op = 1 then
        match stk with
        | [] => .plain (.throw (.math .wrongExpression))
        | l :: stk => dBuildLoop rest ({ t with node := t.node.setLeft l.node } :: stk)
      else .plain .assertFail

/-- parse.cpp:365: the error for a token left over -/
def leftoverErr (t : DTok α) : SingleErr :=
  ⟨t.line, t.pos, t.content, "Parse Error at: \"".toList ++ t.s ++ "\"".toList⟩

/-- parse.cpp:303-372 `BuildExpressionTree` -/
def dBuildExpressionTree (postOrder : List (DTok α)) : DRes (Raw α) := do
  let stk ← dBuildLoop postOrder []
  match stk with
  | [] => .plain .ub
  | [t] => .plain (.ok t.node)
  | _ :: rest => .parseError (.multi (rest.map leftoverErr))

/-- parse.cpp:376-381 `Parse`, with the texts of its parse errors -/
def parseD (expression : Str) : DRes (Raw α) := do
  let tokens ← dParseToTokens expression
  let postOrder ← dShunt tokens 0 [] []
  dBuildExpressionTree postOrder

end Tom
