import Verif.Model.Node
/-
Models src/tomsolver/parse.cpp / parse.h: the lexer, the shunting-yard conversion and the tree builder.
Characters are bytes (code points below 256).  `isspace` and `std::regex` are those of the "C" locale; calling
`isspace` with a negative `char` (bytes above 127) is taken to return false, as glibc does.
-/
namespace Tom

/-- `isspace` in the "C" locale (parse.cpp:194). -/
def isSpaceChar (c : Char) : Bool :=
  c == ' ' || c == '\t' || c == '\n' || c == Char.ofNat 11 || c == Char.ofNat 12 || c == '\r'

/-- parse.cpp:38-53 `IsBasicOperator` -/
def isBasicOperator (c : Char) : Bool :=
  c == '(' || c == ')' || c == '+' || c == '-' || c == '*' || c == '/' || c == '^' || c == '&' || c == '|' || c == '%'

/-- parse.cpp:56-83 `BaseOperatorCharToEnum` (`MATH_NULL` stands for the unreachable `assert(0)`). -/
def baseOperatorCharToEnum (c : Char) (unary : Bool) : MathOp :=
  if c = '(' then .lparen
  else if c = ')' then .rparen
  else if c = '+' then (if unary then .positive else .add)
  else if c = '-' then (if unary then .negative else .sub)
  else if c = '*' then .mul
  else if c = '/' then .div
  else if c = '^' then .pow
  else if c = '&' then .and
  else if c = '|' then .or
  else if c = '%' then .mod
  else .null

/-- The value a `char` contributes to the hash: bytes above 127 are negative chars, converted to `uint64_t` by sign
extension (parse.cpp:27). -/
def charToU64 (c : Char) : UInt64 :=
  let b := c.toNat % 256
  if b < 128 then UInt64.ofNat b else UInt64.ofNat (b + (2 ^ 64 - 256))

/-- parse.cpp:20-31 `fnv1a` -/
def fnv1a (s : Str) : UInt64 :=
  s.foldl (fun hash c => (hash ^^^ charToU64 c) * 1099511628211) 14695981039346656037

/-- The case labels of parse.cpp:86-109, in order. -/
def functionTable : List (Str × MathOp) :=
  [(['s','i','n'], .sin), (['c','o','s'], .cos), (['t','a','n'], .tan), (['a','r','c','s','i','n'], .arcsin),
   (['a','r','c','c','o','s'], .arccos), (['a','r','c','t','a','n'], .arctan), (['s','q','r','t'], .sqrt),
   (['l','o','g'], .log), (['l','o','g','2'], .log2), (['l','o','g','1','0'], .log10), (['e','x','p'], .exp)]

/-- parse.cpp:85-111 `Str2Function`: only the hashes are compared. -/
def str2Function (s : Str) : MathOp :=
  match functionTable.find? (fun p => fnv1a p.1 == fnv1a s) with
  | some p => p.2
  | none => .null

/-! ### `std::stod`, on words (which contain neither blanks nor signs) -/

/-- value of a hexadecimal digit -/
def hexDigit? (c : Char) : Option Nat :=
  if '0' ≤ c ∧ c ≤ '9' then some (c.toNat - 48)
  else if 'a' ≤ c ∧ c ≤ 'f' then some (c.toNat - 87)
  else if 'A' ≤ c ∧ c ≤ 'F' then some (c.toNat - 55)
  else none

/-- the number a list of decimal digits denotes -/
def decVal (ds : Str) : Nat := ds.foldl (fun n c => 10 * n + (c.toNat - 48)) 0

/-- the number a list of hexadecimal digits denotes -/
def hexVal (ds : Str) : Nat := ds.foldl (fun n c => 16 * n + (hexDigit? c).getD 0) 0

/-- An optional exponent part that is the whole rest: nothing, or a marker followed by at least one decimal digit. -/
def expPart (lower upper : Char) (s : Str) : Option Nat :=
  match s with
  | [] => some 0
  | c :: ds => if (c = lower ∨ c = upper) ∧ ds ≠ [] ∧ ds.all isDigitChar then some (decVal ds) else none

/-- digits, optional point, digits; at least one digit: the digits before and after the point and the rest. -/
def mantissa (isDig : Char → Bool) (s : Str) : Option (Str × Str × Str) :=
  let ip := s.takeWhile isDig
  let r := s.dropWhile isDig
  match r with
  | '.' :: r' =>
    let fp := r'.takeWhile isDig
    if ip = [] ∧ fp = [] then none else some (ip, fp, r'.dropWhile isDig)
  | _ => if ip = [] then none else some (ip, [], r)

/-- lower-case an ASCII letter -/
def lowerChar (c : Char) : Char := if 'A' ≤ c ∧ c ≤ 'Z' then Char.ofNat (c.toNat + 32) else c

variable {α : Type} [Dbl α]

/-- A decimal numeral that is the whole word. -/
def stodDec (w : Str) : Option α :=
  match mantissa isDigitChar w with
  | none => none
  | some (ip, fp, r) =>
    match expPart 'e' 'E' r with
    | none => none
    | some e => Dbl.ofDec (decVal (ip ++ fp)) ((e : Int) - fp.length)

/-- A hexadecimal numeral (after `0x`) that is the whole rest of the word. -/
def stodHex (w : Str) : Option α :=
  match mantissa (fun c => (hexDigit? c).isSome) w with
  | none => none
  | some (ip, fp, r) =>
    match expPart 'p' 'P' r with
    | none => none
    | some e => Dbl.ofHex (hexVal (ip ++ fp)) ((e : Int) - 4 * fp.length)

/-- parse.cpp:159-166: the value if `std::stod` succeeds on the word and consumes all of it, `none` if it throws
(`invalid_argument`, `out_of_range`) or stops earlier.  strtod in the "C" locale: inf, infinity, nan in any case;
hexadecimal after 0x; decimal otherwise.  (`nan(...)` needs parentheses and signs need `+`/`-`, which no word contains.) -/
def stodFull (w : Str) : Option α :=
  let lw := w.map lowerChar
  if lw = ['i','n','f'] ∨ lw = ['i','n','f','i','n','i','t','y'] then some Dbl.inf
  else if lw = ['n','a','n'] then some Dbl.nan
  else
    match w with
    | '0' :: c :: r => if c = 'x' ∨ c = 'X' then stodHex r else stodDec w
    | _ => stodDec w

/-! ### Lexer -/

/-- parse.h:112-122 `Token`: the node and the column (the line is always 0, the text is a slice of the input). -/
structure Token (α : Type) where
  node : Raw α
  pos : Nat
  deriving DecidableEq, Repr

/-- parse.cpp:151-183 `tryComfirmToken`: `word` is the text between `nameIter` and `iter`, `start` the column of `nameIter`. -/
def tryConfirmToken (word : Str) (start : Nat) (ret : List (Token α)) : Res (List (Token α)) :=
  if word = [] then .ok ret
  else
    match (stodFull word : Option α) with
    | some d => .ok (ret ++ [⟨mkNum d, start⟩])
    | none =>
      let op := str2Function word
      if op ≠ .null then do
        let n ← mkOp op
        .ok (ret ++ [⟨n, start⟩])
      else if varNameIsLegal word = false then .throw (.singleParse start)
      else do
        let n ← mkVar word
        .ok (ret ++ [⟨n, start⟩])

/-- parse.cpp:188-189: is a `+`/`-` here a sign? -/
def unaryPosition (ret : List (Token α)) : Bool :=
  match ret.getLast? with
  | none => true
  | some t => t.node.isOperator && t.node.op != .rparen

/-- parse.cpp:185-205, the scanning loop: `pos` is the column of `iter`, `word` the text from `nameIter` (column `start`)
to `iter`. -/
def lexLoop : Str → Nat → Str → Nat → List (Token α) → Res (List (Token α))
  | [], _, word, start, ret => tryConfirmToken word start ret
  | c :: cs, pos, word, start, ret =>
    if isBasicOperator c then do
      let ret ← tryConfirmToken word start ret
      let n ← mkOp (baseOperatorCharToEnum c (unaryPosition ret))
      lexLoop cs (pos + 1) [] (pos + 1) (ret ++ [⟨n, pos⟩])
    else if isSpaceChar c then do
      let ret ← tryConfirmToken word start ret
      lexLoop cs (pos + 1) [] (pos + 1) ret
    else lexLoop cs (pos + 1) (word ++ [c]) start ret

/-- parse.cpp:142-206 `ParseToTokens` -/
def parseToTokens (content : Str) : Res (List (Token α)) :=
  if content = [] then .throw (.singleParse 0) else lexLoop content 0 [] 0 []

/-! ### Shunting yard -/

/-- parse.cpp:248-250: pop to the output until a left parenthesis has been popped; popping an empty `std::stack` is
undefined behaviour. -/
def popToParen : List (Token α) → List (Token α) → Res (List (Token α) × List (Token α))
  | [], _ => .ub
  | t :: stk, out => if t.node.op = .lparen then .ok (stk, out) else popToParen stk (out ++ [t])

/-- parse.cpp:251-253 -/
def popFunction (stk out : List (Token α)) : List (Token α) × List (Token α) :=
  match stk with
  | t :: stk' => if isFunction t.node.op then (stk', out ++ [t]) else (stk, out)
  | [] => (stk, out)

/-- parse.cpp:254-257 -/
def popSigns : List (Token α) → List (Token α) → List (Token α) × List (Token α)
  | t :: stk, out => if t.node.op = .positive ∨ t.node.op = .negative then popSigns stk (out ++ [t]) else (t :: stk, out)
  | [], out => ([], out)

/-- parse.cpp:262-280: squeeze out operators of higher (left-associative: or equal) rank. -/
def popRank (f : MathOp) : List (Token α) → List (Token α) → List (Token α) × List (Token α)
  | t :: stk, out =>
    if (if isLeft2Right f then rank f ≤ rank t.node.op else rank f < rank t.node.op) then popRank f stk (out ++ [t])
    else (t :: stk, out)
  | [], out => ([], out)

/-- parse.cpp:287-299: flush the stack; a left parenthesis found there is unmatched. -/
def flushStack : List (Token α) → List (Token α) → Res (List (Token α))
  | [], out => .ok out
  | t :: stk, out => if t.node.op = .lparen then .throw (.singleParse t.pos) else flushStack stk (out ++ [t])

/-- parse.cpp:219-285, the loop of `InOrderToPostOrder`: remaining tokens, `parenthesisBalance` (never decremented),
`tokenStack` (top first), `postOrder`.  A token without a node would be dereferenced. -/
def shunt : List (Token α) → Nat → List (Token α) → List (Token α) → Res (List (Token α))
  | [], _, stk, out => flushStack stk out
  | f :: rest, bal, stk, out =>
    match f.node with
    | .nil => .ub
    | .mk .number .. | .mk .variable .. => shunt rest bal stk (out ++ [f])
    | .mk .operator op _ _ _ _ =>
      match op with
      | .lparen => shunt rest (bal + 1) (f :: stk) out
      | .positive | .negative => shunt rest bal (f :: stk) out
      | .rparen =>
        if bal = 0 then .throw (.singleParse f.pos)
        else do
          let (stk, out) ← popToParen stk out
          let (stk, out) := popFunction stk out
          let (stk, out) := popSigns stk out
          shunt rest bal stk out
      | op =>
        let (stk, out) := popRank op stk out
        shunt rest bal (f :: stk) out

/-- parse.cpp:208-300 `InOrderToPostOrder` -/
def inOrderToPostOrder (inOrder : List (Token α)) : Res (List (Token α)) := shunt inOrder 0 [] []

/-! ### Tree builder -/

/-- the node with its right child set -/
def Raw.setRight (n r : Raw α) : Raw α :=
  match n with
  | .nil => .nil
  | .mk t o v x l _ => .mk t o v x l r

/-- the node with its left child set -/
def Raw.setLeft (n l : Raw α) : Raw α :=
  match n with
  | .nil => .nil
  | .mk t o v x _ r => .mk t o v x l r

/-- parse.cpp:314-355, the loop of `BuildExpressionTree` over the postfix sequence with its stack (top first). -/
def buildLoop : List (Token α) → List (Token α) → Res (List (Token α))
  | [], stk => .ok stk
  | t :: rest, stk =>
    match t.node with
    | .nil => .ub
    | .mk .number .. | .mk .variable .. => buildLoop rest (t :: stk)
    | .mk .operator op _ _ _ _ =>
      if operatorNum op = 2 then
        match stk with
        | [] => .throw (.math .wrongExpression)
        | [_] => .throw (.math .wrongExpression)
        | r :: l :: stk => buildLoop rest (⟨(t.node.setRight r.node).setLeft l.node, t.pos⟩ :: stk)
      else if operatorNum op = 1 then
        match stk with
        | [] => .throw (.math .wrongExpression)
        | l :: stk => buildLoop rest (⟨t.node.setLeft l.node, t.pos⟩ :: stk)
      else .assertFail

/-- parse.cpp:303-372 `BuildExpressionTree`; taking the top of an empty stack is undefined behaviour. -/
def buildExpressionTree (postOrder : List (Token α)) : Res (Raw α) := do
  let stk ← buildLoop postOrder []
  match stk with
  | [] => .ub
  | [t] => .ok t.node
  | _ :: rest => .throw (.multiParse (rest.map Token.pos))

/-- parse.cpp:376-381 `Parse` -/
def parse (expression : Str) : Res (Raw α) := do
  let tokens ← parseToTokens expression
  let postOrder ← inOrderToPostOrder tokens
  buildExpressionTree postOrder

end Tom
