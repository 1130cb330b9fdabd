import Verif.Model.Links
/-
Programs that use the library: a sequence of statements over `Node` variables, on objects with addresses and parent pointers.
-/
namespace Tom
variable {α : Type}

/-- The statements.  `x`, `y` are `Node` variables of the program; an operand is a variable or `std::move` of one. -/
inductive Stmt (α : Type)
  /-- `x = Num(v)` -/
  | num (x : Str) (v : α)
  /-- `x = Var(name)` -/
  | var (x name : Str)
  /-- `x = Parse(text)` -/
  | parse (x text : Str)
  /-- `x = Clone(y)` -/
  | clone (x y : Str)
  /-- `x = std::move(y)` -/
  | move (x y : Str)
  /-- `x = -o`, `x = sin(o)`, ... -/
  | unary (x : Str) (op : MathOp) (o : Operand)
  /-- `x = o1 + o2`, ... -/
  | binary (x : Str) (op : MathOp) (o1 o2 : Operand)
  /-- `x += o`, ... -/
  | compound (op : MathOp) (x : Str) (o : Operand)
  /-- `x = Subs(o, {names...}, {y...})`; with one name this is `Subs(o, name, y)` -/
  | subs (x : Str) (o : Operand) (names images : List Str)
  /-- `x = Subs(o, {{name, value}...})`, for a `std::map<std::string, double>` or a `VarsTable` -/
  | subsValues (x : Str) (o : Operand) (values : List (Str × α))
  /-- `Simplify(x)` -/
  | simplify (x : Str)
  /-- `x = Diff(o, name, i)` -/
  | diff (x : Str) (o : Operand) (name : Str) (i : Int)

/-- functions.h:6-60 and node.h:250-258: the functions and the sign operators on `Node`s, by the name they are called by -/
def callUnary [Dbl α] (name : String) (env : Env α) (n : Operand) : LM (PTree α × Env α) :=
  match name with
  | "+" => unaryOperator .positive env n
  | "-" => unaryOperator .negative env n
  | "sin" => unaryOperator .sin env n
  | "cos" => unaryOperator .cos env n
  | "tan" => unaryOperator .tan env n
  | "asin" => unaryOperator .arcsin env n
  | "acos" => unaryOperator .arccos env n
  | "atan" => unaryOperator .arctan env n
  | "sqrt" => unaryOperator .sqrt env n
  | "log" => unaryOperator .log env n
  | "log2" => unaryOperator .log2 env n
  | "log10" => unaryOperator .log10 env n
  | "exp" => unaryOperator .exp env n
  | _ => LM.ub  -- no such overload: the program does not compile

/-- node.h:234-237, 245-248, 266-269, 277-280, 288-291: the binary operators on `Node`s -/
def callBinary [Dbl α] (name : String) (env : Env α) (n1 n2 : Operand) : LM (PTree α × Env α) :=
  match name with
  | "+" => binaryOperator .add env n1 n2
  | "-" => binaryOperator .sub env n1 n2
  | "*" => binaryOperator .mul env n1 n2
  | "/" => binaryOperator .div env n1 n2
  | "^" => binaryOperator .pow env n1 n2
  | _ => LM.ub  -- no such overload: the program does not compile

/-- node.h:239-243, 260-264, 271-275, 282-286, 293-297: the compound assignments on `Node`s -/
def callCompound [Dbl α] (name : String) (env : Env α) (n1 : Str) (n2 : Operand) : LM (Env α) :=
  match name with
  | "+=" => compoundAssign .add env n1 n2
  | "-=" => compoundAssign .sub env n1 n2
  | "*=" => compoundAssign .mul env n1 n2
  | "/=" => compoundAssign .div env n1 n2
  | "^=" => compoundAssign .pow env n1 n2
  | _ => LM.ub  -- no such overload: the program does not compile

/-- the variable an operand names -/
def Operand.name : Operand → Str
  | .lvalue y => y
  | .rvalue y => y

/-- the variables after an operand has been consumed: a moved-from `unique_ptr` is null -/
def Operand.after {β : Type} (o : Operand) (env : VEnv β) : VEnv β :=
  match o with
  | .lvalue _ => env
  | .rvalue y => env.set y .nil

/-- subs.cpp:63-65, 73-75, 94-96, 106-108, diff.cpp:391-394: the `const Node &` overloads clone the operand, the `Node &&`
overloads take it. -/
def Operand.take (env : Env α) : Operand → LM (PTree α)
  | .lvalue y => pClone (env y)
  | .rvalue y => pure (env y)

/-- subs.cpp:69, 80-82: the dictionary of clones -/
def pDictOfLists : List Str → List (PTree α) → List (Str × PTree α) → LM (List (Str × PTree α))
  | v :: vs, t :: ts, m => do
    let c ← pClone t
    pDictOfLists vs ts (mapInsert v c m)
  | _, _, m => pure m

/-- subs.cpp:99-102, 111-114: the dictionary of numbers -/
def pDictOfValues [Dbl α] : List (Str × α) → List (Str × PTree α) → LM (List (Str × PTree α))
  | kv :: kvs, m => do
    let c ← pNum kv.2
    pDictOfValues kvs (mapInsert kv.1 c m)
  | [], m => pure m

/-- one statement -/
def Stmt.step [Dbl α] (cfg : Config α) (env : Env α) : Stmt α → LM (Env α)
  | .num x v => do
    let t ← pNum v
    pure (env.set x t)
  | .var x name => do  -- node.cpp:667-672
    LM.lift (if varNameIsLegal name then .ok () else .throw .runtime)
    let t ← newNode .variable .null (Dbl.ofInt 0) name
    pure (env.set x t)
  | .parse x text => do
    let t ← pParse text
    pure (env.set x t)
  | .clone x y => do
    let t ← pClone (env y)
    pure (env.set x t)
  | .move x y => pure ((env.set y .nil).set x (env y))
  | .unary x op o => do
    let (t, env) ← unaryOperator op env o
    pure (env.set x t)
  | .binary x op o1 o2 => do
    let (t, env) ← binaryOperator op env o1 o2
    pure (env.set x t)
  | .compound op x o => compoundAssign op env x o
  | .subs x o names images => do
    let t ← o.take env
    LM.lift (Res.assert (names.length == images.length))
    let dict ← pDictOfLists names (images.map env) []
    let t ← pSubsInner t dict
    pure ((o.after env).set x t)
  | .subsValues x o values => do
    let t ← o.take env
    let dict ← pDictOfValues values []
    let t ← pSubsInner t dict
    pure ((o.after env).set x t)
  | .simplify x => do
    let t ← pSimplify cfg (env x)
    pure (env.set x t)
  | .diff x o name i => do
    let t ← o.take env
    let t ← pDiff cfg t name i
    pure ((o.after env).set x t)

/-- the variables after a statement that has thrown: nothing is assigned, but `Diff(std::move(y), ...)` has taken its operand
(diff.cpp:398) -/
def Stmt.thrown {β : Type} (env : VEnv β) : Stmt α → VEnv β
  | .diff _ o _ _ => o.after env
  | _ => env

/-- A program: the statements one after the other, exceptions caught around each of them.  Undefined behaviour, a failed
assertion or `std::terminate` end it. -/
def execute [Dbl α] (cfg : Config α) : List (Stmt α) → Env α → LM (Env α)
  | [], env => pure env
  | s :: ss, env => fun n =>
    match s.step cfg env n with
    | .ok p => execute cfg ss p.1 p.2
    | .throw _ => execute cfg ss (s.thrown env) n
    | .ub => .ub
    | .terminate => .terminate
    | .assertFail => .assertFail
    | .diverge => .diverge

end Tom
