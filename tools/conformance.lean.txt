/-
The deterministic assertions of the library's own unit tests (/repo/tests/*.cpp), run on the model with IEEE doubles and the libm of this
machine.  A test of the model (does it say what the authors of the library expect of the code?), no part of any proof.
Run: cp tools/conformance.lean.txt /tmp/c.lean && cd lean && lake env lean /tmp/c.lean
-/
import Verif.Model.Double
import Verif.Model.Nonlinear
import Verif.Model.Messages
import Verif.Model.Angles
open Tom

def toFloat : F64 → Float
  | .nan => 0.0 / 0.0
  | .inf s => if s then -1.0 / 0.0 else 1.0 / 0.0
  | .zero s => if s then -0.0 else 0.0
  | .num q =>
    let e := ilog2 q.num.natAbs q.den
    let m := ((if q < 0 then -q else q) * pow2 (52 - e)).num.natAbs
    let x := (Float.ofNat m).scaleB (e - 52)
    if q < 0 then -x else x

def ofFloat (f : Float) : B64 :=
  let b := f.toBits.toNat
  let s := b >>> 63 == 1
  let e : Nat := (b >>> 52) % 2048
  let m : Nat := b % (2^52 : Nat)
  if e == 2047 then (if m == 0 then ⟨.inf s, trivial⟩ else ⟨.nan, trivial⟩)
  else if e == 0 then ⟨F64.round s ((if s then -1 else 1) * (m : Rat) * pow2 (-1074)), F64.ok_round _ _⟩
  else ⟨F64.round s ((if s then -1 else 1) * ((m + 2^52 : Nat) : Rat) * pow2 ((e : Int) - 1075)), F64.ok_round _ _⟩

def lift (f : Float → Float) (x : B64) : B64 := ofFloat (f (toFloat x.1))

/-- the libm of this machine, with the order of summation of libstdc++ -/
def hw : Libm where
  sin := lift Float.sin
  cos := lift Float.cos
  tan := lift Float.tan
  asin := lift Float.asin
  acos := lift Float.acos
  atan := lift Float.atan
  sqrt := lift Float.sqrt
  log := lift Float.log
  log2 := lift Float.log2
  log10 := lift Float.log10
  exp := lift Float.exp
  pow x y := ofFloat (Float.pow (toFloat x.1) (toFloat y.1))
  sumOrder := libstdcxxOrder

abbrev D := Double hw
abbrev N := Raw D
def fl (f : Float) : D := ofFloat f
def cfg : Config D := ⟨true, lit 1 (-9), 100, .newtonRaphson, Dbl.ofInt 1, false⟩
def Num (f : Float) : N := mkNum (fl f)
def Var (s : String) : N := varNode s.toList
def a2 (o : MathOp) (l r : N) : N := binaryNode o l r
instance : Add N := ⟨a2 .add⟩
instance : Sub N := ⟨a2 .sub⟩
instance : Mul N := ⟨a2 .mul⟩
instance : Div N := ⟨a2 .div⟩
instance : HXor N N N := ⟨a2 .pow⟩
instance : Neg N := ⟨unaryNode .negative⟩
def pos (n : N) : N := unaryNode .positive n
def sin (n : N) : N := unaryNode .sin n
def cos (n : N) : N := unaryNode .cos n
def tan (n : N) : N := unaryNode .tan n
def asin (n : N) : N := unaryNode .arcsin n
def acos (n : N) : N := unaryNode .arccos n
def atan (n : N) : N := unaryNode .arctan n
def sqrt (n : N) : N := unaryNode .sqrt n
def exp (n : N) : N := unaryNode .exp n
def log (n : N) : N := unaryNode .log n
def log2 (n : N) : N := unaryNode .log2 n
def log10 (n : N) : N := unaryNode .log10 n

def okStr (r : Res Str) (s : String) : Bool := match r with | .ok t => t == s.toList | _ => false
def str (n : N) (s : String) : Bool := okStr (toStringNode n) s
def strR (n : Res N) (s : String) : Bool := okStr (n.bind toStringNode) s
def eqv (n : Res N) (m : N) : Bool := match n with | .ok n => (match Tom.equal false n m with | .ok b => b | _ => false) | _ => false
/-- ASSERT_DOUBLE_EQ: within 4 units in the last place -/
def ulp (x y : Float) : Bool :=
  let f (x : Float) : Int := let b := x.toBits.toNat; if b ≥ 2^63 then -((b - 2^63 : Nat) : Int) else b
  (f x - f y).natAbs ≤ 4
def vpaIs (n : Res N) (x : Float) (c : Config D := cfg) : Bool :=
  match n.bind (Tom.vpa c) with | .ok v => ulp (toFloat v.1) x | _ => false
def throwsMath (r : Res D) : Bool := match r with | .throw (.math _) => true | _ => false
def isOk {β} (r : Res β) : Bool := match r with | .ok _ => true | _ => false
def isThrow {β} (r : Res β) : Bool := match r with | .throw _ => true | _ => false
def throwsMathR {β} (r : Res β) : Bool := match r with | .throw (.math _) => true | _ => false
def throwsParse {β} (r : Res β) : Bool := match r with | .throw (.singleParse _) => true | .throw (.multiParse _) => true | _ => false
def d (n : N) (x : String) : Res N := Tom.diffConst cfg n x.toList 1
def s (n : N) : Res N := Tom.simplify cfg n

def report (name : String) (l : List Bool) : IO Nat := do
  let bad := (l.zipIdx.filter (fun p => !p.1)).map Prod.snd
  IO.println s!"{name}: {l.length - bad.length} of {l.length} {if bad.isEmpty then "" else s!"FAILED {bad}"}"
  return bad.length

def ts (x : Float) (t : String) : Bool := Dbl.toStr (fl x) == t.toList
#eval report "to_string_test" [
  ts 0.0 "0", ts 1.0 "1", ts 0.1 "0.1", ts 0.12 "0.12", ts 0.123456789123450 "0.12345678912345", ts 1234567890.0 "1234567890",
  ts 123456789012345 "123456789012345", ts (-123456789012345) "-123456789012345", ts 1234567890123456 "1234567890123456",
  ts (-1234567890123456) "-1234567890123456", ts 1e0 "1", ts 1e1 "10", ts 1e15 "1000000000000000", ts 1e16 "1e+16",
  ts 1e-16 "9.9999999999999998e-17", ts (Float.ofBits 0x0010000000000000) "2.2250738585072014e-308",
  ts (Float.ofBits 0x7fefffffffffffff) "1.7976931348623157e+308", ts (Float.ofBits 1) "4.9406564584124654e-324",
  ts (Float.ofBits 0xffefffffffffffff) "-1.7976931348623157e+308"]

#eval report "simplify_test" [
  strR (s (sin (Num 0))) "0", strR (s (Num 1 + Num 2 * Num 3)) "7", eqv (s (Num 1 + Num 2 * Num 3)) (Num 7),
  strR (s (Var "x" + Num 0)) "x", strR (s (Num 0 + Var "x")) "x", strR (s (Var "x" * Num 1 * Var "y" * Var "z")) "x*y*z",
  strR (s (cos (Var "x") * Num 1)) "cos(x)", strR (s (Num 1 * Var "x" * Num 0 + Num 0 * Var "y")) "0"]

def sub1 (n : Res N) (x : String) (m : N) : Res N := n.bind fun n => Tom.subs1 n x.toList m
def rad (x : Float) : Float := toFloat (radians (fl x)).1
#eval report "subs_test" [
  strR (sub1 (.ok (Var "x")) "x" (Var "y")) "y", strR (sub1 (.ok (Var "x")) "x" (Num 100)) "100", vpaIs (sub1 (.ok (Var "x")) "x" (Num 99)) 99,
  strR (sub1 (.ok (Var "x" * Var "y" + sin (Var "x"))) "x" (Var "x" + Num 1)) "(x+1)*y+sin(x+1)",
  vpaIs (sub1 (sub1 (sub1 (.ok (Var "r" * sin (Var "x" + Var "y"))) "x" (Num (rad 360))) "y" (Num (rad 30))) "r" (Num 100)) 50,
  strR (Tom.subsVec (Var "x" * Var "y" + sin (Var "x")) ["x".toList, "y".toList] [Var "y", Var "x"]) "y*x+sin(y)",
  strR ((Tom.subsVec (Var "x" * Var "y" + sin (Var "x")) ["x".toList, "y".toList] [Var "y", Var "x"]).bind
    fun n => Tom.subsVec n ["x".toList] [cos (Var "y")]) "y*cos(y)+sin(y)"]

def symEq (a b : Res (SymMat D)) : Bool := match a.bind fun a => b.bind fun b => SymMat.eq false a b with | .ok b => b | _ => false
#eval report "symmat_test" [
  symEq ((SymMat.ofInit [[Var "a", Var "b"], [Var "c", Var "d"]]).bind fun X => X.mul X)
    (SymMat.ofInit [[Var "a" * Var "a" + Var "b" * Var "c", Var "a" * Var "b" + Var "b" * Var "d"],
      [Var "c" * Var "a" + Var "d" * Var "c", Var "c" * Var "b" + Var "d" * Var "d"]])]

def mat (l : List (List Float)) : Mat D := ⟨l.length, (l.headD []).length, l.flatten.map fl⟩
def vec (l : List Float) : Mat D := ⟨l.length, 1, l.map fl⟩
def matIs (r : Res (Mat D)) (m : Mat D) : Bool := match r.bind fun a => Mat.eqMat cfg.epsilon a m with | .ok b => b | _ => false
#eval report "linear_test" [
  matIs (solveLinear cfg (mat [[2, 1, -5, 1], [1, -5, 0, 7], [0, 2, 1, -1], [1, 6, -1, -4]]) (vec [13, -9, 6, 0]))
    (vec [-66.5555555555555429, 25.6666666666666643, -18.777777777777775, 26.55555555555555])]

#eval report "mat_test" [
  matIs ((mat [[1, 2], [3, 4]]).mul (mat [[6, 7], [8, 9]])) (mat [[22, 25], [50, 57]]),
  matIs (Mat.inverse cfg.epsilon (mat [[1, 2], [3, 4]])) (mat [[-2, 1], [1.5, -0.5]]),
  matIs (Mat.inverse cfg.epsilon (mat [[1, 2, 3], [4, 5, 6], [-2, 7, 8]])) (mat [[-0.083333333333333, 0.208333333333333, -0.125000000000000],
    [-1.833333333333333, 0.583333333333333, 0.250000000000000], [1.583333333333333, -0.458333333333333, -0.125000000000000]]),
  throwsMathR (Mat.inverse cfg.epsilon (mat [[1, 2, 3], [4, 5, 6], [7, 8, 9]])),
  (match Mat.positiveDetermine (mat [[1, 1, 1, 1], [1, 2, 3, 4], [1, 3, 6, 10], [1, 4, 10, 20]]) with | .ok b => b | _ => false),
  (match Mat.positiveDetermine (mat [[1, 2, 3], [4, 5, 6], [7, 8, 9]]) with | .ok b => !b | _ => false)]

#eval report "power_test" [
  str (Num 2 ^^^ Num 3) "2^3", vpaIs (.ok (Num 2 ^^^ Num 3)) 8, str ((Num 2 ^^^ Num 3) ^^^ Num 2) "(2^3)^2", vpaIs (.ok ((Num 2 ^^^ Num 3) ^^^ Num 2)) 64,
  str (Num 2 ^^^ (Num 3 ^^^ Num 2)) "2^(3^2)", vpaIs (.ok (Num 2 ^^^ (Num 3 ^^^ Num 2))) 512, vpaIs (.ok (Num 1.1 ^^^ Num 0.25)) (Float.pow 1.1 0.25)]

def toks (t : String) : Res (List (Token D)) := parseToTokens t.toList
def post (t : String) : Res (List (Token D)) := (toks t).bind inOrderToPostOrder
def tree (t : String) : Res N := (post t).bind buildExpressionTree
def op (o : MathOp) : N := .mk .operator o (Dbl.ofInt 0) [] .nil .nil
def tokIs (r : Res (List (Token D))) (l : List N) : Bool :=
  match r with | .ok ts => (ts.zip l).all (fun p => eqv (.ok p.1.node) p.2) && l.length ≤ ts.length | _ => false
def errPos (t : String) : Option Nat :=
  match (dParseToTokens t.toList : DRes (List (DTok D))) with | .parseError (.single e) => some e.pos | _ => none
#eval report "parse_test" ([
  tokIs (toks "1+2") [Num 1, op .add, Num 2], tokIs (toks ".12345") [Num 0.12345], tokIs (toks "7891.123") [Num 7891.123], tokIs (toks "1e0") [Num 1],
  errPos "1#+2" == some 0, errPos "a*cos(x1) + b*cos(x1-x2) + c*cos(?x1-x2-x3)" == some 33,
  throwsParse (toks "1#+2"),
  tokIs (toks "1/+2") [Num 1, op .div, op .positive, Num 2], tokIs (toks "1/-2") [Num 1, op .div, op .negative, Num 2],
  tokIs (toks "-1--2") [op .negative, Num 1, op .sub, op .negative, Num 2],
  tokIs (post "1*(2-3)") [Num 1, Num 2, Num 3, op .sub, op .mul], tokIs (post "1*2-3") [Num 1, Num 2, op .mul, Num 3, op .sub],
  tokIs (post "1-2-3") [Num 1, Num 2, op .sub, Num 3, op .sub], tokIs (post "2^3^4") [Num 2, Num 3, Num 4, op .pow, op .pow],
  throwsParse (post "1*2-3)"), throwsParse (post "(1*2-3"),
  strR (tree "1*(2-3)") "1*(2-3)", strR (tree "1*2-3") "1*2-3", strR (tree "x^2-y^2-7") "x^2-y^2-7",
  eqv (tree "a*cos(x1) + b*cos(x1-x2) + c*cos(x1-x2-x3)") (Var "a" * cos (Var "x1") + Var "b" * cos (Var "x1" - Var "x2") +
    Var "c" * cos (Var "x1" - Var "x2" - Var "x3")),
  throwsParse (tree "x(1)*cos(2)"), throwsParse (tree "x(1)*cos(x(2)) + x(2)*sin(x(1)) - 0.5")]
  ++ (List.range 100).map fun i =>
    let x := Float.ofNat ((i * 7919 * 104729 + 12345) * 6364136223846793005 % 2^53) / 9007199254740992.0
    let t := Dbl.toStr (fl x)
    match (parseToTokens t : Res (List (Token D))) with | .ok (k :: _) => okStr (toStringNode k.node) (String.ofList t) | _ => false)

#eval report "node_test" [
  str (Num 10) "10", str (Num 1 + Num 2) "1+2", str (Num 10 + (Num 1 + Num 2)) "10+1+2", str (Num 10 + Num 3) "10+3", str (Num 3 + Num 10) "3+10",
  isThrow (mkVar "0a".toList : Res N), isOk (mkVar "a".toList : Res N), isOk (mkVar "a0".toList : Res N), isOk (mkVar "_".toList : Res N),
  isOk (mkVar "_a".toList : Res N), isOk (mkVar "_1".toList : Res N), str (Var "a" - Num 1) "a-1",
  isThrow (mkOp .null : Res N), isOk (mkOp .add : Res N), str (Var "a" + Var "b" * Var "c") "a+b*c", strR (Tom.clone (Var "a" + Var "b" * Var "c")) "a+b*c",
  str (Num 10 + Num 1) "10+1", str (Num 10 + Num 1 + Num 20) "10+1+20", str (Num 10 - Num (-10)) "10-(-10)", str (Num 10 - Num 1 - Num 20) "10-1-20",
  str (-Num 10) "-10", str (-Var "x") "-x", str (pos (Var "y")) "+y", str (-(Var "x" + Num 2)) "-(x+2)", str (Var "y" + -(Var "x" + Num 2)) "y+-(x+2)",
  str (Var "y" + pos (Var "x" + Num 2)) "y++(x+2)",
  vpaIs (.ok (atan (cos (-(pos (-Num 87.9117553746407054 / Num 90.5933224572584663)))))) 0.51426347804323491,
  str (Num 10 * Num 1 * Num 20) "10*1*20", str (Num 10 / Num 1 / Num 20) "10/1/20", str ((Var "a" + Var "b") * Var "c") "(a+b)*c",
  vpaIs (.ok (Num 1 + Num 2 * Num 3)) 7, vpaIs (.ok ((Num 1 + Num 2) * Num 3)) 9, str (Var "a" + Var "b" / Var "c") "a+b/c",
  vpaIs (.ok (Num 1 + Num 2 / Num 4)) 1.5, vpaIs (.ok ((Num 1 + Num 2) / Num 4)) 0.75, throwsMath (Tom.vpa cfg (Num 1 / Num 0)),
  eqv (.ok (Var "a" + Var "b" * Var "c")) (Var "a" + Var "b" * Var "c")]

#eval report "diff_test" [
  eqv (d (Var "a") "a") (Num 1), eqv (d (Var "a") "b") (Num 0), eqv (d (Num 1) "a") (Num 0), eqv (d (Var "a" + Var "b") "a") (Num 1),
  eqv (d (-Var "a") "a") (Num (-1)), eqv (d (-Var "a") "b") (Num 0), eqv (d (-Num 1) "a") (Num 0), eqv (d (-Var "a" + -Var "b") "a") (Num (-1)),
  eqv (d (-Var "a" + -Var "b") "b") (Num (-1)), eqv (d (-Var "a" + pos (Var "b")) "a") (Num (-1)), eqv (d (-Var "a" + pos (Var "b")) "b") (Num 1),
  eqv (d (sin (Var "x")) "x") (cos (Var "x")), eqv (d (cos (Var "x")) "x") (-sin (Var "x")),
  eqv (d (tan (Var "x")) "x") (Num 1 / (cos (Var "x") ^^^ Num 2)), eqv (d (asin (Var "x")) "x") (Num 1 / sqrt (Num 1 - (Var "x" ^^^ Num 2))),
  eqv (d (acos (Var "x")) "x") (Num (-1) / sqrt (Num 1 - (Var "x" ^^^ Num 2))), eqv (d (atan (Var "x")) "x") (Num 1 / (Num 1 + (Var "x" ^^^ Num 2))),
  eqv (d (sqrt (Var "x")) "x") (Num 1 / (Num 2 * sqrt (Var "x"))), eqv (d (exp (Var "x")) "x") (exp (Var "x")),
  eqv (d (exp (sin (Var "x"))) "x") (exp (sin (Var "x")) * cos (Var "x")), eqv (d (Num 5 * Var "a") "a") (Num 5), eqv (d (Var "b" * Num 5) "b") (Num 5),
  eqv (d (Var "a" * Var "b") "a") (Var "b"), eqv (d (Var "b" / Num 5) "b") (Num (1.0 / 5.0)), eqv (d (Num 5 / Var "a") "a") (Num (-5) / (Var "a" ^^^ Num 2)),
  strR (d ((Var "x" ^^^ Num 2) / sin (Var "x")) "x") "(2*x*sin(x)-x^2*cos(x))/sin(x)^2", eqv (d (log (Var "x")) "x") (Num 1 / Var "x"),
  eqv (d (log (sin (Var "x"))) "x") (Num 1 / sin (Var "x") * cos (Var "x")), strR (d (Var "x" * log (Var "x")) "x") "log(x)+x*1/x",
  eqv (d (log2 (Var "x")) "x") (Num 1 / (Var "x" * Num (Float.log 2))), eqv (d (log10 (Var "x")) "x") (Num 1 / (Var "x" * Num (Float.log 10))),
  eqv (d (Var "x" ^^^ Num 5) "x") (Num 5 * (Var "x" ^^^ Num 4)), eqv (d (Num 3 ^^^ Var "x") "x") ((Num 3 ^^^ Var "x") * Num (Float.log 3)),
  strR (d (Var "x" ^^^ Var "x") "x") "x^x*(log(x)+x*1/x)",
  strR (d (sin (Var "x") ^^^ cos (Var "x")) "x") "sin(x)^cos(x)*(-(sin(x))*log(sin(x))+cos(x)*1/sin(x)*cos(x))",
  strR (d (sin (Var "a" * Var "b" + Var "c") * Num 1 * Var "a") "a") "cos(a*b+c)*b*a+sin(a*b+c)",
  strR (d (sin (cos (Var "x") + sin (Var "x"))) "x") "cos(cos(x)+sin(x))*(-(sin(x))+cos(x))"]

def infF : Float := 1.0 / 0.0
def nanF : Float := 0.0 / 0.0
def bad : List N := [Num infF + Num 1, Num (-infF) + Num 1, Num nanF + Num 1, Num 1 / Num 0, Num (Float.ofBits 0x7fefffffffffffff) ^^^ Num 2,
  asin (Num 1.1), asin (Num (-1.1)), acos (Num 1.1), acos (Num (-1.1)), sqrt (Num (-0.1)), log (Num 0), log2 (Num 0), log10 (Num 0)]
#eval report "functions_test" (bad.map (fun n => throwsMath (Tom.vpa cfg n)) ++
  bad.map (fun n => isOk (Tom.vpa { cfg with throwOnInvalidValue := false } n)) ++
  [str (Var "r" * sin (Var "omega" / Num 2 + Var "phi") + Var "c") "r*sin(omega/2+phi)+c"])

def tbl (l : List (String × Float)) : Res (VarsTable D) := VarsTable.ofList (l.map fun p => (p.1.toList, fl p.2))
def tblIs (c : Config D) (r t : Res (VarsTable D)) : Bool :=
  match r.bind fun a => t.bind fun b => VarsTable.eq c.epsilon a b with | .ok b => b | _ => false
def p (t : String) : Res N := parse t.toList
def sys (l : List String) : Res (SymMat D) := (mapRes p l).bind SymMat.ofList
def robot : Res (SymMat D) := do
  let f ← sys ["a*cos(x1) + b*cos(x1-x2) + c*cos(x1-x2-x3)", "a*sin(x1) + b*sin(x1-x2) + c*sin(x1-x2-x3)", "x1-x2-x3"]
  let b ← SymMat.ofList [Num 0.5, Num 0.4, Num 0]
  let e ← f.sub b
  let t ← tbl [("a", 0.425), ("b", 0.39243), ("c", 0.109)]
  e.subs t.table
def expected := tbl [("x1", 1.5722855035930956), ("x2", 1.6360330989069252), ("x3", -0.0637475947386077)]
def lm : Config D := { cfg with nonlinearMethod := .lm }
def ones3 := tbl [("x1", 1), ("x2", 1), ("x3", 1)]
def matlab : Config D := { cfg with initialValue := fl 0.0, epsilon := lit 1 (-6) }
def case2 : Res (SymMat D) := do
  let X ← SymMat.ofInit [[Var "a", Var "b"], [Var "c", Var "d"]]
  let X2 ← X.mul X
  let X3 ← X2.mul X
  let B ← SymMat.ofMat (mat [[1, 2], [3, 4]])
  let F ← X3.sub B
  F.toSymVecOneByOne
def case3 : Res (SymMat D) := do
  let f ← sys ["a/(b^2)-c/(d^2)", "129.56108*b-(a/(b^2)+1/a-2*b/(a^2))", "129.56108*d-(d/(c^2)-c/(d^2)-1/a)",
    "5*exp(1)-7-(2/3*pi*a^2*b+((sqrt(3)*c^2)/(3*sqrt(c^2/3+d^2))+a-c)^2*pi*d^2/(c^2/3+d^2))"]
  let t ← tbl [("pi", 3.14159265358979323846)]
  f.subs t.table
def under := sys ["cos(x1) + cos(x1-x2) + cos(x1-x2-x3) - 1", "sin(x1) + sin(x1-x2) + sin(x1-x2-x3) + 2"]
def shown (r : Res (VarsTable D)) : String := match r with
  | .ok t => String.ofList t.toString | .throw _ => "throw" | .ub => "ub" | .terminate => "terminate" | .assertFail => "assert" | .diverge => "diverge"
#eval report "solve_test, solve_base_test" [
  tblIs cfg (robot.bind (solveAuto cfg 200 200)) expected, tblIs lm (robot.bind (solveAuto lm 200 200)) expected,
  tblIs cfg (robot.bind fun e => ones3.bind fun t => solveByNewtonRaphson cfg e t) expected,
  tblIs cfg (robot.bind fun e => ones3.bind fun t => solveByLM cfg 200 200 e t) expected,
  tblIs matlab ((sys ["exp(-exp(-(x1 + x2))) - x2 * (1 + x1 ^ 2)", "x1 * cos(x2) + x2 * sin(x1) - 0.5"]).bind (solveAuto matlab 200 200))
    (tbl [("x1", 0.353246561920553), ("x2", 0.606082026502285)]),
  tblIs lm (case2.bind (solveAuto lm 200 200))
    (tbl [("a", -0.129148906397607), ("b", 0.8602157139938529), ("c", 1.2903235709907794), ("d", 1.1611746645931726)]),
  isOk (case3.bind (solveAuto lm 200 200)),
  isOk ((sys ["x^2+y^2-25", "x^2-y^2-7"]).bind fun e => (tbl [("x", 4.1), ("y", 3.1)]).bind (solve cfg 200 200 e)),
  throwsMathR (under.bind (solveAuto cfg 200 200)),
  isOk (under.bind (solveAuto { cfg with allowIndeterminateEquation := true } 200 200))]
#eval IO.println (shown (case3.bind (solveAuto lm 200 200)))
#eval IO.println (shown (under.bind (solveAuto { cfg with allowIndeterminateEquation := true } 200 200)))
