import Verif.Spec.Lexing
/-
Specification for ToString: the text of an expression, and in what sense reading it back gives the same expression.
-/
namespace Tom
variable {α : Type}

/-- The texts of signs and functions. -/
def UnOp.text : UnOp → Str
  | .pos => ['+']
  | .neg => ['-']
  | .sin => ['s','i','n']
  | .cos => ['c','o','s']
  | .tan => ['t','a','n']
  | .asin => ['a','s','i','n']
  | .acos => ['a','c','o','s']
  | .atan => ['a','t','a','n']
  | .sqrt => ['s','q','r','t']
  | .log => ['l','o','g']
  | .log2 => ['l','o','g','2']
  | .log10 => ['l','o','g','1','0']
  | .exp => ['e','x','p']

/-- Precedence of the binary operators (larger binds tighter). -/
def BinOp.prec : BinOp → Nat
  | .add | .sub => 5
  | .mul | .div => 10
  | .pow => 11
  | .and | .or => 12
  | .mod => 13

/-- Is an operand with main operator `o` put into parentheses when it is the left (`right = false`) or right operand of `p`?
If it binds looser; if it binds equally tight and `p` is neither `+` nor `*`, when it is the right operand or a power. -/
def parenthesised (p : BinOp) (right : Bool) (o : BinOp) : Bool :=
  decide (o.prec < p.prec) ||
    (decide (o.prec = p.prec) && decide (p ≠ .add) && decide (p ≠ .mul) && (right || decide (o = .pow)))

/-- literal or variable -/
def Expr.isLeaf : Expr α → Bool
  | .num _ => true
  | .var _ => true
  | _ => false

/-- The text of an expression that is an operand of a binary operator (`some (operator, isRightOperand)`) or not (`none`). -/
def infixText [Dbl α] : Option (BinOp × Bool) → Expr α → Str
  | ctx, .num v =>
    if Arith.lt v (Dbl.ofInt 0) = true ∧ ctx = some (.sub, true) then ['('] ++ Dbl.toStr v ++ [')'] else Dbl.toStr v
  | _, .var x => x
  | _, .un o e =>
    if (o = .pos ∨ o = .neg) ∧ e.isLeaf = true then o.text ++ infixText none e
    else o.text ++ ['('] ++ infixText none e ++ [')']
  | ctx, .bin o a b =>
    let s := infixText (some (o, false)) a ++ [o.char] ++ infixText (some (o, true)) b
    match ctx with
    | none => s
    | some (p, right) => if parenthesised p right o then ['('] ++ s ++ [')'] else s

/-- The same expression up to: a negative literal `v` written as the negation of a literal `w` with `-w = v`; sums and products
regrouped to the left. -/
inductive Regroups [Dbl α] : Expr α → Expr α → Prop
  | refl (e : Expr α) : Regroups e e
  | trans {a b c : Expr α} : Regroups a b → Regroups b c → Regroups a c
  | un (o : UnOp) {a b : Expr α} : Regroups a b → Regroups (.un o a) (.un o b)
  | bin (o : BinOp) {a b c d : Expr α} : Regroups a b → Regroups c d → Regroups (.bin o a c) (.bin o b d)
  | negative {v w : α} : Arith.lt v (Dbl.ofInt 0) = true → Arith.neg w = v → Regroups (.num v) (.un .neg (.num w))
  | addAdd (a b c : Expr α) : Regroups (.bin .add a (.bin .add b c)) (.bin .add (.bin .add a b) c)
  | addSub (a b c : Expr α) : Regroups (.bin .add a (.bin .sub b c)) (.bin .sub (.bin .add a b) c)
  | mulMul (a b c : Expr α) : Regroups (.bin .mul a (.bin .mul b c)) (.bin .mul (.bin .mul a b) c)
  | mulDiv (a b c : Expr α) : Regroups (.bin .mul a (.bin .div b c)) (.bin .div (.bin .mul a b) c)

/-- The text `ToString` gives a literal is a numeral for it, or (if it is negative) a minus sign and a
numeral for its negation. -/
inductive ReadsBack [Dbl α] (v : α) : Prop
  | plain : Numeral (Dbl.toStr v) v → ReadsBack v
  | signed {u : Str} {w : α} : Arith.lt v (Dbl.ofInt 0) = true → Dbl.toStr v = '-' :: u → Numeral u w → Arith.neg w = v →
      ReadsBack v

/-- No arcsin, arccos, arctan in the expression. -/
def Expr.NoArc : Expr α → Prop
  | .num _ => True
  | .var _ => True
  | .un o e => o ≠ .asin ∧ o ≠ .acos ∧ o ≠ .atan ∧ e.NoArc
  | .bin _ a b => a.NoArc ∧ b.NoArc

/-- Names that `Parse` reads as variables. -/
def ReadableName (α : Type) [Dbl α] (x : Str) : Prop := WordMeans x (.var x : Tok α) ∧ NoCollision x

/-- No negative literal, no sum or difference as right summand, no product or quotient as right factor. -/
def Expr.LeftGrouped [Dbl α] : Expr α → Prop
  | .num v => Arith.lt v (Dbl.ofInt 0) = false
  | .var _ => True
  | .un _ e => e.LeftGrouped
  | .bin o a b => a.LeftGrouped ∧ b.LeftGrouped ∧
      (o = .add → ∀ p x y, b = .bin p x y → p ≠ .add ∧ p ≠ .sub) ∧ (o = .mul → ∀ p x y, b = .bin p x y → p ≠ .mul ∧ p ≠ .div)

/-- The literals of an expression replaced. -/
def Expr.mapNum {β : Type} (f : α → β) : Expr α → Expr β
  | .num v => .num (f v)
  | .var x => .var x
  | .un o e => .un o (e.mapNum f)
  | .bin o a b => .bin o (a.mapNum f) (b.mapNum f)

/-- the decimal point and the digits after it; nothing if there are none -/
def fracText (fp : Str) : Str := if fp = [] then [] else '.' :: fp

/-- a minus sign for negative numbers -/
def signText (v : Rat) : Str := if v < 0 then ['-'] else []

/-- exponent: letter, sign, digits -/
def expText (e : Int) (ds : Str) : Str := 'e' :: (if e < 0 then '-' else '+') :: ds

/-- The numbers a `double` can represent exactly (binary64, IEEE 754). -/
def IsDouble (v : Rat) : Prop := ∃ m k : Int, -2 ^ 53 < m ∧ m < 2 ^ 53 ∧ -1074 ≤ k ∧ k ≤ 971 ∧ v = (m : Rat) * (2 : Rat) ^ k

end Tom
