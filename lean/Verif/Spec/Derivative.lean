import Verif.Spec.Tree
/-
The derivative of an expression by the rules of calculus, as an expression.  (That these rules are right is C26, that `Diff` computes
them and simplifies the result is in Lemmas/Diff.lean.)
-/
namespace Tom
variable {α : Type} [Dbl α]

/-- The derivative of an expression with respect to `x`, written out rule by rule and not simplified; literals are recognised as
constants. -/
def dE (x : Str) : Expr α → Expr α
  | .num _ => .num (Dbl.ofInt 0)
  | .var y => .num (if y = x then Dbl.ofInt 1 else Dbl.ofInt 0)
  | .un .pos e => .un .pos (dE x e)
  | .un .neg e => .un .neg (dE x e)
  | .un .sin e => if e.isNum then .num (Dbl.ofInt 0) else .bin .mul (.un .cos e) (dE x e)
  | .un .cos e => if e.isNum then .num (Dbl.ofInt 0) else .bin .mul (.un .neg (.un .sin e)) (dE x e)
  | .un .tan e => if e.isNum then .num (Dbl.ofInt 0) else
      .bin .mul (.bin .div (.num (Dbl.ofInt 1)) (.bin .pow (.un .cos e) (.num (Dbl.ofInt 2)))) (dE x e)
  | .un .asin e => if e.isNum then .num (Dbl.ofInt 0) else
      .bin .mul (.bin .div (.num (Dbl.ofInt 1))
        (.un .sqrt (.bin .sub (.num (Dbl.ofInt 1)) (.bin .pow e (.num (Dbl.ofInt 2)))))) (dE x e)
  | .un .acos e => if e.isNum then .num (Dbl.ofInt 0) else
      .bin .mul (.bin .div (.num (Dbl.ofInt (-1)))
        (.un .sqrt (.bin .sub (.num (Dbl.ofInt 1)) (.bin .pow e (.num (Dbl.ofInt 2)))))) (dE x e)
  | .un .atan e => if e.isNum then .num (Dbl.ofInt 0) else
      .bin .mul (.bin .div (.num (Dbl.ofInt 1))
        (.bin .add (.num (Dbl.ofInt 1)) (.bin .pow e (.num (Dbl.ofInt 2))))) (dE x e)
  | .un .sqrt e => if e.isNum then .num (Dbl.ofInt 0) else
      .bin .mul (.bin .div (.num (Dbl.ofInt 1)) (.bin .mul (.num (Dbl.ofInt 2)) (.un .sqrt e))) (dE x e)
  | .un .log e => if e.isNum then .num (Dbl.ofInt 0) else
      .bin .mul (.bin .div (.num (Dbl.ofInt 1)) e) (dE x e)
  | .un .log2 e => if e.isNum then .num (Dbl.ofInt 0) else
      .bin .mul (.bin .div (.num (Dbl.ofInt 1)) (.bin .mul e (.num (Dbl.log (Dbl.ofInt 2))))) (dE x e)
  | .un .log10 e => if e.isNum then .num (Dbl.ofInt 0) else
      .bin .mul (.bin .div (.num (Dbl.ofInt 1)) (.bin .mul e (.num (Dbl.log (Dbl.ofInt 10))))) (dE x e)
  | .un .exp e => if e.isNum then .num (Dbl.ofInt 0) else if e.isVar then .un .exp e else
      .bin .mul (.un .exp e) (dE x e)
  | .bin .add a b => if a.isNum ∧ b.isNum then .num (Dbl.ofInt 0) else .bin .add (dE x a) (dE x b)
  | .bin .sub a b => if a.isNum ∧ b.isNum then .num (Dbl.ofInt 0) else .bin .sub (dE x a) (dE x b)
  | .bin .mul a b =>
    if a.isNum then .bin .mul a (dE x b)
    else if b.isNum then .bin .mul (dE x a) b
    else .bin .add (.bin .mul (dE x a) b) (.bin .mul a (dE x b))
  | .bin .div a b =>
    if b.isNum then .bin .div (dE x a) b
    else .bin .div (.bin .sub (.bin .mul (dE x a) b) (.bin .mul a (dE x b))) (.bin .pow b (.num (Dbl.ofInt 2)))
  | .bin .pow a b =>
    match a, b with
    | .num _, .num _ => .num (Dbl.ofInt 0)
    | a, .num c => .bin .mul (.bin .mul (.num c) (.bin .pow a (.num (Arith.sub c (Dbl.ofInt 1))))) (dE x a)
    | .num c, b => .bin .mul (.bin .mul (.bin .pow (.num c) b) (.un .log (.num c))) (dE x b)
    | a, b => .bin .mul (.bin .pow a b)
        (.bin .add (.bin .mul (dE x b) (.un .log a))
          (.bin .mul b (.bin .mul (.bin .div (.num (Dbl.ofInt 1)) a) (dE x a))))
  | .bin .and _ _ | .bin .or _ _ | .bin .mod _ _ => .num (Dbl.ofInt 0)

end Tom
