import Verif.Model.Tree
/-
Models the recursive variants kept in src/tomsolver/node.cpp next to the iterative ones.
-/
namespace Tom
variable {α : Type} [Dbl α]

/-- node.cpp:527-541 `CloneRecursively`: copies the fields, and clones the non-null children with `Clone`. -/
def cloneRecursively (src : Raw α) : Res (Raw α) :=
  match src with
  | .nil => .ub
  | .mk ty op v x l r => do
    let l ← if l.isSome then clone l else .ok .nil
    let r ← if r.isSome then clone r else .ok .nil
    .ok (.mk ty op v x l r)

/-- node.cpp:408-410: the value of an operand, 0 if there is none. -/
def vpaOperand (cfg : Config α) (t : Raw α) : Res α := if t.isSome then vpa cfg t else .ok (Dbl.ofInt 0)

/-- node.cpp:406-425 `VpaRecursively`.  The order in which the arguments of `tomsolver::Calc(op, vpa(left), vpa(right))` are evaluated is
up to the compiler: `rightFirst`. -/
def vpaRecursively (rightFirst : Bool) (cfg : Config α) : Raw α → Res α
  | .nil => .ub
  | .mk .number _ v _ _ _ => .ok v
  | .mk .variable _ _ _ _ _ => .throw .runtime
  | .mk .operator op _ _ l r =>
    if (operatorNum op = 1 ∧ l.isSome = true ∧ r.isSome = false) ∨ (operatorNum op = 2 ∧ l.isSome = true ∧ r.isSome = true) then
      if rightFirst then do
        let y ← vpaOperand cfg r
        let x ← vpaOperand cfg l
        calcOp cfg op x y
      else do
        let x ← vpaOperand cfg l
        let y ← vpaOperand cfg r
        calcOp cfg op x y
    else .assertFail

/-- node.cpp:237-309 `ToStringRecursively`: the text appended to the output.  `ctx` is what is read through `parent`. -/
def toStringRecursively (ctx : Ctx) : Raw α → Str
  | .nil => []
  | .mk .number o v x l r => printNode (.mk .number o v x l r) ctx
  | .mk .variable _ _ x _ _ => x
  | .mk .operator op _ _ l r =>
    if operatorNum op = 1 then
      (if op = .positive ∨ op = .negative then ['('] ++ op.toStr else op.toStr ++ ['(']) ++
        toStringRecursively ⟨some op, false⟩ l ++ toStringRecursively ⟨some op, true⟩ r ++ [')']
    else
      let s := toStringRecursively ⟨some op, false⟩ l ++ op.toStr ++ toStringRecursively ⟨some op, true⟩ r
      if needParen ctx op then ['('] ++ s ++ [')'] else s

end Tom
