import Verif.Props.Tree
/-
C12 for the codes that are no operators.
-/
namespace Tom
variable {α : Type} [Dbl α]

/-- **C12** (no operator): a node made with `MATH_NULL` or a parenthesis as its operator has no value: once its operands have values,
`Vpa` violates the assertion of `GetOperatorNum`. -/
theorem C12_noOperator (cfg : Config α) (op : MathOp) (hop : op = .null ∨ op = .lparen ∨ op = .rparen) (a b : Expr α) (v w z : α) (x : Str)
    (ha : a.eval cfg.throwOnInvalidValue noEnv = .ok v) (hb : b.eval cfg.throwOnInvalidValue noEnv = .ok w) :
    vpa cfg (.mk .operator op z x (embed a) (embed b)) = .assertFail := by
  unfold vpa
  rw [if_pos (show Raw.isSome _ = true from rfl), vpaPartI_eq _ _ _ (by simp [Raw.isSome]) (by simp [sizes])]
  simp only [List.reverse_cons, List.reverse_nil, List.nil_append, List.map_cons, List.map_nil, List.flatten_cons, List.flatten_nil,
    List.append_nil, Res.bind_ok, postorder, vpaPartII_append, vpaPartII_postorder, ha, hb]
  rcases hop with rfl | rfl | rfl <;> rfl

example (cfg : Config (XNum Rat)) : (Expr.num (.fin 2) : Expr (XNum Rat)).eval cfg.throwOnInvalidValue noEnv = .ok (.fin 2) := rfl

end Tom
