import Verif.Props.Format
import Verif.Spec.Real
/-
Properties C06 and C62: the text of an expression.
-/
set_option linter.unusedSectionVars false
namespace Tom
variable {α : Type} [Dbl α]

/-! ### C62 -/

/-- C62: on every expression tree `ToString` terminates without error and returns its infix text, with exactly the parentheses
`parenthesised` says. -/
theorem C62_toString (e : Expr α) : toStringNode (embed e) = .ok (infixText none e) := toString_embed e

/-- `a-(b-c)`, `(a^b)^c`, `a+(b-c)` (without parentheses), `a/(b*c)`, `-(a+1)`, `sin(x)` -/
example : infixText none (.bin .sub (.var ['a']) (.bin .sub (.var ['b']) (.var ['c'])) : Expr (XNum Rat)) = "a-(b-c)".toList ∧
    infixText none (.bin .pow (.bin .pow (.var ['a']) (.var ['b'])) (.var ['c']) : Expr (XNum Rat)) = "(a^b)^c".toList ∧
    infixText none (.bin .add (.var ['a']) (.bin .sub (.var ['b']) (.var ['c'])) : Expr (XNum Rat)) = "a+b-c".toList ∧
    infixText none (.bin .div (.var ['a']) (.bin .mul (.var ['b']) (.var ['c'])) : Expr (XNum Rat)) = "a/(b*c)".toList ∧
    infixText none (.un .neg (.bin .add (.var ['a']) (.num (.fin 1))) : Expr (XNum Rat)) = "-(a+1)".toList ∧
    infixText none (.bin .sub (.un .sin (.var ['x'])) (.num (.fin (-1))) : Expr (XNum Rat)) = "sin(x)-(-1)".toList := by
  decide +kernel

/-! ### C06 -/

/-- C06, the part that holds: if the literals of an expression are written so that they can be read back, its variables have
readable names and it contains no arcsin, arccos, arctan, then the text of the expression is parsed, and the tree is the same up to
regrouping sums and products to the left and writing negative literals with a minus sign.  Missing: other literals (see C51) and the
inverse trigonometric functions, for which the claim is false (below). -/
theorem C06_partial (e : Expr α) (hn : ∀ v ∈ e.nums, ReadsBack v) (hv : ∀ x ∈ e.vars, ReadableName α x) (ha : e.NoArc) :
    ∃ s e', toStringNode (embed e) = .ok s ∧ parse s = .ok (embed e') ∧ Regroups e e' := by
  obtain ⟨e', h1, h2⟩ := parse_text e ⟨hn, hv, ha⟩
  exact ⟨_, e', toString_embed e, h1, h2⟩

theorem regroups_leftGrouped {e e' : Expr α} (h : Regroups e e') (hl : e.LeftGrouped) : e' = e := by
  induction h with
  | refl => rfl
  | trans _ _ ih1 ih2 =>
    have h1 := ih1 hl
    subst h1
    exact ih2 hl
  | un o _ ih => rw [ih hl]
  | bin o _ _ ih1 ih2 => rw [ih1 hl.1, ih2 hl.2.1]
  | negative h1 _ =>
    rw [show Arith.lt _ _ = false from hl] at h1
    cases h1
  | addAdd a b c => exact absurd rfl (hl.2.2.1 rfl _ _ _ rfl).1
  | addSub a b c => exact absurd rfl (hl.2.2.1 rfl _ _ _ rfl).2
  | mulMul a b c => exact absurd rfl (hl.2.2.2 rfl _ _ _ rfl).1
  | mulDiv a b c => exact absurd rfl (hl.2.2.2 rfl _ _ _ rfl).2

/-- C06: if moreover no negative literal occurs, no sum or difference is a right summand and no product or quotient is a right
factor, exactly the same tree is read back. -/
theorem C06_same_partial (e : Expr α) (hn : ∀ v ∈ e.nums, ReadsBack v) (hv : ∀ x ∈ e.vars, ReadableName α x) (ha : e.NoArc)
    (hl : e.LeftGrouped) : ∃ s, toStringNode (embed e) = .ok s ∧ parse s = .ok (embed e) := by
  obtain ⟨s, e', h1, h2, h3⟩ := C06_partial e hn hv ha
  rw [regroups_leftGrouped h3 hl] at h2
  exact ⟨s, h1, h2⟩

/-- Regrouping does not change the function of the real numbers an expression denotes, nor where it is defined. -/
theorem regroups_real (f : α → XNum ℝ) (hf : ∀ w, f (Arith.neg w) = (f w).map fun x => -x) {e e' : Expr α} (h : Regroups e e')
    (ρ : Str → ℝ) : realVal ρ (e'.mapNum f) = realVal ρ (e.mapNum f) := by
  induction h with
  | refl => rfl
  | trans _ _ ih1 ih2 => rw [ih2, ih1]
  | un o _ ih => simp only [Expr.mapNum, realVal, ih]
  | bin o _ _ ih1 ih2 => simp only [Expr.mapNum, realVal, ih1, ih2]
  | @negative v w _ h =>
    subst h
    simp only [Expr.mapNum, realVal, hf]
    cases f w <;> rfl
  | addAdd a b c =>
    simp only [Expr.mapNum, realVal]
    cases realVal ρ (a.mapNum f) <;> cases realVal ρ (b.mapNum f) <;> cases realVal ρ (c.mapNum f) <;> simp [BinOp.real]
    ring
  | addSub a b c =>
    simp only [Expr.mapNum, realVal]
    cases realVal ρ (a.mapNum f) <;> cases realVal ρ (b.mapNum f) <;> cases realVal ρ (c.mapNum f) <;> simp [BinOp.real]
    ring
  | mulMul a b c =>
    simp only [Expr.mapNum, realVal]
    cases realVal ρ (a.mapNum f) <;> cases realVal ρ (b.mapNum f) <;> cases realVal ρ (c.mapNum f) <;> simp [BinOp.real]
    ring
  | mulDiv a b c =>
    simp only [Expr.mapNum, realVal]
    cases realVal ρ (a.mapNum f) <;> cases realVal ρ (b.mapNum f) <;> cases realVal ρ (c.mapNum f) <;> simp [BinOp.real]
    rename_i x y z
    by_cases hz : z = 0
    · simp [hz]
    · simp only [if_neg hz, Option.bind_some, Option.some.injEq]
      ring

/-- a rational literal as a real number -/
noncomputable def toRealNum : XNum Rat → XNum ℝ
  | .fin q => .fin (q : ℝ)
  | .bad => .bad

/-- C06, for literals that are decimal fractions with at most 16 decimals, below 1e16 and not between 0 and 1e-16: the text is
parsed, and the tree read denotes the same function of the real numbers, with the same domain. -/
theorem C06_value_partial (e : Expr (XNum Rat))
    (hn : ∀ v ∈ e.nums, ∃ (q : ℚ) (z : ℤ), v = .fin q ∧ q * 10 ^ 16 = z ∧ (q = 0 ∨ 1 / 10 ^ 16 < abs q) ∧ abs q < 10 ^ 16)
    (hv : ∀ x ∈ e.vars, ReadableName (XNum Rat) x) (ha : e.NoArc) :
    ∃ s e', toStringNode (embed e) = .ok s ∧ parse s = .ok (embed e') ∧
      ∀ ρ, realVal ρ (e'.mapNum toRealNum) = realVal ρ (e.mapNum toRealNum) := by
  obtain ⟨s, e', h1, h2, h3⟩ := C06_partial e
    (fun v h => by
      obtain ⟨q, z, rfl, h1, h2, h3⟩ := hn v h
      exact C51_readsBack q h2 h3 z h1) hv ha
  refine ⟨s, e', h1, h2, fun ρ => regroups_real toRealNum ?_ h3 ρ⟩
  intro w
  cases w with
  | fin q => show XNum.fin (((-q : ℚ)) : ℝ) = XNum.fin (-(q : ℝ)); push_cast; rfl
  | bad => rfl

/-- the name `x` is readable -/
theorem readable_x : ReadableName (XNum Rat) ['x'] := by
  refine ⟨.var ?_ ((stodFull_none_iff _).mp rfl) ?_, ?_⟩
  · refine ⟨?_, 'x', [], rfl, by decide⟩
    intro c hc
    simp at hc
    subst hc
    exact .inl (by decide)
  · rintro ⟨f, hf⟩; cases hf
  · intro s f h he
    cases h <;> exact absurd he (by decide +kernel)

/-- An expression to which this applies: `x*(-2.5/x)`. -/
example : ∃ s e', toStringNode (embed (.bin .mul (.var ['x']) (.bin .div (.num (.fin (-5 / 2))) (.var ['x'])) : Expr (XNum Rat))) = .ok s ∧
    parse s = .ok (embed e') ∧ Regroups (.bin .mul (.var ['x']) (.bin .div (.num (.fin (-5 / 2))) (.var ['x'])) : Expr (XNum Rat)) e' := by
  refine C06_partial _ ?_ ?_ (by simp [Expr.NoArc])
  · intro v hv
    simp [Expr.nums] at hv
    subst hv
    refine C51_readsBack _ (.inr ?_) ?_ (-25000000000000000) (by norm_num) <;>
    · rw [abs_of_neg (by norm_num)]; norm_num
  · intro x hx
    simp [Expr.vars] at hx
    subst hx
    exact readable_x

/-- C06 fails for arcsin: the text `asin(x)` is not parsed (the parser knows `arcsin`). -/
theorem C06_false_arc : ∃ s ks, toStringNode (embed (.un .asin (.var ['x']) : Expr (XNum Rat))) = .ok s ∧
    (∀ e, parse s ≠ .ok (embed e : Raw (XNum Rat))) ∧ parse s = (.throw (.multiParse ks) : Res (Raw (XNum Rat))) := by
  have h : parse ("asin(x)".toList) = (.throw (.multiParse [0]) : Res (Raw (XNum Rat))) := by decide +kernel
  refine ⟨"asin(x)".toList, [0], by decide +kernel, ?_, h⟩
  intro e he
  rw [h] at he
  cases he

/-- C06 fails for the literal 1e16: the text `1e+16` is not parsed. -/
theorem C06_false_large : ∃ s, toStringNode (embed (.num (.fin (10 ^ 16)) : Expr (XNum Rat))) = .ok s ∧
    ∀ e, parse s ≠ .ok (embed e : Raw (XNum Rat)) := by
  refine ⟨"1e+16".toList, by decide +kernel, ?_⟩
  intro e he
  have h : parse ("1e+16".toList) = (.throw (.singleParse 0) : Res (Raw (XNum Rat))) := by decide +kernel
  rw [h] at he
  cases he

/-- C06 fails for the `double` `0.1+0.2`: its text is `0.3`, which reads back as another number. -/
theorem C06_false_rounded : ∃ q : ℚ, IsDouble q ∧ ∃ s e', toStringNode (embed (.num (.fin q) : Expr (XNum Rat))) = .ok s ∧
    parse s = .ok (embed e') ∧ ∀ ρ, realVal ρ (e'.mapNum toRealNum) ≠ some (q : ℝ) := by
  refine ⟨5404319552844596 / 2 ^ 54, ⟨5404319552844596, -54, by norm_num, by norm_num, by norm_num, by norm_num, by norm_num⟩,
    "0.3".toList, .num (.fin (3 / 10)), by decide +kernel, by decide +kernel, ?_⟩
  intro ρ h
  simp only [Expr.mapNum, toRealNum, realVal, XNum.val?, Option.some.injEq] at h
  norm_num at h

end Tom
