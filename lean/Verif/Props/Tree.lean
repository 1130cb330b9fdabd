import Verif.Lemmas.Tree
import Verif.Spec.Tree
import Verif.Model.Num
/-
Properties C08, C10-C16, C55: names, cloning, comparison, evaluation, variables, integer operators.
-/
set_option linter.unusedSectionVars false
namespace Tom
variable {α : Type} [Dbl α]

/-! ### C08 -/

theorem isWordChar_iff (c : Char) : isWordChar c = true ↔ LegalNameChar c := by
  have h (a b : Char) : a ≤ b ↔ a.toNat ≤ b.toNat := by
    rw [Char.le_def, UInt32.le_iff_toNat_le]; rfl
  have h2 : c = '_' ↔ c.toNat = 95 := by
    constructor
    · rintro rfl; rfl
    · intro hc; exact Char.ext (UInt32.toNat_inj.mp hc)
  simp only [isWordChar, LegalNameChar, Bool.or_eq_true, Bool.and_eq_true, decide_eq_true_eq, h, beq_iff_eq, h2]
  simp only [show 'a'.toNat = 97 from rfl, show 'z'.toNat = 122 from rfl, show 'A'.toNat = 65 from rfl,
    show 'Z'.toNat = 90 from rfl, show '0'.toNat = 48 from rfl, show '9'.toNat = 57 from rfl]
  omega

theorem isDigitChar_iff (c : Char) : isDigitChar c = true ↔ 48 ≤ c.toNat ∧ c.toNat ≤ 57 := by
  have h (a b : Char) : a ≤ b ↔ a.toNat ≤ b.toNat := by
    rw [Char.le_def, UInt32.le_iff_toNat_le]; rfl
  simp only [isDigitChar, Bool.and_eq_true, decide_eq_true_eq, h]
  rfl

/-- C08: exactly the legal names are accepted. -/
theorem C08_varNameIsLegal (s : Str) : varNameIsLegal s = true ↔ LegalName s := by
  cases s with
  | nil => simp [varNameIsLegal, LegalName]
  | cons c cs =>
    simp only [varNameIsLegal, LegalName, Bool.and_eq_true, isWordChar_iff, List.all_eq_true, List.mem_cons,
      forall_eq_or_imp, Bool.not_eq_true', ← Bool.not_eq_true, isDigitChar_iff]
    constructor
    · rintro ⟨⟨h1, h2⟩, h3⟩; exact ⟨⟨h1, h3⟩, c, cs, rfl, h2⟩
    · rintro ⟨⟨h1, h3⟩, c', cs', h, h2⟩
      obtain ⟨rfl, rfl⟩ := List.cons.inj h
      exact ⟨⟨h1, h2⟩, h3⟩

/-- C08: `Var` returns the variable for a legal name and throws `runtime_error` for any other. -/
theorem C08_Var (s : Str) :
    (LegalName s → mkVar s = .ok (embed (.var s : Expr α))) ∧ (¬ LegalName s → (mkVar s : Res (Raw α)) = .throw .runtime) := by
  rw [← C08_varNameIsLegal]
  constructor <;> intro h <;> simp_all [mkVar, varNode, embed]

example : LegalName "x_1".toList ∧ ¬ LegalName "1x".toList ∧ ¬ LegalName [] ∧ ¬ LegalName "a b".toList := by
  refine ⟨?_, ?_, ?_, ?_⟩ <;> rw [← C08_varNameIsLegal] <;> decide

/-! ### C10 -/

/-- C10: for every non-null tree `Clone` terminates and returns a tree with the same content. -/
theorem C10_clone (t : Raw α) (h : t.isSome = true) : clone t = .ok t := clone_eq t h

theorem C10_clone_expr (e : Expr α) : clone (embed e) = .ok (embed e) := clone_eq _ (embed_isSome e)

example : (embed (.bin .add (.var ['x']) (.un .sin (.num (.fin 2))) : Expr (XNum Rat))).isSome = true := rfl

/-! ### C11 -/

theorem sameTree_embed (h0 : Arith.eq (Dbl.ofInt 0 : α) (Dbl.ofInt 0) = true) (a b : Expr α) :
    sameTree (embed a) (embed b) = true ↔ SameExpr a b := by
  induction a generalizing b with
  | num v =>
    cases b <;> simp [embed, sameTree, sameFields]
    · exact ⟨fun h => .num h, fun h => by cases h; assumption⟩
    all_goals intro h; cases h
  | var x =>
    cases b <;> simp [embed, sameTree, sameFields, h0]
    case var y =>
      constructor
      · rintro rfl; exact .var _
      · intro h; cases h; rfl
    all_goals intro h; cases h
  | un o a ih =>
    cases b with
    | un o' b =>
      have : o.toMathOp = o'.toMathOp ↔ o = o' := by cases o <;> cases o' <;> simp [UnOp.toMathOp]
      simp only [embed, sameTree, sameFields, h0, this, ih, Bool.and_eq_true, decide_eq_true_eq, decide_true,
        and_true, true_and]
      constructor
      · rintro ⟨rfl, h⟩; exact .un _ h
      · intro h; cases h; exact ⟨rfl, by assumption⟩
    | bin o' c d =>
      have : o.toMathOp ≠ o'.toMathOp := by cases o <;> cases o' <;> simp [UnOp.toMathOp, BinOp.toMathOp]
      simp only [embed, sameTree, sameFields, this, decide_false, Bool.and_false, Bool.false_and]
      constructor
      · intro h; cases h
      · intro h; cases h
    | num v => simp [embed, sameTree, sameFields]; intro h; cases h
    | var v => simp [embed, sameTree, sameFields]; intro h; cases h
  | bin o a c iha ihc =>
    cases b with
    | bin o' b d =>
      have : o.toMathOp = o'.toMathOp ↔ o = o' := by cases o <;> cases o' <;> simp [BinOp.toMathOp]
      simp only [embed, sameTree, sameFields, h0, this, iha, ihc, Bool.and_eq_true, decide_eq_true_eq, decide_true,
        and_true, true_and]
      constructor
      · rintro ⟨⟨rfl, h⟩, h'⟩; exact .bin _ h h'
      · intro h; cases h; exact ⟨⟨rfl, by assumption⟩, by assumption⟩
    | un o' c =>
      have : o.toMathOp ≠ o'.toMathOp := by cases o <;> cases o' <;> simp [UnOp.toMathOp, BinOp.toMathOp]
      simp only [embed, sameTree, sameFields, this, decide_false, Bool.and_false, Bool.false_and]
      constructor
      · intro h; cases h
      · intro h; cases h
    | num v => simp [embed, sameTree, sameFields]; intro h; cases h
    | var v => simp [embed, sameTree, sameFields]; intro h; cases h

/-- C11: comparing two distinct trees terminates, and returns true exactly when they are the same expression (the only
fact about doubles used is `0 == 0`). -/
theorem C11_equal (h0 : Arith.eq (Dbl.ofInt 0 : α) (Dbl.ofInt 0) = true) (a b : Expr α) :
    ∃ r, equal false (embed a) (embed b) = .ok r ∧ (r = true ↔ SameExpr a b) :=
  ⟨_, equal_eq _ _ (embed_isSome a) (embed_isSome b), sameTree_embed h0 a b⟩

/-- C11: an object is always equal to itself. -/
theorem C11_equal_self (a b : Raw α) : equal true a b = .ok true := rfl

example : Arith.eq (Dbl.ofInt 0 : XNum Rat) (Dbl.ofInt 0) = true := by decide +kernel
example : SameExpr (.bin .add (.var ['x']) (.num (.fin 1)) : Expr (XNum Rat)) (.bin .add (.var ['x']) (.num (.fin 1))) :=
  .bin _ (.var _) (.num (by decide +kernel))

/-! ### C12-C14 -/

/-- C12: `Vpa` computes the recursive evaluation (with no variable having a value), in every configuration. -/
theorem C12_vpa (cfg : Config α) (e : Expr α) :
    vpa cfg (embed e) = e.eval cfg.throwOnInvalidValue noEnv := vpa_embed cfg e

theorem eval_var_not_ok (strict : Bool) (e : Expr α) (x : Str) (hx : x ∈ e.vars) (v : α) :
    e.eval strict noEnv ≠ .ok v := by
  induction e generalizing v with
  | num w => simp [Expr.vars] at hx
  | var y => simp [Expr.eval, noEnv]
  | un o e ih =>
    intro h
    obtain ⟨w, hw, _⟩ := Res.bind_eq_ok.mp h
    exact ih hx w hw
  | bin o a b iha ihb =>
    intro h
    obtain ⟨w, hw, h⟩ := Res.bind_eq_ok.mp h
    obtain ⟨w', hw', h⟩ := Res.bind_eq_ok.mp h
    simp only [Expr.vars, List.mem_append] at hx
    rcases hx with hx | hx
    · exact iha hx w hw
    · exact ihb hx w' hw'

/-- The outcomes recursive evaluation can have. -/
theorem eval_outcomes (strict : Bool) (e : Expr α) :
    (∃ v, e.eval strict noEnv = .ok v) ∨ e.eval strict noEnv = .ub ∨
    (strict = true ∧ e.eval strict noEnv = .throw (.math .invalidNumber)) ∨
    (e.vars ≠ [] ∧ e.eval strict noEnv = .throw .runtime) := by
  have hc : ∀ v : α, checked strict v = .ok v ∨ (strict = true ∧ checked strict v = .throw (.math .invalidNumber)) := by
    intro v; unfold checked; cases strict <;> cases Dbl.isInvalid v <;> simp
  induction e with
  | num v => exact .inl ⟨v, rfl⟩
  | var x => right; right; right; simp [Expr.vars, Expr.eval, noEnv]
  | un o e ih =>
    rcases ih with ⟨v, h⟩ | h | ⟨hs, h⟩ | ⟨hv, h⟩ <;> simp only [Expr.eval, h, Res.bind_ok, Res.bind_ub, Res.bind_throw]
    · rcases hc (o.apply v) with h | h
      · exact .inl ⟨_, h⟩
      · exact .inr (.inr (.inl h))
    · simp
    · simp [hs]
    · simpa [Expr.vars] using hv
  | bin o a b iha ihb =>
    rcases iha with ⟨v, h⟩ | h | ⟨hs, h⟩ | ⟨hv, h⟩ <;> simp only [Expr.eval, h, Res.bind_ok, Res.bind_ub, Res.bind_throw]
    · rcases ihb with ⟨w, h⟩ | h | ⟨hs, h⟩ | ⟨hv, h⟩ <;> simp only [h, Res.bind_ok, Res.bind_ub, Res.bind_throw]
      · cases o.apply v w with
        | none => simp
        | some z =>
          rcases hc z with h | h
          · exact .inl ⟨_, h⟩
          · exact .inr (.inr (.inl h))
      · simp
      · simp [hs]
      · right; right; right; simpa [Expr.vars] using fun _ => hv
    · simp
    · simp [hs]
    · right; right; right; simp [Expr.vars, hv]

/-- C13: an expression containing a variable never evaluates to a number. -/
theorem C13_vars_no_value (cfg : Config α) (e : Expr α) (x : Str) (hx : x ∈ e.vars) (v : α) :
    vpa cfg (embed e) ≠ .ok v := by
  rw [vpa_embed]; exact eval_var_not_ok _ e x hx v

/-- C13: a variable-free expression evaluates to a number or throws `MathError(INVALID_NUMBER)` (this only with
`throwOnInvalidValue`), or runs into the undefined behaviour of an integer operator; nothing else can happen. -/
theorem C13_no_vars (cfg : Config α) (e : Expr α) (h : e.vars = []) :
    (∃ v, vpa cfg (embed e) = .ok v) ∨ vpa cfg (embed e) = .ub ∨
    (cfg.throwOnInvalidValue = true ∧ vpa cfg (embed e) = .throw (.math .invalidNumber)) := by
  rw [vpa_embed]
  rcases eval_outcomes cfg.throwOnInvalidValue e with h' | h' | h' | ⟨hv, _⟩
  · exact .inl h'
  · exact .inr (.inl h')
  · exact .inr (.inr h')
  · exact absurd h hv

example : (.bin .add (.num (.fin 1)) (.num (.fin 2)) : Expr (XNum Rat)).vars = [] := rfl
example : ['x'] ∈ (.bin .add (.num (.fin 1)) (.var ['x']) : Expr (XNum Rat)).vars := by simp [Expr.vars]

/-- C14 fails as stated: a literal infinity (`Num(INFINITY)`, or `Parse("inf")`) is returned by `Vpa` although
`throwOnInvalidValue` is set. -/
theorem C14_false : ¬ ∀ (cfg : Config (XNum Rat)) (e : Expr (XNum Rat)) (v : XNum Rat), cfg.throwOnInvalidValue = true →
    vpa cfg (embed e) = .ok v → Dbl.isInvalid v = false := by
  intro h
  have := h defaultConfig (.num .bad) .bad rfl (by rw [vpa_embed]; rfl)
  cases this

theorem eval_valid (e : Expr α) (hnum : ∀ v ∈ e.nums, Dbl.isInvalid v = false) (v : α)
    (h : e.eval true noEnv = .ok v) : Dbl.isInvalid v = false := by
  have hc : ∀ w v : α, checked true w = .ok v → Dbl.isInvalid v = false := by
    intro w v h; unfold checked at h; split at h <;> simp_all
  cases e with
  | num w => simp [Expr.eval] at h; subst h; exact hnum w (by simp [Expr.nums])
  | var x => simp [Expr.eval, noEnv] at h
  | un o e =>
    obtain ⟨w, hw, h⟩ := Res.bind_eq_ok.mp h
    exact hc _ _ h
  | bin o a b =>
    obtain ⟨w, hw, h⟩ := Res.bind_eq_ok.mp h
    obtain ⟨w', hw', h⟩ := Res.bind_eq_ok.mp h
    cases hz : o.apply w w' <;> simp only [hz] at h
    · simp at h
    · exact hc _ _ h

/-- C14, partial: with `throwOnInvalidValue`, `Vpa` never returns inf, -inf or nan for an expression whose root is
an operator, nor for one whose literals are all finite.  Missing: an invalid literal by itself (`C14_false`). -/
theorem C14_partial (cfg : Config α) (hs : cfg.throwOnInvalidValue = true) (e : Expr α)
    (hnum : e.isNum = false ∨ ∀ v ∈ e.nums, Dbl.isInvalid v = false) (v : α)
    (h : vpa cfg (embed e) = .ok v) : Dbl.isInvalid v = false := by
  rw [vpa_embed, hs] at h
  rcases hnum with hnum | hnum
  · have hc : ∀ w v : α, checked true w = .ok v → Dbl.isInvalid v = false := by
      intro w v h; unfold checked at h; split at h <;> simp_all
    cases e with
    | num w => simp [Expr.isNum] at hnum
    | var x => simp [Expr.eval, noEnv] at h
    | un o e =>
      obtain ⟨w, hw, h⟩ := Res.bind_eq_ok.mp h
      exact hc _ _ h
    | bin o a b =>
      obtain ⟨w, hw, h⟩ := Res.bind_eq_ok.mp h
      obtain ⟨w', hw', h⟩ := Res.bind_eq_ok.mp h
      cases hz : o.apply w w' <;> simp only [hz] at h
      · simp at h
      · exact hc _ _ h
  · exact eval_valid e hnum v h

example : vpa defaultConfig (embed (.bin .div (.num (.fin 1)) (.num (.fin 2)))) = .ok (.fin (1 / 2)) := by
  rw [vpa_embed]; decide +kernel
example : vpa defaultConfig (embed (.bin .div (.num (.fin 1)) (.num (.fin 0)))) = .throw (.math .invalidNumber) := by
  rw [vpa_embed]; decide +kernel

/-! ### C15 -/

/-- C15: `Calc` either replaces the node by the number `Vpa` gives, or does not return normally and leaves the node
as it was. -/
theorem C15_calc (cfg : Config α) (e : Expr α) :
    (∃ v, vpa cfg (embed e) = .ok v ∧ calcNode cfg (embed e) = (.ok (), embed (.num v))) ∨
    ((∀ v, vpa cfg (embed e) ≠ .ok v) ∧ (calcNode cfg (embed e)).2 = embed e ∧
      (calcNode cfg (embed e)).1 ≠ .ok ()) := by
  unfold calcNode
  cases h : vpa cfg (embed e) <;> simp [mkNum, embed]

/-- C15: and the exception that leaves `Calc` is the one `Vpa` throws. -/
theorem C15_calc_throw (cfg : Config α) (e : Expr α) (x : Exc) :
    vpa cfg (embed e) = .throw x ↔ calcNode cfg (embed e) = (.throw x, embed e) := by
  unfold calcNode
  cases h : vpa cfg (embed e) <;> simp

example : calcNode defaultConfig (embed (.bin .mul (.num (.fin 2)) (.num (.fin 3)))) = (.ok (), embed (.num (.fin 6))) := by
  have h : vpa defaultConfig (embed (.bin .mul (.num (.fin 2)) (.num (.fin 3)))) = .ok (.fin 6) := by
    rw [vpa_embed]; decide +kernel
  unfold calcNode; rw [h]; rfl

/-! ### C16 -/

/-- C16: the result is strictly increasing in the lexicographic order and has exactly the variables of the expression. -/
theorem C16_getAllVarNames (e : Expr α) :
    ∃ out, getAllVarNames (embed e) = .ok out ∧ out.Pairwise (fun a b => strLt a b = true) ∧ out.Nodup ∧
      ∀ y, y ∈ out ↔ y ∈ e.vars := by
  obtain ⟨out, h1, h2, h3⟩ := getAllVarNames_embed e
  refine ⟨out, h1, h2, ?_, h3⟩
  exact h2.imp fun {a b} h hab => by subst hab; rw [strLt_irrefl] at h; cases h

example : getAllVarNames (embed (.bin .add (.var ['y']) (.bin .mul (.var ['x']) (.var ['y'])) : Expr (XNum Rat)))
    = .ok [['x'], ['y']] := by decide +kernel

/-! ### C55 -/

theorem getLsbD_ofInt_bit (a : Int) (i : Nat) (hi : i < 32) :
    (BitVec.ofInt 32 a).getLsbD i = true ↔ bit1 a i := by
  have h1 : BitVec.ofInt 32 a = BitVec.ofNat 32 (a % 2 ^ 32).toNat := by
    apply BitVec.eq_of_toNat_eq
    simp [BitVec.toNat_ofInt]
    omega
  rw [h1, BitVec.getLsbD_ofNat]
  have h2 : (a % 2 ^ 32).toNat.testBit i = true ↔ (a % 2 ^ 32) / 2 ^ i % 2 = 1 := by
    obtain ⟨n, hn⟩ := Int.eq_ofNat_of_zero_le (Int.emod_nonneg a (by decide : (2 ^ 32 : Int) ≠ 0))
    rw [hn, Nat.testBit_eq_decide_div_mod_eq, decide_eq_true_eq]
    simp only [Int.toNat_natCast]
    norm_cast
  simp only [hi, decide_true, Bool.true_and, h2, bit1]
  have h3 : a % 2 ^ 32 = a + 2 ^ i * (2 * (2 ^ (31 - i) * -(a / 2 ^ 32))) := by
    have e : (2 : Int) ^ i * (2 * (2 ^ (31 - i) * -(a / 2 ^ 32))) = -(2 ^ 32 * (a / 2 ^ 32)) := by
      have : (2 : Int) ^ 32 = 2 ^ i * 2 * 2 ^ (31 - i) := by
        rw [← Int.pow_succ, ← Int.pow_add]; congr 1; omega
      rw [this]
      generalize a / (2 ^ i * 2 * 2 ^ (31 - i)) = q
      simp only [Int.mul_neg, Int.mul_assoc]
    rw [e, Int.emod_def]; omega
  rw [h3, Int.add_mul_ediv_left _ _ (Int.pow_ne_zero (by decide)), Int.add_mul_emod_self_left]

theorem toInt_bit (b : BitVec 32) (i : Nat) (hi : i < 32) : bit1 b.toInt i ↔ b.getLsbD i = true := by
  rw [← getLsbD_ofInt_bit _ i hi, BitVec.ofInt_toInt]

/-- C55: `&` on operands whose truncations fit in `int`: the result is an `int` with exactly the common bits. -/
theorem C55_and (v w : α) (a b : Int) (ha : Dbl.toInt32 v = some a) (hb : Dbl.toInt32 w = some b) :
    ∃ r : Int, BinOp.apply .and v w = some (Dbl.ofInt r) ∧ calcRaw .and v w = .ok (Dbl.ofInt r) ∧
      -2147483648 ≤ r ∧ r ≤ 2147483647 ∧ ∀ i < 32, bit1 r i ↔ (bit1 a i ∧ bit1 b i) := by
  refine ⟨cAnd a b, by simp [BinOp.apply, ha, hb], by simp [calcRaw, ha, hb], ?_, ?_, ?_⟩
  · have := BitVec.le_toInt (BitVec.ofInt 32 a &&& BitVec.ofInt 32 b); simpa [cAnd] using this
  · have := BitVec.toInt_lt (x := (BitVec.ofInt 32 a &&& BitVec.ofInt 32 b)); simp [cAnd] at this ⊢; omega
  · intro i hi
    rw [cAnd, toInt_bit _ i hi, BitVec.getLsbD_and, Bool.and_eq_true, getLsbD_ofInt_bit a i hi, getLsbD_ofInt_bit b i hi]

/-- C55: `|` likewise. -/
theorem C55_or (v w : α) (a b : Int) (ha : Dbl.toInt32 v = some a) (hb : Dbl.toInt32 w = some b) :
    ∃ r : Int, BinOp.apply .or v w = some (Dbl.ofInt r) ∧ calcRaw .or v w = .ok (Dbl.ofInt r) ∧
      -2147483648 ≤ r ∧ r ≤ 2147483647 ∧ ∀ i < 32, bit1 r i ↔ (bit1 a i ∨ bit1 b i) := by
  refine ⟨cOr a b, by simp [BinOp.apply, ha, hb], by simp [calcRaw, ha, hb], ?_, ?_, ?_⟩
  · have := BitVec.le_toInt (BitVec.ofInt 32 a ||| BitVec.ofInt 32 b); simpa [cOr] using this
  · have := BitVec.toInt_lt (x := (BitVec.ofInt 32 a ||| BitVec.ofInt 32 b)); simp [cOr] at this ⊢; omega
  · intro i hi
    rw [cOr, toInt_bit _ i hi, BitVec.getLsbD_or, Bool.or_eq_true, getLsbD_ofInt_bit a i hi, getLsbD_ofInt_bit b i hi]

/-- C55: `%` is the C remainder: sign of the dividend, smaller in magnitude than the divisor; a zero divisor is
undefined behaviour, so is `INT_MIN % -1`. -/
theorem C55_mod (v w : α) (a b : Int) (ha : Dbl.toInt32 v = some a) (hb : Dbl.toInt32 w = some b) :
    (b = 0 → calcRaw .mod v w = .ub) ∧
    (b ≠ 0 → ¬ (a = -2147483648 ∧ b = -1) → ∃ r q : Int, calcRaw .mod v w = .ok (Dbl.ofInt r) ∧
      a = b * q + r ∧ r.natAbs < b.natAbs ∧ (0 ≤ a → 0 ≤ r) ∧ (a ≤ 0 → r ≤ 0)) := by
  constructor
  · intro h; simp [calcRaw, ha, hb, h]
  · intro h1 h2
    refine ⟨a.tmod b, a.tdiv b, ?_, (Int.mul_tdiv_add_tmod a b).symm, ?_, ?_, ?_⟩
    · simp only [calcRaw, ha, hb, if_neg h1, if_neg h2]
    · rw [Int.natAbs_tmod]; exact Nat.mod_lt _ (by omega)
    · exact fun h => Int.tmod_nonneg b h
    · intro h
      have := Int.tmod_nonneg b (a := -a) (by omega)
      rw [Int.neg_tmod] at this; omega

example : (Dbl.toInt32 (.fin (-7) : XNum Rat)) = some (-7) ∧ (Dbl.toInt32 (.fin (3 / 2) : XNum Rat)) = some 1 := by
  decide +kernel
example : (BinOp.apply .mod (.fin (-7) : XNum Rat) (.fin 3)) = some (.fin (-1)) := by decide +kernel
example : (BinOp.apply .and (.fin (-7) : XNum Rat) (.fin 12)) = some (.fin 8) := by decide +kernel

end Tom
