{
 "claims": [
  {
   "property": "C01",
   "status": "proved",
   "theorems": [
    "Tom.C01_parse",
    "Tom.C01_unambiguous"
   ],
   "note": "all derivations, all layouts; the grammar is proved unambiguous"
  },
  {
   "property": "C02",
   "status": "partial",
   "theorems": [
    "Tom.C02_false_paren",
    "Tom.C02_false_blank",
    "Tom.C02_partial",
    "Tom.C02_unreadable_partial"
   ],
   "note": "false as stated: `(1))`, blank text and `()` are undefined behaviour (C02_false_*); C02_partial characterises the undefined behaviour exactly"
  },
  {
   "property": "C03",
   "status": "partial",
   "theorems": [
    "Tom.C03_false",
    "Tom.C03_partial",
    "Tom.C03_outcomes_partial"
   ],
   "note": "false as stated: some inputs give MathError (C03_false); C03_partial: nothing else is thrown"
  },
  {
   "property": "C04",
   "status": "proved",
   "theorems": [
    "Tom.C04_divides",
    "Tom.C04_partition",
    "Tom.C04_columns",
    "Tom.C04_tokens",
    "Tom.C04_same_pieces",
    "Tom.C04_insert",
    "Tom.C04_replace"
   ],
   "note": ""
  },
  {
   "property": "C05",
   "status": "proved",
   "theorems": [
    "Tom.C05_single",
    "Tom.C05_multi"
   ],
   "note": ""
  },
  {
   "property": "C06",
   "status": "partial",
   "theorems": [
    "Tom.C06_partial",
    "Tom.C06_same_partial",
    "Tom.C06_value_partial",
    "Tom.C06_false_arc",
    "Tom.C06_false_large",
    "Tom.C06_false_rounded"
   ],
   "note": "false for arcsin/arccos/arctan, literals outside (1e-16,1e16) and literals with more than 16 decimals (C06_false_*); otherwise proved up to left regrouping of sums and products, which preserves the real function and its domain"
  },
  {
   "property": "C07",
   "status": "partial",
   "theorems": [
    "Tom.C07_false_hash",
    "Tom.C07_false_inf",
    "Tom.C07_partial"
   ],
   "note": "false as stated: hash collisions and inf/nan (C07_false_*); C07_partial proves it for all other identifiers"
  },
  {
   "property": "C08",
   "status": "proved",
   "theorems": [
    "Tom.C08_varNameIsLegal",
    "Tom.C08_Var"
   ],
   "note": ""
  },
  {
   "property": "C09",
   "status": "proved",
   "theorems": [
    "Tom.C09_complete"
   ],
   "note": ""
  },
  {
   "property": "C10",
   "status": "proved",
   "theorems": [
    "Tom.C10_clone",
    "Tom.C10_clone_expr"
   ],
   "note": ""
  },
  {
   "property": "C11",
   "status": "proved",
   "theorems": [
    "Tom.C11_equal",
    "Tom.C11_equal_self"
   ],
   "note": ""
  },
  {
   "property": "C12",
   "status": "proved",
   "theorems": [
    "Tom.C12_noOperator",
    "Tom.C12_vpa"
   ],
   "note": ""
  },
  {
   "property": "C13",
   "status": "proved",
   "theorems": [
    "Tom.C13_vars_no_value",
    "Tom.C13_no_vars"
   ],
   "note": ""
  },
  {
   "property": "C14",
   "status": "partial",
   "theorems": [
    "Tom.C14_false",
    "Tom.C14_partial"
   ],
   "note": "False for a literal inf/nan leaf (C14_false); proved for expressions whose root is an operator or whose literals are valid."
  },
  {
   "property": "C15",
   "status": "proved",
   "theorems": [
    "Tom.C15_calc",
    "Tom.C15_calc_throw"
   ],
   "note": ""
  },
  {
   "property": "C16",
   "status": "proved",
   "theorems": [
    "Tom.C16_getAllVarNames"
   ],
   "note": ""
  },
  {
   "property": "C17",
   "status": "proved",
   "theorems": [
    "Tom.C17_subs_vpa",
    "Tom.C17_subsValues_vpa"
   ],
   "note": ""
  },
  {
   "property": "C18",
   "status": "proved",
   "theorems": [
    "Tom.C18_subsVec",
    "Tom.C18_subs1",
    "Tom.C18_subsDict",
    "Tom.C18_subsValues",
    "Tom.C18_const",
    "Tom.C18_length",
    "Tom.C18_order",
    "Tom.C18_simultaneous"
   ],
   "note": ""
  },
  {
   "property": "C19",
   "status": "proved",
   "theorems": [
    "Tom.C19_vars"
   ],
   "note": ""
  },
  {
   "property": "C20",
   "status": "partial",
   "theorems": [
    "Tom.C20_unary_partial",
    "Tom.C20_binary_partial",
    "Tom.C20_compound_partial",
    "Tom.C20_false_self",
    "Tom.C20_false_moved"
   ],
   "note": "Proved on objects with addresses and parent pointers for every operand tree and every combination of lvalue and rvalue operands, incl. compound assignment with another variable: the result, the variables afterwards (same objects; null if moved from) and that nothing is shared. The clause about n += n is false of the code: C20_false_self proves it is undefined behaviour for every n (the operand is dereferenced after it was moved from), and so is std::move(a)+a (C20_false_moved)."
  },
  {
   "property": "C21",
   "status": "partial",
   "theorems": [
    "Tom.C21_C24_partial",
    "Tom.C21_false"
   ],
   "note": "False as stated (C21_false: 0^x at x=0). Proved at every other point where the expression has a value."
  },
  {
   "property": "C22",
   "status": "proved",
   "theorems": [
    "Tom.C22_idempotent",
    "Tom.C22_wellformed"
   ],
   "note": ""
  },
  {
   "property": "C23",
   "status": "proved",
   "theorems": [
    "Tom.C23_const",
    "Tom.C23_noConstOp"
   ],
   "note": ""
  },
  {
   "property": "C24",
   "status": "partial",
   "theorems": [
    "Tom.C21_C24_partial",
    "Tom.C24_false",
    "Tom.C24_outcomes",
    "Tom.C24_partial"
   ],
   "note": "False as stated (C24_false: 1/0 calls std::terminate). All outcomes characterised; normal return proved with throwOnInvalidValue off, and in any configuration for expressions that have a real value at some point (C21_C24_partial)."
  },
  {
   "property": "C25",
   "status": "proved",
   "theorems": [
    "Tom.C25_no_growth"
   ],
   "note": ""
  },
  {
   "property": "C26",
   "status": "partial",
   "theorems": [
    "Tom.C26_C28_partial",
    "Tom.C26_false"
   ],
   "note": "False as stated (C26_false: exp of a bare foreign variable). Proved for all other expressions at every point where the differentiation rules apply (explicit predicate Smooth)."
  },
  {
   "property": "C27",
   "status": "proved",
   "theorems": [
    "Tom.C27_diff_throws"
   ],
   "note": ""
  },
  {
   "property": "C28",
   "status": "partial",
   "theorems": [
    "Tom.C28_false_pow",
    "Tom.C28_false_const",
    "Tom.C28_partial",
    "Tom.C26_C28_partial"
   ],
   "note": "False as stated (C28_false_pow, C28_false_const). Proved with throwOnInvalidValue off, and in any configuration for expressions smooth at some point."
  },
  {
   "property": "C29",
   "status": "proved",
   "theorems": [
    "Tom.C29_diff",
    "Tom.C29_fuel"
   ],
   "note": ""
  },
  {
   "property": "C30",
   "status": "partial",
   "theorems": [
    "Tom.C30_passes",
    "Tom.C30_smooth",
    "Tom.C30_false",
    "Tom.C30_partial"
   ],
   "note": "n passes then one simplification (C30_passes); the n-th partial derivative at every point where the expression is smooth, zeros of power bases and of the arguments of arcsin/arccos/arctan included (C30_smooth). What is excluded is false of the code: exp of a bare foreign variable, and expressions nowhere smooth enough such as (1-1)^2 with n=3, where Diff terminates (C30_false)."
  },
  {
   "property": "C31",
   "status": "partial",
   "theorems": [
    "Tom.C31_false",
    "Tom.C31_partial"
   ],
   "note": "False as stated for exp of a bare variable (C31_false); proved for all other expressions, for every order."
  },
  {
   "property": "C32",
   "status": "proved",
   "theorems": [
    "Tom.C32",
    "Tom.C32_returns",
    "Tom.C32_partial_derivatives"
   ],
   "note": "for column vectors of equations (SymVec)"
  },
  {
   "property": "C33",
   "status": "proved",
   "theorems": [
    "Tom.C33_every_matrix",
    "Tom.C33_value",
    "Tom.C33_add",
    "Tom.C33_sub",
    "Tom.C33_neg",
    "Tom.C33_scale",
    "Tom.C33_transpose",
    "Tom.C33_sizes",
    "Tom.C33_fill",
    "Tom.C33_ones",
    "Tom.C33_mul",
    "Tom.C33_mulVec",
    "Tom.C33_dot",
    "Tom.C33_norm2"
   ],
   "note": "entrywise operations for any arithmetic; products and sums for exact arithmetic"
  },
  {
   "property": "C34",
   "status": "proved",
   "theorems": [
    "Tom.C34",
    "Tom.C34_square"
   ],
   "note": "exact arithmetic"
  },
  {
   "property": "C35",
   "status": "proved",
   "theorems": [
    "Tom.C35",
    "Tom.C35_result"
   ],
   "note": "exact arithmetic"
  },
  {
   "property": "C36",
   "status": "partial",
   "theorems": [
    "Tom.C36_partial",
    "Tom.C36_nonsingular",
    "Tom.C36_C38_exact",
    "Tom.C36_false"
   ],
   "note": "False as stated: C36_false exhibits a solvable singular system answered silently with a non-solution. Proved: what is returned solves a system within epsilon, or such a system is singular (C36_partial); matrices not within epsilon of a singular one are always solved, with a residual bound (C36_nonsingular); exact for small epsilon (C36_C38_exact)."
  },
  {
   "property": "C37",
   "status": "partial",
   "theorems": [
    "Tom.C37_tall",
    "Tom.C37_wide_partial",
    "Tom.C37_wide_exact",
    "Tom.C37_wide",
    "Tom.C37_false"
   ],
   "note": "False as stated (C37_false). Proved: over-determined systems always throw (C37_tall, any arithmetic); wide systems: the outcomes and what they imply (C37_wide_partial, C37_wide_exact), and the full claim for systems that stay solvable under changes below epsilon (C37_wide)."
  },
  {
   "property": "C38",
   "status": "partial",
   "theorems": [
    "Tom.C36_C38_exact",
    "Tom.C38_partial",
    "Tom.C38_false"
   ],
   "note": "False as stated (C38_false: INFINITY_SOLUTIONS for an inconsistent system; a singular system answered with a vector). Proved: soundness of the exceptions up to epsilon (C38_partial) and exactly for small epsilon (C36_C38_exact)."
  },
  {
   "property": "C39",
   "status": "partial",
   "theorems": [
    "Tom.C39_false",
    "Tom.C39_partial",
    "Tom.C39_right_partial"
   ],
   "note": "false as stated: the code computes b/b (C39_false); C39_partial says what it computes"
  },
  {
   "property": "C40",
   "status": "proved",
   "theorems": [
    "Tom.C40_swapRow",
    "Tom.C40_swapCol",
    "Tom.C40_involution",
    "Tom.C40_resize"
   ],
   "note": ""
  },
  {
   "property": "C41",
   "status": "proved",
   "theorems": [
    "Tom.C41",
    "Tom.C41_not_square"
   ],
   "note": "exact real arithmetic (Sylvester)"
  },
  {
   "property": "C42",
   "status": "proved",
   "theorems": [
    "Tom.C42",
    "Tom.C42_methods",
    "Tom.C42_auto",
    "Tom.C42_real"
   ],
   "note": "Both methods and both overloads; C42_real states it for the real functions the equations denote."
  },
  {
   "property": "C43",
   "status": "partial",
   "theorems": [
    "Tom.C43_false_nan",
    "Tom.C43_false_negative",
    "Tom.C43_ieee_armijo",
    "Tom.C43_ieee_strict_partial",
    "Tom.C43_ieee_solve_partial",
    "Tom.C43_ieee_solveAuto_partial",
    "Tom.C43_ieee_line_search",
    "Tom.C43_ieee_lm_partial",
    "Tom.C43_ieee_armijo_nan",
    "Tom.C43_ieee_pinned_partial",
    "Tom.C43_ieee_pinned_solve_partial",
    "Tom.C43_ieee_pinned_solveAuto_partial",
    "Tom.Double.C43_false_bare",
    "Tom.C43_newton",
    "Tom.C43_lm_inv_partial",
    "Tom.C43_lm_partial",
    "Tom.C43_false",
    "Tom.C43_line_search",
    "Tom.C43_lm_underflow_partial"
   ],
   "note": "Newton-Raphson ends within maxIterations+3 evaluations (C43_newton). False as documented: the limit throws runtime_error, not MathError (C43_false). False for LM: an invalid value under throwOnInvalidValue=false makes the line search endless (C43_false_nan), so does the equation `x` started at inf although throwOnInvalidValue is on (C43_false_bare), and a negative maxIterations removes the limit (C43_false_negative). What holds in IEEE binary64 (modelled bit-exactly, any libm): in a configuration that rejects inf/nan (the default) with maxIterations >= 0, both methods end from every start, wherever the run leads, if literals are finite and the equations are not blind to a variable (C43_ieee_pinned_solve_partial, C43_ieee_pinned_solveAuto_partial; `Pinned` in Spec/Visible); in any configuration every line search over finite values ends within 1076 halvings (C43_ieee_line_search)."
  },
  {
   "property": "C44",
   "status": "partial",
   "theorems": [
    "Tom.C44_partial",
    "Tom.C44_zero",
    "Tom.C44_false",
    "Tom.C44_real",
    "Tom.C44_real_regular"
   ],
   "note": "False as stated (C44_false): the first step starts from the zero vector instead of the initial values. Proved: all later steps are Newton steps, and all steps if the initial values are zero; C44_real, C44_real_regular: what a step is over the reals (the matrix of partial derivatives up to epsilon)."
  },
  {
   "property": "C45",
   "status": "partial",
   "theorems": [
    "Tom.C45_partial",
    "Tom.C45_false",
    "Tom.C45_auto"
   ],
   "note": "False as stated for equations that cannot be differentiated (C45_false); proved for all others, and for Solve without a table."
  },
  {
   "property": "C46",
   "status": "proved",
   "theorems": [
    "Tom.C46_ofMap",
    "Tom.C46_ofList",
    "Tom.C46",
    "Tom.C46_setValues",
    "Tom.C46_ofVars"
   ],
   "note": ""
  },
  {
   "property": "C47",
   "status": "proved",
   "theorems": [
    "Tom.C47_set",
    "Tom.C47_unknown",
    "Tom.C47_ofVars",
    "Tom.C47_ofMap",
    "Tom.C47_ofList"
   ],
   "note": ""
  },
  {
   "property": "C48",
   "status": "proved",
   "theorems": [
    "Tom.C48",
    "Tom.C48_auto"
   ],
   "note": ""
  },
  {
   "property": "C49",
   "status": "partial",
   "theorems": [
    "Tom.C49_partial",
    "Tom.C49_false"
   ],
   "note": "False as stated (C49_false): equations with % terminate the process because Jacobian is noexcept. Proved: no termination if the equations can be differentiated."
  },
  {
   "property": "C50",
   "status": "proved",
   "theorems": [
    "Tom.C50_value",
    "Tom.C50_clone",
    "Tom.C50_subs",
    "Tom.C50_calc",
    "Tom.C50_calc_throws",
    "Tom.C50_toMat",
    "Tom.C50_toMat_throws",
    "Tom.C50_sub",
    "Tom.C50_mul",
    "Tom.C50_mul_size",
    "Tom.C50_eq",
    "Tom.C50_eq_size",
    "Tom.C50_getAllVarNames",
    "Tom.C50_evaluate",
    "Tom.C50_evaluate_mul",
    "Tom.C50_toSymVec",
    "Tom.C50_vec_sub"
   ],
   "note": "evaluation of products for exact arithmetic"
  },
  {
   "property": "C51",
   "status": "proved",
   "theorems": [
    "Tom.C51_zero",
    "Tom.C51_fixed",
    "Tom.C51_exact",
    "Tom.C51_reads",
    "Tom.C51_readsBack",
    "Tom.C51_nearest",
    "Tom.C51_nearest_false",
    "Tom.C51_scientific"
   ],
   "note": "exact rational value of the double; snprintf assumed correctly rounded; C51_nearest_false: below 0.5 the text does not determine the double"
  },
  {
   "property": "C52",
   "status": "proved",
   "theorems": [
    "Tom.C52_reachable",
    "Tom.C52_meaning",
    "Tom.C52_toString",
    "Tom.C52_checkParent",
    "Tom.C52_clone",
    "Tom.C52_operator",
    "Tom.C52_parse",
    "Tom.C52_subs",
    "Tom.C52_simplify",
    "Tom.C52_diff"
   ],
   "note": "In every state a program of Num, Var, Parse, Clone, move, overloads, Subs, Simplify, Diff statements can reach (any length, exceptions caught around statements), every variable is null or a correctly linked root accepted by CheckParent; the objects-and-pointers run agrees with the expression-level meaning (C52_meaning), which justifies the parentless model used elsewhere."
  },
  {
   "property": "C53",
   "status": "proved",
   "theorems": [
    "Tom.C53"
   ],
   "note": "Exact arithmetic; complete characterisation including non-termination."
  },
  {
   "property": "C54",
   "status": "proved",
   "theorems": [
    "Tom.Double.C54_ieee_symm",
    "Tom.Double.C54_ieee_refl",
    "Tom.Double.C54_ieee_meaning",
    "Tom.Double.C54_ieee_false_refl",
    "Tom.Double.C54_ieee_not_transitive",
    "Tom.C54_meaning",
    "Tom.C54_refl",
    "Tom.C54_symm",
    "Tom.C54_not_transitive"
   ],
   "note": ""
  },
  {
   "property": "C55",
   "status": "proved",
   "theorems": [
    "Tom.C55_and",
    "Tom.C55_or",
    "Tom.C55_mod"
   ],
   "note": ""
  },
  {
   "property": "C56",
   "status": "partial",
   "theorems": [
    "Tom.C56_false",
    "Tom.C56_grammar",
    "Tom.C56_shaped_partial",
    "Tom.C56_partial"
   ],
   "note": "false as stated: misplaced operators are accepted (C56_false); C56_shaped_partial: for texts whose tokens are in sensible places Parse accepts exactly the grammar, with its tree; C56_partial: what acceptance means for every text"
  },
  {
   "property": "C57",
   "status": "proved",
   "theorems": [
    "Tom.C57_layout",
    "Tom.C57_mat",
    "Tom.C57_symMat",
    "Tom.C57_empty",
    "Tom.C57_table"
   ],
   "note": ""
  },
  {
   "property": "C58",
   "status": "proved",
   "theorems": [
    "Tom.C58"
   ],
   "note": ""
  },
  {
   "property": "C59",
   "status": "proved",
   "theorems": [
    "Tom.C59"
   ],
   "note": ""
  },
  {
   "property": "C60",
   "status": "proved",
   "theorems": [
    "Tom.C60"
   ],
   "note": ""
  },
  {
   "property": "C61",
   "status": "proved",
   "theorems": [
    "Tom.C61"
   ],
   "note": "The bound depends on A only."
  },
  {
   "property": "C62",
   "status": "proved",
   "theorems": [
    "Tom.C62_toString"
   ],
   "note": ""
  },
  {
   "property": "C63",
   "status": "proved",
   "theorems": [
    "Tom.Double.C63_ieee_normInfinity",
    "Tom.Double.C63_ieee_normNegInfinity",
    "Tom.Double.C63_ieee_min",
    "Tom.C63_normInfinity",
    "Tom.C63_normNegInfinity",
    "Tom.C63_min",
    "Tom.C63_norm2"
   ],
   "note": "Exact arithmetic, all sizes."
  },
  {
   "property": "C64",
   "status": "proved",
   "theorems": [
    "Tom.Double.C64_ieee_isZero",
    "Tom.Double.C64_ieee_allIsLessThan",
    "Tom.Double.C64_ieee_eqMat",
    "Tom.Double.C64_ieee_eqNum",
    "Tom.Double.C64_ieee_refl",
    "Tom.Double.C64_ieee_symm",
    "Tom.C64_isZero",
    "Tom.C64_eqNum",
    "Tom.C64_eqMat",
    "Tom.C64_allIsLessThan",
    "Tom.C64_sizes"
   ],
   "note": "Exact arithmetic, all sizes."
  },
  {
   "property": "C65",
   "status": "proved",
   "theorems": [
    "Tom.C65_vecZip",
    "Tom.C65_vecZip_sizes",
    "Tom.C65_toVec",
    "Tom.C65_ofInit",
    "Tom.C65_ragged",
    "Tom.C65_symbolic",
    "Tom.C65_ofMat",
    "Tom.C65_symbolic_new",
    "Tom.C65_symVec"
   ],
   "note": "Any arithmetic, all sizes; a ragged initializer list is undefined behaviour (C65_ragged)."
  },
  {
   "property": "C66",
   "status": "proved",
   "theorems": [
    "Tom.Double.C66_ieee_getMaxAbsRowIndex",
    "Tom.Double.C66_ieee_false_nan",
    "Tom.C66_getMaxAbsRowIndex"
   ],
   "note": "Exact arithmetic. (With a NaN as first entry the code returns an index past the end: see DESIGN.)"
  },
  {
   "property": "C67",
   "status": "proved",
   "theorems": [
    "Tom.C67_destroy",
    "Tom.C67_once",
    "Tom.C67_no_double_free"
   ],
   "note": "objects with addresses, any tree; nesting at most two"
  },
  {
   "property": "C68",
   "status": "partial",
   "theorems": [
    "Tom.C68_same",
    "Tom.C68_single_partial",
    "Tom.C68_multi",
    "Tom.C68_false"
   ],
   "note": "False as stated (C68_false): for an unreadable word only the word is shown, with the mark as far right as in the text; for empty input the arguments are exchanged. Proved for unmatched parentheses and leftover tokens; the exact text is given for unreadable words."
  },
  {
   "property": "C69",
   "status": "proved",
   "theorems": [
    "Tom.C69_what"
   ],
   "note": ""
  },
  {
   "property": "C70",
   "status": "proved",
   "theorems": [
    "Tom.C70"
   ],
   "note": "Over the reals; the bound on epsilon depends on the matrix only."
  },
  {
   "property": "C71",
   "status": "partial",
   "theorems": [
    "Tom.C71_partial",
    "Tom.C71_false",
    "Tom.C71_real",
    "Tom.C71_real_descent",
    "Tom.C71_real_move"
   ],
   "note": "The steps are proved (C71_partial; over exact reals C71_real: the direction exists and solves a matrix within epsilon of the damped normal matrix; C71_real_descent: it is a descent direction; C71_real_move). False as stated: after a rejected step the Jacobian is that of the rejected point (C71_false)."
  },
  {
   "property": "C72",
   "status": "partial",
   "theorems": [
    "Tom.C72_false_overflow",
    "Tom.C72_tall",
    "Tom.C72_false_lm",
    "Tom.C72_partial",
    "Tom.C72_lm_partial",
    "Tom.C72_false_nan"
   ],
   "note": "Newton-Raphson: proved for every shape over exact reals with throwOnInvalidValue on (the default); LM: for square systems (returns, throws or runs on). False as stated: LM violates an assertion whenever the numbers of equations and unknowns differ (C72_false_lm), with throwOnInvalidValue off a NaN in the Jacobian violates one (C72_false_nan), and in IEEE doubles with the default configuration an overflow inside SolveLinear does (C72_false_overflow)."
  },
  {
   "property": "C73",
   "status": "partial",
   "theorems": [
    "Tom.C73_lm_conditioned",
    "Tom.C73_false_example",
    "Tom.C73_contraction",
    "Tom.C73_partial",
    "Tom.C73_zero",
    "Tom.C73_false",
    "Tom.C73_false_lm",
    "Tom.C73_lm_partial",
    "Tom.C73_lm_symm"
   ],
   "note": "Over exact reals. Newton: near a regular root every step contracts by any factor (C73_contraction); if the first correction (C73_partial) or the initial values zero (C73_zero) are close to the root it is found. LM: found from all initial values close to it if the line search passes to first order (C73_lm_partial), in particular when the Jacobian at the root is symmetric, e.g. one unknown (C73_lm_symm), or well-conditioned (C73_lm_conditioned). False as stated: Newton started next to the root 2 of x^2-4 only ever returns negative numbers (C73_false); LM runs forever on a regular linear system (C73_false_lm). The repository's own example examples/set_initial_values, started at (5,-5) next to the solution (4,-3), is given (-4,3) (C73_false_example)."
  },
  {
   "property": "C74",
   "status": "proved",
   "theorems": [
    "Tom.Double.C74_zero",
    "Tom.Double.C74_reads_back",
    "Tom.Double.C74_decimal",
    "Tom.Double.C74_iff",
    "Tom.Double.C74_nonfinite",
    "Tom.Double.C74_negative_zero_false",
    "Tom.Double.C74_false",
    "Tom.Double.C74_scientific",
    "Tom.Double.C74_expression"
   ],
   "note": "binary64 modelled bit-exactly; snprintf and stod assumed correctly rounded"
  },
  {
   "property": "C75",
   "status": "proved",
   "theorems": [
    "Tom.Double.C75_exact",
    "Tom.Double.C75_integers",
    "Tom.Double.C75_vpa"
   ],
   "note": "IEEE binary64, any libm"
  },
  {
   "property": "C76",
   "status": "proved",
   "theorems": [
    "Tom.Double.C76_enclosure",
    "Tom.Double.C76_exact_value",
    "Tom.Double.C76_vpa",
    "Tom.Double.C76_polynomial",
    "Tom.Double.C76_relative_false"
   ],
   "note": "accuracy of libm functions and pow is a hypothesis (Libm.Within), shown satisfiable; relative accuracy is impossible (C76_relative_false)"
  },
  {
   "property": "C77",
   "status": "proved",
   "theorems": [
    "Tom.Double.C77_any_order",
    "Tom.Double.C77_no_overflow",
    "Tom.Double.C77_dot",
    "Tom.Double.C77_norm2",
    "Tom.Double.C77_mul"
   ],
   "note": "any summation order; matrix product entry by entry"
  },
  {
   "property": "C78",
   "status": "proved",
   "theorems": [
    "Tom.Double.C78_residual",
    "Tom.Double.C78_polynomial"
   ],
   "note": "both methods; enclosure for all functions, closed form for polynomials"
  },
  {
   "property": "C79",
   "status": "proved",
   "theorems": [
    "Tom.Double.C79_det",
    "Tom.Double.C79_inverse"
   ],
   "note": "n! M^n <= 2^53"
  },
  {
   "property": "C80",
   "status": "proved",
   "theorems": [
    "Tom.Double.C80_residual",
    "Tom.Double.C80_finite",
    "Tom.Double.C80_forward",
    "Tom.C80_false_overflow"
   ],
   "note": "Residual, finiteness and forward error of SolveLinear in IEEE doubles for square systems away from singular; the sum in the back substitution may be formed in any order. The size conditions are needed: C80_false_overflow is an invertible system of finite doubles on which an assertion fails."
  },
  {
   "property": "C81",
   "status": "partial",
   "theorems": [
    "Tom.C81_partial",
    "Tom.C81_throws",
    "Tom.C81_false",
    "Tom.C81_false_invalid"
   ],
   "note": "False as documented (C81_false): because EachDivide divides b by b (C39) FindAlpha returns 1, or an invalid number when a component did not change (C81_false_invalid). Proved: what it evaluates and returns when all components decrease or all change (C81_partial), and that exceptions propagate (C81_throws)."
  },
  {
   "property": "C82",
   "status": "partial",
   "theorems": [
    "Tom.Double.C82_partial",
    "Tom.Double.C82_false",
    "Tom.Double.C82_false_signed_zero"
   ],
   "note": "Proved for every expression, table of finite values and libm following annex F at zeros; left out are points where a subexpression a^b with variable exponent is 0^0, where the property is false (C82_false). C82_false_signed_zero: without throwOnInvalidValue the lost sign of zero is visible."
  },
  {
   "property": "C83",
   "status": "partial",
   "theorems": [
    "Tom.C83_clone",
    "Tom.C83_vpa",
    "Tom.C83_vpa_right",
    "Tom.C83_toString",
    "Tom.C83_toString_partial",
    "Tom.C83_false",
    "Tom.C83_reads_partial",
    "Tom.C83_meaning_partial",
    "Tom.C83_false_meaning"
   ],
   "note": "Clone and Vpa proved. ToString: false for prefix signs (C83_false: -x versus (-x)); the same text for all other expressions (C83_toString_partial). The text is read back with the same meaning when no sign has a binary operation as operand (C83_reads_partial); otherwise the meaning is lost (C83_false_meaning: -(x+1) is written (-x+1)). Which exception VpaRecursively throws depends on the order of evaluation."
  },
  {
   "property": "C84",
   "status": "proved",
   "theorems": [
    "Tom.C84_operators",
    "Tom.C84_vpa",
    "Tom.C84_unique",
    "Tom.C84_data",
    "Tom.C84_isInvalid",
    "Tom.C84_toInt",
    "Tom.C84_decimal",
    "Tom.C84_hexadecimal"
   ],
   "note": ""
  },
  {
   "property": "C85",
   "status": "proved",
   "theorems": [
    "Tom.C85",
    "Tom.C85_newton",
    "Tom.C85_lm_blame",
    "Tom.C85_lm",
    "Tom.C85_default",
    "Tom.C85_false_lm"
   ],
   "note": "The conditions on sizes are needed: C80_false_overflow, C72_false_overflow, C85_false_lm (LM, the other settings at their defaults: assertion violated)."
  },
  {
   "property": "C86",
   "status": "proved",
   "theorems": [
    "Tom.C86",
    "Tom.C86_auto",
    "Tom.C86_linear",
    "Tom.C86_more",
    "Tom.C86_silent"
   ],
   "note": "Proved for any arithmetic, any equations, table, configuration and level (the stream format of doubles is a parameter)."
  },
  {
   "property": "C87",
   "status": "partial",
   "theorems": [
    "Tom.C87_newton",
    "Tom.C87_false",
    "Tom.C87_success",
    "Tom.C87_lm",
    "Tom.C87_lastStep",
    "Tom.C87_example"
   ],
   "note": "False as stated: the log of SolveByLM says \"Newton Raphson\" (C87_false). Everything else is proved (C87_newton, C87_lm, C87_success); the number shown by SolveByLM also counts rejected steps."
  },
  {
   "property": "C88",
   "status": "proved",
   "theorems": [
    "Tom.Double.C88_det",
    "Tom.Double.C88_absDet",
    "Tom.Double.C88_det_bounded",
    "Tom.Double.C88_inverse",
    "Tom.Double.C88_zero_not_singular"
   ],
   "note": "general doubles: error bound, finiteness, Inverse; C88_zero_not_singular shows that a zero result does not imply singularity"
  },
  {
   "property": "C89",
   "status": "proved",
   "theorems": [
    "Tom.C89_newton",
    "Tom.C89_lm",
    "Tom.C89",
    "Tom.C89_false_max",
    "Tom.C89_false_negative"
   ],
   "note": "conditions on maxIterations are part of the statement; outside them undefined behaviour is reached: C89_false_max, C89_false_negative"
  },
  {
   "property": "C90",
   "status": "proved",
   "theorems": [
    "Tom.C90_radians",
    "Tom.C90_degrees",
    "Tom.C90_roundtrip",
    "Tom.C90_mono",
    "Tom.C90_half_turn",
    "Tom.C90_false_int"
   ],
   "note": "for int arguments the results are truncated: C90_false_int"
  },
  {
   "property": "C91",
   "status": "proved",
   "theorems": [
    "Tom.C91",
    "Tom.C91_forEach",
    "Tom.C91_false_vars_order"
   ],
   "note": "the order is not that of Vars(): C91_false_vars_order"
  },
  {
   "property": "C92",
   "status": "proved",
   "theorems": [
    "Tom.C92",
    "Tom.C92_reads",
    "Tom.C92_writes",
    "Tom.C92_disjoint"
   ],
   "note": "statements are atomic; that threads access disjoint objects is proved (C92_reads, C92_writes, C92_disjoint); writes to the Config singleton meanwhile are not modelled"
  },
  {
   "property": "C93",
   "status": "proved",
   "theorems": [
    "Tom.C93_toString_double",
    "Tom.C93_parse",
    "Tom.C93_subs",
    "Tom.C93_subsVec",
    "Tom.C93_subsValues",
    "Tom.C93_diff",
    "Tom.C93_diff_first",
    "Tom.C93_diff_attained",
    "Tom.C93_toString"
   ],
   "note": ""
  },
  {
   "property": "C94",
   "status": "proved",
   "theorems": [
    "Tom.C94",
    "Tom.C94_format_matters"
   ],
   "note": "the sign of a NaN is not modelled"
  },
  {
   "property": "C95",
   "status": "partial",
   "theorems": [
    "Tom.C95_partial",
    "Tom.C95_symm",
    "Tom.C95_conditioned"
   ],
   "note": "Over exact reals: proved for symmetric invertible matrices (C95_symm), for matrices whose stretch factors lie in [s,S] with 0.4S+0.0016 <= s (C95_conditioned), and in general under the first-order form of the line-search test (C95_partial). The condition cannot be dropped: the regular crossed system of C73_false_lm (s=1, S about 2.5) runs forever."
  },
  {
   "property": "C96",
   "status": "partial",
   "theorems": [
    "Tom.Double.C96_partial",
    "Tom.Double.C96_integers",
    "Tom.Double.C96_rounded_partial"
   ],
   "note": "C96_rounded_partial (all finite literals, log2, log10 and rounded exponents included) and C96_partial (sharper bound when the rules produce no rounded literal); left out is what is false: exp of another variable (C26_false). C96_integers: exact for integer polynomials."
  },
  {
   "property": "C97",
   "status": "proved",
   "theorems": [
    "Tom.Double.C97_text",
    "Tom.Double.C97_vpa"
   ],
   "note": "for literals of normal size (0 or 2^-1022 to 2^1023) and operations for which C76 has an error bound; C97_vpa for texts without variables"
  },
  {
   "property": "C98",
   "status": "partial",
   "theorems": [
    "Tom.C98_round",
    "Tom.C98_rounds",
    "Tom.C98_end_of_input",
    "Tom.C98_outcomes",
    "Tom.C98_derivative",
    "Tom.C98_false_abort",
    "Tom.C98_false_constant",
    "Tom.C98_false_paren",
    "Tom.C98_false_usage",
    "Tom.C98_uncaught"
   ],
   "note": "What every round prints or does is proved for all inputs (C98_round, C98_rounds, C98_outcomes, C98_derivative). False as stated: at the end of the input it prompts forever (C98_end_of_input); x/0 aborts it (C98_false_abort), a constant violates an assertion (C98_false_constant), a superfluous bracket is undefined behaviour (C98_false_paren), and asin, acos, atan of the usage text are rejected (C98_false_usage)."
  },
  {
   "property": "C99",
   "status": "proved",
   "theorems": [
    "Tom.C99_permissive",
    "Tom.C99_strict",
    "Tom.C99_closed",
    "Tom.C99_guarded"
   ],
   "note": "All draws and any arithmetic; in strict mode exactly the condition under which it throws."
  },
  {
   "property": "C100",
   "status": "proved",
   "theorems": [
    "Tom.C100_vpa_work",
    "Tom.C100_varNames_work",
    "Tom.C100_clone_work",
    "Tom.C100_simplify_work",
    "Tom.C100_simplify_work_bin",
    "Tom.C100_stack"
   ],
   "note": "Exact iteration counts; stack height bound for Vpa and GetAllVarNames. Diff: C29."
  },
  {
   "property": "C101",
   "status": "proved",
   "theorems": [
    "Tom.C101_same",
    "Tom.C101_first",
    "Tom.C101_runtime",
    "Tom.C101_unambiguous",
    "Tom.C101_double"
   ],
   "note": "Every raised MathError of Vpa is characterised by the first failing operation; the text determines operator and operand texts (doubles are printed without blanks)."
  },
  {
   "property": "C102",
   "status": "partial",
   "theorems": [
    "Tom.C102_vpa",
    "Tom.C102_simplify",
    "Tom.C102_diff",
    "Tom.C102_subs",
    "Tom.C102_names",
    "Tom.C102_solve",
    "Tom.C102_auto_partial",
    "Tom.C102_false_auto"
   ],
   "note": "Proved for Vpa, Simplify, Diff, Subs, GetAllVarNames, Solve with a table (both methods). For Solve without a table the property is false of the code (C102_false_auto: an underdetermined system is solved along the alphabetical order of the names); C102_auto_partial proves it for renamings that keep that order."
  },
  {
   "property": "C103",
   "status": "proved",
   "theorems": [
    "Tom.C103_step",
    "Tom.C103_repetitions",
    "Tom.C103_repetitions_first"
   ],
   "note": "Over the real numbers; the start of the iteration is what C73 says (first correction), because of the defect C44_false."
  },
  {
   "property": "C104",
   "status": "proved",
   "theorems": [
    "Tom.C104_real",
    "Tom.Double.C104_double",
    "Tom.Double.C104_polynomial",
    "Tom.Double.C104_no_root"
   ],
   "note": "Real arithmetic (C104_real), doubles (C104_double), polynomials in doubles with any libm (C104_polynomial); C104_no_root shows that the condition is needed."
  },
  {
   "property": "C105",
   "status": "proved",
   "theorems": [
    "Tom.Double.C105_correction",
    "Tom.Double.C105_step",
    "Tom.Double.C105_zero",
    "Tom.Double.C105_first",
    "Tom.Double.C105_firstCorrection",
    "Tom.Double.C105_start"
   ],
   "note": "C105_correction (the computed correction is close to the exact one), C105_step (one round halves the distance up to rounding noise), C105_zero and C105_first (the method returns a point near the root); the hypotheses are met by (x+8)x-1=0 (example in Props/RoundedNewtonCase)"
  },
  {
   "property": "C106",
   "status": "partial",
   "theorems": [
    "Tom.C106_same",
    "Tom.C106_linear",
    "Tom.C106_newton",
    "Tom.C106_lm",
    "Tom.C106_solve",
    "Tom.C106_told",
    "Tom.C106_false",
    "Tom.C106_toVec",
    "Tom.C106_toMat"
   ],
   "note": "C106_same (the models with texts are the models without), C106_linear, C106_newton, C106_lm, C106_solve, C106_told (which texts can occur); the part about the text of indeterminate systems is false of the code: C106_false"
  },
  {
   "property": "C107",
   "status": "partial",
   "theorems": [
    "Tom.C107_partial",
    "Tom.C107_symmetric",
    "Tom.C107_false"
   ],
   "note": "Proved under the condition that Simplify makes no argument of exp a bare variable foreign to the differentiation; false without it (C107_false). Order independence: C107_symmetric."
  },
  {
   "property": "C108",
   "status": "partial",
   "theorems": [
    "Tom.C108_order",
    "Tom.C108_ends",
    "Tom.C108_iff",
    "Tom.C108_false",
    "Tom.C108_repo"
   ],
   "note": "Order, termination and an exact condition for success proved; the condition excludes a file that includes another twice, on which the script fails (C108_false)."
  },
  {
   "property": "C109",
   "status": "partial",
   "theorems": [
    "Tom.C109_file",
    "Tom.C109_unique",
    "Tom.C109_header",
    "Tom.C109_false_inline",
    "Tom.C109_false_macro",
    "Tom.C109_false_conditional",
    "Tom.C109_line_ends"
   ],
   "note": "What becomes of every line is proved (C109_file, C109_header); functions already inline, macros of several lines and conditional macros come out wrong (C109_false_*)."
  },
  {
   "property": "C110",
   "status": "proved",
   "theorems": [
    "Tom.C110_expressions",
    "Tom.C110_linear",
    "Tom.C110_solve",
    "Tom.C110_square",
    "Tom.C110_lm",
    "Tom.C110_initial",
    "Tom.C110_frame",
    "Tom.C110_last",
    "Tom.C110_value",
    "Tom.C110_reset",
    "Tom.C110_initially"
   ],
   "note": "every setting that a function reads is listed, histories of the configuration included"
  },
  {
   "property": "C111",
   "status": "partial",
   "theorems": [
    "Tom.C111_expressions",
    "Tom.C111_linear",
    "Tom.C111_partial",
    "Tom.C111_auto",
    "Tom.C111_false"
   ],
   "note": "holds for all configurations except Levenberg-Marquardt with a negative limit; the negation is C111_false"
  },
  {
   "property": "C112",
   "status": "partial",
   "theorems": [
    "Tom.C112_stable_partial",
    "Tom.C112_settles",
    "Tom.C112_parsed",
    "Tom.C112_meaning",
    "Tom.C112_tree",
    "Tom.C112_false"
   ],
   "note": "Holds for doubles except where a negative literal stands after a sign or minus (C112_false); settled after one reading in every case (C112_settles)."
  },
  {
   "property": "C113",
   "status": "partial",
   "theorems": [
    "Tom.C113_points",
    "Tom.C113",
    "Tom.C113_false_lm"
   ],
   "note": "Holds for Newton-Raphson (C113, C113_points); false for Levenberg-Marquardt (C113_false_lm)."
  },
  {
   "property": "C114",
   "status": "proved",
   "theorems": [
    "Tom.C114_fixed",
    "Tom.C114",
    "Tom.C114_auto",
    "Tom.C114_epsilon"
   ],
   "note": "For every arithmetic; C114_epsilon shows that the same epsilon is needed."
  },
  {
   "property": "C115",
   "status": "partial",
   "theorems": [
    "Tom.C115_chain_partial",
    "Tom.C115_partial",
    "Tom.C115_simplify_partial",
    "Tom.C115_false"
   ],
   "note": "Holds where Diff is right (no exp of a bare variable); false otherwise (C115_false)."
  },
  {
   "property": "C116",
   "status": "proved",
   "theorems": [
    "Tom.C116",
    "Tom.C116_false",
    "Tom.C116_bin",
    "Tom.C116_paren",
    "Tom.C116_sign",
    "Tom.C116_call"
   ],
   "note": "all accepted texts and all surrounding texts; C116_false: without parentheses it fails"
  },
  {
   "property": "C117",
   "status": "proved",
   "theorems": [
    "Tom.C117",
    "Tom.C117_subs",
    "Tom.C117_exists",
    "Tom.C117_false"
   ],
   "note": "texts of the grammar; C117_false: accepted texts outside the grammar"
  },
  {
   "property": "C118",
   "status": "proved",
   "theorems": [
    "Tom.C118"
   ],
   "note": "Real arithmetic; with the default configuration x*x-2=0 from 1 as example."
  },
  {
   "property": "C119",
   "status": "proved",
   "theorems": [
    "Tom.C119_check",
    "Tom.Double.C119",
    "Tom.Double.C119_root"
   ],
   "note": "The exact residual needs the values in the table to be finite; concrete run x-0.1 with the default configuration."
  },
  {
   "property": "C120",
   "status": "proved",
   "theorems": [
    "Tom.C120_values",
    "Tom.C120",
    "Tom.C120_nothing_left",
    "Tom.Double.C120_exact"
   ],
   "note": "all parts proved"
  },
  {
   "property": "C121",
   "status": "proved",
   "theorems": [
    "Tom.C121",
    "Tom.C121_same",
    "Tom.C121_scaled",
    "Tom.C121_added",
    "Tom.C121_units",
    "Tom.C121_false_shift",
    "Tom.C121_false_lm"
   ],
   "note": "all parts proved, including the two negations the property states"
  },
  {
   "property": "C122",
   "status": "proved",
   "theorems": [
    "Tom.C122_settings",
    "Tom.C122",
    "Tom.C122_false"
   ],
   "note": "all parts proved, including the negation the property states"
  },
  {
   "property": "C123",
   "status": "proved",
   "theorems": [
    "Tom.C123",
    "Tom.C123_root",
    "Tom.C123_everywhere",
    "Tom.C123_convex",
    "Tom.C123_one"
   ],
   "note": "Over exact reals; symmetric Jacobians (for others the claim is false, C73_false_lm)."
  },
  {
   "property": "C124",
   "status": "proved",
   "theorems": [
    "Tom.C124",
    "Tom.C124_identities",
    "Tom.C124_det",
    "Tom.C124_det_rules",
    "Tom.C124_solve",
    "Tom.C124_superposition",
    "Tom.C124_order",
    "Tom.C124_symbolic",
    "Tom.C124_symbolic_assoc"
   ],
   "note": "for exact arithmetic; programs of any length, symbolic programs too"
  },
  {
   "property": "C125",
   "status": "partial",
   "theorems": [
    "Tom.C125_partial",
    "Tom.C125_axis_partial",
    "Tom.C125_rules_partial",
    "Tom.C125_false"
   ],
   "note": "false for exp of a bare variable (C125_false), proved for everything else"
  },
  {
   "property": "C126",
   "status": "proved",
   "theorems": [
    "Tom.Double.C126_step",
    "Tom.Double.C126",
    "Tom.Double.C126_solve"
   ],
   "note": "one equation in one unknown; the region, accuracy and conditioning assumed are explicit hypotheses, met by a worked case from a text"
  },
  {
   "property": "C127",
   "status": "partial",
   "theorems": [
    "Tom.Double.C127_partial",
    "Tom.Double.C127_false"
   ],
   "note": "C127_partial: all texts of the grammar with literals of normal size; left out is exp of another variable, for which the property is false (C127_false)"
  },
  {
   "property": "C128",
   "status": "proved",
   "theorems": [
    "Tom.Double.C128_newton",
    "Tom.Double.C128_lm",
    "Tom.Double.C128_lm_system"
   ],
   "note": "C128_newton and C128_lm_system (any number of unknowns), C128_lm (one unknown, weaker conditions); the region, accuracy and conditioning assumed are explicit hypotheses, met by worked cases from texts whose literal is not a double"
  },
  {
   "property": "C129",
   "status": "proved",
   "theorems": [
    "Tom.Double.C129_step",
    "Tom.Double.C129",
    "Tom.Double.C129_solve",
    "Tom.Double.C129_symmetric"
   ],
   "note": "C129_step, C129, C129_solve; the region, accuracy and conditioning assumed are explicit hypotheses, met by a worked case of two equations from texts"
  },
  {
   "property": "C130",
   "status": "proved",
   "theorems": [
    "Tom.Double.C130_text",
    "Tom.Double.C130_again",
    "Tom.Double.C130",
    "Tom.Double.C130_left"
   ],
   "note": "literals between 2e-16 and 1e16; loss of at most 1e-16 below 0.5"
  },
  {
   "property": "C131",
   "status": "proved",
   "theorems": [
    "Tom.Double.C131",
    "Tom.Double.C131_integers"
   ],
   "note": "accuracy of the n-th derivative in doubles when the rules need no rounded constant; exactness for integer polynomials"
  },
  {
   "property": "C132",
   "status": "proved",
   "theorems": [
    "Tom.C132_value",
    "Tom.C132_simplify",
    "Tom.C132_diff",
    "Tom.C132_solve",
    "Tom.C132_solveAuto",
    "Tom.C132_text",
    "Tom.C132_print",
    "Tom.C132_polynomial",
    "Tom.C132_diff_polynomial"
   ],
   "note": "two machines whose cmath agree on the functions used give identical results, bit for bit"
  },
  {
   "property": "C133",
   "status": "proved",
   "theorems": [
    "Tom.Double.C133_newton",
    "Tom.Double.C133",
    "Tom.Double.C133_above",
    "Tom.Double.C133_below",
    "Tom.Double.C133_text",
    "Tom.Double.C133_natural"
   ],
   "note": "Solve of x*x-a with default settings, every double a in [0, 65536], any libm: total, and the square of the answer is within epsilon + 2^-33 of a; C133_above, C133_below give the distance to the root and its sign; C133_text, C133_natural for texts (any spacing; digits of n from 2 to 65536)"
  },
  {
   "property": "C134",
   "status": "proved",
   "theorems": [
    "Tom.Double.C134_no_double",
    "Tom.Double.C134",
    "Tom.Double.C134_text",
    "Tom.Double.C134_default",
    "Tom.Double.C134_throws"
   ],
   "note": "x*x-a for odd powers of two from 2^25 on: no double passes the test, Solve never returns a table"
  },
  {
   "property": "C135",
   "status": "proved",
   "theorems": [
    "Tom.Double.C135_value",
    "Tom.Double.C135",
    "Tom.Double.C135_text"
   ],
   "note": "IEEE doubles, libms with non-negative sqrt, exp and squares; accurate libm shown to be one"
  },
  {
   "property": "C136",
   "status": "proved",
   "theorems": [
    "Tom.Double.C136_newton",
    "Tom.Double.C136_double",
    "Tom.Double.C136",
    "Tom.Double.C136_double_text",
    "Tom.Double.C136_natural",
    "Tom.Double.C136_numeral"
   ],
   "note": "integers up to 2^52 from texts, all doubles up to 2^900 from a parsed text"
  },
  {
   "property": "C137",
   "status": "proved",
   "theorems": [
    "Tom.Double.C137_newton",
    "Tom.Double.C137",
    "Tom.Double.C137_natural"
   ],
   "note": "integers, exact; texts with natural numbers"
  }
 ]
}