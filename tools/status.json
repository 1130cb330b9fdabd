{
"C08": [
"proved",
""
],
"C10": [
"proved",
""
],
"C11": [
"proved",
""
],
"C12": [
"proved",
""
],
"C13": [
"proved",
""
],
"C14": [
"partial",
"False for a literal inf/nan leaf (C14_false); proved for expressions whose root is an operator or whose literals are valid."
],
"C15": [
"proved",
""
],
"C16": [
"proved",
""
],
"C17": [
"proved",
""
],
"C18": [
"proved",
""
],
"C19": [
"proved",
""
],
"C22": [
"proved",
""
],
"C23": [
"proved",
""
],
"C24": [
"partial",
"False as stated (C24_false: 1/0 calls std::terminate). All outcomes characterised; normal return proved with throwOnInvalidValue off, and in any configuration for expressions that have a real value at some point (C21_C24_partial)."
],
"C25": [
"proved",
""
],
"C27": [
"proved",
""
],
"C28": [
"partial",
"False as stated (C28_false_pow, C28_false_const). Proved with throwOnInvalidValue off, and in any configuration for expressions smooth at some point."
],
"C29": [
"proved",
""
],
"C30": [
"partial",
"n passes then one simplification (C30_passes); the n-th partial derivative at every point where the expression is smooth, zeros of power bases and of the arguments of arcsin/arccos/arctan included (C30_smooth). What is excluded is false of the code: exp of a bare foreign variable, and expressions nowhere smooth enough such as (1-1)^2 with n=3, where Diff terminates (C30_false)."
],
"C31": [
"partial",
"False as stated for exp of a bare variable (C31_false); proved for all other expressions, for every order."
],
"C55": [
"proved",
""
],
"C21": [
"partial",
"False as stated (C21_false: 0^x at x=0). Proved at every other point where the expression has a value."
],
"C26": [
"partial",
"False as stated (C26_false: exp of a bare foreign variable). Proved for all other expressions at every point where the differentiation rules apply (explicit predicate Smooth)."
],
"C01": [
"proved",
"all derivations, all layouts; the grammar is proved unambiguous"
],
"C02": [
"partial",
"false as stated: `(1))`, blank text and `()` are undefined behaviour (C02_false_*); C02_partial characterises the undefined behaviour exactly"
],
"C03": [
"partial",
"false as stated: some inputs give MathError (C03_false); C03_partial: nothing else is thrown"
],
"C04": [
"proved",
""
],
"C05": [
"proved",
""
],
"C07": [
"partial",
"false as stated: hash collisions and inf/nan (C07_false_*); C07_partial proves it for all other identifiers"
],
"C09": [
"proved",
""
],
"C56": [
"partial",
"false as stated: misplaced operators are accepted (C56_false); C56_shaped_partial: for texts whose tokens are in sensible places Parse accepts exactly the grammar, with its tree; C56_partial: what acceptance means for every text"
],
"C33": [
"proved",
"entrywise operations for any arithmetic; products and sums for exact arithmetic"
],
"C34": [
"proved",
"exact arithmetic"
],
"C35": [
"proved",
"exact arithmetic"
],
"C39": [
"partial",
"false as stated: the code computes b/b (C39_false); C39_partial says what it computes"
],
"C40": [
"proved",
""
],
"C41": [
"proved",
"exact real arithmetic (Sylvester)"
],
"C46": [
"proved",
""
],
"C47": [
"proved",
""
],
"C54": [
"proved",
""
],
"C32": [
"proved",
"for column vectors of equations (SymVec)"
],
"C50": [
"proved",
"evaluation of products for exact arithmetic"
],
"C57": [
"proved",
""
],
"C42": [
"proved",
"Both methods and both overloads; C42_real states it for the real functions the equations denote."
],
"C43": [
"partial",
"Newton-Raphson ends within maxIterations+3 evaluations (C43_newton). False as documented: the limit throws runtime_error, not MathError (C43_false). False for LM: an invalid value under throwOnInvalidValue=false makes the line search endless (C43_false_nan), so does the equation `x` started at inf although throwOnInvalidValue is on (C43_false_bare), and a negative maxIterations removes the limit (C43_false_negative). What holds in IEEE binary64 (modelled bit-exactly, any libm): in a configuration that rejects inf/nan (the default) with maxIterations >= 0, both methods end from every start, wherever the run leads, if literals are finite and the equations are not blind to a variable (C43_ieee_pinned_solve_partial, C43_ieee_pinned_solveAuto_partial; `Pinned` in Spec/Visible); in any configuration every line search over finite values ends within 1076 halvings (C43_ieee_line_search)."
],
"C44": [
"partial",
"False as stated (C44_false): the first step starts from the zero vector instead of the initial values. Proved: all later steps are Newton steps, and all steps if the initial values are zero; C44_real, C44_real_regular: what a step is over the reals (the matrix of partial derivatives up to epsilon)."
],
"C45": [
"partial",
"False as stated for equations that cannot be differentiated (C45_false); proved for all others, and for Solve without a table."
],
"C48": [
"proved",
""
],
"C49": [
"partial",
"False as stated (C49_false): equations with % terminate the process because Jacobian is noexcept. Proved: no termination if the equations can be differentiated."
],
"C53": [
"proved",
"Exact arithmetic; complete characterisation including non-termination."
],
"C58": [
"proved",
""
],
"C59": [
"proved",
""
],
"C60": [
"proved",
""
],
"C36": [
"partial",
"False as stated: C36_false exhibits a solvable singular system answered silently with a non-solution. Proved: what is returned solves a system within epsilon, or such a system is singular (C36_partial); matrices not within epsilon of a singular one are always solved, with a residual bound (C36_nonsingular); exact for small epsilon (C36_C38_exact)."
],
"C37": [
"partial",
"False as stated (C37_false). Proved: over-determined systems always throw (C37_tall, any arithmetic); wide systems: the outcomes and what they imply (C37_wide_partial, C37_wide_exact), and the full claim for systems that stay solvable under changes below epsilon (C37_wide)."
],
"C38": [
"partial",
"False as stated (C38_false: INFINITY_SOLUTIONS for an inconsistent system; a singular system answered with a vector). Proved: soundness of the exceptions up to epsilon (C38_partial) and exactly for small epsilon (C36_C38_exact)."
],
"C61": [
"proved",
"The bound depends on A only."
],
"C62": [
"proved",
""
],
"C51": [
"proved",
"exact rational value of the double; snprintf assumed correctly rounded; C51_nearest_false: below 0.5 the text does not determine the double"
],
"C06": [
"partial",
"false for arcsin/arccos/arctan, literals outside (1e-16,1e16) and literals with more than 16 decimals (C06_false_*); otherwise proved up to left regrouping of sums and products, which preserves the real function and its domain"
],
"C20": [
"partial",
"Proved on objects with addresses and parent pointers for every operand tree and every combination of lvalue and rvalue operands, incl. compound assignment with another variable: the result, the variables afterwards (same objects; null if moved from) and that nothing is shared. The clause about n += n is false of the code: C20_false_self proves it is undefined behaviour for every n (the operand is dereferenced after it was moved from), and so is std::move(a)+a (C20_false_moved)."
],
"C52": [
"proved",
"In every state a program of Num, Var, Parse, Clone, move, overloads, Subs, Simplify, Diff statements can reach (any length, exceptions caught around statements), every variable is null or a correctly linked root accepted by CheckParent; the objects-and-pointers run agrees with the expression-level meaning (C52_meaning), which justifies the parentless model used elsewhere."
],
"C63": [
"proved",
"Exact arithmetic, all sizes."
],
"C64": [
"proved",
"Exact arithmetic, all sizes."
],
"C65": [
"proved",
"Any arithmetic, all sizes; a ragged initializer list is undefined behaviour (C65_ragged)."
],
"C66": [
"proved",
"Exact arithmetic. (With a NaN as first entry the code returns an index past the end: see DESIGN.)"
],
"C67": [
"proved",
"objects with addresses, any tree; nesting at most two"
],
"C68": [
"partial",
"False as stated (C68_false): for an unreadable word only the word is shown, with the mark as far right as in the text; for empty input the arguments are exchanged. Proved for unmatched parentheses and leftover tokens; the exact text is given for unreadable words."
],
"C69": [
"proved",
""
],
"C70": [
"proved",
"Over the reals; the bound on epsilon depends on the matrix only."
],
"C71": [
"partial",
"The steps are proved (C71_partial; over exact reals C71_real: the direction exists and solves a matrix within epsilon of the damped normal matrix; C71_real_descent: it is a descent direction; C71_real_move). False as stated: after a rejected step the Jacobian is that of the rejected point (C71_false)."
],
"C72": [
"partial",
"Newton-Raphson: proved for every shape over exact reals with throwOnInvalidValue on (the default); LM: for square systems (returns, throws or runs on). False as stated: LM violates an assertion whenever the numbers of equations and unknowns differ (C72_false_lm), with throwOnInvalidValue off a NaN in the Jacobian violates one (C72_false_nan), and in IEEE doubles with the default configuration an overflow inside SolveLinear does (C72_false_overflow)."
],
"C73": [
"partial",
"Over exact reals. Newton: near a regular root every step contracts by any factor (C73_contraction); if the first correction (C73_partial) or the initial values zero (C73_zero) are close to the root it is found. LM: found from all initial values close to it if the line search passes to first order (C73_lm_partial), in particular when the Jacobian at the root is symmetric, e.g. one unknown (C73_lm_symm), or well-conditioned (C73_lm_conditioned). False as stated: Newton started next to the root 2 of x^2-4 only ever returns negative numbers (C73_false); LM runs forever on a regular linear system (C73_false_lm). The repository's own example examples/set_initial_values, started at (5,-5) next to the solution (4,-3), is given (-4,3) (C73_false_example)."
],
"C74": [
"proved",
"binary64 modelled bit-exactly; snprintf and stod assumed correctly rounded"
],
"C75": [
"proved",
"IEEE binary64, any libm"
],
"C76": [
"proved",
"accuracy of libm functions and pow is a hypothesis (Libm.Within), shown satisfiable; relative accuracy is impossible (C76_relative_false)"
],
"C77": [
"proved",
"any summation order; matrix product entry by entry"
],
"C78": [
"proved",
"both methods; enclosure for all functions, closed form for polynomials"
],
"C79": [
"proved",
"n! M^n <= 2^53"
],
"C80": [
"proved",
"Residual, finiteness and forward error of SolveLinear in IEEE doubles for square systems away from singular; the sum in the back substitution may be formed in any order. The size conditions are needed: C80_false_overflow is an invertible system of finite doubles on which an assertion fails."
],
"C81": [
"partial",
"False as documented (C81_false): because EachDivide divides b by b (C39) FindAlpha returns 1, or an invalid number when a component did not change (C81_false_invalid). Proved: what it evaluates and returns when all components decrease or all change (C81_partial), and that exceptions propagate (C81_throws)."
],
"C82": [
"partial",
"Proved for every expression, table of finite values and libm following annex F at zeros; left out are points where a subexpression a^b with variable exponent is 0^0, where the property is false (C82_false). C82_false_signed_zero: without throwOnInvalidValue the lost sign of zero is visible."
],
"C83": [
"partial",
"Clone and Vpa proved. ToString: false for prefix signs (C83_false: -x versus (-x)); the same text for all other expressions (C83_toString_partial). The text is read back with the same meaning when no sign has a binary operation as operand (C83_reads_partial); otherwise the meaning is lost (C83_false_meaning: -(x+1) is written (-x+1)). Which exception VpaRecursively throws depends on the order of evaluation."
],
"C84": [
"proved",
""
],
"C85": [
"proved",
"The conditions on sizes are needed: C80_false_overflow, C72_false_overflow, C85_false_lm (LM, the other settings at their defaults: assertion violated)."
],
"C86": [
"proved",
"Proved for any arithmetic, any equations, table, configuration and level (the stream format of doubles is a parameter)."
],
"C87": [
"partial",
"False as stated: the log of SolveByLM says \"Newton Raphson\" (C87_false). Everything else is proved (C87_newton, C87_lm, C87_success); the number shown by SolveByLM also counts rejected steps."
],
"C88": [
"proved",
"general doubles: error bound, finiteness, Inverse; C88_zero_not_singular shows that a zero result does not imply singularity"
],
"C89": [
"proved",
"conditions on maxIterations are part of the statement; outside them undefined behaviour is reached: C89_false_max, C89_false_negative"
],
"C90": [
"proved",
"for int arguments the results are truncated: C90_false_int"
],
"C91": [
"proved",
"the order is not that of Vars(): C91_false_vars_order"
],
"C92": [
"proved",
"statements are atomic; that threads access disjoint objects is proved (C92_reads, C92_writes, C92_disjoint); writes to the Config singleton meanwhile are not modelled"
],
"C93": [
"proved",
""
],
"C94": [
"proved",
"the sign of a NaN is not modelled"
],
"C95": [
"partial",
"Over exact reals: proved for symmetric invertible matrices (C95_symm), for matrices whose stretch factors lie in [s,S] with 0.4S+0.0016 <= s (C95_conditioned), and in general under the first-order form of the line-search test (C95_partial). The condition cannot be dropped: the regular crossed system of C73_false_lm (s=1, S about 2.5) runs forever."
],
"C96": [
"partial",
"C96_rounded_partial (all finite literals, log2, log10 and rounded exponents included) and C96_partial (sharper bound when the rules produce no rounded literal); left out is what is false: exp of another variable (C26_false). C96_integers: exact for integer polynomials."
],
"C97": [
"proved",
"for literals of normal size (0 or 2^-1022 to 2^1023) and operations for which C76 has an error bound; C97_vpa for texts without variables"
],
"C98": [
"partial",
"What every round prints or does is proved for all inputs (C98_round, C98_rounds, C98_outcomes, C98_derivative). False as stated: at the end of the input it prompts forever (C98_end_of_input); x/0 aborts it (C98_false_abort), a constant violates an assertion (C98_false_constant), a superfluous bracket is undefined behaviour (C98_false_paren), and asin, acos, atan of the usage text are rejected (C98_false_usage)."
],
"C99": [
"proved",
"All draws and any arithmetic; in strict mode exactly the condition under which it throws."
],
"C100": [
"proved",
"Exact iteration counts; stack height bound for Vpa and GetAllVarNames. Diff: C29."
],
"C101": [
"proved",
"Every raised MathError of Vpa is characterised by the first failing operation; the text determines operator and operand texts (doubles are printed without blanks)."
],
"C102": [
"partial",
"Proved for Vpa, Simplify, Diff, Subs, GetAllVarNames, Solve with a table (both methods). For Solve without a table the property is false of the code (C102_false_auto: an underdetermined system is solved along the alphabetical order of the names); C102_auto_partial proves it for renamings that keep that order."
],
"C103": [
"proved",
"Over the real numbers; the start of the iteration is what C73 says (first correction), because of the defect C44_false."
],
"C104": [
"proved",
"Real arithmetic (C104_real), doubles (C104_double), polynomials in doubles with any libm (C104_polynomial); C104_no_root shows that the condition is needed."
],
"C105": [
"proved",
"C105_correction (the computed correction is close to the exact one), C105_step (one round halves the distance up to rounding noise), C105_zero and C105_first (the method returns a point near the root); the hypotheses are met by (x+8)x-1=0 (example in Props/RoundedNewtonCase)"
],
"C106": [
"partial",
"C106_same (the models with texts are the models without), C106_linear, C106_newton, C106_lm, C106_solve, C106_told (which texts can occur); the part about the text of indeterminate systems is false of the code: C106_false"
],
"C107": [
"partial",
"Proved under the condition that Simplify makes no argument of exp a bare variable foreign to the differentiation; false without it (C107_false). Order independence: C107_symmetric."
],
"C108": [
"partial",
"Order, termination and an exact condition for success proved; the condition excludes a file that includes another twice, on which the script fails (C108_false)."
],
"C109": [
"partial",
"What becomes of every line is proved (C109_file, C109_header); functions already inline, macros of several lines and conditional macros come out wrong (C109_false_*)."
],
"C110": [
"proved",
"every setting that a function reads is listed, histories of the configuration included"
],
"C111": [
"partial",
"holds for all configurations except Levenberg-Marquardt with a negative limit; the negation is C111_false"
],
"C112": [
"partial",
"Holds for doubles except where a negative literal stands after a sign or minus (C112_false); settled after one reading in every case (C112_settles)."
],
"C113": [
"partial",
"Holds for Newton-Raphson (C113, C113_points); false for Levenberg-Marquardt (C113_false_lm)."
],
"C114": [
"proved",
"For every arithmetic; C114_epsilon shows that the same epsilon is needed."
],
"C115": [
"partial",
"Holds where Diff is right (no exp of a bare variable); false otherwise (C115_false)."
],
"C116": [
"proved",
"all accepted texts and all surrounding texts; C116_false: without parentheses it fails"
],
"C117": [
"proved",
"texts of the grammar; C117_false: accepted texts outside the grammar"
],
"C118": [
"proved",
"Real arithmetic; with the default configuration x*x-2=0 from 1 as example."
],
"C119": [
"proved",
"The exact residual needs the values in the table to be finite; concrete run x-0.1 with the default configuration."
],
"C120": [
"proved",
"all parts proved"
],
"C121": [
"proved",
"all parts proved, including the two negations the property states"
],
"C122": [
"proved",
"all parts proved, including the negation the property states"
],
"C123": [
"proved",
"Over exact reals; symmetric Jacobians (for others the claim is false, C73_false_lm)."
],
"C124": [
"proved",
"for exact arithmetic; programs of any length, symbolic programs too"
],
"C125": [
"partial",
"false for exp of a bare variable (C125_false), proved for everything else"
],
"C126": [
"proved",
"one equation in one unknown; the region, accuracy and conditioning assumed are explicit hypotheses, met by a worked case from a text"
],
"C127": [
"partial",
"C127_partial: all texts of the grammar with literals of normal size; left out is exp of another variable, for which the property is false (C127_false)"
],
"C128": [
"proved",
"C128_newton and C128_lm_system (any number of unknowns), C128_lm (one unknown, weaker conditions); the region, accuracy and conditioning assumed are explicit hypotheses, met by worked cases from texts whose literal is not a double"
],
"C129": [
"proved",
"C129_step, C129, C129_solve; the region, accuracy and conditioning assumed are explicit hypotheses, met by a worked case of two equations from texts"
],
"C130": [
"proved",
"literals between 2e-16 and 1e16; loss of at most 1e-16 below 0.5"
],
"C131": [
"proved",
"accuracy of the n-th derivative in doubles when the rules need no rounded constant; exactness for integer polynomials"
],
"C132": [
"proved",
"two machines whose cmath agree on the functions used give identical results, bit for bit"
],
"C133": [
"proved",
"Solve of x*x-a with default settings, every double a in [0, 65536], any libm: total, and the square of the answer is within epsilon + 2^-33 of a; C133_above, C133_below give the distance to the root and its sign; C133_text, C133_natural for texts (any spacing; digits of n from 2 to 65536)"
],
"C134": [
"proved",
"x*x-a for odd powers of two from 2^25 on: no double passes the test, Solve never returns a table"
],
"C135": [
"proved",
"IEEE doubles, libms with non-negative sqrt, exp and squares; accurate libm shown to be one"
],
"C136": [
"proved",
"integers up to 2^52 from texts, all doubles up to 2^900 from a parsed text"
],
"C137": [
"proved",
"integers, exact; texts with natural numbers"
]
}