# Design: a Lean 4 model of tomsolver

## What is modelled, and how

`/repo/src/tomsolver` is modelled function by function under `lean/Verif/Model`; every
definition cites file and lines. Specifications (independent of the model's helpers) are in
`lean/Verif/Spec`, lemmas in `lean/Verif/Lemmas`, property theorems in `lean/Verif/Props`
(theorem names begin with the id of the property; `_partial` = weaker than the property, `_false` = a proved
counterexample to the property as stated; unnamed `example`s beside the theorems show that the hypotheses are met).

* **Outcomes.** `Res β = ok | throw Exc | ub | terminate | assertFail | diverge`. Undefined behaviour (pop of
  an empty stack, null dereference, `% 0`, out-of-range cast) is a distinct outcome, as are
  `std::terminate` (exception leaving a `noexcept` function) and a violated `assert`.
* **Doubles.** `class Dbl α`: the operations the code applies to `double`, with *no laws*. Structural
  theorems hold for every instance, hence for IEEE arithmetic whatever the libm does. Numerical/analytic
  theorems are about ideal instances `XNum ℝ`, `XNum ℚ` (`fin x` or `bad` = inf/nan), or about every `Exact α K`, and say so.
  `Spec/Underflow` adds the one fact about IEEE that matters for termination (repeated halving reaches a number that no
  longer changes a sum).
* **IEEE.** `Model/Ieee` defines binary64 (nan, infinities, signed zeros, non-zero numbers as exact rationals; rounding to nearest, ties to
  even, on exact rationals), `Model/Double` makes it an instance `Double L` of `Dbl` for an arbitrary libm `L` (nothing is assumed
  of sin, exp, pow, ...). `Lemmas/Ieee` proves the rounding is monotone, nearest, exact on doubles, with the usual error bounds. The
  definitions were compared with hardware doubles on 50000 random operations without a difference (`tools/ieee_check.lean.txt`; a
  test of the model, no part of any proof).
* **The library's own tests.** The deterministic assertions of `/repo/tests/*.cpp` (282 of them: parsing, printing, differentiation,
  simplification, matrices, linear and nonlinear systems) were run on the model with `Double` and the libm of the machine; all hold
  (`tools/conformance.lean.txt`; again a test of the model, no part of any proof).
* **Header-only version.** `single/include/tomsolver/tomsolver.h` contains the same functions (compared as text, apart from formatting).
* **Trees.** `Raw α` = `unique_ptr<NodeImpl>` (`nil` = nullptr, fields type/op/value/varname/left/right).
  `Expr α` is the well-formed mathematical tree of the specifications; `embed : Expr α → Raw α`.
* **Objects.** `Model/Links` and `Model/Session` model the same functions a second time on objects with addresses and
  parent pointers; C52 proves that this run and the tree run agree, which justifies the tree model. `Model/Destroy` models
  the destructors on such objects.
* **Loops.** `while` loops with explicit stacks/queues are modelled with the same stack/queue contents and a fuel
  argument; running out of fuel is the outcome `diverge`, and the theorems prove it never happens with the fuel
  supplied. Where the code itself may run for ever (Armijo, LM) the fuel is a parameter and termination is a theorem (C43, C53, C60).
  In-place mutation through references/pointers is modelled by paths into the root tree.
* **Strings** are `List Char`.
* **Config.** The static singleton is a parameter of each function that reads it.

## Which part of the code is modelled

| file | modelled in | not modelled |
|----|----|----|
| config.h/.cpp | Model/Basic (`Config`), Model/Format (`ToString(double)`), Model/Logging (`LogLevel`), Model/Settings (all members, assignments, `Reset`) | thread safety of the singleton |
| error_type.h/.cpp | Model/Messages | |
| math_operator.h/.cpp | Model/Ops, Model/Angles | `IsIntAndEven` (declared, never defined); `radians`/`degrees` with reference types |
| node.h/.cpp | Model/Node, Model/Tree, Model/Recursive, Model/Links, Model/Session, Model/Destroy | `operator<<` (writes what `ToString` returns) |
| functions.h | Model/Session, Model/Node | |
| parse.h/.cpp | Model/Parse, Model/Messages | locale of `std::stod` (the "C" locale is assumed) |
| subs, simplify, diff | Model/SubsSimplifyDiff (trees), Model/Links (objects) | |
| mat.h/.cpp | Model/Mat | `operator<<` (writes what `ToString` returns) |
| symmat.h/.cpp | Model/SymMat, Model/SymVec | |
| vars_table.h/.cpp | Model/VarsTable, Model/TableIter | |
| linear.h/.cpp | Model/Mat (`SolveLinear`, pivot search) | |
| nonlinear.h/.cpp | Model/Nonlinear, Model/Logging (the log), Model/SolveMessages (the texts of exceptions) | how a stream formats a `double` (a parameter); the message `FindAlpha` writes |
| scripts/util.py, combine_src_to_header_only.py | Model/Combine | `clang-format`, encodings, messages; combine_tests_to_single.py |

Simplifications: a NaN has no sign and no payload (so the text `-nan` some C libraries print is not modelled); integers do not overflow (indices; for the counters `it` of the solver loops this is C89, Model/Counters); memory allocation succeeds; a
`std::valarray` expression kept in `auto vec` (linear.cpp) is its value; `std::map` is a sorted association list;
`snprintf("%.16f")` is the correctly rounded decimal of the exact value of the double; `std::stod` is correctly rounded.

## Plan per property

| id | modelled / proof method |
|----|----|
| C01 | lexer + shunting-yard + tree builder on token lists; grammar as an inductive relation; induction over derivations with a generalised stack |
| C02 | exact characterisation of the UB inputs; negation by witnesses `(1))`, blank string; `_partial`: no UB when parentheses are balanced and some operand exists |
| C03 | negation by witness `+`; `_partial`: characterises the throwing stage |
| C04, C05 | lexer invariant: positions, partition of the non-blank characters |
| C06 | negations (asin, 1e+16); `_partial` for the printable fragment, via C01 |
| C07 | negation by an FNV-1a collision; `_partial`: every name outside the collision set |
| C08 | regex spelled out; iff theorem |
| C09 | invariant of the tree builder |
| C10–C16 | loop invariants over stacks; `Dbl`-generic |
| C17–C19 | path-based in-place substitution = structural substitution; induction |
| C20 | objects with explicit operand categories; aliasing is UB (negation) |
| C21 | real semantics; negation 0^x at 0; `_partial` away from it |
| C22–C25 | post-order loop = recursive simplifier; induction |
| C26–C31 | BFS work-list = recursive derivative; `HasDerivAt` over Mathlib reals; negation exp(x) wrt y; C30 at zeros of power bases through a lax evaluation where 0·(undefined) counts as 0 (Lemmas/RealDiffZero) |
| C32 | list generation |
| C33–C41 | flat row-major model, translation to `Matrix (Fin m) (Fin n) K` |
| C42–C45, C48, C49 | loop invariants, generic in `Dbl`; C44_real over the reals; C43_ieee_* : the underflow laws proved of binary64 |
| C46, C47, C54 | invariant over operation histories |
| C50 | entrywise |
| C51 | exact rational model of `printf("%.16f")` + regex |
| C52 | objects with addresses and parent pointers; simulation of every program of API calls |
| C53, C60 | loop invariant |
| C55 | integer model of the casts |
| C56 | negation (`1 2 +`) |
| C57 | fold over entries |
| C58 | invariant of the LM loops: every accepted point has a smaller sum of squares |
| C59 | case analysis of `Solve` |
| C61 | run of the elimination for small epsilon: by induction on columns |
| C62 | independent printer `Spec/Printing` with the parenthesis rules; loop = recursion |
| C63, C64, C66 | folds = max/min/sum over `Fin`; argmax characterisation |
| C65 | entrywise |
| C67 | destruction of object graphs; multiset of freed addresses; nesting counter |
| C68, C69 | the message texts as functions of the error; position arithmetic |
| C70 | evaluation over the reals (C12, C17, C26, C32) + C61: two Newton rounds |
| C71 | relation between accepted points, induction over both loops; negation by a system with one rejected step |
| C72 | exact reals: every number met stays finite (evaluation, Diff, Simplify, SolveLinear), induction over the loops; negation for LM on non-square systems and for NaN with throwOnInvalidValue off |
| C73 | exact reals: the equations are C¹ near the root (induction on expressions), Newton and LM steps are compared with those of the linearised system (perturbation bounds, compactness of the sphere), induction on the rounds; negations: Newton goes on from the first correction (parabola), LM's line search uses Jᵀd (a linear system where it never ends) |
| C74 | binary64 data with exact rational values; correctly rounded reading (`stod`) against the 16 decimals written; gap between neighbouring doubles |
| C75 | exact rational evaluation with a representability check at each node; induction |
| C76 | enclosure (value, error bound) by propagation rules in Spec/Rounding over the reals (for every function and for powers with inexact base and exponent, away from the edge of the domain); induction, mean value theorem; closed form for polynomials; accuracy of libm is a hypothesis, met by a (noncomputable) correctly rounding libm |
| C77 | `SomeOrder` (any order and grouping of a sum) in Spec/DoubleSum; induction over it with the growth lemmas of C76; the model's `sumV` is parametric in the order (`Arith.sumOrder`; Lemmas/SumOrder), so every theorem holds for every implementation of `valarray::sum` |
| C78 | C42 (what `Solve` returns passes the test with epsilon) combined with C76 |
| C79 | induction over the size: all intermediate integers of the cofactor expansion stay within `n! M^n`; Matrix.det and adjugate of Mathlib as specification |
| C80 | backward error analysis of the elimination with partial pivoting: induction over the steps bounds every residual by the residuals of the triangular system plus the rounding errors; a column without usable pivot yields a vector that the matrix does not stretch, so none occurs; back substitution by C77; statement over exact rationals (`Spec/DoubleLinear`) |
| C81 | `findAlpha` unfolded over exact vectors: two evaluations, then b/b = 1 (C39) ends the loop; negation by the affine function v - 3 |
| C82 | induction on the expression as for C21, with finite doubles (`Double.Is`) in place of reals: `x+0`, `x*1`, `x/1` are exact in binary64, the other rewrites produce an exact 0; false at 0^0 and, without `throwOnInvalidValue`, where the sign of zero becomes visible |
| C83 | Model/Recursive; Clone by C10, Vpa by C12 and case analysis on the order of evaluation, ToString by induction against a text with bracketed signs; equal to ToString without prefix signs, false for `-x`; the text is read back as for C06 when no sign has a binary operation as its operand (C83_reads_partial, grammar derivations as for C06), and means something else otherwise: `-(x+1)` is written `(-x+1)` (C83_false_meaning) |
| C84 | IEEE 754's encoding, rounding and operations stated in Spec/Binary64 without reference to the computation in Model/Ieee (`decode`, `NearestEven`, `IeeeAdd`…); the model's data are shown to be the encodable ones, its rounding the standard's, its operations to satisfy the relations (`IEEE_*` in Props/Binary64); this also validates Model/Ieee, on which C74–C82 rest |
| C85 | induction over the elimination loop: rows still to be eliminated stay finite and grow by at most 2.000… per step, so the pivot search is never given a NaN; the loops of the solvers by induction, first for any arithmetic (`C85_lm_blame`: only SolveLinear can fail), then with the bound; visited points and linear systems specified in Spec/Moderate; negations by evaluation (`C80_false_overflow`, `C72_false_overflow`, `C85_false_lm`) |
| C86 | the solvers once more with the text they write (Model/Logging); the outcome is that of the model without a log, by induction over the loops; relation "same outcome, less text" between levels |
| C87 | the text at INFO written out as a list of iterations, by induction; negation: LM's log says "Newton Raphson" |
| C88 | induction over the size with the standard model of rounding; a bound for one product (exact factor times cofactor) and one for the running sum |
| C89 | Model/Counters: the loops with a 32-bit counter whose increment is undefined at INT_MAX; equal to the loops without bound by induction; negations: x*x*x-2*x+2 from 0 cycles for 2^31 steps, LM with a negative limit on the equation 1 |
| C90 | Model/Angles; two roundings each (standard model of rounding, with an absolute term for underflow), Mathlib's bounds for pi against the literal PI; negation for `int` arguments. `radians`/`degrees` called with an lvalue instantiate `T` as a reference type and do not compile or dangle: not modelled |
| C91 | Model/TableIter: iteration over `std::map` is over the sorted association list; invariants of C46 |
| C92 | Spec/Schedule over the statements of Model/Session: the erased environment of a statement depends only on its own variables (C52); induction over the schedule. Props/ThreadObjects: two runs of a statement from states that hold the same objects in its variables make the same objects (`Framed`), and by C52 no object is shared. Interleavings inside a statement are not modelled (by this, the objects two threads access in such a case are disjoint); writes to the Config singleton between statements are C122 |
| C93 | size, height, number of occurrences in Spec/Size; Parse by C56 (the tokens are the symbols of the tree), Subs by C18, Diff by induction over the recursive derivative (size at most 4nh, height at most 4h per pass) and C25; the family x*(x*(...*x)) for the lower bound |
| C94 | Model/Buffer: `ToString(double)` with `snprintf` cutting off at 63 characters; bounds for the digits and the exponent of a binary64 number |
| C95 | Props/AffineLM: an accepted step of `SolveByLM` on an affine system is a linear contraction of the distance to the root; the condition under which the `Armijo` test accepts the full step is derived for symmetric and for well-conditioned matrices |
| C96 | Props/DoubleDiff: the derivative by rules (Spec/Derivative) commutes with reading doubles as reals, C26 says its real value is the derivative, C76 bounds the evaluation error, C82 says simplification does not change the result. Props/DoubleDiffAll: the same when the rules write rounded literals (`log(2)`, `c-1`): `ruleEnclosure` of the derivative over the reals gives every literal its rounding error |
| C97 | Spec/TextValue, Props/TextValue: the derivation of the text in the grammar over exact reals is carried over to doubles token by token (literals rounded), then C01 and induction as for C76 |
| C98 | Model/DiffMachine (one round of examples/diff_machine/main.cpp on a list of words, output events), Spec/DiffMachine (what a round does), Props/DiffMachine: case analysis with C01, C11, C26; derivative over the reals from C27; negations with concrete inputs |
| C99 | Model/RandomTree (tests/helper.cpp with the draws as a list), Props/RandomTree: induction on the counted rounds with C12 |
| C100 | Props/Work: the number of iterations the loops of the model need, as an equivalence (`diverge` iff fewer are allowed), by induction on the allowed number with the sizes on the stack as measure; the invariant that an entry is at most as high as the expression less the entries below it |
| C101 | evaluation once more with the exception texts (`Model/EvalMessages`), equal to `vpa` after forgetting them; parts of an expression in order of evaluation; the first part without a value decides; texts split at blanks |
| C102 | renaming of expressions, matrices and tables (`Spec/Rename`); every function is run in parallel on both sides (`SameEnd`); false for `Solve` without a table when the renaming changes the alphabetical order of the names (`C102_false_auto`), true when it keeps it |
| C103 | smooth equations denote twice continuously differentiable maps (`Lemmas/LocalSmooth`); second-order expansion by the mean value inequality; the elimination that drops entries below epsilon only costs a term `epsilon * distance`, which is absorbed because a point that is not accepted has a residual of at least epsilon; induction over the loop |
| C104 | `Spec/NearRoot` (well conditioned, one root near); the system is approximately linear on the ball (mean value inequality), so it maps the ball onto a ball around its value (surjectivity from Mathlib, complete spaces) and is injective; residuals from C42 and C78; counterexample without the condition (`C104_no_root`) |
| C105 | `Spec/RoundedNewton` (a region around the root where the equations are smooth, well conditioned and evaluated with small errors; room against overflow); one step: evaluation errors (C76), derivative errors (C96), the backward error of the linear solver (C80), rounding of the update, compared with the exact Newton step by the mean value theorem: the distance to the root halves up to the noise; induction on the rounds; worked cases `(x+8)x-1=0` from zero and the text `(x+20)*x-20` with every setting at its default (initial value 1) |
| C106 | `Model/SolveMessages`: the solvers once more, with texts; equal to the models without them when the text is forgotten; the set of possible texts (`Spec/SolverTexts`) by induction over the loops, with the shapes of the matrices (JᵀJ + μI is square); negation for the text of indeterminate systems, on `2x+4y+6z=8` |
| C107 | `Spec/MixedPartial` (mixed partial derivatives as iterated HasDerivAt near a point); induction over the list of variables with C29/C30's local correctness; symmetry by Mathlib's symmetry of second derivatives on the function of two variables, then induction over permutations; negation on `exp(1*x)` |
| C108 | `Model/Combine` (scripts/util.py); invariant of the passes: what is left has its dependencies minus those written (`List.diff`), what is written had all dependencies written; completeness from a minimal element of a finite acyclic relation; negation: twice the same include; the repository's own graph evaluated |
| C109 | `Spec/Combine`: the kinds of lines described with existential quantifiers; the matchers of `Model/Combine` are equivalent to them; induction over lines and files; three negations |
| C110 | `Model/Settings`: the members of `Config`, assignments and `Reset` as statements; `*_cfg` lemmas: two configurations that agree on the members read give the same function; histories by induction over the list of statements |
| C111 | `Spec/Settings`: `Looser`; a relation `Res.Le` (a normal result stays) preserved by every construct, induction over the fuel of the loops (more fuel for a higher limit); negation: Levenberg-Marquardt with limit -1 raised to 0 |
| C112 | Spec/PrintStable (`SignsApart`), Lemmas/PrintStable: every regrouping step that reading makes keeps the text in every context (induction over `Regroups`); the literals of a parsed tree are not negative (C56, IEEE rounding of numerals); negation: `x-(-3)` |
| C113 | Spec/NewtonPoints (the points of Newton's method, in the mathematics of real numbers), Props/NewtonOrder: induction over the rounds with C61 (the elimination finds the unique solution, one epsilon for all rounds) and uniqueness of partial derivatives; permuted systems have the same points; negation for LM from C73_false_lm and C95_symm |
| C114 | Props/Resolve: the residual test is the first statement of both loops, `Satisfies` (C42) and the Jacobian depend only on epsilon and throwOnInvalidValue (C110); any arithmetic |
| C115 | Props/ChainRule: the value of a substituted expression is the value at the substituted point, smoothness is inherited (induction); an expression denotes a differentiable function of its variables (C107), so Mathlib's chain rule applies along the curve of the images; uniqueness of partial derivatives with C26; negation: `exp(y)` |
| C116 | Props/Compose: a token sequence that converts to a postfix sequence on its own converts to the same one between parentheses, whatever is on the stack (induction over the tokens: no pop passes the opening parenthesis); the lexer depends on what was read before only through one flag; so the run is a function of the tree of the part; negation without parentheses |
| C117 | Spec/Replace: relation between a text and the text with names replaced; Props/Compose: division into pieces is deterministic, blocks with equal conversion can be exchanged (C116), every tree has a grammar text, the grammar is closed under replacing variables by parenthesised expressions; C18 for Subs; negation: `-x sin` |
| C118 | Spec/ConvexNewton: the class of equations, the sequence of points as the library computes it; Props/ConvexNewton: tangents lie below, value times slope shrinks by 4 each step, SolveLinear on 1x1, `newton_points_run` of C113 |
| C119 | Model/Examples: the program examples/solve/main.cpp for any texts; Spec/TextSolve: `Writes`; Props/TextSolve: C09 (Parse gives complete trees), C65 (SymVec), C42/C48 (what Solve guarantees), C97 (error of reading and evaluating), C104 (`root_near`) |
| C120 | Model/Examples: `solveWith`, the program examples/solve2/main.cpp for any texts and known quantities; Props/KnownSolve: C17/C18/C50 (substitution of values), C42/C48 (what Solve guarantees), C97 (error of reading and evaluating); also C46 for the constructors from a map and from a list |
| C121 | Spec/Rewrite: `RunsAlong`, `scaled`, `rowAdded`, `inUnits`; Props/NewtonRewrite: the Jacobian of `B F(C u)` is `B J C` (chain rule on `sysFun`, C104), so the Newton points correspond; then C113_points; negations by `decide +kernel` and C73_false_lm/C95_symm |
| C122 | Model/SharedConfig: Node statements and assignments to the one configuration in any order; Props/SharedConfig: `Stmt.step` reads only throwOnInvalidValue of the configuration (C110 for the model with addresses), then C92; negation by `decide +kernel` |
| C123 | model of `SolveByLM` over exact reals (Model/Nonlinear). Spec/Everywhere: the map and the Jacobians of a system that is smooth everywhere, level sets. Compactness of the level set gives constants (stretch factors, modulus of continuity of the Jacobian); Lemmas/GlobalLM: with a symmetric Jacobian the direction (solution of a matrix within epsilon of the damped normal matrix, C36) passes the test of the line search after boundedly many halvings, and every accepted step shrinks the sum of squares by a constant factor; induction over the outer loop. Corollaries: existence of a root, maps that do not contract, strongly convex functions, one unknown |
| C124 | Formulas of matrix algebra are an inductive type indexed by the sizes, with a meaning in Mathlib's matrices and a run in the library model (`Spec/MatProgram.lean`); induction over the formula from C33-C35, C50, C61. |
| C125 | Uniqueness of mixed and higher partial derivatives, applied to C30 and C107; false for `exp` of a bare variable (`C125_false`), so partial. |
| C126 | `Spec/RoundedLM` (constants); the region of C105 for one unknown; closed forms of the 1x1 matrix operations; every rounding of the normal equation, the direction, the line search and the update bounded relative to the value of the equation (which is at least epsilon while the method runs), then real estimates: the full step passes both tests and quarters the distance; induction on the rounds; a worked case from the text `(x+8)*x-10` with the default initial value |
| C127 | `Spec/TextDeriv` (the written-out derivative of the formula over the reals with error bounds that include reading the text's literals); the derivative trees of the formula and of the tree read have the same shape, with literals that differ by at most the literal error; then as C96; false for `exp` of another variable |
| C128 | `Spec/WrittenSolve` (the region of C105, for the equations as they are written); the trees read have the shape of the written expressions; values bounded as in C97, derivatives as in C127; the convergence proofs of C105 and C126 are stated for any way of computing values and derivatives of a real system with bounded errors (`ComputedRegion`) and are used again; for the Levenberg-Marquardt method in one unknown with the constants of C126, in `n` unknowns with those of C129; worked cases: the text `(x+20)*x-20.1` with every setting at its default, and with the Levenberg-Marquardt method; the texts `(x+29)*x+y-31.9` and `(y+29)*y+x-31.9` with the Levenberg-Marquardt method |
| C129 | `Spec/SystemLM` (constants, the factor for the line search, which tests with the transposed Jacobian); the region of C105; rounding errors of the normal equations, the elimination (C85), the line search and the update bounded relative to the norm of the values, which is at least epsilon while the method runs; the damped direction is the Newton direction up to a small part; full step accepted, distance quartered; induction on the rounds; a worked case from the texts `(x+30)*x+y-33` and `(y+30)*y+x-33` |
| C130 | `Spec/Reread` (literals that may move by 1e-16, the enclosure with that error in the literals); a literal prints as the text of the double nearest to its sixteen decimals, which reads back (C74); the rounded tree is printed and read as in C06; rounding of literals and regrouping commute; the enclosure of C76/C97 with errors in the literals; second round trip from C112; case `x*c` with the literal of `0.1+0.2` |
| C131 | `Spec/HigherDiff` (rules that need no rounded constant n times); Diff of order n is Simplify of the n-fold written-out derivative (C13 layer); n-fold correctness over the reals by induction; literals of the n-fold derivative stay doubles; enclosure of C76 of the n-fold derivative, Simplify by C82; integers by C75; cases: second derivative of sin within 2^-49, of (x*x)*x at 3 exactly 18 |
| C132 | `Spec/Platform` (two libms that agree on some functions; expressions, and expressions with their derivatives, that use only those); the operations of the two machines as two instances of `Dbl` on the same numbers; every step of Vpa, Simplify, Diff, Jacobian, evaluation, Newton, LM, Parse and ToString is the same for both, by induction; order of adding assumed equal for the solvers (Norm2 uses valarray::sum) |
| C133 | `Spec/SquareRoot` (the expression `v*v-a`); Lemmas/SquareRoot: one rounded Newton step is Heron's step with an error bound; from the second step on the residual is divided by almost four (50/13) in every step, so that at most 83 are needed; the sign comes from the first step, which starts the corrections at 0 (finding: by default `Solve("x*x-0.25")` answers about -0.5 from initial value 1) |
| C134 | the same expression; Props/NoSquare: the two doubles next to √2 (scaled by 2^m) have rounded squares at least 3·2^(2m)/2^55 away from 2^(2m+1), all others are farther away by monotonicity of rounding, so the test `f(y) == 0` fails at every double; with C42 no table is ever returned (finding: `Solve("x*x-33554432")` throws by default, because epsilon is absolute) |
| C135 | `Spec/Side` (expressions that are visibly at least q, or at most -q; what every libm guarantees about signs); values by induction on the expression with monotone rounding, a finite result having finite operands; Solve by C42 |
| C136 | `Spec/Shift` (the expressions `v-a`, `v+a` and their texts); Lemmas/Shift: the Jacobian is the literal 1, two Newton steps; with integers every operation is exact; with any doubles by Sterbenz' lemma (proved here: the difference of two doubles not larger than either is a double) and monotone rounding; the texts by the grammar of C01 |
| C137 | `Spec/Affine` (the expressions `k*v-a`, `k*v+a` and their texts); Lemmas/Affine: the Jacobian is the literal k*1±0 folded by Simplify; every operation of the two Newton steps is exact on integers up to 2^53; texts by the grammar of C01 |

## Where the code disagrees with the property a user relies on

Each is a theorem with a concrete witness (suffix `_false`, or named below).

* Parse: undefined behaviour for `(1))`, blank text, `()` (C02); MathError instead of ParseError (C03); FNV-1a collisions and
  `inf`/`nan` (C07); accepts `1 2 +` (C56); the error message of an unreadable word misplaces the mark, and for empty input the
  arguments are exchanged (C68).
* ToString: `arcsin` etc. are printed under names Parse does not know; numbers from 1e16 on; digits beyond the 16th decimal (C06, C51).
* Vpa: a literal inf/nan leaf is not reported (C14). `n += n`, `std::move(a) + a` (C20).
* Simplify: `0^x` at 0 (C21); `1/0` terminates the process (C24). Diff: `exp(x)` with respect to `y` (C26, C31), terminate (C28);
  `Diff("(1-1)^2", "x", 3)` terminates (C30).
* Mat: EachDivide computes b/b (C39). GetMaxAbsRowIndex with a NaN first entry returns an index past the end (Props/MatMisc). A ragged
  initializer list is undefined behaviour (C65_ragged).
* SolveLinear: singular systems answered with a vector, INFINITY_SOLUTIONS for an inconsistent system, wide unsolvable systems (C36–C38).
* Newton: the first step starts from zero (C44); Jacobian terminates on `%` (C45, C49); runtime_error at the limit (C43).
* LM: endless line search on nan (also with throwOnInvalidValue on: equation `x` at inf), negative maxIterations = no limit (C43); stale Jacobian after a rejected step (C71).
  In exact arithmetic the Armijo loop may run for ever (C53 says exactly when); in an arithmetic with underflow it ends over finite values.

## Remaining gaps (not falsity of the code)

* C43 (LM): for IEEE doubles, in a configuration that rejects inf and nan, unconditional up to a syntactic condition on where the variables
  occur (`Pinned` in Spec/Visible, C43_ieee_pinned_solve_partial; without it false, C43_false_bare); in other configurations conditional on finite
  values, the general claim being false.
* Analytic theorems (C21, C26, C30, C44, C70–C73) are about exact real arithmetic; in IEEE doubles rounding errors are bounded for evaluation (C75, C76), matrix operations (C77), the residual of Solve (C78), SolveLinear (C80) and derivatives (C96); convergence in doubles is proved for Newton's method near well-conditioned roots (C105), and for Levenberg-Marquardt for one equation in one unknown (C126). The functions of libm have no model; their accuracy is a hypothesis where needed (`Libm.Within`).

## Trusted base

Lean 4.33.0 kernel; axioms `propext`, `Classical.choice`, `Quot.sound` only (no others occur in any property theorem). Model/Ieee (binary64) is not trusted for
C84: it is proved to meet IEEE 754 as stated in Spec/Binary64. The reading of the C++ is by hand; the tables above list what is not modelled.
