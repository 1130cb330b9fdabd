{"id": "C01", "title": "Parse implements the infix grammar", "statement": "For every token sequence that is derivable in the documented infix grammar (left-associative + - * / & | %, right-associative ^, prefix signs binding tighter than every binary operator, function application name(e), parentheses) and every way of writing it with whitespace between tokens, Parse returns exactly the tree the grammar assigns to it. (Variable names whose 64-bit FNV-1a hash equals that of a function name are excluded: see C07.)", "quantifier": "all derivations of the grammar, any depth, and all whitespace layouts", "why_tests_cant": "the set of expressions is infinite and the shunting-yard state depends on the whole prefix", "anchors": ["src/tomsolver/parse.cpp: Parse, ParseToTokens, InOrderToPostOrder, BuildExpressionTree", "src/tomsolver/math_operator.cpp: Rank, IsLeft2Right"]}
{"id": "C02", "title": "Parse has defined behaviour on every input string", "statement": "For every input string, Parse either returns a tree or throws; it never executes undefined behaviour (pop of an empty container).", "quantifier": "all strings", "why_tests_cant": "needs every string, including malformed parenthesisation", "anchors": ["src/tomsolver/parse.cpp: InOrderToPostOrder, BuildExpressionTree"]}
{"id": "C03", "title": "Parse failures are ParseError", "statement": "Whenever Parse throws, the exception is a ParseError, as the header documents.", "quantifier": "all strings", "why_tests_cant": "needs every malformed string", "anchors": ["src/tomsolver/parse.h: Parse", "src/tomsolver/parse.cpp: BuildExpressionTree"]}
{"id": "C04", "title": "Whitespace and token boundaries do not matter beyond separation", "statement": "Inserting or removing whitespace around operators, and replacing whitespace by other whitespace, does not change the token sequence; the tokens found partition the non-blank characters of the input in order, each with its exact starting column.", "quantifier": "all strings", "why_tests_cant": "all layouts of all strings", "anchors": ["src/tomsolver/parse.cpp: ParseToTokens"]}
{"id": "C05", "title": "Parse error positions", "statement": "When Parse throws a SingleParseError, its column is the start of the token that is an illegal name, or of an unmatched parenthesis (0 for the empty string), and every column of a MultiParseError is the start of a token.", "quantifier": "all strings", "why_tests_cant": "needs every malformed string", "anchors": ["src/tomsolver/parse.cpp: ParseToTokens, InOrderToPostOrder, BuildExpressionTree", "src/tomsolver/parse.h: SingleParseError::GetPos"]}
{"id": "C06", "title": "ToString followed by Parse preserves the expression", "statement": "For every expression tree, Parse(ToString(e)) succeeds and denotes the same function as e.", "quantifier": "all expression trees", "why_tests_cant": "trees are unbounded; parenthesisation depends on parent/child combinations at every depth", "anchors": ["src/tomsolver/node.cpp: NodeImpl::ToStringNonRecursively", "src/tomsolver/parse.cpp: Parse", "src/tomsolver/config.cpp: ToString"]}
{"id": "C07", "title": "Exactly the documented function names are functions", "statement": "Parse treats a word as a function if and only if it is one of sin cos tan arcsin arccos arctan sqrt log log2 log10 exp; any other legal identifier is a variable.", "quantifier": "all identifiers", "why_tests_cant": "infinitely many identifiers; recognition is by a 64-bit hash", "anchors": ["src/tomsolver/parse.cpp: fnv1a, Str2Function"]}
{"id": "C08", "title": "Variable names", "statement": "Var(name) and VarNameIsLegal accept a name if and only if it is non-empty, made of ASCII letters, digits and underscores, and does not begin with a digit; otherwise Var throws runtime_error and creates nothing.", "quantifier": "all strings", "why_tests_cant": "infinitely many strings", "anchors": ["src/tomsolver/node.cpp: VarNameIsLegal, Var"]}
{"id": "C09", "title": "Parse returns a complete tree", "statement": "Every tree returned by Parse is well formed: each unary node has exactly one child, each binary node exactly two, leaves none, and no parenthesis nodes remain; so every later operation on it is defined.", "quantifier": "all strings accepted by Parse", "why_tests_cant": "all accepted strings", "anchors": ["src/tomsolver/parse.cpp: BuildExpressionTree", "src/tomsolver/node.cpp: CheckOperatorNum"]}
{"id": "C10", "title": "Clone is a deep copy", "statement": "Clone(e) is a new tree structurally equal to e and terminates for every tree.", "quantifier": "all trees", "why_tests_cant": "unbounded depth, explicit work-list loop", "anchors": ["src/tomsolver/node.cpp: CloneNonRecursively"]}
{"id": "C11", "title": "Equal decides structural equality", "statement": "a->Equal(b) terminates and returns true exactly when the two trees have the same shape, operators, variable names and (IEEE ==) equal numbers.", "quantifier": "all pairs of trees", "why_tests_cant": "unbounded pairs of trees", "anchors": ["src/tomsolver/node.cpp: NodeImpl::Equal"]}
{"id": "C12", "title": "Vpa is recursive evaluation", "statement": "For every tree, Vpa computes exactly the value obtained by evaluating the children and applying the operator's C++ function, left operand first, throwing what that evaluation throws.", "quantifier": "all trees, all floating-point semantics", "why_tests_cant": "unbounded depth; the code uses an explicit stack and a post-order list", "anchors": ["src/tomsolver/node.cpp: VpaNonRecursively", "src/tomsolver/math_operator.cpp: Calc"]}
{"id": "C13", "title": "Vpa on expressions with variables", "statement": "If a tree contains a variable, Vpa never returns a number; if it contains none, Vpa never throws a plain runtime_error (only MathError INVALID_NUMBER).", "quantifier": "all trees", "why_tests_cant": "all trees", "anchors": ["src/tomsolver/node.cpp: VpaNonRecursively"]}
{"id": "C14", "title": "Invalid values are reported", "statement": "With throwOnInvalidValue set (the default), Vpa never returns inf, -inf or nan.", "quantifier": "all trees, all evaluation histories", "why_tests_cant": "all trees", "anchors": ["src/tomsolver/math_operator.cpp: Calc", "src/tomsolver/node.cpp: VpaNonRecursively", "src/tomsolver/config.h: Config::throwOnInvalidValue"]}
{"id": "C15", "title": "Calc is all-or-nothing", "statement": "NodeImpl::Calc either replaces the whole expression by a single number equal to Vpa, or throws and leaves the expression exactly as it was.", "quantifier": "all trees", "why_tests_cant": "every point at which evaluation can throw", "anchors": ["src/tomsolver/node.cpp: NodeImpl::Calc"]}
{"id": "C16", "title": "GetAllVarNames is exact", "statement": "GetAllVarNames returns, sorted and without duplicates, exactly the names of the variables occurring in the expression.", "quantifier": "all trees", "why_tests_cant": "unbounded trees", "anchors": ["src/tomsolver/node.cpp: GetAllVarNames"]}
{"id": "C17", "title": "Subs agrees with evaluation", "statement": "Evaluating Subs(e, {x_i -> r_i}) gives the same outcome as evaluating e in the environment where each x_i has the value of r_i.", "quantifier": "all trees, all dictionaries", "why_tests_cant": "all trees and dictionaries", "anchors": ["src/tomsolver/subs.cpp: SubsInner, Subs"]}
{"id": "C18", "title": "Subs is simultaneous and complete", "statement": "Subs replaces every occurrence of every mapped variable by a copy of its image, in one simultaneous step: images are not substituted again, everything else is unchanged, and the result does not depend on the order of the dictionary.", "quantifier": "all trees, all dictionaries", "why_tests_cant": "all trees and dictionaries, including images that mention mapped variables", "anchors": ["src/tomsolver/subs.cpp: SubsInner"]}
{"id": "C19", "title": "Variables after Subs", "statement": "The variables of Subs(e, d) are exactly the unmapped variables of e together with the variables of the images of the mapped variables that occur in e.", "quantifier": "all trees, all dictionaries", "why_tests_cant": "all trees and dictionaries", "anchors": ["src/tomsolver/subs.cpp: SubsInner", "src/tomsolver/node.cpp: GetAllVarNames"]}
{"id": "C20", "title": "Operator overloads build the expression and respect their operands", "statement": "a+b, -a, sin(a), a+=b, ... build exactly the operator node over copies (lvalue operands) or the moved operands (rvalue operands); lvalue operands are unchanged, and n += n behaves like n = n + n.", "quantifier": "all operand trees and all value-category combinations", "why_tests_cant": "all trees and aliasing patterns", "anchors": ["src/tomsolver/node.h: UnaryOperator, BinaryOperator, operator+=", "src/tomsolver/node.cpp: CopyOrMoveTo", "src/tomsolver/functions.h"]}
{"id": "C21", "title": "Simplify preserves value", "statement": "For every expression and every assignment at which the expression has a value over the reals, the simplified expression has the same value.", "quantifier": "all trees, all assignments", "why_tests_cant": "all trees and real assignments", "anchors": ["src/tomsolver/simplify.cpp: SimplifySingleNode, SimplifyWholeNode"]}
{"id": "C22", "title": "Simplify is idempotent", "statement": "Simplifying an already simplified expression changes nothing.", "quantifier": "all trees", "why_tests_cant": "unbounded trees", "anchors": ["src/tomsolver/simplify.cpp"]}
{"id": "C23", "title": "Simplify folds constants completely", "statement": "A variable-free expression whose evaluation succeeds is simplified to the single number Vpa returns; in any simplified expression no operator has only numeric operands.", "quantifier": "all trees", "why_tests_cant": "unbounded trees", "anchors": ["src/tomsolver/simplify.cpp"]}
{"id": "C24", "title": "Simplify never aborts the process", "statement": "Simplify (declared noexcept) terminates normally on every well-formed expression.", "quantifier": "all trees", "why_tests_cant": "every expression, including ones whose constant subterms are invalid", "anchors": ["src/tomsolver/simplify.cpp: SimplifySingleNode noexcept", "src/tomsolver/math_operator.cpp: Calc"]}
{"id": "C25", "title": "Simplify never grows an expression", "statement": "Simplify introduces no variables and never increases the number of nodes.", "quantifier": "all trees", "why_tests_cant": "unbounded trees", "anchors": ["src/tomsolver/simplify.cpp"]}
{"id": "C26", "title": "Diff is the partial derivative", "statement": "For every expression without & | % and every point where the expression is differentiable in the sense of its own derivative formula, the value of Diff(e, x) at that point is the partial derivative of e with respect to x.", "quantifier": "all trees, all variables, all real points", "why_tests_cant": "all trees; analytic statement over a continuum", "anchors": ["src/tomsolver/diff.cpp: DiffOnce, DiffOnceOperator, Diff"]}
{"id": "C27", "title": "Diff rejects exactly the non-differentiable operators", "statement": "Diff throws runtime_error if and only if the expression contains & or | or %.", "quantifier": "all trees, all variables, all orders >= 1", "why_tests_cant": "operators may hide at any depth, inside any other operator", "anchors": ["src/tomsolver/diff.cpp: DiffOnceOperator"]}
{"id": "C28", "title": "Diff never aborts the process", "statement": "For every expression without & | %, Diff returns normally.", "quantifier": "all trees", "why_tests_cant": "all trees; derivative trees contain new constant subexpressions which Simplify folds", "anchors": ["src/tomsolver/diff.cpp: Diff", "src/tomsolver/simplify.cpp: Simplify noexcept"]}
{"id": "C29", "title": "Diff terminates and introduces no variables", "statement": "The work-list loop of Diff terminates on every tree and the result contains only variables of the input.", "quantifier": "all trees", "why_tests_cant": "the work list grows during the loop; termination needs a measure", "anchors": ["src/tomsolver/diff.cpp: DiffOnce"]}
{"id": "C30", "title": "Higher-order Diff", "statement": "Diff(e, x, n) denotes the n-th derivative: it equals n applications of the single differentiation step followed by one simplification.", "quantifier": "all trees, all n >= 1", "why_tests_cant": "unbounded n", "anchors": ["src/tomsolver/diff.cpp: Diff"]}
{"id": "C31", "title": "Diff with respect to an absent variable", "statement": "If x does not occur in e, the value of Diff(e, x) is 0 wherever e is defined.", "quantifier": "all trees, all variables not in them", "why_tests_cant": "all trees", "anchors": ["src/tomsolver/diff.cpp"]}
{"id": "C32", "title": "Jacobian entries", "statement": "Jacobian(f, vars) has one row per equation and one column per variable and its (i,j) entry is Diff(f_i, vars_j).", "quantifier": "all equation vectors and variable lists", "why_tests_cant": "all sizes", "anchors": ["src/tomsolver/symmat.cpp: Jacobian"]}
{"id": "C33", "title": "Matrix arithmetic", "statement": "Mat +, -, unary -, scaling, product, transpose, identity and dot product compute the entries mathematics prescribes, for all compatible dimensions.", "quantifier": "all matrices of all sizes", "why_tests_cant": "all sizes; flat row-major indexing", "anchors": ["src/tomsolver/mat.cpp"]}
{"id": "C34", "title": "Det is the determinant", "statement": "Det(A, n) is the determinant of the leading n-by-n block of A for every n >= 1.", "quantifier": "all matrices, all n", "why_tests_cant": "all sizes; recursive cofactor expansion through four gslice copies", "anchors": ["src/tomsolver/mat.cpp: Det, GetCofactor"]}
{"id": "C35", "title": "Inverse", "statement": "If A.Inverse() returns B then A*B = B*A = I, and it throws SINGULAR_MATRIX exactly when |det A| <= epsilon.", "quantifier": "all square matrices", "why_tests_cant": "all sizes", "anchors": ["src/tomsolver/mat.cpp: Inverse, Adjoint"]}
{"id": "C36", "title": "SolveLinear returns a solution", "statement": "If SolveLinear(A, b) returns x for a square A then A*x = b (up to the tolerance the code uses for pivots).", "quantifier": "all square systems", "why_tests_cant": "all sizes and pivoting histories", "anchors": ["src/tomsolver/linear.cpp: SolveLinear"]}
{"id": "C37", "title": "SolveLinear on non-square systems", "statement": "More rows than columns always throws OVER_DETERMINED_EQUATIONS; fewer rows than columns throws INDETERMINATE_EQUATION unless allowIndeterminateEquation, in which case the result is a particular solution of A*x = b of the right dimension.", "quantifier": "all non-square systems", "why_tests_cant": "all sizes and rank profiles", "anchors": ["src/tomsolver/linear.cpp: SolveLinear", "src/tomsolver/config.h: allowIndeterminateEquation"]}
{"id": "C38", "title": "SolveLinear classifies singular systems", "statement": "For a square singular A, SolveLinear throws INFINITY_SOLUTIONS when A*x = b is solvable and SINGULAR_MATRIX when it is not.", "quantifier": "all singular square systems", "why_tests_cant": "all sizes and rank profiles", "anchors": ["src/tomsolver/linear.cpp: SolveLinear"]}
{"id": "C39", "title": "EachDivide divides element by element", "statement": "EachDivide(a, b) has entries a_ij / b_ij.", "quantifier": "all pairs of equal-shaped matrices", "why_tests_cant": "all sizes", "anchors": ["src/tomsolver/mat.cpp: EachDivide"]}
{"id": "C40", "title": "SwapRow, SwapCol and Resize", "statement": "SwapRow/SwapCol exchange exactly the two rows/columns and are involutions; Resize keeps the overlapping block and fills the rest with zero.", "quantifier": "all matrices, indices and new sizes", "why_tests_cant": "all sizes", "anchors": ["src/tomsolver/mat.cpp: SwapRow, SwapCol, Resize"]}
{"id": "C41", "title": "PositiveDetermine decides positive definiteness", "statement": "For a symmetric matrix, PositiveDetermine returns true exactly when the matrix is positive definite.", "quantifier": "all symmetric matrices", "why_tests_cant": "all sizes", "anchors": ["src/tomsolver/mat.cpp: PositiveDetermine"]}
{"id": "C42", "title": "A returned solution satisfies the equations", "statement": "Whenever Solve (Newton-Raphson or LM) returns a table, every equation evaluated at that table is a number of absolute value below epsilon.", "quantifier": "all systems, initial tables, configurations", "why_tests_cant": "all systems and all iteration histories", "anchors": ["src/tomsolver/nonlinear.cpp: SolveByNewtonRaphson, SolveByLM"]}
{"id": "C43", "title": "Iteration limit", "statement": "The solvers perform a number of iterations bounded by maxIterations and then throw; the header promises MathError.", "quantifier": "all systems, all configurations", "why_tests_cant": "all iteration histories", "anchors": ["src/tomsolver/nonlinear.cpp", "src/tomsolver/nonlinear.h: Solve", "src/tomsolver/config.h: maxIterations"]}
{"id": "C44", "title": "Newton-Raphson performs Newton steps", "statement": "Each iteration replaces the current point x by x + d with J(x) d = -f(x).", "quantifier": "all systems, all iterations", "why_tests_cant": "all iteration histories", "anchors": ["src/tomsolver/nonlinear.cpp: SolveByNewtonRaphson"]}
{"id": "C45", "title": "Initial values are used", "statement": "If the initial table already satisfies the equations, Solve returns it unchanged; Solve without a table starts every variable of the system at Config::initialValue.", "quantifier": "all systems and tables", "why_tests_cant": "all systems", "anchors": ["src/tomsolver/nonlinear.cpp"]}
{"id": "C46", "title": "VarsTable stays coherent", "statement": "After construction and any sequence of SetValues, looking up Vars()[i] gives Values()[i], names are unique and VarNums() is their number.", "quantifier": "all histories of operations", "why_tests_cant": "all histories", "anchors": ["src/tomsolver/vars_table.cpp"]}
{"id": "C47", "title": "VarsTable lookups", "statement": "operator[] returns the value last set for a known variable and throws out_of_range for an unknown one; Has is true exactly for known variables; no lookup changes the table.", "quantifier": "all tables and names", "why_tests_cant": "all histories", "anchors": ["src/tomsolver/vars_table.cpp: operator[], Has"]}
{"id": "C48", "title": "Solve keeps the variable set", "statement": "The table returned by Solve has exactly the variables of the initial table, in the same order (for Solve(equations): exactly the variables of the equations).", "quantifier": "all systems", "why_tests_cant": "all iteration histories", "anchors": ["src/tomsolver/nonlinear.cpp: Solve"]}
{"id": "C49", "title": "Solve aborts only where documented", "statement": "On equations containing & | %, Solve reports an exception rather than aborting the process.", "quantifier": "all systems", "why_tests_cant": "all systems", "anchors": ["src/tomsolver/nonlinear.cpp", "src/tomsolver/symmat.cpp: Jacobian noexcept"]}
{"id": "C50", "title": "SymMat operations are entrywise/matrix algebra", "statement": "SymMat -, *, Clone, Subs, Calc, ToMat and == act on entries as their names say; evaluating a symbolic product gives the product of the evaluated matrices; incompatible products throw SIZE_NOT_MATCH.", "quantifier": "all symbolic matrices", "why_tests_cant": "all sizes", "anchors": ["src/tomsolver/symmat.cpp"]}
{"id": "C51", "title": "Number formatting is accurate", "statement": "For every finite double v in the fixed-point range, the text ToString(v) is the decimal numeral of a number within 0.5e-16 of v, has no trailing zeros after the point, and reads back as that number; zero prints as 0.", "quantifier": "all finite doubles in (1e-16, 1e16)", "why_tests_cant": "2^64 values", "anchors": ["src/tomsolver/config.cpp: ToString"]}
{"id": "C52", "title": "Parent links stay correct", "statement": "After Parse, Clone, the operator overloads, Subs, Simplify and Diff, every child's parent pointer designates the node that owns it and the root has none (what CheckParent asserts).", "quantifier": "all trees, all operations", "why_tests_cant": "ToString and Simplify navigate through these links; every mutation history matters", "anchors": ["src/tomsolver/node.cpp: CheckParent, CopyOrMoveTo, CloneNonRecursively", "src/tomsolver/diff.cpp", "src/tomsolver/simplify.cpp", "src/tomsolver/subs.cpp"]}
{"id": "C53", "title": "Armijo result", "statement": "If Armijo returns alpha then alpha = 2^-k for some k, the descent test holds at alpha and fails at every larger power of two tried.", "quantifier": "all functions, points, directions", "why_tests_cant": "all functions; unbounded search", "anchors": ["src/tomsolver/nonlinear.cpp: Armijo"]}
{"id": "C54", "title": "VarsTable equality", "statement": "VarsTable == is reflexive and symmetric on tables of finite values; being tolerance based it is not transitive.", "quantifier": "all tables", "why_tests_cant": "all tables", "anchors": ["src/tomsolver/vars_table.cpp: operator=="]}
{"id": "C55", "title": "Integer operators", "statement": "For operands whose truncation fits in int, & | % evaluate to the two's-complement and, or and C remainder of the truncated operands, except that a zero right operand of % is undefined behaviour in the code.", "quantifier": "all doubles", "why_tests_cant": "2^128 operand pairs", "anchors": ["src/tomsolver/math_operator.cpp: Calc"]}
{"id": "C56", "title": "Parse accepts only expressions of the grammar", "statement": "If Parse returns a tree then the input is a derivation of the grammar.", "quantifier": "all strings", "why_tests_cant": "all strings", "anchors": ["src/tomsolver/parse.cpp"]}
{"id": "C57", "title": "Matrix and table printing layout", "statement": "Mat::ToString writes every entry exactly once in row-major order, comma-separated within rows, one row per line, bracketed.", "quantifier": "all matrices", "why_tests_cant": "all sizes", "anchors": ["src/tomsolver/mat.cpp: Mat::ToString", "src/tomsolver/symmat.cpp: SymMat::ToString", "src/tomsolver/vars_table.cpp: ToString"]}
{"id": "C58", "title": "LM decreases the residual", "statement": "Along the accepted steps of the Levenberg-Marquardt solver the sum of squares of the equations strictly decreases, so the returned point is never worse than the initial one.", "quantifier": "all systems, tables, configurations, iteration histories", "why_tests_cant": "all iteration histories", "anchors": ["src/tomsolver/nonlinear.cpp: SolveByLM"]}
{"id": "C59", "title": "Solve dispatches on the configured method", "statement": "Solve(equations, table) is SolveByNewtonRaphson for NEWTON_RAPHSON, SolveByLM for LM, and throws runtime_error for every other value of Config::nonlinearMethod.", "quantifier": "all systems, tables, configurations", "why_tests_cant": "all systems and enum values", "anchors": ["src/tomsolver/nonlinear.cpp: Solve"]}
{"id": "C60", "title": "FindAlpha ends", "statement": "FindAlpha returns after at most 102 rounds whenever the function it is given returns, whatever values it computes.", "quantifier": "all functions, points, directions, tolerances", "why_tests_cant": "all functions", "anchors": ["src/tomsolver/nonlinear.cpp: FindAlpha"]}
{"id": "C61", "title": "SolveLinear solves invertible systems", "statement": "For every invertible square matrix A and every b there is a bound such that with any Config epsilon below it SolveLinear(A, b) returns the unique x with A*x = b (exact arithmetic), whatever row exchanges are needed.", "quantifier": "all sizes, all invertible matrices, all right-hand sides, all sufficiently small tolerances", "why_tests_cant": "all sizes and pivoting histories", "anchors": ["src/tomsolver/linear.cpp: SolveLinear"]}
{"id": "C62", "title": "ToString writes infix text with the documented parentheses", "statement": "For every expression tree ToString returns (never throws, loops or reads invalid memory) the infix text of the tree, in which an operand is parenthesised exactly if it binds looser than its parent operator, or equally tight where the parent is neither + nor * and it is the right operand or a power, or is a negative literal to the right of a minus.", "quantifier": "all expression trees", "why_tests_cant": "trees are unbounded; the explicit stack and the parent links of the non-recursive printer must stay consistent at every depth", "anchors": ["src/tomsolver/node.cpp: NodeImpl::ToStringNonRecursively, NodeImpl::ToStringRecursively"]}
{"id": "C63", "title": "Matrix norms and minimum", "statement": "NormInfinity is the largest and NormNegInfinity the smallest absolute value of an entry, Min the smallest entry, and Norm2 the sum of the squares of all entries (no square root).", "quantifier": "all matrices of all sizes", "why_tests_cant": "all sizes and entries", "anchors": ["src/tomsolver/mat.cpp: Norm2, NormInfinity, NormNegInfinity, Min"]}
{"id": "C64", "title": "Matrix comparisons", "statement": "IsZero holds exactly when every |entry| <= epsilon, A == B (and A == number) exactly when every difference is smaller than epsilon, AllIsLessThan and Vec < exactly when every entry is less; operands of different sizes violate an assertion.", "quantifier": "all matrices of all sizes", "why_tests_cant": "all sizes; pairing of entries", "anchors": ["src/tomsolver/mat.cpp: IsZero, AllIsLessThan, operator=="]}
{"id": "C65", "title": "Matrix construction and conversion", "statement": "Mat{{...}} with rows of one length has the given entries, and rows of different lengths are undefined behaviour; ToVec returns the column of a one-column matrix and throws runtime_error otherwise; Vec * Vec and Vec / Vec work element by element. SymMat{{...}} has the given entries, a short row being filled up with null expressions.", "quantifier": "all initializer lists, all matrices", "why_tests_cant": "all sizes", "anchors": ["src/tomsolver/mat.cpp: Mat::Mat, ToVec, Vec::operator*, Vec::operator/", "src/tomsolver/symmat.cpp: SymMat::SymMat(std::initializer_list)"]}
{"id": "C66", "title": "Pivot search", "statement": "GetMaxAbsRowIndex(A, rowStart, rowEnd, col) is the first row of the range whose entry in the column has the largest absolute value.", "quantifier": "all matrices, ranges and columns", "why_tests_cant": "all sizes; ties", "anchors": ["src/tomsolver/mat.cpp: GetMaxAbsRowIndex"]}
{"id": "C67", "title": "Destroying an expression", "statement": "When a Node goes out of scope (or is overwritten), every object of the expression is freed exactly once, nothing else is freed, and the nesting of destructor calls does not grow with the depth of the expression.", "quantifier": "every expression tree, of any shape, size and depth", "why_tests_cant": "Tests destroy a few trees; a double free, a leak or a stack overflow for one shape or depth is not seen.", "anchors": ["src/tomsolver/node.cpp: NodeImpl::~NodeImpl, NodeImpl::Release"]}
{"id": "C68", "title": "Parse error messages point at the error", "statement": "what() of a ParseError shows the parsed text on a line of its own and, on the next line, a mark under the character with the reported column; it names the parenthesis, word or token that stands there. A MultiParseError has one such block for each of its errors.", "quantifier": "every input string on which Parse throws a ParseError", "why_tests_cant": "The space of malformed inputs is infinite; alignment must hold for every column.", "anchors": ["src/tomsolver/parse.h: SingleParseError, MultiParseError", "src/tomsolver/parse.cpp: ParseToTokens, InOrderToPostOrder, BuildExpressionTree"]}
{"id": "C69", "title": "MathError messages are unambiguous", "statement": "what() of a MathError begins with the description of its type and determines both the type and the additional information; GetErrorType returns the type it was thrown with.", "quantifier": "all error types and all additional texts", "why_tests_cant": "It ranges over all pairs of types and texts.", "anchors": ["src/tomsolver/error_type.cpp: GetErrorInfo, MathError::MathError, MathError::what"]}
{"id": "C70", "title": "Newton-Raphson solves linear systems written as equations", "statement": "If every equation is, as a function of the unknowns, a linear function plus a constant, and the matrix of the coefficients is invertible, then SolveByNewtonRaphson (with at least one allowed repetition and a small enough epsilon) returns, from every initial table, a point at which all equations are below epsilon in absolute value.", "quantifier": "every affine system with invertible matrix, however its equations are written as smooth expressions, every initial table, every sufficiently small epsilon (how small depends on the matrix only)", "why_tests_cant": "Tests solve a handful of systems from a handful of initial values.", "anchors": ["src/tomsolver/nonlinear.cpp: SolveByNewtonRaphson", "src/tomsolver/linear.cpp: SolveLinear", "src/tomsolver/symmat.cpp: Jacobian"]}
{"id": "C71", "title": "SolveByLM performs Levenberg-Marquardt steps", "statement": "From the initial table to the result, SolveByLM goes from points x to points x + a d where (J^T J + mu I) d = -J^T F(x), J is the Jacobian at x, a is 1, 1/2, 1/4, ..., mu is 1e-5 * 10^k, and the sum of squares of the equations decreases.", "quantifier": "every system and every initial table, every run that returns", "why_tests_cant": "Tests look at the final point only and on a few systems.", "anchors": ["src/tomsolver/nonlinear.cpp: SolveByLM, Armijo"]}
{"id": "C72", "title": "Solve returns or throws, whatever the shape of the system", "statement": "Solve on any system of equations the library can differentiate (more, fewer or as many equations as unknowns) and any initial table, also one where the equations are not defined, either returns a table or throws an exception; it never violates an assertion, never reads or writes out of bounds and never terminates the program. With more equations than unknowns it throws OVER_DETERMINED_EQUATIONS unless the initial point is a solution.", "quantifier": "every shape of system, every differentiable system, every initial table, every limit and epsilon, both methods", "why_tests_cant": "Undefined behaviour and violated assertions depend on values met in the course of an iteration; tests run a few square systems.", "anchors": ["src/tomsolver/nonlinear.cpp: SolveByNewtonRaphson, SolveByLM, Solve", "src/tomsolver/linear.cpp: SolveLinear", "src/tomsolver/mat.cpp: GetMaxAbsRowIndex, Mat::Ones"]}
{"id": "C73", "title": "Both methods find a regular root when started close to it", "statement": "Let z be a root of the equations at which they are continuously differentiable with an invertible Jacobian. If Solve starts close enough to z, with a small enough epsilon and enough iterations allowed, it returns a point that is not farther from z than the start, with residuals below epsilon; each Newton step near z reduces the distance to z by any given factor.", "quantifier": "every differentiable square system, every regular root, every initial table near it, every small epsilon, both methods", "why_tests_cant": "Local convergence is a statement about all starting points in a neighbourhood and about limits; a test runs single starting points.", "anchors": ["src/tomsolver/nonlinear.cpp: SolveByNewtonRaphson, SolveByLM, Armijo", "src/tomsolver/linear.cpp: SolveLinear"]}
{"id": "C74", "title": "Literals survive ToString and Parse as IEEE doubles", "statement": "For IEEE 754 doubles: every double from 0.5 up to 1e16 in absolute value, zero, inf and nan, and every double that is the nearest one to a decimal fraction of at most 16 decimals (2e-16 or more), is written by ToString so that Parse reads back bit for bit the same double (a minus sign apart); between 2e-16 and 1e16 these are exactly the doubles that survive. Outside 1e-16..1e16 the text denotes a number whose nearest double is the number written. -0 loses its sign; other doubles below 0.5 may come back as a neighbour (0.1+0.2).", "quantifier": "all IEEE binary64 values, all expressions with such literals", "why_tests_cant": "2^64 values", "anchors": ["src/tomsolver/config.cpp:ToString", "src/tomsolver/parse.cpp:ParseFunctions::ParseToTokens", "src/tomsolver/node.cpp:NodeImpl::ToString"]}
{"id": "C75", "title": "Vpa is exact when no intermediate result needs rounding", "statement": "If the exact value of an expression built with signs and + - * / and of all its subexpressions is representable as an IEEE double, Vpa returns exactly that value, in every configuration and with every libm; in particular integer expressions with + - * are exact as long as all numbers stay within 2^53.", "quantifier": "all expressions, all double values of the variables, all configurations", "why_tests_cant": "unbounded expressions and 2^64 values per variable", "anchors": ["src/tomsolver/node.cpp:NodeImpl::VpaNonRecursively", "src/tomsolver/math_operator.cpp:Calc"]}
{"id": "C76", "title": "Rounding error of Vpa", "statement": "Evaluating an expression with IEEE doubles succeeds and gives a number within an explicit bound of the exact real value: the bound is computed by the standard propagation rules (half an ulp for + - * /, accuracy delta of the libm for functions and powers, Lipschitz/condition factors), as long as no number reaches 2^1023. For polynomial expressions with n operations the error is at most ((1+2^-53)^n - 1) times the value with absolute values, whenever the result is finite. No relative accuracy can be promised (2^53+1-2^53 gives 0).", "quantifier": "all expressions, all double values of the variables, every libm of accuracy delta, both settings of throwOnInvalidValue", "why_tests_cant": "unbounded expressions and 2^64 values per variable; the exact value is not observable in a test", "anchors": ["src/tomsolver/node.cpp:NodeImpl::VpaNonRecursively", "src/tomsolver/math_operator.cpp:Calc"]}
{"id": "C77", "title": "Rounding error of Dot, Norm2 and the matrix product", "statement": "With IEEE doubles, Dot, Norm2 and every entry of a matrix product return a number within ((1+2^-53)^n - 1) times the sum of the absolute values of the n products (each increased by 2^-1022 for underflow) of the exact sum of products, whenever the result is finite; in whatever order and grouping std::valarray::sum adds the products. If the absolute values leave room, the result is finite.", "quantifier": "all vectors and matrices of doubles of all sizes, all summation orders", "why_tests_cant": "unbounded sizes, 2^64 values per entry, and the summation order is left open by the C++ standard", "anchors": ["src/tomsolver/mat.cpp:Dot", "src/tomsolver/mat.cpp:Mat::Norm2", "src/tomsolver/mat.cpp:Mat::operator*"]}
{"id": "C78", "title": "The exact residual of a point returned by Solve", "statement": "At the point Solve returns (with IEEE doubles), the exact real value of each equation is smaller in absolute value than epsilon plus an explicit bound for the rounding errors of evaluating that equation; for a polynomial equation with n operations the bound is ((1+2^-53)^n - 1) times its value with absolute values, and all its variables have finite values.", "quantifier": "all systems of equations, starting points and configurations with a finite epsilon, both methods, every libm (of accuracy delta for equations with functions)", "why_tests_cant": "all systems and starting points; the exact value is not observable in a test", "anchors": ["src/tomsolver/nonlinear.cpp:Solve", "src/tomsolver/nonlinear.cpp:SolveByLM", "src/tomsolver/nonlinear.cpp:SolveByNewtonRaphson"]}
{"id": "C79", "title": "Det and Inverse of integer matrices in doubles", "statement": "For an n x n matrix of integers of absolute value at most M with n! M^n <= 2^53, Det returns the exact determinant; Inverse throws MathError exactly if the determinant is within epsilon of zero, and otherwise every entry of its result is the correctly rounded entry of the exact inverse.", "quantifier": "all sizes n and all such integer matrices", "why_tests_cant": "unboundedly many matrices; the exact inverse is not observable in a test", "anchors": ["src/tomsolver/mat.cpp:Det", "src/tomsolver/mat.cpp:Adjoint", "src/tomsolver/mat.cpp:Mat::Inverse"]}
{"id": "C80", "title": "SolveLinear in IEEE doubles is backward stable up to epsilon", "statement": "For a square system of finite doubles that is well scaled (entries at most a, right-hand side at most beta, no overflow or underflow threatens within n elimination steps) and whose matrix stretches every vector by more than epsilon + 4*2^-53*(2+2^-50)^n*a, SolveLinear throws nothing, returns n numbers, and these satisfy every equation up to epsilon*|x|_1 + 6((1+2^-53)^n-1)(2+2^-50)^n(a|x|_1+beta); with enough room below overflow the numbers are finite, and their distance from the exact solution is at most that bound divided by the stretching factor.", "quantifier": "all sizes n, all matrices and right-hand sides of doubles within the stated ranges, all configured epsilons in (0,1], all libm implementations", "why_tests_cant": "rounding errors of n^3 operations depend on every bit of the data; tests sample a few matrices", "anchors": ["src/tomsolver/linear.cpp: SolveLinear", "src/tomsolver/linear.cpp: GetMaxAbsRowIndex", "src/tomsolver/mat.cpp: Mat::Row, Mat::SwapRow"]}
{"id": "C81", "title": "FindAlpha searches by the secant method", "statement": "FindAlpha(x, d, f) evaluates f at x and x + d and then follows the secant method, so that for an affine f that vanishes at x + a d it returns a; exceptions of f reach the caller.", "quantifier": "all functions, points, directions and tolerances", "why_tests_cant": "all functions and sizes; the step length is wrong for almost every input but 1 on inputs a test is likely to use", "anchors": ["src/tomsolver/nonlinear.cpp: FindAlpha", "src/tomsolver/mat.cpp: EachDivide"]}
{"id": "C82", "title": "Simplify does not change results in floating point", "statement": "If substituting finite doubles for the variables of an expression and evaluating it with Vpa gives a number, then Simplify returns normally, and substituting into the simplified expression and evaluating gives an equal (==) double: no rounding error is gained or lost, whatever the platform's libm, as long as it treats zeros and pow(x,1) as annex F of the C standard says.", "quantifier": "all expressions, all finite values of the variables, all libms that follow annex F at 0 and 1", "why_tests_cant": "unboundedly many expressions and points; a difference may be in the last bit of rare points only", "anchors": ["src/tomsolver/simplify.cpp: Simplify", "src/tomsolver/simplify.cpp: SimplifySingleNode", "src/tomsolver/node.cpp: Vpa"]}
{"id": "C83", "title": "The recursive variants agree with the iterative ones", "statement": "CloneRecursively returns the same tree as Clone; VpaRecursively returns the same number as Vpa and throws exactly when Vpa does, whatever the order in which the compiler evaluates arguments; ToStringRecursively writes the same text as ToString.", "quantifier": "all expressions, all settings, both evaluation orders of arguments", "why_tests_cant": "all trees of any depth; evaluation order is the compiler's choice", "anchors": ["src/tomsolver/node.cpp: CloneRecursively", "src/tomsolver/node.cpp: VpaRecursively", "src/tomsolver/node.cpp: ToStringRecursively"]}
{"id": "C84", "title": "The operators + - * / are the IEEE 754 binary64 operations", "statement": "If the operands of +, -, * or / in an expression evaluate to the doubles x and y, then evaluating the operator gives the double IEEE 754 prescribes: the exact result rounded once to nearest, ties to even, infinity from 2^1024 - 2^970 on, NaN exactly for the invalid operations, and the prescribed sign also of zeros and infinities; with throwOnInvalidValue an infinite or NaN result throws MathError(ERROR_INVALID_NUMBER) instead. Conversion to int for % & | truncates and is defined exactly when the truncated value fits 32 bits. A decimal or hexadecimal numeral is read as the nearest double, ties to even, and is rejected exactly if that double is infinite, or inexact and subnormal (the rule of glibc's strtod).", "quantifier": "all operand expressions, all values of the variables, all 2^64 bit patterns as operands, both settings of throwOnInvalidValue", "why_tests_cant": "2^128 pairs of operands; ties, subnormal results and overflow boundaries are sets tests hit only by construction", "anchors": ["src/tomsolver/math_operator.cpp: Calc", "src/tomsolver/node.cpp: NodeImpl::Vpa, VpaNonRecursively", "src/tomsolver/parse.cpp: ParseFunctions (std::stod)"]}
{"id": "C85", "title": "SolveLinear and the solvers do not run out of bounds as long as numbers are not huge", "statement": "With IEEE doubles, SolveLinear on any r equations with any number of unknowns, singular or not, whose entries are finite and at most M in absolute value, where 2.000\u2026^r M <= epsilon 2^998 (in the default configuration: up to 100 equations and 1e250), returns one number per unknown or throws a MathError: no assertion fails and no memory is accessed out of bounds. Newton-Raphson returns or throws unless it visits a point at which an equation or derivative is inf, nan or larger than M; Levenberg-Marquardt on square systems returns, throws or runs on unless a linear system it forms has such an entry. Without the size condition this is false even in the default configuration.", "quantifier": "all sizes, all matrices and right-hand sides of finite doubles within the bound, all systems of equations the library can differentiate, all initial values, all limits and epsilons in (0,1]", "why_tests_cant": "the bad event is a NaN arising from an overflow in the middle of an elimination, which then makes the pivot search return an index past the end; tests with ordinary numbers never see it and cannot exclude it", "anchors": ["src/tomsolver/linear.cpp: SolveLinear, GetMaxAbsRowIndex", "src/tomsolver/nonlinear.cpp: SolveByNewtonRaphson, SolveByLM, Solve", "src/tomsolver/mat.cpp: Mat::SwapRow"]}
{"id": "C86", "title": "Logging does not change results", "statement": "What Solve, SolveByNewtonRaphson, SolveByLM and SolveLinear return or throw does not depend on Config::logLevel; a higher level only adds to what is written to stdout; at WARN (the default) and below nothing is written.", "quantifier": "all equations, tables, configurations and log levels", "why_tests_cant": "every run and every level; the logging code evaluates expressions (norms, texts) that could fail on their own", "anchors": ["src/tomsolver/nonlinear.cpp: PrintSolveStartInfo, PrintJacobian, PrintAtIterationStart, SolveByNewtonRaphson, SolveByLM", "src/tomsolver/linear.cpp: SolveLinear", "src/tomsolver/config.h: LogLevel"]}
{"id": "C87", "title": "The log is truthful", "statement": "From level INFO on the log of Solve names the method used, shows the equations and the initial values, and then numbers the iterations; for Newton-Raphson it shows the values of the equations at every point of the iteration, the last one being the returned point; a log of SolveByLM at level TRACE ends with 'success' if a solution is returned.", "quantifier": "all equations, tables and configurations; runs of any length", "why_tests_cant": "runs of any length", "anchors": ["src/tomsolver/nonlinear.cpp: PrintSolveStartInfo, PrintAtIterationStart, SolveByNewtonRaphson, SolveByLM"]}
{"id": "C88", "title": "Rounding errors of Det and Inverse in doubles", "statement": "For every n x n matrix of doubles Det returns; if the result is finite then all entries are, and the result differs from the exact determinant by at most ((1 + 2^-53)^(n(n+1)/2 - 1) - 1) times the cofactor expansion with absolute values (each product increased by 2^-1022 for underflow), which is at most n! (M + 2^-1022)^n for entries within M >= 1; the result is finite if that bound leaves room below 2^1023. Inverse throws MathError exactly if the computed determinant is within epsilon of zero; otherwise each finite entry of its result is the rounded quotient of a cofactor computed with such an error by the computed determinant. (A computed determinant of 0 does not mean that the matrix is singular.)", "quantifier": "all sizes n and all matrices of doubles", "why_tests_cant": "unboundedly many matrices; the exact determinant is not observable in a test", "anchors": ["src/tomsolver/mat.cpp:Det", "src/tomsolver/mat.cpp:Adjoint", "src/tomsolver/mat.cpp:Mat::Inverse"]}
{"id": "C89", "title": "The iteration counter of the solvers does not overflow", "statement": "If maxIterations is at least 0 and less than INT_MAX, no run of Solve, SolveByNewtonRaphson or SolveByLM overflows its 32-bit iteration counter: the outcome is that of the algorithm with an unbounded counter. (With maxIterations = INT_MAX, or a negative limit for SolveByLM, the counter overflows, which is undefined behaviour.)", "quantifier": "all equations, tables, configurations with such a limit, runs of any length", "why_tests_cant": "the overflow needs 2^31 iterations", "anchors": ["src/tomsolver/nonlinear.cpp: SolveByNewtonRaphson", "src/tomsolver/nonlinear.cpp: SolveByLM", "src/tomsolver/nonlinear.cpp: Solve", "src/tomsolver/config.h: maxIterations"]}
{"id": "C90", "title": "radians and degrees convert angles up to rounding", "statement": "For every finite double, radians is finite and differs from p*pi/180 (the real number pi) by at most 3*2^-53 relative plus 2^-1072; degrees likewise for |p| <= 2^1015; degrees(radians(p)) and radians(degrees(p)) differ from p by at most 5*2^-53 relative for 2^-1000 <= |p| <= 2^1000; both are monotone; radians(180) is PI and degrees(PI) is 180. (For integer arguments the result is truncated: radians(90) is 1.)", "quantifier": "all finite doubles", "why_tests_cant": "all doubles; the bound refers to the real number pi", "anchors": ["src/tomsolver/math_operator.h: PI", "src/tomsolver/math_operator.h: radians", "src/tomsolver/math_operator.h: degrees"]}
{"id": "C91", "title": "Iterating over a VarsTable", "statement": "begin() to end() visits every variable of the table exactly once, in increasing order of the names, each with the value operator[] returns for it; a range-for over the table is the same as a loop over the sorted names that reads the table. (The order is not that of Vars().)", "quantifier": "all tables reachable by any sequence of operations, all loop bodies", "why_tests_cant": "all histories of a table", "anchors": ["src/tomsolver/vars_table.cpp: begin, end, cbegin, cend", "src/tomsolver/vars_table.h: VarsTable"]}
{"id": "C92", "title": "Threads working on their own expressions do not disturb each other", "statement": "If several threads run statements of the Node API, each on Node variables of its own, then for every interleaving of their statements each thread ends with the same expressions, with the same text, as if it had run alone, and the interleaved run completes without error if every thread alone does. A statement reads and writes no object but those of the variables it mentions and new ones, and no object ever belongs to variables of two threads, so the threads access disjoint objects. (Statements are taken as atomic and the configuration is not changed meanwhile.)", "quantifier": "any number of threads, programs of any length, all schedules", "why_tests_cant": "the number of schedules", "anchors": ["src/tomsolver/node.h: Node operators", "src/tomsolver/node.cpp: Move, Clone, Operator", "src/tomsolver/subs.cpp: Subs", "src/tomsolver/diff.cpp: Diff", "src/tomsolver/simplify.cpp: Simplify"]}
{"id": "C93", "title": "How large results can become", "statement": "Parse returns a tree with at most as many nodes as the text has characters. Subs of one variable adds exactly (size of the replacement - 1) nodes per occurrence; of many variables at most multiplies the size by that of the largest replacement; with numbers it leaves the size unchanged. The first derivative of an expression with n nodes and height h has at most 4nh nodes, the k-th derivative at most 4^(k(k+1)/2) n h^k (polynomial in n for each order, never exponential), and quadratic growth is attained. ToString of n nodes has at most (N + 7)n characters if numbers and names have at most N (42n for doubles with names of at most 35 characters).", "quantifier": "all texts, expressions, variables and orders of derivation", "why_tests_cant": "a bound over expressions of every size", "anchors": ["src/tomsolver/parse.cpp: Parse", "src/tomsolver/subs.cpp: Subs", "src/tomsolver/diff.cpp: Diff", "src/tomsolver/simplify.cpp: Simplify", "src/tomsolver/node.cpp: ToString"]}
{"id": "C94", "title": "ToString(double) never cuts a number off", "statement": "For every double the text that snprintf produces fits into the 64-byte buffer of ToString(double), so the result is that of printing without a buffer; it has at most 35 characters.", "quantifier": "all 2^64 doubles", "why_tests_cant": "all doubles", "anchors": ["src/tomsolver/config.cpp: ToString"]}
{"id": "C95", "title": "SolveByLM solves well-conditioned linear systems from everywhere", "statement": "In exact real arithmetic, for square systems of equations whose left-hand sides are affine functions A u + b of the unknowns (however written, as long as they are differentiable) and A is symmetric and invertible, or A stretches every vector by a factor between s and S with 0.4 S + 0.0016 <= s: for every small enough epsilon and every bound R there is an N such that with maxIterations >= N SolveByLM returns from every initial table with values of absolute value at most R a point at which every equation is within epsilon of 0, without ever halving a step.", "quantifier": "all affine systems of that kind in any number of unknowns, all small tolerances, all initial values", "why_tests_cant": "convergence from every start of every such system", "anchors": ["src/tomsolver/nonlinear.cpp: SolveByLM, Armijo", "src/tomsolver/linear.cpp: SolveLinear"]}
{"id": "C96", "title": "Accuracy of derivatives in doubles", "statement": "For an expression that is differentiable at a point of doubles and whose derivative, written out by the rules of calculus, can be evaluated there with an error bound E (C76): Diff returns an expression, substituting the point and evaluating gives a number, and it differs from the partial derivative of the real function by at most E; simplification adds no error. For polynomials with integer literals at integer points with all numbers within 2^53 the derivative is exact.", "quantifier": "all expressions, variables and points of doubles, every libm of accuracy delta", "why_tests_cant": "an error bound over all expressions and all doubles", "anchors": ["src/tomsolver/diff.cpp: Diff", "src/tomsolver/simplify.cpp: Simplify", "src/tomsolver/subs.cpp: Subs", "src/tomsolver/node.cpp: Vpa"]}
{"id": "C97", "title": "From the text of an expression to its value: error of Parse, Subs and Vpa together", "statement": "Let a text be an expression of the grammar with its literals read as the exact real numbers written. If its exact value at a point of doubles is v, with the error bound E that accounts for rounding each literal and each operation, then Parse, Subs and Vpa give a number that differs from v by at most E (Parse(\"0.1+0.2\")->Vpa() is within 2^-53 of 0.3).", "quantifier": "all texts of the grammar, all points of doubles, every libm of accuracy delta, both settings of throwOnInvalidValue", "why_tests_cant": "all texts and all doubles", "anchors": ["src/tomsolver/parse.cpp: Parse", "src/tomsolver/subs.cpp: Subs", "src/tomsolver/node.cpp: Vpa"]}
{"id": "C98", "title": "The diff_machine example program, round by round", "statement": "Each round of the interactive differentiation example reads a word, and prints the derivative (simplified) of the expression it denotes with respect to its only variable, or to the one the user names; a parse error or a variable that does not occur is reported and the program goes on with the next round. At the end of the input it should stop, no input should abort it, and the functions its usage text offers should be accepted.", "quantifier": "all inputs (finite lists of words), any number of rounds, any floating-point arithmetic; the correctness of the derivative over the reals", "why_tests_cant": "all inputs to an interactive program, including the end of the input, where it loops forever", "anchors": ["examples/diff_machine/main.cpp: main", "src/tomsolver/parse.cpp: Parse", "src/tomsolver/diff.cpp: Diff", "src/tomsolver/node.cpp: GetAllVarNames, ToString", "src/tomsolver/vars_table.cpp: VarsTable, Has"]}
{"id": "C99", "title": "Building an expression with the overloads and evaluating it equals computing with doubles", "statement": "Whatever operations, numbers and sides are drawn, the expression the test helper CreateRandomExpresionTree builds with the operator overloads evaluates (Vpa) to exactly the double it computes alongside; with invalid values rejected, to that double if none of the intermediate results is inf or nan and to INVALID_NUMBER otherwise.", "quantifier": "all numbers of rounds, all draws, any floating-point arithmetic, both settings of throwOnInvalidValue", "why_tests_cant": "the tests draw a few random trees and compare with a tolerance", "anchors": ["tests/helper.cpp: CreateRandomExpresionTree", "src/tomsolver/node.h: operator+, operator-, operator*, operator/", "src/tomsolver/functions.h: sin, cos, tan, asin, acos, atan", "src/tomsolver/node.cpp: Vpa"]}
{"id": "C100", "title": "The traversals that replace recursion do linear work with a stack no higher than the expression", "statement": "Evaluating, cloning, simplifying and listing the variables of an expression are done by loops over an explicit stack. The loops of Vpa and GetAllVarNames run exactly once for every node, that of Clone once for every node below the root, that of Simplify once for every operator; the stack of Vpa and GetAllVarNames never holds more entries than the expression is high.", "quantifier": "all expressions of any size and depth, any number of iterations done so far", "why_tests_cant": "a test measures a few deep expressions; a traversal that revisits nodes or grows its stack for one shape is not seen", "anchors": ["src/tomsolver/node.cpp: VpaNonRecursively, CloneNonRecursively, GetAllVarNames", "src/tomsolver/simplify.cpp: SimplifyWholeNode"]}
{"id": "C101", "title": "An evaluation error names the operation that failed first", "statement": "When invalid values are errors, Vpa throws MathError exactly if some operation of the expression gives inf, -inf or nan and everything evaluated before it (left operand first) has a value; the error type is 'invalid number' and what() consists of the operator and the values of its operands of the first such operation, so different failing operations or operand texts give different messages. It throws std::runtime_error exactly if a variable is reached before any failure.", "quantifier": "all expressions, all configurations, all libm implementations", "why_tests_cant": "The failing operation can be anywhere in an expression of any depth; tests fix one expression.", "anchors": ["src/tomsolver/math_operator.cpp: Calc (lines 345-369)", "src/tomsolver/node.cpp: NodeImpl::VpaNonRecursively", "src/tomsolver/error_type.cpp: MathError::MathError"]}
{"id": "C102", "title": "The names of the variables do not matter", "statement": "Renaming the variables injectively commutes with the library: Vpa is unchanged; Simplify, Diff (by the renamed variable), Subs and GetAllVarNames give the renamed result; Solve with a table of initial values, by Newton-Raphson or Levenberg-Marquardt, ends in the same way (the same values in the same order under the new names, or the same exception). Solve without a table does the same, whatever the alphabetical order of the names.", "quantifier": "all expressions, systems, tables, configurations, and injective renamings; any arithmetic of the numbers", "why_tests_cant": "a test uses a handful of names; a name that is treated specially (or an order of names that matters) is only found by luck", "anchors": ["src/tomsolver/nonlinear.cpp: Solve, SolveByNewtonRaphson, SolveByLM", "src/tomsolver/vars_table.cpp: VarsTable", "src/tomsolver/diff.cpp: Diff", "src/tomsolver/subs.cpp: SubsInner", "src/tomsolver/symmat.cpp: GetAllVarNames"]}
{"id": "C103", "title": "Newton-Raphson converges quadratically", "statement": "Near a regular root (smooth equations, invertible Jacobian) every Newton step from a point that does not satisfy the equations yet squares the distance to the root, up to a factor that depends on the equations only. So SolveByNewtonRaphson, once it is close to the root, needs at most N more repetitions whenever R*(1/2)^(2^N) < epsilon, with R depending on the equations only: one repetition more for twice as many digits, and Config::maxIterations >= N is enough.", "quantifier": "all systems of n equations in n unknowns, all regular roots, all points within a distance of the root, all small epsilon, all iteration limits; exact real arithmetic", "why_tests_cant": "a rate of convergence speaks about all systems, all roots and all tolerances; a test sees some iteration counts", "anchors": ["src/tomsolver/nonlinear.cpp: SolveByNewtonRaphson", "src/tomsolver/symmat.cpp: Jacobian", "src/tomsolver/linear.cpp: SolveLinear"]}
{"id": "C104", "title": "A returned point is close to an actual root when the system is well conditioned there", "statement": "If Solve returns, and around the returned point the equations are smooth, the inverse of their Jacobian is bounded by M and the Jacobian changes by less than 1/(2nM), then there is exactly one actual (real) root of the equations around the point, and the point is within 2*M*epsilon of it; in IEEE doubles within 2*M*(epsilon + E), where E bounds the rounding errors of evaluating the equations. Without such a condition a small residual does not imply a root: for x^2 + 1e-10 = 0 Solve returns x = 0.", "quantifier": "all systems of n equations in n unknowns, both methods, all initial values, all configurations; real arithmetic and IEEE doubles with any libm of known accuracy (polynomials: any libm)", "why_tests_cant": "a test compares with known roots of a few systems; that the small residual, the only thing the solver checks, bounds the distance to a root is a statement about all systems", "anchors": ["src/tomsolver/nonlinear.cpp: Solve, SolveByNewtonRaphson, SolveByLM", "src/tomsolver/mat.cpp: Mat::operator==(double)", "src/tomsolver/config.h: epsilon"]}
{"id": "C105", "title": "Newton's method with IEEE doubles finds a well-conditioned root", "statement": "With IEEE doubles, and libm functions of known accuracy, SolveByNewtonRaphson returns (no exception, no endless loop, no abort) a table of finite numbers within 4/3*M*(epsilon + E) of the root z, when it starts from all zeros within the distance r of z, or from initial values w within r of z with |w| + |w-z|/2 + noise <= r (the iteration continues from its first correction, not from w), or when its first correction is within r of z, where within r of z the equations are smooth, their Jacobian stretches vectors by at least 1/M and changes little, E bounds the rounding errors of evaluating the equations, the rounding noise of a step is at most r/2, the numbers stay away from overflow, and the iteration limit allows the N halvings needed to get below epsilon.", "quantifier": "all systems of n equations in n unknowns, all n > 0, all well-conditioned roots, all tables, configurations and all libm of known accuracy", "why_tests_cant": "tests run a few systems to their roots on one machine; that rounding errors in the evaluation, the derivatives, the linear solver and the update never prevent convergence near any well-conditioned root is a statement about all systems and all roundings", "anchors": ["src/tomsolver/nonlinear.cpp: SolveByNewtonRaphson", "src/tomsolver/linear.cpp: SolveLinear", "src/tomsolver/diff.cpp: Diff", "src/tomsolver/node.cpp: Node::Vpa"]}
{"id": "C106", "title": "The texts of the solvers' exceptions", "statement": "Every exception of SolveLinear and Solve comes with a text. SolveLinear says 'overdetermined equations' exactly for more equations than variables, 'singular matrix' or 'infinite solutions' for square systems (nothing else there), and for indeterminate systems shows the system. Newton's method adds the advice to try other initial values to every 'singular matrix'; Levenberg-Marquardt never does, and never speaks of overdetermined or indeterminate systems; both pass on unchanged the text of an equation or derivative that has no value at some point, and give one fixed text at the limit of iterations; an unknown method is named. The text about an indeterminate system shows the system that was given (FALSE of the code: it shows the reduced system filled up with zero rows).", "quantifier": "all linear systems, all systems of equations, tables, configurations and semantics of floating point numbers", "why_tests_cant": "no test reads what() of a solver; which texts can occur at all, over every path through both iterations, is a statement about all inputs", "anchors": ["src/tomsolver/linear.cpp: SolveLinear", "src/tomsolver/nonlinear.cpp: SolveByNewtonRaphson, SolveByLM, Solve", "src/tomsolver/error_type.cpp: MathError"]}
{"id": "C107", "title": "Repeated Diff by several variables gives mixed partial derivatives, in any order", "statement": "Diff(...Diff(Diff(e, x1), x2)..., xk) returns normally where e is smooth enough, its value is the mixed partial derivative of the function e denotes, and differentiating in another order gives an expression of the same value (FALSE of the code for exp of something that Simplify turns into a bare variable: Diff(Diff(exp(1*x),x),y) is exp(x), the other order gives 0).", "quantifier": "all expressions, all lists of variables in any order, all real points at which the expression is smooth to that order", "why_tests_cant": "a test differentiates a few expressions in one order and compares texts; the equality is about the values at every point of expressions that look different, for every number of differentiations", "anchors": ["src/tomsolver/diff.cpp: Diff, DiffOnce", "src/tomsolver/simplify.cpp: Simplify"]}
{"id": "C108", "title": "The header-only library contains every source file once, after the files it includes", "statement": "The script that makes single/include/tomsolver/tomsolver.h either produces a header in which every source file occurs exactly once and after all files it includes, or raises RuntimeError; it never runs forever. It succeeds exactly if no file includes itself through others, all included files are among the files, and no file includes another twice (C++ allows the latter, so 'succeeds for every include graph without cycles' is FALSE). For the files of the repository it succeeds, with the order of the committed header.", "quantifier": "all lists of files with all lists of dependencies", "why_tests_cant": "the script is run on one graph only; that the in-place sort neither skips files nor reads past the list, for every graph, is a statement about all graphs", "anchors": ["scripts/util.py: combineClasses", "scripts/combine_src_to_header_only.py", "single/include/tomsolver/tomsolver.h"]}
{"id": "C109", "title": "The header-only library loses no line of the sources", "statement": "In the header made by the script every line of every source file is either '#pragma once', an #include of another source file, an #include <...> or #define that is listed once at the front (sorted), or appears unchanged up to blanks at its end and an 'inline' put in front of functions, in the order of the file. Functions that are inline already stay as they are, and macros keep their continuation lines and conditions (both FALSE of the code: 'inline inline'; the first line of a macro is moved away from the rest, and out of #ifdef).", "quantifier": "all files with all lines", "why_tests_cant": "regular expressions decide line by line for every possible line; a run on today's sources does not show what happens to other lines", "anchors": ["scripts/util.py: MyClass, combineClasses, combineCodeFile"]}
{"id": "C110", "title": "Each setting influences only what it is for, and Reset restores the start", "statement": "Vpa, Calc, Simplify, Diff and Jacobian depend on no setting but throwOnInvalidValue; SolveLinear only on epsilon and allowIndeterminateEquation, and on the latter only for systems with fewer equations than unknowns; Solve with a table does not depend on initialValue, and Levenberg-Marquardt not on allowIndeterminateEquation. After any history of assignments a setting has the value last assigned to it, assignments to other settings leave it alone, and Reset() followed by further assignments leaves the configuration as if the program had started with those.", "quantifier": "all configurations, all histories of assignments and resets, all expressions, systems and tables", "why_tests_cant": "independence is a statement about all values of a setting and all inputs; a test fixes both", "anchors": ["src/tomsolver/config.h: Config", "src/tomsolver/config.cpp: Config::Reset", "src/tomsolver/linear.cpp: SolveLinear", "src/tomsolver/nonlinear.cpp: Solve"]}
{"id": "C111", "title": "Loosening a limit never changes an answer already returned", "statement": "If Vpa, Simplify, Diff, SolveLinear or Solve returns a result, it returns the same result after maxIterations is raised, allowIndeterminateEquation is turned on or throwOnInvalidValue is turned off. (FALSE of the code for Levenberg-Marquardt with a negative maxIterations, which means no limit: raising -1 to 0 turns the answer into an exception. Proved for all other cases.)", "quantifier": "all pairs of configurations of which one is looser, all expressions, systems, tables and numbers of steps", "why_tests_cant": "two runs with different limits have to be compared for every input and every number of iterations", "anchors": ["src/tomsolver/config.h: Config", "src/tomsolver/nonlinear.cpp: SolveByNewtonRaphson, SolveByLM", "src/tomsolver/linear.cpp: SolveLinear", "src/tomsolver/simplify.cpp", "src/tomsolver/node.cpp: Vpa"]}
{"id": "C112", "title": "Printing is stable", "statement": "An expression without inverse trigonometric functions, with readable names and literals that read back, is printed as a text that Parse reads as an expression with the same text, unless a negative literal is the operand of a sign or the right operand of a minus; after one reading the text no longer changes in any case. Two such expressions with the same text denote the same real function with the same domain, and are the same tree if they are grouped to the left. (FALSE of the code for negative literals after a minus sign: x minus the literal -3 is printed x-(-3), which is read and printed x--3.)", "quantifier": "all expressions, all their literals (IEEE doubles) and names, any number of print and read cycles", "why_tests_cant": "parentheses are left out depending on the surrounding operators, at any depth, and the reader groups differently; a text comparison must hold for every tree", "anchors": ["src/tomsolver/node.cpp: NodeImpl::ToString, NodeImpl::ToStringNonRecursively", "src/tomsolver/parse.cpp: ParseFunctions", "src/tomsolver/config.cpp: ToString(double)"]}
{"id": "C113", "title": "Order of equations and variables", "statement": "In exact arithmetic SolveByNewtonRaphson visits the points of Newton's method (its first correction is added to zero, C44): it returns the first of them, within the limit, at which all equations are below epsilon, and throws runtime_error if there is none, provided the Jacobians on the way are invertible and epsilon is small enough. So writing the equations in another order, or the variables of the initial table in another order, changes nothing: both calls throw, or both return the same value for every variable. (FALSE for SolveByLM: for y=0, 2.50002 x=0 from x=0, y=1 the line search never ends; with the equations or with the variables in the other order the system is solved.)", "quantifier": "all systems of n equations in n unknowns and real initial values whose Newton points exist with invertible Jacobians, all permutations of the equations and of the variables, all limits and small epsilon", "why_tests_cant": "the elimination pivots differently in each order and there are n!^2 orders; the points visited are arbitrary real vectors", "anchors": ["src/tomsolver/nonlinear.cpp: SolveByNewtonRaphson, SolveByLM, Armijo", "src/tomsolver/linear.cpp: SolveLinear"]}
{"id": "C114", "title": "Solving again returns the same table", "statement": "A table returned by Solve is a fixed point: handed to Solve as initial values for the same equations it comes back unchanged, whichever method is configured, whatever the iteration limit, the initial value and the setting for indeterminate equations, as long as epsilon and the treatment of inf and nan are the same. More generally a table that satisfies the equations is returned as it is if the equations can be differentiated.", "quantifier": "all systems, all initial tables for which Solve returns, all configurations, any arithmetic", "why_tests_cant": "the Newton iteration restarts from zero (C44) and LM moves on whenever it is not satisfied, so a second call could leave a solution; this must hold for every system and every returned point", "anchors": ["src/tomsolver/nonlinear.cpp: SolveByNewtonRaphson, SolveByLM, Solve"]}
{"id": "C115", "title": "Substitution and differentiation obey the chain rule", "statement": "Giving some variables numerical values and then differentiating by another variable yields the same number as differentiating first and substituting the values afterwards. More generally, replacing variables by expressions (simultaneously) and differentiating by x yields the sum, over the variables v of the original expression, of the substituted Diff(e,v) times Diff of the replacement of v by x. All these calls return normally. (FALSE of the code for exp of a bare variable: Diff(Subs(exp(y), y=0), x) is 0, Subs(Diff(exp(y), x), y=0) is exp(0).)", "quantifier": "all expressions without & | %, all dictionaries of numbers or lists of replacement expressions, all points where the expressions are smooth", "why_tests_cant": "the identity relates the results of several symbolic rewritings at every point of a continuum, for every expression and every substitution", "anchors": ["src/tomsolver/subs.cpp: Subs", "src/tomsolver/diff.cpp: Diff", "src/tomsolver/simplify.cpp: Simplify"]}
{"id": "C116", "title": "Parse is compositional", "statement": "The text (a)op(b) is read as the operator applied to what a and b are read as, for each binary operator; (a) as a; -(a) and +(a) as the signs and f(a), for each function name, as the function applied to what a is read as: for all texts a and b that Parse accepts, also those outside the documented grammar. What Parse makes of any text with a parenthesised part depends on that part only through the tree it is read as: two texts read as the same tree can be exchanged between parentheses anywhere in any text, accepted or not, without changing the outcome (columns in errors apart). Without the parentheses this is false.", "quantifier": "all texts, of any length and nesting, all operators and functions, any arithmetic", "why_tests_cant": "programs compose texts from parts that come from elsewhere; the shunting-yard stack and the parenthesis counter are shared between the parts, so independence must hold for every part and every surrounding text", "anchors": ["src/tomsolver/parse.cpp: ParseToTokens, InOrderToPostOrder, BuildExpressionTree, Parse"]}
{"id": "C117", "title": "Replacing names in a text by parenthesised texts is Subs", "statement": "If every word of a text that is one of given variable names is replaced by a parenthesised text, Parse reads the result as the tree of the original text with the trees of the replacements substituted simultaneously: the same tree Parse of both and Subs give. The original text is one of the documented grammar, the replacements are any texts Parse accepts. (For accepted texts outside the grammar this is false: -x sin and -(x) sin.)", "quantifier": "all texts of the grammar, all sets of names, all replacement texts, any arithmetic", "why_tests_cant": "the equality of the textual and the symbolic substitution must hold for every template, every set of names and every replacement", "anchors": ["src/tomsolver/parse.cpp: Parse", "src/tomsolver/subs.cpp: Subs"]}
{"id": "C118", "title": "Newton-Raphson finds the root of a convex or concave monotone equation from far away", "statement": "One equation in one unknown, convex or concave and strictly monotone on an interval without end in the direction in which the slope grows, with root z: started at any point of the interval, however far from z, Solve with Newton-Raphson returns, and the number returned is within epsilon/m of z, if the first computed point is in the interval too and the slope is at least m >= epsilon at these two points and at z. The number of loops needed is at most n+1, where 4^n exceeds value times slope at the second computed point divided by m*epsilon. For x*x - 2 = 0 from the default initial value 1 with the default configuration the result is within 1e-9 of the square root of 2.", "quantifier": "all such equations, intervals, starting points and configurations with epsilon > 0, real arithmetic", "why_tests_cant": "global convergence is a statement about all starting points of an unbounded interval and all functions of a class", "anchors": ["src/tomsolver/nonlinear.cpp: SolveByNewtonRaphson", "src/tomsolver/linear.cpp: SolveLinear", "src/tomsolver/config.h: Config"]}
{"id": "C119", "title": "From the texts of equations to their solution", "statement": "If the equations are written as texts of the grammar and Solve of what Parse reads from them returns, the returned table has exactly the variables of the texts; at the returned numbers the written expressions, with literals as the real numbers written, have exact values below epsilon plus an explicit bound of the errors of reading the literals and evaluating in IEEE doubles; if the written system is well conditioned there, an actual solution of the written equations is within 2M(epsilon+E), and it is the only one around. The README program, which then prints f.Subs(ans).Calc() to verify the solution, gets there without an exception exactly when Solve returns, and prints one number below epsilon for each text.", "quantifier": "all lists of texts, both methods, all configurations, any libm with error at most delta", "why_tests_cant": "the guarantee ranges over all texts and all runs of the solver, and compares with exact real values no test can compute", "anchors": ["examples/solve/main.cpp: main", "src/tomsolver/parse.cpp: Parse", "src/tomsolver/symmat.cpp: SymVec", "src/tomsolver/nonlinear.cpp: Solve"]}
{"id": "C120", "title": "Solving after known quantities have been substituted", "statement": "If the known quantities are substituted in the equations read from texts (f.Subs(VarsTable{...}), as examples/solve2 does for pi and e) and Solve of the result returns, the returned table has exactly the variables of the texts that are not known, in increasing order, and at the known quantities and the table together every equation as written has a value nearer to 0 than epsilon; in IEEE doubles its exact real value is below epsilon plus an explicit bound of the errors of reading and evaluating. Substituting first and evaluating later is evaluating with everything at once, whether the result is a number or an exception. If nothing is left to solve for, Solve violates an assertion.", "quantifier": "all lists of texts, all lists of known quantities (also with repeated names), both methods, all configurations, any libm with error at most delta", "why_tests_cant": "ranges over all texts, all known quantities and all runs of the solver", "anchors": ["examples/solve2/main.cpp: main", "src/tomsolver/symmat.cpp: SymMat::Subs", "src/tomsolver/subs.cpp: Subs", "src/tomsolver/nonlinear.cpp: Solve"]}
{"id": "C121", "title": "How the equations are written and the units of the variables do not matter for Newton-Raphson", "statement": "In exact arithmetic the points SolveByNewtonRaphson visits depend only on the functions the equations denote: equations with the same values give the same outcome; multiplying equations by numbers other than 0 or adding a multiple of one equation to another leaves the points visited unchanged (only the first point at which all equations are below epsilon can change); measuring the variables in other units gives the same outcome, in the other units. It is false for shifts of the variables (x^2=4 from 3 is answered with -2; for z=x-3 from 0 with z=-1, which is x=2, because the first correction is added to 0) and for SolveByLM (multiplying an equation by a number can turn an endless run into a solved one).", "quantifier": "all systems, initial values, invertible combinations and units for which the Newton points exist with invertible Jacobians; all epsilon below a bound and all limits", "why_tests_cant": "compares all ways of writing a system", "anchors": ["src/tomsolver/nonlinear.cpp: SolveByNewtonRaphson, SolveByLM", "src/tomsolver/linear.cpp: SolveLinear", "src/tomsolver/diff.cpp: Diff"]}
{"id": "C122", "title": "Threads and the shared configuration", "statement": "Config::Get() is one object for the whole process. If several threads run statements of the Node API, each on Node variables of its own, and meanwhile any of them changes settings other than throwOnInvalidValue (or resets the configuration, when throwOnInvalidValue starts as true), then for every interleaving each thread ends with the same expressions, with the same text, as if it had run alone, and the interleaved run goes through exactly if every thread alone does. A change of throwOnInvalidValue by one thread does change what the others get: a thread whose Simplify of 1/0 would end the process goes on with inf. (Statements are taken as atomic.)", "quantifier": "any number of threads, programs and assignments to the configuration of any length, all schedules", "why_tests_cant": "the number of schedules", "anchors": ["src/tomsolver/config.cpp: Config::Get, Config::Reset", "src/tomsolver/simplify.cpp: Simplify", "src/tomsolver/diff.cpp: Diff", "src/tomsolver/node.h: Node operators"]}
{"id": "C123", "title": "SolveByLM finds the solution from everywhere when the Jacobian is symmetric and regular", "statement": "Let the equations have values and derivatives at every real point. If the set of points where the sum of squares of the residuals is at most c is bounded, and the Jacobian is symmetric and regular on it, then for every epsilon up to 5e-6/n some maxIterations suffices for SolveByLM to return from every initial table in that set, with every residual below epsilon and a sum of squares not above the initial one; and there is a solution in the set. In particular: one equation in one unknown that is nowhere less steep than m > 0 has exactly one solution and SolveByLM finds it from every initial value, to within epsilon/m; and so for the critical point of every strongly convex function of n variables.", "quantifier": "all systems of that kind (any number of unknowns, nonlinear), all initial tables, all sufficiently small epsilons, exact real arithmetic", "why_tests_cant": "convergence from every starting point of every such system; tests try a few starts of a few systems", "anchors": ["src/tomsolver/nonlinear.cpp:SolveByLM", "src/tomsolver/nonlinear.cpp:Armijo", "src/tomsolver/linear.cpp:SolveLinear"]}
{"id": "C124", "title": "Programs of matrix operations compute what matrix algebra says", "statement": "A program that combines matrices with +, -, unary -, scaling by a number from either side, *, Transpose and Inverse, in any nesting, returns the matrix that the formula denotes in matrix algebra, and throws SINGULAR_MATRIX exactly if some matrix to be inverted has a determinant not larger than epsilon (exact arithmetic). Hence identities such as (A*B).Inverse() = B.Inverse()*A.Inverse(), Det(A*B) = Det(A)*Det(B), Det(A.Transpose()) = Det(A) hold between results; SolveLinear(A, b) is A.Inverse()*b for invertible A and small epsilon, depends linearly on b, and does not depend on the order of the equations or unknowns. For matrices of expressions: calculating symbolically and then substituting numbers gives the same matrix as substituting first and calculating with numbers.", "quantifier": "all formulas, all sizes, all entries, all permutations, all tables of values", "why_tests_cant": "identities over all matrices of all sizes and over programs of unbounded length", "anchors": ["src/tomsolver/mat.cpp: Mat::operator+, operator-, operator*, Transpose, Inverse, Det", "src/tomsolver/linear.cpp: SolveLinear", "src/tomsolver/symmat.cpp: SymMat::operator-, operator*, Subs, Calc, ToMat"]}
{"id": "C125", "title": "What Diff gives depends on the function only", "statement": "Two expressions that denote the same function near a point have derivatives with the same value there, for every order and every sequence of variables, however the function is written; so the value of the derivative of anything that denotes k*a+b or a*b obeys the sum and the product rule.", "quantifier": "all pairs of expressions that agree near a point and are smooth there, all sequences of variables, all orders", "why_tests_cant": "the ways to write a function are unbounded, and so are the points", "anchors": ["src/tomsolver/diff.cpp: Diff", "src/tomsolver/simplify.cpp: Simplify"]}
{"id": "C126", "title": "The Levenberg-Marquardt method with IEEE doubles finds a well-conditioned root of one equation", "statement": "With IEEE doubles, and libm functions of known accuracy, SolveByLM (and Solve when that method is selected), for one equation in one unknown, started from any number within the distance r of a root z, returns (no exception, no endless line search, no abort) a finite number within 4/3*M*(epsilon + E) of z, where within r of z the equation is smooth, its slope is at least 1/M (M^2 <= 4000, so that the damping 1e-5 is small) and changes by at most 1/(10 M), E bounds the rounding errors of evaluating the equation (at most epsilon/1000), slopes are computed with errors at most 1/(1000 M), and the iteration limit allows the N divisions of r by 4 needed to get below epsilon. Every step that is made is accepted at once with the full length and at least quarters the distance to the root.", "quantifier": "all equations in one unknown, all well-conditioned roots, all starting points in the region, all configurations and all libm of known accuracy", "why_tests_cant": "tests run a few equations to their roots on one machine; that rounding errors in the values, slopes, the normal equation, the two comparisons of squares and the update never prevent convergence is a statement about all equations, points and roundings", "anchors": ["src/tomsolver/nonlinear.cpp: SolveByLM, Armijo, Solve", "src/tomsolver/linear.cpp: SolveLinear", "src/tomsolver/diff.cpp: Diff", "src/tomsolver/mat.cpp: Mat::Norm2"]}
{"id": "C127", "title": "The derivative of a text, computed with doubles, is the derivative of the formula written", "statement": "For every text that is an expression of the grammar with literals of normal size, Parse, Diff with respect to x, Subs of finite values and Vpa, all with IEEE doubles and a libm of known accuracy, return a finite number that differs from the partial derivative of the real function written in the text at that point by at most a bound computed from the written-out derivative, which accounts for reading the decimal literals, for the rounded constants of the rules (c-1, log 2, log 10), for Simplify and for every operation.", "quantifier": "all texts of the grammar, all variables, all points of finite doubles, all libm of known accuracy following annex F at zeros", "why_tests_cant": "tests compare a few derivatives with expected texts or numbers; that no literal, rule, rewriting or rounding anywhere moves the result further than the bound is a claim about every text and every point", "anchors": ["src/tomsolver/parse.cpp: Parse", "src/tomsolver/diff.cpp: Diff", "src/tomsolver/simplify.cpp: Simplify", "src/tomsolver/node.cpp: Node::Vpa"]}
{"id": "C128", "title": "Solve of equations written as texts, with IEEE doubles, finds the root of the equations as they are written", "statement": "Let equations be written as texts, with literals such as 0.1 that need not be doubles, and let z be a root of the equations over the real numbers as they are written, within a region of radius r where the written system is smooth and well conditioned (its Jacobian stretches vectors at least by 1/M and changes little) and the errors of reading the literals, differentiating and evaluating in doubles are small. If the configured initial value is in the region (and, for Newton's method, the region is large enough to contain the first correction), then Solve of what Parse reads from the texts returns - no exception, no abort - a table with exactly the variables of the texts whose finite numbers are within 4/3*M*(epsilon+E) of z, E bounding the errors of reading and evaluating the equations. For Newton's method and for the Levenberg-Marquardt method (under the conditions of C129), in any number of unknowns.", "quantifier": "all texts, all systems with a well-conditioned root, all configurations whose initial value is in the region, all libm of known accuracy", "why_tests_cant": "tests compare a few solutions with expected decimal numbers; that the rounding of the literals, the derivative rules and every operation never keeps the method from a root of the written equations is a statement about all texts and all roundings", "anchors": ["src/tomsolver/parse.cpp: Parse", "src/tomsolver/nonlinear.cpp: Solve, SolveByNewtonRaphson, SolveByLM", "src/tomsolver/diff.cpp: Diff", "src/tomsolver/linear.cpp: SolveLinear"]}
{"id": "C129", "title": "The Levenberg-Marquardt method with IEEE doubles finds a well-conditioned root of a system", "statement": "Let a system of n equations in n unknowns have a root z such that, within a distance r, the equations are smooth, the Jacobian stretches every vector at least by 1/M and changes little, values and derivatives are computed with small errors, the constants are small against epsilon and the damping of the method, and subtracting two fifths of the transposed Jacobian does not make the Jacobian collapse (always so when it is symmetric). Then from every point of doubles within r of z, Solve by the Levenberg-Marquardt method returns - no exception, no endless loop - a point of finite doubles within 4/3*M*(epsilon+E) of z, after at most as many rounds as it takes to divide r by four until the values are below epsilon; each round takes the first direction with the full step and gets at least four times closer.", "quantifier": "all systems of any size with a well-conditioned root, all starting points of doubles in the region, all configurations with small epsilon, all libm of known accuracy", "why_tests_cant": "a test runs a few systems from a few points; that no rounding in the products, the elimination, the line search or the update ever rejects the step or stalls the method is a claim about every system, point and rounding", "anchors": ["src/tomsolver/nonlinear.cpp: SolveByLM, Armijo, Solve", "src/tomsolver/linear.cpp: SolveLinear", "src/tomsolver/mat.cpp: Mat::operator*, Transpose, Norm2"]}
{"id": "C130", "title": "Printing an expression and reading it again moves its value at most by a known bound", "statement": "Take an expression over IEEE doubles with names Parse reads, without arcsin, arccos, arctan, whose literals are 0 or between 2e-16 and 1e16 in absolute value. Parse accepts the text ToString writes. The tree read is the expression with sums and products regrouped to the left and negative literals written as a sign, except that a literal below 0.5 may have become another double of the same sign at most 1e-16 away (no other literal changes). Evaluated at any point of doubles, the tree read gives a double whose distance to the exact value of the original expression is at most the bound accumulated from these changes and the roundings of the operations. Printing and reading a second time changes no literal any more and the text stays the same from then on.", "quantifier": "all expressions over binary64 with literals in that range, all points, all libm of known accuracy", "why_tests_cant": "a test compares a few values after a few round trips; the loss per literal and its effect on the value must be bounded for every double and every expression", "anchors": ["src/tomsolver/node.cpp: NodeImpl::ToString", "src/tomsolver/config.cpp: ToString", "src/tomsolver/parse.cpp: Parse", "src/tomsolver/node.cpp: NodeImpl::Vpa"]}
{"id": "C131", "title": "Derivatives of any order, computed with IEEE doubles, are accurate", "statement": "For every expression over IEEE doubles smooth enough at a point of doubles, and every order n from 1 to 2^52 such that the rules of differentiation applied n times need no rounded constant (no log2, log10; for a literal exponent c the numbers c-1, ..., c-n are doubles; no exp of another variable alone), Diff of order n, Subs and Vpa succeed and return a double whose distance to the n-th partial derivative of the real function at that point is at most the bound obtained by propagating rounding errors through the written-out n-th derivative. For polynomials with integer literals at integer points, the result is exact as long as all numbers stay within 2^53.", "quantifier": "all expressions, all variables, all orders 1..2^52, all points of doubles, every libm of known accuracy", "why_tests_cant": "the bound must hold for every expression, order and point; a test compares a few rounded results with other rounded results", "anchors": ["src/tomsolver/diff.cpp: Diff, Simplify", "src/tomsolver/subs.cpp: Subs", "src/tomsolver/node.cpp: Vpa"]}
{"id": "C132", "title": "Results do not depend on functions the equations do not use", "statement": "Take two machines with IEEE doubles whose <cmath> libraries may differ, but agree on a set of functions, and whose valarray::sum adds in the same order. An expression that uses only functions of that set has the same value at every point (or the same exception) and is simplified to the same expression on both, bit for bit; if its derivatives use only such functions too, Diff gives the same expression, and Solve, by both methods, from every initial point and with every configuration, gives the same table or the same exception. In particular, results for polynomial systems (signs, + - *, division by literals) and derivatives of any order of polynomials do not depend on <cmath> at all. Parse and ToString never do.", "quantifier": "all pairs of libms, all sets of functions they agree on, all expressions and systems, all points, configurations and numbers of iterations", "why_tests_cant": "a test runs on one machine; two runs on different machines compare two inputs, not all", "anchors": ["src/tomsolver/math_operator.cpp: Calc", "src/tomsolver/diff.cpp: Diff", "src/tomsolver/simplify.cpp: Simplify", "src/tomsolver/nonlinear.cpp: Solve, SolveByNewtonRaphson, SolveByLM", "src/tomsolver/parse.cpp: Parse", "src/tomsolver/node.cpp: ToString"]}
{"id": "C133", "title": "Solve computes square roots", "statement": "With the settings a user gets by default (Newton's method, initial value 1, epsilon 1e-9, 100 iterations; more generally epsilon between 2^-30 and 1 and at least 83 iterations), and IEEE doubles with any <cmath>, Solve of the text x*x-a returns for every double a from 0 to 65536, and the double it gives to x has, computed exactly, a square within epsilon + 2^-33 of a. For a above 1 + 2 epsilon it is positive and within (epsilon + 2^-33)/sqrt(a) of the square root. For a below 1 - 2 epsilon it is negative: the answer is near -sqrt(a), although the positive root lies between 0 and the initial value.", "quantifier": "all doubles a from 0 to 65536, all names of the variable, all libms, all epsilons from 2^-30 to 1, all iteration limits from 83", "why_tests_cant": "there are 2^62 such a; that the number of iterations, the loss of digits near the root and the rounding of every step stay within bounds is an inductive argument", "anchors": ["src/tomsolver/nonlinear.cpp: Solve, SolveByNewtonRaphson", "src/tomsolver/config.h: Config", "src/tomsolver/mat.cpp: SolveLinear, Mat::NormInfinity"]}
{"id": "C134", "title": "Solve gives no answer when no double meets the tolerance", "statement": "Epsilon is an absolute tolerance, so for large numbers no double may meet it. For the equation x*x-a with a an odd power of two from 2^25 on (the digits of 33554432 and above) and epsilon 1e-9 (more generally a = 2^(2m+1) and epsilon at most 3*2^(2m)/2^55), there are two real roots, but at no double, infinity or NaN does the computed left hand side pass the test, and Solve returns a table for no method, no initial values, no other settings, no number of iterations and no <cmath>: it never answers with a value that does not meet epsilon. With the default settings x*x-33554432 ends with the exception for too many iterations.", "quantifier": "all odd powers of two from 2^25 on, all smaller epsilons, all methods, configurations, initial tables and libms, all doubles as candidates", "why_tests_cant": "a test can show that one run throws; that no run from any initial point with any settings can answer is a statement about all doubles", "anchors": ["src/tomsolver/nonlinear.cpp: Solve, SolveByNewtonRaphson, SolveByLM", "src/tomsolver/config.h: Config", "src/tomsolver/mat.cpp: Mat::operator==(double)"]}
{"id": "C135", "title": "Solve invents no roots", "statement": "If it can be seen from the way one equation of a system is written that it is at least epsilon everywhere, or at most minus epsilon everywhere (built from literals, products e*e, e^2, sqrt, exp, products and sums of such with the right signs, such as x^2+sqrt(y)+exp(x*y)*y^2+0.001), then its computed value in IEEE doubles has this bound too at all points, whatever the rounding, and Solve never returns a table: for no method, no initial values, no settings (with that epsilon), no other equations in the system.", "quantifier": "all systems with such an equation, all methods, configurations, initial tables and iteration limits, all libms whose sqrt, exp and squares are not negative", "why_tests_cant": "a solver that returns a false root does so for some starting point and some system that nobody tried", "anchors": ["src/tomsolver/nonlinear.cpp: Solve, SolveByNewtonRaphson, SolveByLM", "src/tomsolver/mat.cpp: Mat::operator==(double)", "src/tomsolver/math_operator.cpp: Calc"]}
{"id": "C136", "title": "Solve of x-a and x+a is exact", "statement": "For the texts v-n and v+n with a natural number n up to 2^52 in digits and any readable variable name, Solve by Newton's method (the default) returns the table that gives v exactly the value n, or -n, from every integer initial value up to 2^52 in absolute value (the default is 1), with every epsilon in (0, 1], at least one iteration allowed, and any <cmath>. For v-a and v+a with any double literal whose root q is at most 2^900 in absolute value, from the default initial value 1, Solve also returns; the answer is exactly q if |q| is at least 2, and otherwise within 2^-50 of q, unless 1 itself meets the tolerance (then 1 is the answer).", "quantifier": "all natural numbers up to 2^52 and all doubles up to 2^900, all variable names, all integer initial values, all epsilons in the stated range, all libms, invalid values checked or not", "why_tests_cant": "rounding differs from double to double (half-way cases, changes of binade), so no sample shows that the answer is exact for all", "anchors": ["src/tomsolver/nonlinear.cpp: Solve, SolveByNewtonRaphson", "src/tomsolver/linear.cpp: SolveLinear", "src/tomsolver/diff.cpp: Diff", "src/tomsolver/parse.cpp: Parse"]}
{"id": "C137", "title": "Solve of k*x-n with an integer root is exact", "statement": "For all natural numbers c (not 0) and n with c*n up to 2^51 and any readable variable name, Solve by Newton's method from 1 (the defaults) of the text c*v-m, m being the digits of the product, returns the table that gives v exactly the value n; and of c*v+m exactly -n. For literals of any sign the same holds of the parsed equation k*v-a or k*v+a with an integer root r from every integer initial value i, as long as k*r and k*i are at most 2^51 in absolute value; for every epsilon in (0,1], at least one iteration allowed, and any <cmath>: no rounding error ever shows.", "quantifier": "all integer coefficients, roots and initial values in the stated range, all variable names, all epsilons in the range, all libms, invalid values checked or not", "why_tests_cant": "a division that rounds, or a step that stops short, shows for some coefficients and roots only; there are about 2^51 of them", "anchors": ["src/tomsolver/nonlinear.cpp: Solve, SolveByNewtonRaphson", "src/tomsolver/linear.cpp: SolveLinear", "src/tomsolver/diff.cpp: Diff", "src/tomsolver/simplify.cpp: Simplify", "src/tomsolver/parse.cpp: Parse"]}
