import Verif.Spec.Tree
/-
The infix language of the library, independently of how `Parse` works: tokens, their spelling, and the grammar.
-/
namespace Tom

/-- Tokens: literals, variables, function names, and the single characters `( ) + - * / ^ & | %`. -/
inductive Tok (α : Type) : Type
  | num (v : α)
  | var (x : Str)
  | fn (f : UnOp)
  | sym (c : Char)
  deriving DecidableEq, Repr

/-- The documented function names (README; parse.cpp:87-108). -/
inductive FnName : Str → UnOp → Prop
  | sin : FnName ['s','i','n'] .sin
  | cos : FnName ['c','o','s'] .cos
  | tan : FnName ['t','a','n'] .tan
  | arcsin : FnName ['a','r','c','s','i','n'] .asin
  | arccos : FnName ['a','r','c','c','o','s'] .acos
  | arctan : FnName ['a','r','c','t','a','n'] .atan
  | sqrt : FnName ['s','q','r','t'] .sqrt
  | log : FnName ['l','o','g'] .log
  | log2 : FnName ['l','o','g','2'] .log2
  | log10 : FnName ['l','o','g','1','0'] .log10
  | exp : FnName ['e','x','p'] .exp

/-- The single-character tokens. -/
def OpChar (c : Char) : Prop := c ∈ ['(', ')', '+', '-', '*', '/', '^', '&', '|', '%']

/-- White space: blank, and the control characters 9 to 13. -/
def BlankChar (c : Char) : Prop := c = ' ' ∨ (9 ≤ c.toNat ∧ c.toNat ≤ 13)

/-- A maximal run of other characters is a word. -/
def WordChar (c : Char) : Prop := ¬ OpChar c ∧ ¬ BlankChar c

/-- Binary operator characters, their precedence (larger binds tighter) and meaning. -/
inductive BinChar : Char → Nat → BinOp → Prop
  | add : BinChar '+' 5 .add
  | sub : BinChar '-' 5 .sub
  | mul : BinChar '*' 10 .mul
  | div : BinChar '/' 10 .div
  | pow : BinChar '^' 11 .pow
  | and : BinChar '&' 12 .and
  | or : BinChar '|' 12 .or
  | mod : BinChar '%' 13 .mod

/-- Prefix signs. -/
inductive SignChar : Char → UnOp → Prop
  | pos : SignChar '+' .pos
  | neg : SignChar '-' .neg

variable {α : Type}

/-- The grammar.  `Gram p ts e`: the token sequence `ts` is an expression of precedence at least `p` with tree `e`.
`+ -` (5) and `* /` (10) associate to the left, `^` (11) to the right, `& |` (12) and `%` (13) to the left; signs (14) bind
tighter than every binary operator; 15 are the primaries: literals, variables, parenthesised expressions, function calls. -/
inductive Gram : Nat → List (Tok α) → Expr α → Prop
  | num (v : α) : Gram 15 [.num v] (.num v)
  | var (x : Str) : Gram 15 [.var x] (.var x)
  | paren {ts : List (Tok α)} {e : Expr α} : Gram 0 ts e → Gram 15 ([.sym '('] ++ ts ++ [.sym ')']) e
  | call {f : UnOp} {s : Str} {ts : List (Tok α)} {e : Expr α} : FnName s f → Gram 0 ts e →
      Gram 15 ([.fn f, .sym '('] ++ ts ++ [.sym ')']) (.un f e)
  | sign {c : Char} {o : UnOp} {ts : List (Tok α)} {e : Expr α} : SignChar c o → Gram 14 ts e →
      Gram 14 ([.sym c] ++ ts) (.un o e)
  | left {c : Char} {p : Nat} {o : BinOp} {ts us : List (Tok α)} {a b : Expr α} : BinChar c p o → o ≠ .pow →
      Gram p ts a → Gram (p + 1) us b → Gram p (ts ++ [.sym c] ++ us) (.bin o a b)
  | right {ts us : List (Tok α)} {a b : Expr α} :
      Gram 12 ts a → Gram 11 us b → Gram 11 (ts ++ [.sym '^'] ++ us) (.bin .pow a b)
  | lift {p : Nat} {ts : List (Tok α)} {e : Expr α} : Gram (p + 1) ts e → Gram p ts e

/-- Operators stand between operands, signs and opening parentheses before an operand, function names before an opening
parenthesis.  `Shaped true ts`: an operand must come next; `Shaped false ts`: an operand has just ended. -/
inductive Shaped : Bool → List (Tok α) → Prop
  | done : Shaped false []
  | num {v : α} {ts : List (Tok α)} : Shaped false ts → Shaped true (.num v :: ts)
  | var {x : Str} {ts : List (Tok α)} : Shaped false ts → Shaped true (.var x :: ts)
  | op {c : Char} {p : Nat} {o : BinOp} {ts : List (Tok α)} : BinChar c p o → Shaped true ts → Shaped false (.sym c :: ts)
  | sign {c : Char} {o : UnOp} {ts : List (Tok α)} : SignChar c o → Shaped true ts → Shaped true (.sym c :: ts)
  | popen {ts : List (Tok α)} : Shaped true ts → Shaped true (.sym '(' :: ts)
  | call {s : Str} {f : UnOp} {ts : List (Tok α)} : FnName s f → Shaped true ts → Shaped true (.fn f :: .sym '(' :: ts)
  | pclose {ts : List (Tok α)} : Shaped false ts → Shaped false (.sym ')' :: ts)

/-- How a string is divided into tokens: `Lexed means k s ts`, where the string `s` starts at column `k`, `ts` are the tokens
with their columns and `means w t` says that the word `w` is the token `t`.  Tokens may be separated by any white space;
single-character tokens are always recognised, words extend as far as possible. -/
inductive Lexed (means : Str → Tok α → Prop) : Nat → Str → List (Tok α × Nat) → Prop
  | blank {k : Nat} {w : Str} : (∀ c ∈ w, BlankChar c) → Lexed means k w []
  | sym {k : Nat} {w rest : Str} {c : Char} {ts : List (Tok α × Nat)} : (∀ c ∈ w, BlankChar c) → OpChar c →
      Lexed means (k + w.length + 1) rest ts → Lexed means k (w ++ [c] ++ rest) ((.sym c, k + w.length) :: ts)
  | word {k : Nat} {w u rest : Str} {t : Tok α} {ts : List (Tok α × Nat)} : (∀ c ∈ w, BlankChar c) → u ≠ [] →
      (∀ c ∈ u, WordChar c) → (∀ c ∈ rest.head?, ¬ WordChar c) → means u t →
      Lexed means (k + w.length + u.length) rest ts → Lexed means k (w ++ u ++ rest) ((t, k + w.length) :: ts)

/-- decimal digits, by character code -/
def DecDigits (ds : Str) : Prop := ∀ c ∈ ds, 48 ≤ c.toNat ∧ c.toNat ≤ 57

/-- value of a decimal or hexadecimal digit -/
def digitVal (c : Char) : Nat :=
  if c.toNat ≤ 57 then c.toNat - 48 else if c.toNat ≤ 70 then c.toNat - 55 else c.toNat - 87

/-- hexadecimal digits, by character code -/
def HexDigits (ds : Str) : Prop :=
  ∀ c ∈ ds, (48 ≤ c.toNat ∧ c.toNat ≤ 57) ∨ (97 ≤ c.toNat ∧ c.toNat ≤ 102) ∨ (65 ≤ c.toNat ∧ c.toNat ≤ 70)

/-- the number a digit string denotes in base `b` -/
def digitsVal (b : Nat) : Str → Nat
  | [] => 0
  | c :: cs => digitVal c * b ^ cs.length + digitsVal b cs

/-- an optional exponent: nothing, or a marker (one of two letters) and at least one decimal digit -/
inductive Exponent (lo up : Char) : Str → Nat → Prop
  | none : Exponent lo up [] 0
  | some {c : Char} {ds : Str} : (c = lo ∨ c = up) → ds ≠ [] → DecDigits ds → Exponent lo up (c :: ds) (digitsVal 10 ds)

/-- digits with at most one point and at least one digit: integer part, fraction -/
inductive Mantissa (ok : Str → Prop) : Str → Str → Str → Prop
  | int {ds : Str} : ok ds → ds ≠ [] → Mantissa ok ds ds []
  | point {ip fp : Str} : ok ip → ok fp → ip ++ fp ≠ [] → Mantissa ok (ip ++ ['.'] ++ fp) ip fp

/-- The words that are numbers: decimal and hexadecimal numerals whose value is representable, and inf, infinity, nan in
any mixture of cases. -/
inductive Numeral [Dbl α] : Str → α → Prop
  | dec {m ip fp ex : Str} {n : Nat} {v : α} : Mantissa DecDigits m ip fp → Exponent 'e' 'E' ex n →
      Dbl.ofDec (digitsVal 10 (ip ++ fp)) ((n : Int) - fp.length) = Option.some v → Numeral (m ++ ex) v
  | hex {c : Char} {m ip fp ex : Str} {n : Nat} {v : α} : (c = 'x' ∨ c = 'X') → Mantissa HexDigits m ip fp →
      Exponent 'p' 'P' ex n →
      Dbl.ofHex (digitsVal 16 (ip ++ fp)) ((n : Int) - 4 * fp.length) = Option.some v → Numeral (['0', c] ++ m ++ ex) v
  | inf {i n f : Char} : (i = 'i' ∨ i = 'I') → (n = 'n' ∨ n = 'N') → (f = 'f' ∨ f = 'F') → Numeral [i, n, f] Dbl.inf
  | infinity {i n f j m k t y : Char} : (i = 'i' ∨ i = 'I') → (n = 'n' ∨ n = 'N') → (f = 'f' ∨ f = 'F') →
      (j = 'i' ∨ j = 'I') → (m = 'n' ∨ m = 'N') → (k = 'i' ∨ k = 'I') → (t = 't' ∨ t = 'T') → (y = 'y' ∨ y = 'Y') →
      Numeral [i, n, f, j, m, k, t, y] Dbl.inf
  | nan {n a m : Char} : (n = 'n' ∨ n = 'N') → (a = 'a' ∨ a = 'A') → (m = 'n' ∨ m = 'N') → Numeral [n, a, m] Dbl.nan

/-- What a word means: a number, else one of the documented function names, else a variable if the name is legal. -/
inductive WordMeans [Dbl α] : Str → Tok α → Prop
  | num {u : Str} {v : α} : Numeral u v → WordMeans u (.num v)
  | fn {u : Str} {f : UnOp} : FnName u f → WordMeans u (.fn f)
  | var {u : Str} : LegalName u → (¬ ∃ v : α, Numeral u v) → (¬ ∃ f, FnName u f) → WordMeans u (.var u)

end Tom
