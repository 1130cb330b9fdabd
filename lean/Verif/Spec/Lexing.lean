import Verif.Spec.Grammar
import Verif.Model.Parse
/-
Specification of what Parse does with the text: pieces, columns, parentheses.
-/
namespace Tom
variable {α : Type}

/-- Pieces without their meaning: a word is kept as text (in a `var` token). -/
def Spelled (u : Str) (t : Tok α) : Prop := t = .var u

/-- The text of a piece. -/
def pieceText : Tok α → Str
  | .var u => u
  | .sym c => [c]
  | _ => []

/-- No other word than a function name itself has the (64-bit FNV-1a) hash of that function name. -/
def NoCollision (u : Str) : Prop := ∀ s f, FnName s f → fnv1a s = fnv1a u → s = u

/-- What Parse takes a word for: like `WordMeans`, but every word with the hash of a function name is that function. -/
inductive HashMeans [Dbl α] : Str → Tok α → Prop
  | num {u : Str} {v : α} : Numeral u v → HashMeans u (.num v)
  | fn {u s : Str} {f : UnOp} : (¬ ∃ v : α, Numeral u v) → FnName s f → fnv1a s = fnv1a u → HashMeans u (.fn f)
  | var {u : Str} : LegalName u → (¬ ∃ v : α, Numeral u v) → (¬ ∃ s f, FnName s f ∧ fnv1a s = fnv1a u) →
      HashMeans u (.var u)

/-- A word that is no number, no function and no legal name. -/
def Unreadable (α : Type) [Dbl α] (u : Str) : Prop :=
  (¬ ∃ v : α, Numeral u v) ∧ ¬ LegalName u ∧ ¬ ∃ s f, FnName s f ∧ fnv1a s = fnv1a u

/-- the boundary between two texts is not inside a word -/
def CleanBoundary (a b : Str) : Prop := ∀ c ∈ a.getLast?, ∀ d ∈ b.head?, ¬ (WordChar c ∧ WordChar d)


/-- rename columns in an exception -/
def Exc.mapCols (f : Nat → Nat) : Exc → Exc
  | .singleParse k => .singleParse (f k)
  | .multiParse ks => .multiParse (ks.map f)
  | e => e

/-- rename columns in an outcome -/
def Res.mapCols {β : Type} (f : Nat → Nat) (g : β → β) : Res β → Res β
  | .ok b => .ok (g b)
  | .throw e => .throw (e.mapCols f)
  | .ub => .ub
  | .terminate => .terminate
  | .assertFail => .assertFail
  | .diverge => .diverge


/-- is it this single-character token? -/
def Tok.isSym (c : Char) : Tok α → Bool
  | .sym d => d == c
  | _ => false

/-- number of opening parentheses -/
def numOpen (ts : List (Tok α)) : Nat := ts.countP (Tok.isSym '(')

/-- number of closing parentheses -/
def numClose (ts : List (Tok α)) : Nat := ts.countP (Tok.isSym ')')

/-- No prefix has more closing than opening parentheses. -/
def NeverNegative (ts : List (Tok α)) : Prop := ∀ pre suf, ts = pre ++ suf → numClose pre ≤ numOpen pre

/-- is it a parenthesis? -/
def Tok.isParen (t : Tok α) : Bool := t.isSym '(' || t.isSym ')'

/-- The symbols an expression is written with, in some order, without parentheses. -/
def UnOp.symbol : UnOp → Tok α
  | .pos => .sym '+'
  | .neg => .sym '-'
  | f => .fn f

/-- the character of a binary operator -/
def BinOp.char : BinOp → Char
  | .add => '+' | .sub => '-' | .mul => '*' | .div => '/' | .pow => '^' | .and => '&' | .or => '|' | .mod => '%'

/-- The symbols an expression is written with, without parentheses. -/
def Expr.symbols : Expr α → List (Tok α)
  | .num v => [.num v]
  | .var x => [.var x]
  | .un o e => o.symbol :: e.symbols
  | .bin o a b => a.symbols ++ [.sym o.char] ++ b.symbols

end Tom
