import Verif.Model.Combine
import Mathlib.Logic.Relation
/-
What the header-only library has to be, for C108 and C109.
-/
namespace Tom

/-- the file named `b` includes the one named `a` -/
def Includes (fs : List SrcFile) (a b : Str) : Prop := ∃ f ∈ fs, f.filename = b ∧ a ∈ f.depsInner

/-- No file includes itself, directly or through others. -/
def NoCycle (fs : List SrcFile) : Prop := ∀ x, ¬ Relation.TransGen (Includes fs) x x

/-- Every file comes after all files it includes. -/
def DepsFirst (os : List SrcFile) : Prop :=
  ∀ pre f post, os = pre ++ f :: post → ∀ d ∈ f.depsInner, ∃ g ∈ pre, g.filename = d

/-- lines to text -/
def unlines (ls : List Str) : Str := ls.flatMap fun l => l ++ ['\n']

/-- `t` is `s` without the blanks at its end -/
def TrimmedEnd (s t : Str) : Prop := ∃ b, s = t ++ b ∧ (∀ c ∈ b, pySpace c) ∧ ∀ c, t.getLast? = some c → pySpace c = false

/-- `t` is `s` without the blanks at both ends -/
def Trimmed (s t : Str) : Prop :=
  ∃ a b, s = a ++ t ++ b ∧ (∀ c ∈ a, pySpace c) ∧ (∀ c ∈ b, pySpace c) ∧ (∀ c, t.head? = some c → pySpace c = false) ∧
    ∀ c, t.getLast? = some c → pySpace c = false

/-- `s` begins with `#include`, blanks, and `name` between the two delimiters. -/
def IncludeLine (opn cls : Char) (s name : Str) : Prop :=
  ∃ ws rest, s = "#include".toList ++ ws ++ opn :: name ++ cls :: rest ∧ ws ≠ [] ∧ (∀ c ∈ ws, pySpace c) ∧ name ≠ [] ∧
    ∀ c ∈ name, c ∈ "abcdefghijklmnopqrstuvwxyz_./\\".toList

/-- What becomes of a line. -/
inductive Entry
  | dropped
  | inner (path : Str)
  | lib (header : Str)
  | define (text : Str)
  | text (text : Str)

/-- A line beginning with a letter that has an opening parenthesis after its second character is taken for a function. -/
def FunctionLine (line : Str) : Prop := ∃ c d r t, line = c :: d :: (r ++ '(' :: t) ∧ (('a' ≤ c ∧ c ≤ 'z') ∨ ('A' ≤ c ∧ c ≤ 'Z'))

/-- The rules: `#pragma once` is dropped, `#include "..."` is a dependency, `#include <...>` and `#define` are collected, everything else is
text, which loses the blanks at its end; lines taken for functions get `inline` in front. -/
def Entry.Of (resolve : Str → Option Str) (line : Str) (e : Entry) : Prop :=
  ∃ s, Trimmed line s ∧
    match e with
    | .dropped => s = "#pragma once".toList
    | .inner path => ∃ name, IncludeLine '"' '"' s name ∧ resolve name = some path
    | .lib h => IncludeLine '<' '>' s h
    | .define t => t = s ∧ ∃ r, s = "#define".toList ++ r
    | .text t => s ≠ "#pragma once".toList ∧ (∀ n, ¬ IncludeLine '"' '"' s n) ∧ (∀ n, ¬ IncludeLine '<' '>' s n) ∧
        (¬ ∃ r, s = "#define".toList ++ r) ∧
        ∃ u, TrimmedEnd line u ∧ ((FunctionLine line ∧ t = "inline ".toList ++ u) ∨ (¬ FunctionLine line ∧ t = u))

/-- the collected parts -/
def Entry.inner? : Entry → Option Str
  | .inner p => some p
  | _ => none
def Entry.lib? : Entry → Option Str
  | .lib p => some p
  | _ => none
def Entry.define? : Entry → Option Str
  | .define p => some p
  | _ => none
def Entry.text? : Entry → Option Str
  | .text p => some p
  | _ => none

end Tom
