import Verif.Spec.Grammar
/-
Specification for C117: replacing names in a text by parenthesised texts.
-/
namespace Tom

/-- `Replaced σ s s'`: the text `s'` is the text `s` in which every word `u` with `σ u = some a` has been replaced by `(a)`; all
other words, single characters and white space are unchanged, and what has been inserted is not searched again.  Words are
the maximal runs of characters that are neither white space nor one of `( ) + - * / ^ & | %`. -/
inductive Replaced (σ : Str → Option Str) : Str → Str → Prop
  | blank {w : Str} : (∀ c ∈ w, BlankChar c) → Replaced σ w w
  | sym {w rest rest' : Str} {c : Char} : (∀ c ∈ w, BlankChar c) → OpChar c → Replaced σ rest rest' →
      Replaced σ (w ++ [c] ++ rest) (w ++ [c] ++ rest')
  | keep {w u rest rest' : Str} : (∀ c ∈ w, BlankChar c) → u ≠ [] → (∀ c ∈ u, WordChar c) →
      (∀ c ∈ rest.head?, ¬ WordChar c) → σ u = none → Replaced σ rest rest' → Replaced σ (w ++ u ++ rest) (w ++ u ++ rest')
  | swap {w u a rest rest' : Str} : (∀ c ∈ w, BlankChar c) → u ≠ [] → (∀ c ∈ u, WordChar c) →
      (∀ c ∈ rest.head?, ¬ WordChar c) → σ u = some a → Replaced σ rest rest' →
      Replaced σ (w ++ u ++ rest) (w ++ ['('] ++ a ++ [')'] ++ rest')

end Tom
