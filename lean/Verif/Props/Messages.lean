import Verif.Lemmas.Messages
import Verif.Model.Num
/-
C68: the messages of parse errors.  C69: the messages of MathError.
-/
namespace Tom

/-- A message that explains an error in one line of text: a heading with the column, the line, and below it a mark under the
character with that column. -/
def markedLine (explanation : Str) (column : Nat) (line : Str) : Str :=
  "[Parse Error] ".toList ++ explanation ++ " at(0, ".toList ++ (toString column).toList ++ "):".toList ++ ['\n'] ++
  line ++ ['\n'] ++
  (List.replicate column ' ' ++ "^---- error position".toList)

theorem what_eq (e : SingleErr) (h : e.line = 0) : e.what = markedLine e.info e.pos e.content := by
  have h0 : natText 0 = ['0'] := by decide
  have h1 : "):\n".toList = "):".toList ++ ['\n'] := by decide
  have h2 : "\n".toList = ['\n'] := by decide
  have h3 : " at(".toList ++ (['0'] ++ ", ".toList) = " at(0, ".toList := by decide
  unfold SingleErr.what markedLine
  rw [h, h0, h1, h2, ← h3]
  simp only [natText, List.append_assoc]

/-- C68: the model with texts is the model of the other parse theorems. -/
theorem C68_same {α : Type} [Dbl α] (s : Str) : (parseD s : DRes (Raw α)).flat = parse s := parseD_flat s

/-- **C68 (partial).** The message of a `SingleParseError` for a non-empty text shows the whole text with the mark under the
unmatched parenthesis that the message names.  Missing: unreadable words, whose message shows only the word (with the mark as many
columns to the right as the word stands in the text). -/
theorem C68_single_partial {α : Type} [Dbl α] (s : Str) (hs : s ≠ []) (e : SingleErr)
    (h : parseD s = (.parseError (.single e) : DRes (Raw α))) :
    (∃ c, (c = '(' ∨ c = ')') ∧ s[e.pos]? = some c ∧
      (PErr.single e).what = markedLine ("Parenthesis not match: \"".toList ++ [c] ++ "\"".toList) e.pos s) ∨
    (∃ w, w ≠ [] ∧ w <+: s.drop e.pos ∧
      (PErr.single e).what = markedLine ("Invalid variable name: \"".toList ++ w ++ "\"".toList) e.pos w) := by
  rcases parseD_error hs h with ⟨e', he, h0, h1, h2, h3⟩ | ⟨h0, h1, c, hc, h2, h3⟩
  · cases he
    exact .inr ⟨e.content, h1, h2, by rw [PErr.what, what_eq e h0, h3]⟩
  · exact .inl ⟨c, hc, h2, by rw [PErr.what, what_eq e h0, h3, h1]⟩

/-- **C68.** The message of a `MultiParseError` is one block for every token left over, last one first: the whole text with the
mark under the first character of the token that the block names. -/
theorem C68_multi {α : Type} [Dbl α] (s : Str) (es : List SingleErr)
    (h : parseD s = (.parseError (.multi es) : DRes (Raw α))) :
    es ≠ [] ∧ ∃ blocks : List (Nat × Str), blocks.map Prod.fst = es.map SingleErr.pos ∧
      (∀ b ∈ blocks, b.2 ≠ [] ∧ b.2 <+: s.drop b.1) ∧
      (PErr.multi es).what = (blocks.reverse.map fun b =>
        markedLine ("Parse Error at: \"".toList ++ b.2 ++ "\"".toList) b.1 s ++ ['\n']).flatten := by
  have hs : s ≠ [] := by
    intro hs
    subst hs
    simp [parseD, dParseToTokens] at h
  rcases parseD_error hs h with ⟨e', he, _⟩ | ⟨hne, hall⟩
  · cases he
  · refine ⟨hne, ?_⟩
    clear h hne
    induction es with
    | nil => exact ⟨[], rfl, by simp, rfl⟩
    | cons e es ih =>
      obtain ⟨bs, h1, h2, h3⟩ := ih fun e he => hall e (List.mem_cons_of_mem _ he)
      obtain ⟨h4, h5, u, h6, h7, h8⟩ := hall e (List.mem_cons_self ..)
      refine ⟨(e.pos, u) :: bs, by simp [h1], ?_, ?_⟩
      · intro b hb
        rcases List.mem_cons.mp hb with hb | hb
        · subst hb; exact ⟨h6, h7⟩
        · exact h2 b hb
      · simp only [PErr.what, multiWhat, List.reverse_cons, List.flatMap_append, List.map_append, List.flatten_append,
          List.flatMap_cons, List.flatMap_nil, List.map_cons, List.map_nil, List.flatten_cons, List.flatten_nil,
          List.append_nil] at h3 ⊢
        rw [h3, what_eq e h4, h8, h5]
        rfl

/-- **C68 fails** for words that are no variable names: for `1+2a` the line shown is `2a`, and the mark is to the right of it.
For the empty text the explanation is missing and the line shown is `empty input`. -/
theorem C68_false :
    (∃ e, parseD "1+2a".toList = (.parseError (.single e) : DRes (Raw (XNum Rat))) ∧
      e.what = "[Parse Error] Invalid variable name: \"2a\" at(0, 2):\n2a\n  ^---- error position".toList) ∧
    (∃ e, parseD [] = (.parseError (.single e) : DRes (Raw (XNum Rat))) ∧
      e.what = "[Parse Error]  at(0, 0):\nempty input\n^---- error position".toList) := by
  refine ⟨⟨⟨0, 2, "2a".toList, "Invalid variable name: \"2a\"".toList⟩, ?_, ?_⟩, ⟨⟨0, 0, "empty input".toList, []⟩, ?_, ?_⟩⟩ <;>
    decide +kernel

/-- an unmatched parenthesis and leftover tokens -/
example : (∃ e, parseD "1+(x".toList = (.parseError (.single e) : DRes (Raw (XNum Rat))) ∧
      e.what = "[Parse Error] Parenthesis not match: \"(\" at(0, 2):\n1+(x\n  ^---- error position".toList) ∧
    (∃ es, parseD "x y z".toList = (.parseError (.multi es) : DRes (Raw (XNum Rat))) ∧
      (PErr.multi es).what = ("[Parse Error] Parse Error at: \"x\" at(0, 0):\nx y z\n^---- error position\n" ++
        "[Parse Error] Parse Error at: \"y\" at(0, 2):\nx y z\n  ^---- error position\n").toList) := by
  refine ⟨⟨⟨0, 2, "1+(x".toList, "Parenthesis not match: \"(\"".toList⟩, ?_, ?_⟩,
    ⟨[⟨0, 2, "x y z".toList, "Parse Error at: \"y\"".toList⟩, ⟨0, 0, "x y z".toList, "Parse Error at: \"x\"".toList⟩], ?_, ?_⟩⟩ <;>
    decide +kernel

/-! ### C69 -/

/-- all error types -/
def allErrorTypes : List ErrorType :=
  [.invalidNumber, .illegalChar, .invalidVarname, .wrongExpression, .emptyInput, .undefinedVariable, .subsNotEqual,
   .notLinkVariableTable, .outOfDomain, .varCountNotEqualNumCount, .varHasBeenDefined, .indeterminateEquation,
   .singularMatrix, .infinitySolutions, .overDeterminedEquations, .sizeNotMatch]

theorem allErrorTypes_mem (e : ErrorType) : e ∈ allErrorTypes := by cases e <;> decide

theorem errorInfo_check : (allErrorTypes.all fun e => allErrorTypes.all fun e' =>
    !(getErrorInfo e).isPrefixOf (getErrorInfo e') || e == e') = true := by decide +kernel

theorem errorInfo_prefix {e e' : ErrorType} (h : getErrorInfo e <+: getErrorInfo e') : e = e' := by
  have := List.all_eq_true.mp (List.all_eq_true.mp errorInfo_check e (allErrorTypes_mem e)) e' (allErrorTypes_mem e')
  rw [List.isPrefixOf_iff_prefix.mpr h] at this
  simpa using this

/-- **C69.** The message of a `MathError` determines the error type and the additional text, and `GetErrorType` is the type it was
made with. -/
theorem C69_what (e e' : ErrorType) (x x' : Str) :
    ((mathError e x).what = (mathError e' x').what ↔ e = e' ∧ x = x') ∧ (mathError e x).getErrorType = e ∧
      getErrorInfo e <+: (mathError e x).what := by
  have hw : ∀ e x, ∃ r, (mathError e x).what = getErrorInfo e ++ r ∧ (r = [] ∧ x = [] ∨ r = ": \"".toList ++ x ++ "\"".toList ∧ x ≠ []) := by
    intro e x
    by_cases hx : x = []
    · exact ⟨[], by simp [mathError, MathErrorObj.what, hx], .inl ⟨rfl, hx⟩⟩
    · exact ⟨_, by simp only [mathError, MathErrorObj.what, if_neg hx], .inr ⟨rfl, hx⟩⟩
  refine ⟨⟨fun h => ?_, fun ⟨h1, h2⟩ => by rw [h1, h2]⟩, rfl, ?_⟩
  · obtain ⟨r, h1, h2⟩ := hw e x
    obtain ⟨r', h1', h2'⟩ := hw e' x'
    rw [h1, h1'] at h
    have he : e = e' := by
      rcases List.prefix_or_prefix_of_prefix (⟨r, h⟩ : getErrorInfo e <+: getErrorInfo e' ++ r') (List.prefix_append _ _) with hp | hp
      · exact errorInfo_prefix hp
      · exact (errorInfo_prefix hp).symm
    subst he
    refine ⟨rfl, ?_⟩
    have hr := List.append_cancel_left h
    rcases h2 with ⟨h2, h3⟩ | ⟨h2, h3⟩ <;> rcases h2' with ⟨h2', h3'⟩ | ⟨h2', h3'⟩
    · rw [h3, h3']
    · rw [h2, h2'] at hr; simp at hr
    · rw [h2, h2'] at hr; simp at hr
    · rw [h2, h2', List.append_assoc, List.append_assoc] at hr
      exact List.append_cancel_right (List.append_cancel_left hr)
  · obtain ⟨r, h1, _⟩ := hw e x
    exact ⟨r, h1.symm⟩

example : (mathError .singularMatrix "tip".toList).what = "singular matrix: \"tip\"".toList := by decide +kernel

end Tom
