import Verif.Model.Parse
import Verif.Spec.Lexing
/-
The scanning loop divides the input as the specification `Lexed` says.
-/
namespace Tom
variable {α : Type} [Dbl α]

theorem isBasicOperator_iff (c : Char) : isBasicOperator c = true ↔ OpChar c := by
  simp [isBasicOperator, OpChar, or_assoc]

theorem isSpaceChar_iff (c : Char) : isSpaceChar c = true ↔ BlankChar c := by
  simp only [isSpaceChar, BlankChar, Bool.or_eq_true, beq_iff_eq]
  constructor
  · rintro (((((h | h) | h) | h) | h) | h) <;> subst h <;> simp <;> decide
  · rintro (rfl | ⟨h1, h2⟩)
    · simp
    · have h : c.toNat = 9 ∨ c.toNat = 10 ∨ c.toNat = 11 ∨ c.toNat = 12 ∨ c.toNat = 13 := by omega
      have hof : c = Char.ofNat c.toNat := (Char.ofNat_toNat c).symm
      rcases h with h | h | h | h | h <;> rw [h] at hof <;> subst hof <;> decide

/-- What the lexer does with one piece of text. -/
def lexPiece (ret : List (Token α)) (t : Tok α × Nat) : Res (List (Token α)) :=
  match t.1 with
  | .sym c => do
    let n ← mkOp (baseOperatorCharToEnum c (unaryPosition ret))
    .ok (ret ++ [⟨n, t.2⟩])
  | .var u => tryConfirmToken u t.2 ret
  | _ => .ok ret

/-- process the pieces from left to right -/
def lexPieces : List (Tok α × Nat) → List (Token α) → Res (List (Token α))
  | [], ret => .ok ret
  | t :: ts, ret => lexPiece ret t >>= lexPieces ts

theorem wordChar_iff (c : Char) : WordChar c ↔ isBasicOperator c = false ∧ isSpaceChar c = false := by
  rw [WordChar, ← isBasicOperator_iff, ← isSpaceChar_iff]; simp

theorem not_op_of_blank {c : Char} (h : BlankChar c) : isBasicOperator c = false := by
  cases hb : isBasicOperator c with
  | false => rfl
  | true =>
    exfalso
    rw [isBasicOperator_iff] at hb
    simp only [OpChar, List.mem_cons, List.not_mem_nil, or_false] at hb
    rcases hb with hb | hb | hb | hb | hb | hb | hb | hb | hb | hb <;> subst hb <;> rcases h with h | h <;> revert h <;> decide

theorem lexLoop_blanks (w rest : Str) (hw : ∀ c ∈ w, BlankChar c) (k : Nat) (ret : List (Token α)) :
    lexLoop (w ++ rest) k [] k ret = lexLoop rest (k + w.length) [] (k + w.length) ret := by
  induction w generalizing k with
  | nil => rfl
  | cons c w ih =>
    have hc := hw c (by simp)
    rw [List.cons_append, lexLoop, not_op_of_blank hc, (isSpaceChar_iff c).mpr hc]
    simp only [Bool.false_eq_true, if_false, if_true, tryConfirmToken, Res.bind_ok]
    rw [ih (fun c h => hw c (by simp [h]))]
    simp only [List.length_cons]
    congr 1 <;> omega

theorem lexLoop_word (u rest : Str) (hu : ∀ c ∈ u, WordChar c) (pos : Nat) (word : Str) (start : Nat) (ret : List (Token α)) :
    lexLoop (u ++ rest) pos word start ret = lexLoop rest (pos + u.length) (word ++ u) start ret := by
  induction u generalizing pos word with
  | nil => simp
  | cons c u ih =>
    have hc := (wordChar_iff c).mp (hu c (by simp))
    rw [List.cons_append, lexLoop, hc.1, hc.2]
    simp only [Bool.false_eq_true, if_false]
    rw [ih (fun c h => hu c (by simp [h]))]
    simp only [List.length_cons, List.append_assoc, List.singleton_append]
    congr 1; omega

theorem lexLoop_stop (rest : Str) (h : ∀ c ∈ rest.head?, ¬ WordChar c) (pos : Nat) (word : Str) (start : Nat)
    (ret : List (Token α)) :
    lexLoop rest pos word start ret = (tryConfirmToken word start ret >>= fun ret => lexLoop rest pos [] pos ret) := by
  cases rest with
  | nil =>
    simp only [lexLoop]
    cases tryConfirmToken word start ret <;> simp [tryConfirmToken]
  | cons c cs =>
    have hc := h c (by simp)
    rw [wordChar_iff] at hc
    simp only [lexLoop]
    by_cases hb : isBasicOperator c = true
    · simp only [hb, if_true]
      cases tryConfirmToken word start ret <;> simp [tryConfirmToken]
    · have hs : isSpaceChar c = true := by simp_all
      simp only [hb, hs, if_true]
      cases tryConfirmToken word start ret <;> simp [tryConfirmToken]

/-- The scanning loop processes the pieces of the input in order. -/
theorem lexLoop_pieces {k : Nat} {s : Str} {ts : List (Tok α × Nat)} (h : Lexed Spelled k s ts) (ret : List (Token α)) :
    lexLoop s k [] k ret = lexPieces ts ret := by
  induction h generalizing ret with
  | @blank k w hw =>
    have := lexLoop_blanks w [] hw k ret
    rw [List.append_nil] at this
    rw [this]
    simp [lexLoop, tryConfirmToken, lexPieces]
  | @sym k w rest c ts hw hc _ ih =>
    rw [List.append_assoc, lexLoop_blanks w _ hw, List.singleton_append, lexLoop, (isBasicOperator_iff c).mpr hc]
    simp only [if_true, tryConfirmToken, Res.bind_ok, lexPieces, lexPiece]
    cases mkOp (α := α) (baseOperatorCharToEnum c (unaryPosition ret)) <;> simp [ih]
  | @word k w u rest t ts hw hne hu hrest hm _ ih =>
    rw [List.append_assoc, lexLoop_blanks w _ hw, lexLoop_word u rest hu, lexLoop_stop rest hrest]
    simp only [Spelled] at hm
    subst hm
    simp only [List.nil_append, lexPieces, lexPiece]
    cases tryConfirmToken u (k + w.length) ret <;> simp [ih]

theorem mem_takeWhile_imp' {p : Char → Bool} {l : Str} {x : Char} (h : x ∈ l.takeWhile p) : p x = true := by
  induction l with
  | nil => simp at h
  | cons a l ih =>
    rw [List.takeWhile_cons] at h
    split at h
    · rcases List.mem_cons.mp h with rfl | h
      · assumption
      · exact ih h
    · simp at h

/-- Every string divides into pieces. -/
theorem lexed_exists (s : Str) (k : Nat) : ∃ ts : List (Tok α × Nat), Lexed Spelled k s ts := by
  generalize hn : s.length = n
  induction n using Nat.strongRecOn generalizing s k with
  | _ n ih =>
    have hw : ∀ c ∈ s.takeWhile isSpaceChar, BlankChar c := fun c hc =>
      (isSpaceChar_iff c).mp (mem_takeWhile_imp' hc)
    have hs : s = s.takeWhile isSpaceChar ++ s.dropWhile isSpaceChar := (List.takeWhile_append_dropWhile).symm
    cases hd : s.dropWhile isSpaceChar with
    | nil =>
      rw [hd, List.append_nil] at hs
      refine ⟨[], ?_⟩
      rw [hs]; exact .blank hw
    | cons c cs =>
      have hc : isSpaceChar c = false := by
        have := List.head?_dropWhile_not isSpaceChar s
        rw [hd] at this
        simpa using this
      rw [hd] at hs
      have hlen := congrArg List.length hs
      simp only [List.length_append, List.length_cons] at hlen
      by_cases hb : isBasicOperator c = true
      · obtain ⟨ts, hts⟩ := ih cs.length (by omega) cs (k + (s.takeWhile isSpaceChar).length + 1) rfl
        refine ⟨(.sym c, k + (s.takeWhile isSpaceChar).length) :: ts, ?_⟩
        have hfin := Lexed.sym (means := Spelled) hw ((isBasicOperator_iff c).mp hb) hts
        rw [List.append_assoc, List.singleton_append, ← hs] at hfin
        exact hfin
      · let p : Char → Bool := fun c => !isBasicOperator c && !isSpaceChar c
        have hp : ∀ c, p c = true ↔ WordChar c := fun c => by simp [p, wordChar_iff]
        have hu : ∀ d ∈ (c :: cs).takeWhile p, WordChar d := fun d hd => (hp d).mp (mem_takeWhile_imp' hd)
        have hne : (c :: cs).takeWhile p ≠ [] := by simp [p, hb, hc]
        have hsplit : (c :: cs) = (c :: cs).takeWhile p ++ (c :: cs).dropWhile p := (List.takeWhile_append_dropWhile).symm
        have hrest : ∀ d ∈ ((c :: cs).dropWhile p).head?, ¬ WordChar d := by
          intro d hd
          have := List.head?_dropWhile_not p (c :: cs)
          rw [Option.mem_def] at hd
          rw [hd] at this
          rw [← hp d]
          simpa using this
        have hl := congrArg List.length hsplit
        simp only [List.length_append] at hl
        have hpos : 0 < ((c :: cs).takeWhile p).length := List.length_pos_iff.mpr hne
        obtain ⟨ts, hts⟩ := ih ((c :: cs).dropWhile p).length (by simp only [List.length_cons] at hl; omega) _
          (k + (s.takeWhile isSpaceChar).length + ((c :: cs).takeWhile p).length) rfl
        refine ⟨(.var ((c :: cs).takeWhile p), k + (s.takeWhile isSpaceChar).length) :: ts, ?_⟩
        have hfin := Lexed.word (means := Spelled) (t := Tok.var ((c :: cs).takeWhile p)) hw hne hu hrest rfl hts
        rw [List.append_assoc, ← hsplit, ← hs] at hfin
        exact hfin

end Tom
