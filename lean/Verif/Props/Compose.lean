import Verif.Lemmas.Compose
import Verif.Spec.Replace
import Verif.Spec.Subst
import Verif.Props.Parse
import Verif.Props.Subs
import Mathlib.Tactic.Choose
/-
Properties C116, C117: `Parse` is compositional.
-/
set_option linter.unusedSectionVars false
namespace Tom
variable {α : Type} [Dbl α]

/-! ### C116 -/

theorem lexPieces_paren (k : Nat) (R : List (Token α)) :
    lexPiece R (.sym '(', k) = .ok (R ++ [⟨opNode .lparen, k⟩]) ∧ lexPiece R (.sym ')', k) = .ok (R ++ [⟨opNode .rparen, k⟩]) := by
  constructor <;> simp [lexPiece, baseOperatorCharToEnum, mkOp, opNode]

/-- the pieces `l ( a ) r`, all columns forgotten: the outcome depends on `a` only through its conversion -/
theorem parsePieces_block (pl pa pa' pr : List (Tok α × Nat)) (A A' out : List (Token α))
    (h : lexPieces pa [] = .ok A) (h' : lexPieces pa' [] = .ok A')
    (hs : shunt A 0 [] [] = .ok out) (hs' : shunt A' 0 [] [] = .ok out) :
    parsePieces (pl ++ (.sym '(', 0) :: (pa ++ (.sym ')', 0) :: pr)) =
      parsePieces (pl ++ (.sym '(', 0) :: (pa' ++ (.sym ')', 0) :: pr)) := by
  obtain ⟨qr, hqr⟩ := lexPieces_context pr false
  have key : ∀ (pa : List (Tok α × Nat)) (A : List (Token α)), lexPieces pa [] = .ok A → ∀ L : List (Token α),
      lexPieces ((.sym '(', 0) :: (pa ++ (.sym ')', 0) :: pr)) L =
        (qr >>= fun x => .ok (L ++ ⟨opNode .lparen, 0⟩ :: (A ++ ⟨opNode .rparen, 0⟩ :: x))) := by
    intro pa A h L
    obtain ⟨qa, hqa⟩ := lexPieces_context pa true
    have h0 := hqa [] rfl
    rw [h] at h0
    have hq : qa = .ok A := by
      cases qa with
      | ok x => simp at h0; rw [h0]
      | throw e => cases h0
      | ub => cases h0
      | terminate => cases h0
      | assertFail => cases h0
      | diverge => cases h0
    subst hq
    have hu : unaryPosition (L ++ [(⟨opNode .lparen, 0⟩ : Token α)]) = true := by
      rw [unaryPosition, List.getLast?_concat]; rfl
    have hu2 : unaryPosition (L ++ [(⟨opNode .lparen, 0⟩ : Token α)] ++ A ++ [⟨opNode .rparen, 0⟩]) = false := by
      rw [unaryPosition, List.getLast?_concat]; rfl
    rw [lexPieces, (lexPieces_paren 0 L).1, Res.bind_ok, lexPieces_append, hqa _ hu]
    simp only [Res.bind_ok]
    rw [lexPieces, (lexPieces_paren 0 _).2, Res.bind_ok, hqr _ hu2]
    simp
  unfold parsePieces
  rw [lexPieces_append, lexPieces_append]
  cases lexPieces pl ([] : List (Token α)) with
  | ok L =>
    simp only [Res.bind_ok]
    rw [key pa A h L, key pa' A' h' L]
    cases qr with
    | ok X =>
      simp only [Res.bind_ok, inOrderToPostOrder]
      rw [shunt_block ⟨opNode .lparen, 0⟩ ⟨opNode .rparen, 0⟩ rfl rfl A A' out hs hs' X L 0 [] []]
    | throw e => rfl
    | ub => rfl
    | terminate => rfl
    | assertFail => rfl
    | diverge => rfl
  | throw e => rfl
  | ub => rfl
  | terminate => rfl
  | assertFail => rfl
  | diverge => rfl

/-- C116: what `Parse` makes of a text with a parenthesised part depends on that part only through what `Parse` makes of it:
if two texts are read as the same tree, one can be put for the other between parentheses anywhere in any text, whether that
text is accepted or not, without changing the outcome (the columns in an error apart). -/
theorem C116 (l a a' r : Str) (t : Raw α) (h : parse a = .ok t) (h' : parse a' = .ok t) :
    (parse (l ++ ['('] ++ a ++ [')'] ++ r) : Res (Raw α)).mapCols (fun _ => 0) id =
      (parse (l ++ ['('] ++ a' ++ [')'] ++ r)).mapCols (fun _ => 0) id := by
  obtain ⟨e, rfl⟩ := C09_complete a t h
  obtain ⟨pl, hl⟩ := lexed_exists (α := α) l 0
  obtain ⟨pr, hr⟩ := lexed_exists (α := α) r 0
  obtain ⟨pa, ha⟩ := lexed_exists (α := α) a 0
  obtain ⟨pa', ha'⟩ := lexed_exists (α := α) a' 0
  obtain ⟨A, out, k1, k2, k3⟩ := parse_stages ha h
  obtain ⟨A', out', k1', k2', k3'⟩ := parse_stages ha' h'
  obtain ⟨ts, m1, m2⟩ := lexed_around l a r hl ha hr
  obtain ⟨ts', m1', m2'⟩ := lexed_around l a' r hl ha' hr
  rw [parse_pieces m1 (by simp), parse_pieces m1' (by simp), ← parsePieces_mapCol, ← parsePieces_mapCol, m2, m2']
  have z1 := lexPieces_mapCol (fun _ => 0) pa []
  have z2 := shunt_mapCol (fun _ => 0) A 0 [] []
  have z1' := lexPieces_mapCol (fun _ => 0) pa' []
  have z2' := shunt_mapCol (fun _ => 0) A' 0 [] []
  rw [k1] at z1; rw [k1'] at z1'; rw [k2] at z2; rw [k2'] at z2'
  refine parsePieces_block _ _ _ _ _ _ _ z1 z1' z2 ?_
  rw [mapCol_zero_eq (k3.trans k3'.symm)]
  exact z2'

/-- `1 2 +` and `1+2` are read as the same tree, so `2*(1 2 +)` is `2*(1+2)`. -/
example : parse ['2', '*', '(', '1', ' ', '2', '+', ')'] = (parse ['2', '*', '(', '1', '+', '2', ')'] : Res (Raw (XNum Rat))) := by
  decide +kernel

/-- the parentheses are needed: `2*1+2` is not `2*(1+2)` -/
theorem C116_false : parse ['1', '+', '2'] = (parse ['(', '1', '+', '2', ')'] : Res (Raw (XNum Rat))) ∧
    parse ['2', '*', '1', '+', '2'] ≠ (parse ['2', '*', '(', '1', '+', '2', ')'] : Res (Raw (XNum Rat))) := by
  constructor <;> decide +kernel

/-! ### C117 -/

/-- replace variables by parenthesised token lists -/
def expand (σ : Str → Option (List (Tok α))) : List (Tok α) → List (Tok α)
  | [] => []
  | .var x :: ts =>
    match σ x with
    | some a => .sym '(' :: (a ++ .sym ')' :: expand σ ts)
    | none => .var x :: expand σ ts
  | t :: ts => t :: expand σ ts

/-- the tokens the lexer makes, without columns -/
def zeroToks (u : Bool) (ts : List (Tok α)) : List (Token α) := (markNodes u ts).map fun n => ⟨n, 0⟩

theorem zeroToks_append (u : Bool) (a b : List (Tok α)) :
    zeroToks u (a ++ b) = zeroToks u a ++ zeroToks (endFlag u a) b := by simp [zeroToks, markNodes_append]

/-- blocks with the same conversion can be exchanged -/
theorem shunt_expand (σ σ' : Str → Option (List (Tok α)))
    (h : ∀ x, (σ x = none ∧ σ' x = none) ∨ ∃ a a' out, σ x = some a ∧ σ' x = some a' ∧
      shunt (zeroToks true a) 0 [] [] = .ok out ∧ shunt (zeroToks true a') 0 [] [] = .ok out) (ts : List (Tok α)) :
    ∀ (u : Bool) (L : List (Token α)) (B : Nat) (S O : List (Token α)),
      shunt (L ++ zeroToks u (expand σ ts)) B S O = shunt (L ++ zeroToks u (expand σ' ts)) B S O := by
  induction ts with
  | nil => intro u L B S O; rfl
  | cons t ts ih =>
    have hplain : ∀ (u : Bool) (L : List (Token α)) (B : Nat) (S O : List (Token α)),
        shunt (L ++ zeroToks u (t :: expand σ ts)) B S O = shunt (L ++ zeroToks u (t :: expand σ' ts)) B S O := by
      intro u L B S O
      have e : ∀ ts, L ++ zeroToks u (t :: ts) = (L ++ [⟨tokNode t u, 0⟩]) ++ zeroToks (signAfter t) ts := by
        intro ts; simp [zeroToks, markNodes]
      rw [e, e]
      exact ih _ _ _ _ _
    intro u L B S O
    cases t with
    | num v => exact hplain u L B S O
    | fn f => exact hplain u L B S O
    | sym c => exact hplain u L B S O
    | var x =>
      rcases h x with ⟨h1, h2⟩ | ⟨a, a', out, h1, h2, h3, h4⟩
      · simp only [expand, h1, h2]; exact hplain u L B S O
      · simp only [expand, h1, h2]
        have e : ∀ (a ts : List (Tok α)), zeroToks u (.sym '(' :: (a ++ .sym ')' :: ts)) =
            ⟨opNode .lparen, 0⟩ :: (zeroToks true a ++ ⟨opNode .rparen, 0⟩ :: zeroToks false ts) := by
          intro a ts
          simp only [zeroToks, markNodes, markNodes_append, List.map_cons, List.map_append]
          rfl
        rw [e, e, shunt_block ⟨opNode .lparen, 0⟩ ⟨opNode .rparen, 0⟩ rfl rfl _ _ out h3 h4]
        have e2 : ∀ X : List (Token α), L ++ (⟨opNode .lparen, 0⟩ : Token α) :: (zeroToks true a' ++ ⟨opNode .rparen, 0⟩ :: X) =
            (L ++ (⟨opNode .lparen, 0⟩ : Token α) :: (zeroToks true a' ++ [⟨opNode .rparen, 0⟩])) ++ X := by intro X; simp
        rw [e2 (zeroToks false (expand σ ts)), e2 (zeroToks false (expand σ' ts))]
        exact ih _ _ _ _ _

theorem gram_up {n p : Nat} {ts : List (Tok α)} {e : Expr α} (h : Gram (p + n) ts e) : Gram p ts e := by
  induction n with
  | zero => exact h
  | succ n ih => exact ih (.lift h)

theorem gram_from {p q : Nat} {ts : List (Tok α)} {e : Expr α} (h : Gram q ts e) (hp : p ≤ q) : Gram p ts e := by
  obtain ⟨n, rfl⟩ := Nat.exists_eq_add_of_le hp
  exact gram_up h

/-- every tree is the meaning of some tokens of the grammar -/
theorem gram_exists (e : Expr α) : ∃ ts : List (Tok α), Gram 0 ts e := by
  induction e with
  | num v => exact ⟨_, gram_from (.num v) (by omega)⟩
  | var x => exact ⟨_, gram_from (.var x) (by omega)⟩
  | un o e ih =>
    obtain ⟨ts, h⟩ := ih
    have hs : ∀ c, SignChar c o → ∃ ts : List (Tok α), Gram 0 ts (.un o e) := fun c hc =>
      ⟨_, gram_from (.sign hc (.lift (.paren h))) (by omega)⟩
    have hf : ∀ s, FnName s o → ∃ ts : List (Tok α), Gram 0 ts (.un o e) := fun s hc =>
      ⟨_, gram_from (.call hc h) (by omega)⟩
    cases o
    case pos => exact hs _ .pos
    case neg => exact hs _ .neg
    case sin => exact hf _ .sin
    case cos => exact hf _ .cos
    case tan => exact hf _ .tan
    case asin => exact hf _ .arcsin
    case acos => exact hf _ .arccos
    case atan => exact hf _ .arctan
    case sqrt => exact hf _ .sqrt
    case log => exact hf _ .log
    case log2 => exact hf _ .log2
    case log10 => exact hf _ .log10
    case exp => exact hf _ .exp
  | bin o a b iha ihb =>
    obtain ⟨ta, ha⟩ := iha
    obtain ⟨tb, hb⟩ := ihb
    have h : ∀ c p, BinChar c p o → p ≤ 13 → o ≠ .pow → ∃ ts : List (Tok α), Gram 0 ts (.bin o a b) := fun c p hc hp ho =>
      ⟨_, gram_from (.left hc ho (gram_from (.paren ha) (by omega)) (gram_from (.paren hb) (by omega))) (by omega)⟩
    cases o
    case add => exact h _ _ .add (by omega) (by decide)
    case sub => exact h _ _ .sub (by omega) (by decide)
    case mul => exact h _ _ .mul (by omega) (by decide)
    case div => exact h _ _ .div (by omega) (by decide)
    case pow => exact ⟨_, gram_from (.right (gram_from (.paren ha) (by omega)) (gram_from (.paren hb) (by omega))) (by omega)⟩
    case and => exact h _ _ .and (by omega) (by decide)
    case or => exact h _ _ .or (by omega) (by decide)
    case mod => exact h _ _ .mod (by omega) (by decide)

theorem expand_append (σ : Str → Option (List (Tok α))) (a b : List (Tok α)) : expand σ (a ++ b) = expand σ a ++ expand σ b := by
  induction a with
  | nil => rfl
  | cons t a ih =>
    cases t with
    | var x => simp only [List.cons_append, expand]; cases σ x <;> simp [ih]
    | num v => simp [expand, ih]
    | fn f => simp [expand, ih]
    | sym c => simp [expand, ih]

/-- the grammar is closed under replacing variables by parenthesised expressions -/
theorem gram_expand (σ : Str → Option (List (Tok α))) (θ : Str → Option (Expr α))
    (h : ∀ x, (σ x = none ∧ θ x = none) ∨ ∃ a e, σ x = some a ∧ θ x = some e ∧ Gram 0 a e) {p : Nat} {ts : List (Tok α)}
    {e : Expr α} (hg : Gram p ts e) : Gram p (expand σ ts) (e.subst θ) := by
  induction hg with
  | num v => exact .num v
  | var x =>
    rcases h x with ⟨h1, h2⟩ | ⟨a, e, h1, h2, h3⟩
    · simp only [expand, Expr.subst, h1, h2]; exact .var x
    · simp only [expand, Expr.subst, h1, h2]
      have := Gram.paren h3
      simpa using this
  | paren _ ih => simp only [expand_append]; exact .paren ih
  | call hf _ ih => simp only [expand_append, expand, Expr.subst]; exact .call hf ih
  | sign hc _ ih => simp only [expand_append, expand, Expr.subst]; exact .sign hc ih
  | left hc ho _ _ iha ihb => simp only [expand_append, expand, Expr.subst]; exact .left hc ho iha ihb
  | right _ _ iha ihb => simp only [expand_append, expand, Expr.subst]; exact .right iha ihb
  | lift _ ih => exact .lift ih

/-! How a text divides is determined. -/

theorem blanks_split {w x w' x' : Str} (hw : ∀ c ∈ w, BlankChar c) (hw' : ∀ c ∈ w', BlankChar c) (hx : ∀ c ∈ x.head?, ¬ BlankChar c)
    (hx' : ∀ c ∈ x'.head?, ¬ BlankChar c) (h : w ++ x = w' ++ x') : w = w' ∧ x = x' := by
  induction w generalizing w' with
  | nil =>
    cases w' with
    | nil => exact ⟨rfl, h⟩
    | cons c w' =>
      rw [List.nil_append] at h
      subst h
      exact absurd (hw' c (by simp)) (hx c (by simp))
  | cons c w ih =>
    cases w' with
    | nil =>
      rw [List.nil_append] at h
      subst h
      exact absurd (hw c (by simp)) (hx' c (by simp))
    | cons c' w' =>
      simp only [List.cons_append, List.cons.injEq] at h
      obtain ⟨h1, h2⟩ := ih (w' := w') (fun c h => hw c (by simp [h])) (fun c h => hw' c (by simp [h])) h.2
      exact ⟨by rw [h.1, h1], h2⟩

theorem word_split {u r u' r' : Str} (hu : ∀ c ∈ u, WordChar c) (hu' : ∀ c ∈ u', WordChar c) (hr : ∀ c ∈ r.head?, ¬ WordChar c)
    (hr' : ∀ c ∈ r'.head?, ¬ WordChar c) (h : u ++ r = u' ++ r') : u = u' ∧ r = r' := by
  induction u generalizing u' with
  | nil =>
    cases u' with
    | nil => exact ⟨rfl, h⟩
    | cons c u' =>
      rw [List.nil_append] at h
      subst h
      exact absurd (hu' c (by simp)) (hr c (by simp))
  | cons c u ih =>
    cases u' with
    | nil =>
      rw [List.nil_append] at h
      subst h
      exact absurd (hu c (by simp)) (hr' c (by simp))
    | cons c' u' =>
      simp only [List.cons_append, List.cons.injEq] at h
      obtain ⟨h1, h2⟩ := ih (u' := u') (fun c h => hu c (by simp [h])) (fun c h => hu' c (by simp [h])) h.2
      exact ⟨by rw [h.1, h1], h2⟩

theorem op_not_blank {c : Char} (h : OpChar c) : ¬ BlankChar c := by
  intro hb
  have := not_op_of_blank hb
  rw [(isBasicOperator_iff c).mpr h] at this
  cases this

theorem word_head {u r : Str} (hu : ∀ c ∈ u, WordChar c) (hne : u ≠ []) : ∀ c ∈ (u ++ r).head?, WordChar c := by
  cases u with
  | nil => exact absurd rfl hne
  | cons x u =>
    intro c hc
    simp only [List.cons_append, List.head?_cons, Option.mem_def, Option.some.injEq] at hc
    subst hc
    exact hu x (by simp)

theorem lexed_inv_sym {means : Str → Tok α → Prop} {k : Nat} {w rest : Str} {c : Char} {ts : List (Tok α × Nat)}
    (hw : ∀ c ∈ w, BlankChar c) (hc : OpChar c) (h : Lexed means k (w ++ [c] ++ rest) ts) :
    ∃ ts', ts = (.sym c, k + w.length) :: ts' ∧ Lexed means (k + w.length + 1) rest ts' := by
  generalize hs : w ++ [c] ++ rest = s at h
  rw [List.append_assoc] at hs
  have hb : ∀ x ∈ ([c] ++ rest).head?, ¬ BlankChar x := by
    intro x hx; simp at hx; subst hx; exact op_not_blank hc
  cases h with
  | blank hw' =>
    exact absurd (hw' c (by rw [← hs]; simp)) (op_not_blank hc)
  | @sym _ w' rest' c' ts' hw' hc' hl =>
    rw [List.append_assoc] at hs
    obtain ⟨rfl, h2⟩ := blanks_split hw hw' hb (by intro x hx; simp at hx; subst hx; exact op_not_blank hc') hs
    simp only [List.singleton_append, List.cons.injEq] at h2
    obtain ⟨rfl, rfl⟩ := h2
    exact ⟨ts', rfl, hl⟩
  | @word _ w' u rest' t ts' hw' hne hu hd hm hl =>
    rw [List.append_assoc] at hs
    have := blanks_split hw hw' hb (fun x hx => (word_head hu hne x hx).2) hs
    have h2 := word_head (r := rest') hu hne c (by rw [← this.2]; simp)
    exact absurd hc h2.1

theorem lexed_inv_word {means : Str → Tok α → Prop} {k : Nat} {w u rest : Str} {ts : List (Tok α × Nat)}
    (hw : ∀ c ∈ w, BlankChar c) (hne : u ≠ []) (hu : ∀ c ∈ u, WordChar c) (hr : ∀ c ∈ rest.head?, ¬ WordChar c)
    (h : Lexed means k (w ++ u ++ rest) ts) :
    ∃ t ts', ts = (t, k + w.length) :: ts' ∧ means u t ∧ Lexed means (k + w.length + u.length) rest ts' := by
  generalize hs : w ++ u ++ rest = s at h
  rw [List.append_assoc] at hs
  have hb : ∀ x ∈ (u ++ rest).head?, ¬ BlankChar x := fun x hx => (word_head hu hne x hx).2
  cases h with
  | blank hw' =>
    cases u with
    | nil => exact absurd rfl hne
    | cons x u => exact absurd (hw' x (by rw [← hs]; simp)) (hu x (by simp)).2
  | @sym _ w' rest' c' ts' hw' hc' hl =>
    rw [List.append_assoc] at hs
    have := blanks_split hw hw' hb (by intro x hx; simp at hx; subst hx; exact op_not_blank hc') hs
    have h2 := word_head (r := rest) hu hne c' (by rw [this.2]; simp)
    exact absurd hc' h2.1
  | @word _ w' u' rest' t ts' hw' hne' hu' hd hm hl =>
    rw [List.append_assoc] at hs
    obtain ⟨rfl, h2⟩ := blanks_split hw hw' hb (fun x hx => (word_head hu' hne' x hx).2) hs
    obtain ⟨rfl, rfl⟩ := word_split hu hu' hr hd h2
    exact ⟨t, ts', rfl, hm, hl⟩

theorem lexed_inv_blank {means : Str → Tok α → Prop} {k : Nat} {w : Str} {ts : List (Tok α × Nat)}
    (hw : ∀ c ∈ w, BlankChar c) (h : Lexed means k w ts) : ts = [] := by
  cases h with
  | blank _ => rfl
  | @sym _ w' rest' c' ts' hw' hc' hl => exact absurd (hw c' (by simp)) (op_not_blank hc')
  | @word _ w' u rest' t ts' hw' hne hu hd hm hl =>
    cases u with
    | nil => exact absurd rfl hne
    | cons x u => exact absurd (hw x (by simp)) (hu x (by simp)).2

theorem replaced_head {σ : Str → Option Str} {s s' : Str} (h : Replaced σ s s') (hs : ∀ c ∈ s.head?, ¬ WordChar c) :
    ∀ c ∈ s'.head?, ¬ WordChar c := by
  have two : ∀ {w x y : Str}, (∀ c ∈ w, BlankChar c) → (∀ c ∈ (w ++ x).head?, ¬ WordChar c) → (w = [] → ∀ c ∈ y.head?, ¬ WordChar c) →
      ∀ c ∈ (w ++ y).head?, ¬ WordChar c := by
    intro w x y hw h1 h2
    cases w with
    | nil => exact h2 rfl
    | cons a w => simpa using h1
  cases h with
  | blank _ => exact hs
  | sym hw hc _ =>
    rw [List.append_assoc] at hs ⊢
    exact two hw hs (by intro h0 c hc'; subst h0; simp at hs hc'; subst hc'; exact hs)
  | @keep w u rest rest' hw hne hu hd hn _ =>
    rw [List.append_assoc] at hs ⊢
    refine two hw hs ?_
    intro h0
    subst h0
    cases u with
    | nil => exact absurd rfl hne
    | cons x u => simpa using hs
  | swap hw hne hu hd hn _ =>
    simp only [List.append_assoc] at hs ⊢
    exact two hw hs (by intro h0 c hc'; simp at hc'; subst hc'; intro hh; exact hh.1 (by simp [OpChar]))

/-- the tokens of the text after the replacement -/
theorem lexed_replaced {σ : Str → Option Str} {σt : Str → Option (List (Tok α))} {means : Str → Tok α → Prop}
    (hnum : ∀ u x, means u (.var x) → x = u)
    (hnone : ∀ u, σ u = none → σt u = none)
    (hsome : ∀ u a, σ u = some a → (∀ t, means u t → t = .var u) ∧ ∃ ta : List (Tok α × Nat), Lexed means 0 a ta ∧ σt u = some (ta.map Prod.fst))
    {s s' : Str} (h : Replaced σ s s') : ∀ {k k' : Nat} {ts : List (Tok α × Nat)}, Lexed means k s ts →
      ∃ ts' : List (Tok α × Nat), Lexed means k' s' ts' ∧ ts'.map Prod.fst = expand σt (ts.map Prod.fst) := by
  induction h with
  | blank hw =>
    intro k k' ts hl
    rw [lexed_inv_blank hw hl]
    exact ⟨[], .blank hw, rfl⟩
  | @sym w rest rest' c hw hc _ ih =>
    intro k k' ts hl
    obtain ⟨ts1, rfl, hl1⟩ := lexed_inv_sym hw hc hl
    obtain ⟨ts2, h1, h2⟩ := ih (k' := k' + w.length + 1) hl1
    exact ⟨_, .sym hw hc h1, by simp [expand, h2]⟩
  | @keep w u rest rest' hw hne hu hd hn hrep ih =>
    intro k k' ts hl
    obtain ⟨t, ts1, rfl, hm, hl1⟩ := lexed_inv_word hw hne hu hd hl
    obtain ⟨ts2, h1, h2⟩ := ih (k' := k' + w.length + u.length) hl1
    refine ⟨_, .word hw hne hu (replaced_head hrep hd) hm h1, ?_⟩
    cases t with
    | var x =>
      have := hnum _ _ hm
      subst this
      simp [expand, hnone _ hn, h2]
    | num v => simp [expand, h2]
    | fn f => simp [expand, h2]
    | sym c => simp [expand, h2]
  | @swap w u a rest rest' hw hne hu hd hn hrep ih =>
    intro k k' ts hl
    obtain ⟨t, ts1, rfl, hm, hl1⟩ := lexed_inv_word hw hne hu hd hl
    obtain ⟨hv, ta, hta, hst⟩ := hsome u a hn
    have := hv t hm
    subst this
    obtain ⟨ts2, h1, h2⟩ := ih (k' := k' + w.length + 1 + a.length + 1) hl1
    have a1 := Lexed.sym (means := means) (k := k' + w.length + 1 + a.length) (w := []) (c := ')') (by simp) (by simp [OpChar])
      (by simpa using h1)
    have a2 := lexed_shift hta (k' + w.length + 1)
    have a3 := lexed_append (b := [] ++ [')'] ++ rest') (by rw [Nat.zero_add] at a2; exact a2) a1 (by
      intro c _ d hd' hh
      simp only [List.nil_append, List.singleton_append, List.head?_cons, Option.mem_def, Option.some.injEq] at hd'
      subst hd'
      exact hh.2.1 (by simp [OpChar]))
    have a4 := Lexed.sym (means := means) (k := k') (w := w) (c := '(') hw (by simp [OpChar]) a3
    refine ⟨_, by simpa using a4, ?_⟩
    simp [expand, hst, h2, mapPieces]

theorem hashMeans_only_var {u : Str} {t : Tok α} (h : HashMeans u (.var u : Tok α)) (ht : HashMeans u t) : t = .var u := by
  cases h with
  | var _ h1 h2 =>
    cases ht with
    | num hv => exact absurd ⟨_, hv⟩ h1
    | fn _ hf hh => exact absurd ⟨_, _, hf, hh⟩ h2
    | var _ _ _ => rfl

theorem zeroToks_eq (toks : List (Token α)) (u : Bool) (ts : List (Tok α)) (h : toks.map Token.node = markNodes u ts) :
    toks.map (Token.mapCol fun _ => 0) = zeroToks u ts := by
  rw [zeroToks, ← h, List.map_map]; rfl

/-- the conversion of a text `Parse` accepts, columns forgotten -/
theorem parse_zero {a : Str} {e : Expr α} (h : parse a = .ok (embed e)) : ∃ ta : List (Tok α × Nat), Lexed HashMeans 0 a ta ∧
    shunt (zeroToks true (ta.map Prod.fst)) 0 [] [] = .ok ((post e).map fun n => ⟨n, 0⟩) := by
  obtain ⟨pa, hpa⟩ := lexed_exists (α := α) a 0
  obtain ⟨A, out, k1, k2, k3⟩ := parse_stages hpa h
  obtain ⟨ta, e', hta, _, _, _⟩ := parse_ok h
  refine ⟨ta, hta, ?_⟩
  have h1 := lexLoop_pieces hpa ([] : List (Token α))
  rw [lexLoop_lexed hta, k1, List.nil_append] at h1
  simp only [Res.ok.injEq] at h1
  have hA : markToks true ta = A := h1
  have z := shunt_mapCol (fun _ => 0) A 0 [] []
  rw [k2, ← hA, zeroToks_eq _ _ _ (markToks_node true ta)] at z
  simp only [List.map_nil, Res.mapCols] at z
  rw [z, ← k3, List.map_map]; rfl

/-- the conversion of tokens of the grammar, columns forgotten -/
theorem gram_zero {ts : List (Tok α)} {e : Expr α} (h : Gram 0 ts e) :
    shunt (zeroToks true ts) 0 [] [] = .ok ((post e).map fun n => ⟨n, 0⟩) := by
  have hm : (zeroToks true ts).map Token.node = markNodes true ts := by
    rw [zeroToks, List.map_map]; exact List.map_id _
  obtain ⟨B, P, R, h1, h2, _, h4⟩ := shunt_gram h (zeroToks true ts) [] 0 [] [] hm (by intro t ht; simp at ht) (.inl rfl)
  rw [List.append_nil] at h1
  have h3 : shunt (zeroToks true ts) 0 [] [] = .ok (P ++ R) := by
    rw [h1, shunt, List.append_nil, List.nil_append, flushStack_ops R P (fun t ht => (h4 t ht).2)]
  have z := shunt_mapCol (fun _ => 0) (zeroToks true ts) 0 [] []
  have hz : (zeroToks true ts).map (Token.mapCol fun _ => 0) = zeroToks true ts := zeroToks_eq _ _ _ hm
  rw [h3, hz] at z
  simp only [List.map_nil, Res.mapCols] at z
  rw [z, ← h2, List.map_map]; rfl

/-- the heart of C117 -/
theorem replace_core (s s' : Str) (ts : List (Tok α × Nat)) (e : Expr α) (hlex' : Lexed HashMeans 0 s ts)
    (hgram : Gram 0 (ts.map Prod.fst) e)
    (σ : Str → Option Str) (θ : Str → Option (Expr α)) (hnone : ∀ x, σ x = none → θ x = none)
    (hsome : ∀ x a, σ x = some a → HashMeans x (.var x : Tok α) ∧ ∃ ea, θ x = some ea ∧ parse a = .ok (embed ea))
    (hrep : Replaced σ s s') : parse s' = .ok (embed (e.subst θ)) := by
  classical
  -- tokens of the replacements
  have hta : ∀ x a, σ x = some a → ∃ (ta : List (Tok α × Nat)) (ea : Expr α) (ca : List (Tok α)), Lexed HashMeans 0 a ta ∧
      θ x = some ea ∧ Gram 0 ca ea ∧
      shunt (zeroToks true (ta.map Prod.fst)) 0 [] [] = .ok ((post ea).map fun n => ⟨n, 0⟩) := by
    intro x a h
    obtain ⟨_, ea, h1, h2⟩ := hsome x a h
    obtain ⟨ta, h3, h4⟩ := parse_zero h2
    obtain ⟨ca, hca⟩ := gram_exists ea
    exact ⟨ta, ea, ca, h3, h1, hca, h4⟩
  have hfun : ∀ x, ∃ (o o' : Option (List (Tok α))), (σ x = none → o = none ∧ o' = none) ∧ ∀ a, σ x = some a →
      ∃ (ta : List (Tok α × Nat)) (ea : Expr α) (ca : List (Tok α)), Lexed HashMeans 0 a ta ∧ θ x = some ea ∧ Gram 0 ca ea ∧
        shunt (zeroToks true (ta.map Prod.fst)) 0 [] [] = .ok ((post ea).map fun n => ⟨n, 0⟩) ∧
        o = some (ta.map Prod.fst) ∧ o' = some ca := by
    intro x
    cases hx : σ x with
    | none => exact ⟨none, none, fun _ => ⟨rfl, rfl⟩, fun a h => by cases h⟩
    | some a =>
      obtain ⟨ta, ea, ca, h1, h2, h3, h4⟩ := hta x a hx
      refine ⟨some (ta.map Prod.fst), some ca, (fun h => by cases h), fun a' h => ?_⟩
      cases h
      exact ⟨ta, ea, ca, h1, h2, h3, h4, rfl, rfl⟩
  choose σt σc h0 h1 using hfun
  have hvar : ∀ x a, σ x = some a → ∀ t, HashMeans x (t : Tok α) → t = .var x := by
    intro x a h t ht
    exact hashMeans_only_var (hsome x a h).1 ht
  obtain ⟨ts', hl', hts'⟩ := lexed_replaced (σ := σ) (σt := σt) (means := HashMeans) (by intro u x h; cases h; rfl)
    (fun u h => (h0 u h).1)
    (fun u a h => by
      obtain ⟨ta, ea, ca, k1, k2, k3, k4, k5, k6⟩ := h1 u a h
      exact ⟨hvar u a h, ta, k1, k5⟩) hrep (k' := 0) hlex'
  have hne : expand σt (ts.map Prod.fst) ≠ [] := by
    have h2 := gram_ne_nil hgram
    cases hts : ts.map Prod.fst with
    | nil => exact absurd hts h2
    | cons t us =>
      cases t with
      | var x => simp only [expand]; cases σt x <;> simp
      | num v => simp [expand]
      | fn f => simp [expand]
      | sym c => simp [expand]
  have hs' : s' ≠ [] := by
    rintro rfl
    have := lexed_nil hl'
    subst this
    exact hne hts'.symm
  have hg := gram_expand σc θ (by
    intro x
    cases hx : σ x with
    | none => exact .inl ⟨(h0 x hx).2, hnone x hx⟩
    | some a =>
      obtain ⟨ta, ea, ca, k1, k2, k3, k4, k5, k6⟩ := h1 x a hx
      exact .inr ⟨ca, ea, k6, k2, k3⟩) hgram
  have hsh := shunt_expand σt σc (by
    intro x
    cases hx : σ x with
    | none => exact .inl (h0 x hx)
    | some a =>
      obtain ⟨ta, ea, ca, k1, k2, k3, k4, k5, k6⟩ := h1 x a hx
      exact .inr ⟨_, _, _, k5, k6, k4, gram_zero k3⟩) (ts.map Prod.fst) true [] 0 [] []
  rw [parse_lexed hl' hs']
  have hb := build_mapCol (fun _ => 0) (markToks true ts')
  rw [zeroToks_eq _ _ _ (markToks_node true ts'), hts'] at hb
  have hz : (zeroToks true (expand σc (ts.map Prod.fst))).map Token.node = markNodes true (expand σc (ts.map Prod.fst)) := by
    rw [zeroToks, List.map_map]; exact List.map_id _
  have hc := build_gram hg (zeroToks true (expand σc (ts.map Prod.fst))) hz
  rw [List.nil_append, List.nil_append] at hsh
  rw [inOrderToPostOrder] at hb hc
  rw [hsh, hc] at hb
  cases hres : (inOrderToPostOrder (markToks true ts') >>= buildExpressionTree) with
  | ok t => rw [hres] at hb; simpa [Res.mapCols] using hb.symm
  | throw e => rw [hres] at hb; cases hb
  | ub => rw [hres] at hb; cases hb
  | terminate => rw [hres] at hb; cases hb
  | assertFail => rw [hres] at hb; cases hb
  | diverge => rw [hres] at hb; cases hb

/-- C117: replacing names in a text by parenthesised texts is substitution.  If a text is read by the grammar as `e`, and every
name `x` to be replaced stands for a variable and its replacement `σ x` is accepted by `Parse` as the tree `θ x`, then `Parse`
reads the text with the replacements as `e` with `θ` substituted. -/
theorem C117 (s s' : Str) (ts : List (Tok α × Nat)) (e : Expr α) (hlex : Lexed WordMeans 0 s ts)
    (hgram : Gram 0 (ts.map Prod.fst) e) (hcol : ∀ x, Tok.var x ∈ ts.map Prod.fst → NoCollision x)
    (σ : Str → Option Str) (θ : Str → Option (Expr α)) (hnone : ∀ x, σ x = none → θ x = none)
    (hsome : ∀ x a, σ x = some a → HashMeans x (.var x : Tok α) ∧ ∃ ea, θ x = some ea ∧ parse a = .ok (embed ea))
    (hrep : Replaced σ s s') : parse s' = .ok (embed (e.subst θ)) := by
  have hlex' : Lexed HashMeans 0 s ts :=
    lexed_mono hlex (fun u t ht hm => hashMeans_of_wordMeans hm (fun h => hcol u (h ▸ ht)))
  exact replace_core s s' ts e hlex' hgram σ θ hnone hsome hrep

/-- C117: so reading the text with one name replaced gives the same tree as reading both texts and calling `Subs`. -/
theorem C117_subs (s s' x a : Str) (ts : List (Tok α × Nat)) (e ea : Expr α) (hlex : Lexed WordMeans 0 s ts)
    (hgram : Gram 0 (ts.map Prod.fst) e) (hcol : ∀ y, Tok.var y ∈ ts.map Prod.fst → NoCollision y)
    (hx : HashMeans x (.var x : Tok α)) (ha : parse a = .ok (embed ea))
    (hrep : Replaced (fun y => if y = x then some a else none) s s') :
    parse s' = (parse s >>= fun t => parse a >>= fun r => subs1 t x r : Res (Raw α)) := by
  rw [C01_parse s ts e hlex hgram hcol, ha, Res.bind_ok, Res.bind_ok, C18_subs1]
  refine C117 s s' ts e hlex hgram hcol _ _ (fun y h => ?_) (fun y b h => ?_) hrep
  · by_cases hy : y = x
    · simp [hy] at h
    · simp [hy]
  · by_cases hy : y = x
    · subst hy
      simp only [if_true, Option.some.injEq] at h
      subst h
      exact ⟨hx, ea, by simp, ha⟩
    · simp [hy] at h

/-- C117: every text has such a replacement. -/
theorem C117_exists (σ : Str → Option Str) (s : Str) : ∃ s', Replaced σ s s' := by
  obtain ⟨ts, h⟩ := lexed_exists (α := XNum Rat) s 0
  generalize 0 = k at h
  induction h with
  | blank hw => exact ⟨_, .blank hw⟩
  | sym hw hc _ ih =>
    obtain ⟨r, hr⟩ := ih
    exact ⟨_, .sym hw hc hr⟩
  | @word k w u rest t ts hw hne hu hd hm _ ih =>
    obtain ⟨r, hr⟩ := ih
    cases hs : σ u with
    | none => exact ⟨_, .keep hw hne hu hd hs hr⟩
    | some a => exact ⟨_, .swap hw hne hu hd hs hr⟩

/-! ### C116: building texts -/

theorem hashMeans_y : HashMeans ['y'] (.var ['y'] : Tok α) := by
  refine .var ((C08_varNameIsLegal _).mp (by decide)) ((stodFull_none_iff _).mp rfl) ?_
  rintro ⟨s, f, h, he⟩
  cases h <;> exact absurd he (by decide +kernel)

theorem xy_word : WordChar 'x' ∧ WordChar 'y' := by
  constructor <;> rw [wordChar_iff] <;> decide

/-- replace `x` and `y` -/
def fillXY {β : Type} (a b : β) (u : Str) : Option β := if u = ['x'] then some a else if u = ['y'] then some b else none

theorem fillXY_hyps {a b : Str} {ea eb : Expr α} (ha : parse a = .ok (embed ea)) (hb : parse b = .ok (embed eb)) :
    (∀ x, fillXY a b x = none → fillXY ea eb x = none) ∧ ∀ x c, fillXY a b x = some c →
      HashMeans x (.var x : Tok α) ∧ ∃ ec, fillXY ea eb x = some ec ∧ parse c = .ok (embed ec) := by
  constructor
  · intro x h
    unfold fillXY at h ⊢
    split at h
    · cases h
    · split at h
      · cases h
      · rename_i h1 h2
        simp [h1, h2]
  · intro x c h
    unfold fillXY at h ⊢
    split at h
    · rename_i hx
      cases h; subst hx
      exact ⟨hashMeans_x, ea, by simp, ha⟩
    · split at h
      · rename_i hx hy
        cases h; subst hy
        exact ⟨hashMeans_y, eb, by simp, hb⟩
      · cases h

theorem not_word_op {c : Char} (h : OpChar c) : ¬ WordChar c := fun hw => hw.1 h

/-- C116: `(a) op (b)` is read as the operator applied to what `a` and `b` are read as, for each of `+ - * / ^ & | %` and all
texts `a`, `b` that `Parse` accepts. -/
theorem C116_bin (a b : Str) (ea eb : Expr α) (c : Char) (p : Nat) (o : BinOp) (hc : BinChar c p o)
    (ha : parse a = .ok (embed ea)) (hb : parse b = .ok (embed eb)) :
    parse (['('] ++ a ++ [')', c, '('] ++ b ++ [')']) = .ok (embed (.bin o ea eb)) := by
  have hop : OpChar c := by cases hc <;> simp [OpChar]
  have hl : Lexed HashMeans 0 ([] ++ ['x'] ++ ([] ++ [c] ++ ([] ++ ['y'] ++ [])))
      ([(.var ['x'], 0), (.sym c, 1), (.var ['y'], 2)] : List (Tok α × Nat)) := by
    refine .word (w := []) (by simp) (by simp) (by simp [xy_word.1]) (by simp [not_word_op hop]) hashMeans_x ?_
    refine .sym (w := []) (by simp) hop ?_
    exact .word (w := []) (by simp) (by simp) (by simp [xy_word.2]) (by simp) hashMeans_y (.blank (by simp))
  have hr : Replaced (fillXY a b) ([] ++ ['x'] ++ ([] ++ [c] ++ ([] ++ ['y'] ++ [])))
      ([] ++ ['('] ++ a ++ [')'] ++ ([] ++ [c] ++ ([] ++ ['('] ++ b ++ [')'] ++ []))) := by
    refine .swap (w := []) (by simp) (by simp) (by simp [xy_word.1]) (by simp [not_word_op hop]) (by simp [fillXY]) ?_
    refine .sym (w := []) (by simp) hop ?_
    exact .swap (w := []) (by simp) (by simp) (by simp [xy_word.2]) (by simp) (by simp [fillXY]) (.blank (by simp))
  have hg : Gram 0 [.var ['x'], .sym c, .var ['y']] (.bin o (.var ['x']) (.var ['y']) : Expr α) := by
    by_cases ho : o = .pow
    · subst ho; cases hc
      exact gram_from (.right (gram_from (.var _) (by omega)) (gram_from (.var _) (by omega))) (by omega)
    · have hp : p ≤ 13 := by cases hc <;> omega
      exact gram_from (.left hc ho (gram_from (.var _) (by omega)) (gram_from (.var _) (by omega))) (by omega)
  have h := replace_core _ _ _ _ hl hg (fillXY a b) (fillXY ea eb) (fillXY_hyps ha hb).1 (fillXY_hyps ha hb).2 hr
  simpa [Expr.subst, fillXY] using h

/-- C116: `(a)` is read as `a`. -/
theorem C116_paren (a : Str) (ea : Expr α) (ha : parse a = .ok (embed ea)) : parse (['('] ++ a ++ [')']) = .ok (embed ea) := by
  have hl : Lexed HashMeans 0 ([] ++ ['x'] ++ []) ([(.var ['x'], 0)] : List (Tok α × Nat)) :=
    .word (w := []) (by simp) (by simp) (by simp [xy_word.1]) (by simp) hashMeans_x (.blank (by simp))
  have hr : Replaced (fillXY a a) ([] ++ ['x'] ++ []) ([] ++ ['('] ++ a ++ [')'] ++ []) :=
    .swap (w := []) (by simp) (by simp) (by simp [xy_word.1]) (by simp) (by simp [fillXY]) (.blank (by simp))
  have h := replace_core _ _ _ _ hl (gram_from (.var _) (by omega)) (fillXY a a) (fillXY ea ea) (fillXY_hyps ha ha).1
    (fillXY_hyps ha ha).2 hr
  simpa [Expr.subst, fillXY] using h

/-- C116: `-(a)` and `+(a)` are the signs applied to what `a` is read as. -/
theorem C116_sign (a : Str) (ea : Expr α) (c : Char) (o : UnOp) (hc : SignChar c o) (ha : parse a = .ok (embed ea)) :
    parse ([c, '('] ++ a ++ [')']) = .ok (embed (.un o ea)) := by
  have hop : OpChar c := by cases hc <;> simp [OpChar]
  have hl : Lexed HashMeans 0 ([] ++ [c] ++ ([] ++ ['x'] ++ [])) ([(.sym c, 0), (.var ['x'], 1)] : List (Tok α × Nat)) :=
    .sym (w := []) (by simp) hop
      (.word (w := []) (by simp) (by simp) (by simp [xy_word.1]) (by simp) hashMeans_x (.blank (by simp)))
  have hr : Replaced (fillXY a a) ([] ++ [c] ++ ([] ++ ['x'] ++ [])) ([] ++ [c] ++ ([] ++ ['('] ++ a ++ [')'] ++ [])) :=
    .sym (w := []) (by simp) hop
      (.swap (w := []) (by simp) (by simp) (by simp [xy_word.1]) (by simp) (by simp [fillXY]) (.blank (by simp)))
  have h := replace_core _ _ _ _ hl (gram_from (.sign hc (gram_from (.var _) (by omega))) (by omega)) (fillXY a a) (fillXY ea ea)
    (fillXY_hyps ha ha).1 (fillXY_hyps ha ha).2 hr
  simpa [Expr.subst, fillXY] using h

/-- C116: `f(a)` is the function applied to what `a` is read as, for each of the eleven function names. -/
theorem C116_call (a f : Str) (ea : Expr α) (o : UnOp) (hf : FnName f o) (ha : parse a = .ok (embed ea)) :
    parse (f ++ ['('] ++ a ++ [')']) = .ok (embed (.un o ea)) := by
  have hw : ∀ c ∈ f, WordChar c := by
    have : f.all (fun c => !isBasicOperator c && !isSpaceChar c) = true := by cases hf <;> decide
    intro c hc
    rw [wordChar_iff]
    have := List.all_eq_true.mp this c hc
    simpa using this
  have hne : f ≠ [] := by cases hf <;> simp
  have hm : HashMeans f (.fn o : Tok α) := by
    refine .fn ((stodFull_none_iff _).mp ?_) hf rfl
    cases hf <;> rfl
  have hxy : f ≠ ['x'] ∧ f ≠ ['y'] := by cases hf <;> decide
  have hpo : OpChar '(' := by simp [OpChar]
  have hpc : OpChar ')' := by simp [OpChar]
  have hl : Lexed HashMeans 0 ([] ++ f ++ ([] ++ ['('] ++ ([] ++ ['x'] ++ ([] ++ [')'] ++ []))))
      ([(.fn o, 0 + 0), (.sym '(', 0 + 0 + f.length + 0), (.var ['x'], 0 + 0 + f.length + 0 + 1 + 0), (.sym ')', 0 + 0 + f.length + 0 + 1 + 0 + 1 + 0)] :
        List (Tok α × Nat)) := by
    refine .word (w := []) (by simp) hne hw (by simp [not_word_op hpo]) hm ?_
    refine .sym (w := []) (by simp) hpo ?_
    refine .word (w := []) (by simp) (by simp) (by simp [xy_word.1]) (by simp [not_word_op hpc]) hashMeans_x ?_
    exact .sym (w := []) (by simp) hpc (.blank (by simp))
  have hr : Replaced (fillXY a a) ([] ++ f ++ ([] ++ ['('] ++ ([] ++ ['x'] ++ ([] ++ [')'] ++ []))))
      ([] ++ f ++ ([] ++ ['('] ++ ([] ++ ['('] ++ a ++ [')'] ++ ([] ++ [')'] ++ [])))) := by
    refine .keep (w := []) (by simp) hne hw (by simp [not_word_op hpo]) (by simp [fillXY, hxy]) ?_
    refine .sym (w := []) (by simp) hpo ?_
    refine .swap (w := []) (by simp) (by simp) (by simp [xy_word.1]) (by simp [not_word_op hpc]) (by simp [fillXY]) ?_
    exact .sym (w := []) (by simp) hpc (.blank (by simp))
  have h := replace_core _ _ _ _ hl (by
      have := Gram.call hf (gram_from (p := 0) (.var (α := α) ['x']) (by omega))
      simpa using gram_from (p := 0) this (by omega)) (fillXY a a) (fillXY ea ea)
    (fillXY_hyps ha ha).1 (fillXY_hyps ha ha).2 hr
  have h2 : parse (f ++ ['('] ++ (['('] ++ a ++ [')']) ++ [')']) = .ok (embed (.un o ea)) := by
    simpa [Expr.subst, fillXY] using h
  have h3 := C116 f a (['('] ++ a ++ [')']) [] (embed ea) ha (C116_paren a ea ha)
  rw [List.append_nil, List.append_nil, h2] at h3
  cases hres : (parse (f ++ ['('] ++ a ++ [')']) : Res (Raw α)) with
  | ok t => rw [hres] at h3; simpa [Res.mapCols] using h3
  | throw e => rw [hres] at h3; cases h3
  | ub => rw [hres] at h3; cases h3
  | terminate => rw [hres] at h3; cases h3
  | assertFail => rw [hres] at h3; cases h3
  | diverge => rw [hres] at h3; cases h3

/-- C117 needs the text to be one of the grammar: `-x sin` is accepted as `-(sin(x))`, but `-(x) sin` is `sin(-x)`. -/
theorem C117_false : parse ['-', 'x', ' ', 's', 'i', 'n'] = .ok (embed (.un .neg (.un .sin (.var ['x'])) : Expr (XNum Rat))) ∧
    parse ['-', '(', 'x', ')', ' ', 's', 'i', 'n'] = .ok (embed (.un .sin (.un .neg (.var ['x'])) : Expr (XNum Rat))) := by
  constructor <;> decide +kernel

/-- `x^ x` with `1-y` for `x` is `(1-y)^ (1-y)`; all hypotheses of `C117_subs` hold. -/
example : (parse ['(', '1', '-', 'y', ')', '^', ' ', '(', '1', '-', 'y', ')'] : Res (Raw (XNum Rat))) =
    (parse ['x', '^', ' ', 'x'] >>= fun t => parse ['1', '-', 'y'] >>= fun r => subs1 t ['x'] r) := by
  have hx : WordMeans ['x'] (.var ['x'] : Tok (XNum Rat)) := by
    refine .var ((C08_varNameIsLegal _).mp (by decide)) ((stodFull_none_iff _).mp rfl) ?_
    rintro ⟨f, hf⟩; cases hf
  have hpow : OpChar '^' := by simp [OpChar]
  have hb : BlankChar ' ' := .inl rfl
  refine C117_subs (([] ++ ['x'] ++ ([] ++ ['^'] ++ ([' '] ++ ['x'] ++ [])))) _ ['x'] ['1', '-', 'y']
    [(.var ['x'], 0), (.sym '^', 1), (.var ['x'], 3)] (.bin .pow (.var ['x']) (.var ['x']))
    (.bin .sub (.num (XNum.fin (1 : Rat))) (.var ['y'])) ?_ ?_ ?_ hashMeans_x (by decide +kernel) ?_
  · refine .word (w := []) (by simp) (by simp) (by simp [xy_word.1]) (by simp [not_word_op hpow]) hx ?_
    refine .sym (w := []) (by simp) hpow ?_
    exact .word (w := [' ']) (by simp [hb]) (by simp) (by simp [xy_word.1]) (by simp) hx (.blank (by simp))
  · exact gram_from (.right (gram_from (.var _) (by omega)) (gram_from (.var _) (by omega))) (by omega)
  · intro y hy
    have : y = ['x'] := by simpa using hy
    subst this
    intro s f h he
    cases h <;> exact absurd he (by decide +kernel)
  · have h : Replaced (fun y => if y = ['x'] then some ['1', '-', 'y'] else none) ([] ++ ['x'] ++ ([] ++ ['^'] ++ ([' '] ++ ['x'] ++ [])))
        ([] ++ ['('] ++ ['1', '-', 'y'] ++ [')'] ++ ([] ++ ['^'] ++ ([' '] ++ ['('] ++ ['1', '-', 'y'] ++ [')'] ++ []))) := by
      refine .swap (w := []) (by simp) (by simp) (by simp [xy_word.1]) (by simp [not_word_op hpow]) (by simp) ?_
      refine .sym (w := []) (by simp) hpow ?_
      exact .swap (w := [' ']) (by simp [hb]) (by simp) (by simp [xy_word.1]) (by simp) (by simp) (.blank (by simp))
    exact h

end Tom
