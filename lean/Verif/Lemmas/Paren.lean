import Verif.Lemmas.Columns
/-
The parenthesis bookkeeping in terms of counts of parentheses.
-/
namespace Tom
variable {α : Type} [Dbl α]

theorem tokNode_good (t : Tok α) (h : SymOk t) (u : Bool) (k : Nat) : GoodTok (⟨tokNode t u, k⟩ : Token α) := by
  cases t with
  | num v => exact .inl ⟨v, rfl⟩
  | var x => exact .inr (.inl ⟨x, rfl⟩)
  | fn f => exact .inr (.inr ⟨f.toMathOp, toMathOp_ne_null f, rfl⟩)
  | sym c => exact .inr (.inr ⟨_, baseOp_ne_null (h c rfl) u, rfl⟩)

theorem markToks_good (ts : List (Tok α × Nat)) (h : ∀ t ∈ ts.map Prod.fst, SymOk t) (u : Bool) :
    ∀ t ∈ markToks u ts, GoodTok t := by
  induction ts generalizing u with
  | nil => simp [markToks]
  | cons t ts ih =>
    intro x hx
    simp only [markToks, List.mem_cons] at hx
    rcases hx with rfl | hx
    · exact tokNode_good t.1 (h _ (by simp)) u t.2
    · exact ih (fun t ht => h t (by simp only [List.map_cons, List.mem_cons]; exact .inr ht)) _ x hx

theorem baseOp_lparen {c : Char} (h : OpChar c) (u : Bool) : decide (baseOperatorCharToEnum c u = .lparen) = (c == '(') := by
  simp only [OpChar, List.mem_cons, List.not_mem_nil, or_false] at h
  rcases h with h | h | h | h | h | h | h | h | h | h <;> subst h <;> cases u <;> decide

theorem baseOp_rparen' {c : Char} (h : OpChar c) (u : Bool) : decide (baseOperatorCharToEnum c u = .rparen) = (c == ')') := by
  simp only [OpChar, List.mem_cons, List.not_mem_nil, or_false] at h
  rcases h with h | h | h | h | h | h | h | h | h | h <;> subst h <;> cases u <;> decide

theorem isOp_lparen (t : Tok α) (h : SymOk t) (u : Bool) (k : Nat) :
    isOp .lparen (⟨tokNode t u, k⟩ : Token α) = t.isSym '(' := by
  cases t with
  | num v => rfl
  | var x => rfl
  | fn f => cases f <;> rfl
  | sym c => exact baseOp_lparen (h c rfl) u

theorem isOp_rparen (t : Tok α) (h : SymOk t) (u : Bool) (k : Nat) :
    isOp .rparen (⟨tokNode t u, k⟩ : Token α) = t.isSym ')' := by
  cases t with
  | num v => rfl
  | var x => rfl
  | fn f => cases f <;> rfl
  | sym c => exact baseOp_rparen' (h c rfl) u

/-- the bookkeeping on the tokens of the specification -/
def scanT : List (Tok α × Nat) → Nat → List Nat → Res Unit
  | [], _, [] => .ok ()
  | [], _, p :: _ => .throw (.singleParse p)
  | t :: ts, B, d =>
    if t.1.isSym '(' then scanT ts (B + 1) (t.2 :: d)
    else if t.1.isSym ')' then
      if B = 0 then .throw (.singleParse t.2)
      else
        match d with
        | [] => .ub
        | _ :: d => scanT ts B d
    else scanT ts B d

theorem scan_eq (ts : List (Tok α × Nat)) (h : ∀ t ∈ ts.map Prod.fst, SymOk t) (u : Bool) (B : Nat) (d : List Nat) :
    scan (markToks u ts) B d = scanT ts B d := by
  induction ts generalizing u B d with
  | nil => cases d <;> rfl
  | cons t ts ih =>
    have ht := h t.1 (by simp)
    have h' : ∀ t ∈ ts.map Prod.fst, SymOk t := fun t ht => h t (by simp only [List.map_cons, List.mem_cons]; exact .inr ht)
    simp only [markToks, scan, scanT, isOp_lparen _ ht, isOp_rparen _ ht, ih h']
    cases d <;> rfl

theorem scanT_cons (t : Tok α × Nat) (ts : List (Tok α × Nat)) (B : Nat) (d : List Nat) : scanT (t :: ts) B d =
    if t.1.isSym '(' then scanT ts (B + 1) (t.2 :: d)
    else if t.1.isSym ')' then
      if B = 0 then .throw (.singleParse t.2)
      else
        match d with
        | [] => .ub
        | _ :: d => scanT ts B d
    else scanT ts B d := by
  rw [scanT.eq_def]

theorem numOpen_cons (t : Tok α) (ts : List (Tok α)) : numOpen (t :: ts) = numOpen ts + (if t.isSym '(' then 1 else 0) := by
  simp [numOpen, List.countP_cons]

theorem numClose_cons (t : Tok α) (ts : List (Tok α)) : numClose (t :: ts) = numClose ts + (if t.isSym ')' then 1 else 0) := by
  simp [numClose, List.countP_cons]

theorem isSym_excl (t : Tok α) (h : t.isSym '(' = true) : t.isSym ')' = false := by
  cases t <;> simp_all [Tok.isSym]

theorem isSym_iff (t : Tok α) (c : Char) : t.isSym c = true ↔ t = .sym c := by
  cases t <;> simp [Tok.isSym]

/-- depth never negative when starting at depth `n` -/
def NonNegFrom (n : Nat) (ts : List (Tok α)) : Prop := ∀ pre suf, ts = pre ++ suf → numClose pre ≤ numOpen pre + n

theorem nonNegFrom_nil (n : Nat) : NonNegFrom n ([] : List (Tok α)) := by
  intro pre suf h
  have := (List.append_eq_nil_iff.mp h.symm).1
  subst this; simp [numClose]

theorem nonNegFrom_open (n : Nat) (t : Tok α) (ts : List (Tok α)) (h : t.isSym '(' = true) :
    NonNegFrom n (t :: ts) ↔ NonNegFrom (n + 1) ts := by
  constructor
  · intro H pre suf hs
    have := H (t :: pre) suf (by rw [hs]; rfl)
    rw [numOpen_cons, numClose_cons, h, isSym_excl t h] at this
    simp at this; omega
  · intro H pre suf hs
    cases pre with
    | nil => simp [numClose]
    | cons a pre =>
      obtain ⟨rfl, hs'⟩ := List.cons.inj hs
      have := H pre suf hs'
      rw [numOpen_cons, numClose_cons, h, isSym_excl t h]
      simp; omega

theorem nonNegFrom_close (n : Nat) (t : Tok α) (ts : List (Tok α)) (h : t.isSym ')' = true) :
    NonNegFrom (n + 1) (t :: ts) ↔ NonNegFrom n ts := by
  have h0 : t.isSym '(' = false := by
    cases ho : t.isSym '(' with
    | false => rfl
    | true => rw [isSym_excl t ho] at h; cases h
  constructor
  · intro H pre suf hs
    have := H (t :: pre) suf (by rw [hs]; rfl)
    rw [numOpen_cons, numClose_cons, h, h0] at this
    simp at this; omega
  · intro H pre suf hs
    cases pre with
    | nil => simp [numClose]
    | cons a pre =>
      obtain ⟨rfl, hs'⟩ := List.cons.inj hs
      have := H pre suf hs'
      rw [numOpen_cons, numClose_cons, h, h0]
      simp; omega

theorem nonNegFrom_close_zero (t : Tok α) (ts : List (Tok α)) (h : t.isSym ')' = true) : ¬ NonNegFrom 0 (t :: ts) := by
  intro H
  have := H [t] ts rfl
  have h0 : t.isSym '(' = false := by
    cases ho : t.isSym '(' with
    | false => rfl
    | true => rw [isSym_excl t ho] at h; cases h
  rw [numOpen_cons, numClose_cons, h, h0] at this
  simp [numOpen, numClose] at this

theorem nonNegFrom_other (n : Nat) (t : Tok α) (ts : List (Tok α)) (h1 : t.isSym '(' = false) (h2 : t.isSym ')' = false) :
    NonNegFrom n (t :: ts) ↔ NonNegFrom n ts := by
  constructor
  · intro H pre suf hs
    have := H (t :: pre) suf (by rw [hs]; rfl)
    rw [numOpen_cons, numClose_cons, h1, h2] at this
    simpa using this
  · intro H pre suf hs
    cases pre with
    | nil => simp [numClose]
    | cons a pre =>
      obtain ⟨rfl, hs'⟩ := List.cons.inj hs
      have := H pre suf hs'
      rw [numOpen_cons, numClose_cons, h1, h2]
      simpa using this

/-- success: balanced -/
theorem scanT_ok_iff (ts : List (Tok α × Nat)) (B : Nat) (d : List Nat) (hB : d.length ≤ B) :
    scanT ts B d = .ok () ↔ NonNegFrom d.length (ts.map Prod.fst) ∧
      numClose (ts.map Prod.fst) = numOpen (ts.map Prod.fst) + d.length := by
  induction ts generalizing B d with
  | nil =>
    cases d with
    | nil => simp [scanT, nonNegFrom_nil, numClose, numOpen]
    | cons p d => simp [scanT, numClose, numOpen]
  | cons t ts ih =>
    rw [scanT_cons, List.map_cons]
    by_cases h1 : t.1.isSym '(' = true
    · rw [if_pos h1, ih _ _ (by simp; omega), nonNegFrom_open _ _ _ h1, numOpen_cons, numClose_cons, h1, isSym_excl _ h1]
      simp only [List.length_cons, if_true]
      constructor <;> rintro ⟨a, b⟩ <;> refine ⟨a, ?_⟩ <;> simp at b ⊢ <;> omega
    · rw [if_neg h1]
      by_cases h2 : t.1.isSym ')' = true
      · rw [if_pos h2]
        cases d with
        | nil =>
          constructor
          · intro h; split at h <;> simp at h
          · rintro ⟨h, _⟩; exact absurd h (nonNegFrom_close_zero _ _ h2)
        | cons p d =>
          simp only [List.length_cons] at hB ⊢
          rw [if_neg (by omega)]
          rw [ih _ _ (by omega), nonNegFrom_close _ _ _ h2, numOpen_cons, numClose_cons, h2]
          simp only [h1, if_true, if_false]
          constructor <;> rintro ⟨a, b⟩ <;> refine ⟨a, ?_⟩ <;> simp at b ⊢ <;> omega
      · rw [if_neg h2, ih _ _ hB, nonNegFrom_other _ _ _ (by simpa using h1) (by simpa using h2), numOpen_cons, numClose_cons]
        simp [h1, h2]

/-- undefined behaviour: a closing parenthesis at depth zero after an opening one -/
theorem scanT_ub_iff (ts : List (Tok α × Nat)) (B : Nat) (d : List Nat) (hB : d.length ≤ B) :
    scanT ts B d = .ub ↔ ∃ pre suf, ts.map Prod.fst = pre ++ [.sym ')'] ++ suf ∧ NonNegFrom d.length pre ∧
      numClose pre = numOpen pre + d.length ∧ 0 < B + numOpen pre := by
  induction ts generalizing B d with
  | nil =>
    constructor
    · intro h; cases d <;> simp [scanT] at h
    · rintro ⟨pre, suf, h, _⟩; simp at h
  | cons t ts ih =>
    rw [scanT_cons, List.map_cons]
    by_cases h1 : t.1.isSym '(' = true
    · rw [if_pos h1, ih _ _ (by simp; omega)]
      constructor
      · rintro ⟨pre, suf, e, h2, h3, h4⟩
        refine ⟨t.1 :: pre, suf, by rw [e]; rfl, (nonNegFrom_open _ _ _ h1).mpr h2, ?_, ?_⟩
        · rw [numOpen_cons, numClose_cons, h1, isSym_excl _ h1]; simp at h3 ⊢; omega
        · rw [numOpen_cons, h1]; simp; omega
      · rintro ⟨pre, suf, e, h2, h3, h4⟩
        cases pre with
        | nil =>
          simp only [List.nil_append, List.singleton_append, List.cons.injEq] at e
          rw [e.1] at h1; simp [Tok.isSym] at h1
        | cons a pre =>
          simp only [List.cons_append, List.cons.injEq] at e
          obtain ⟨rfl, e⟩ := e
          refine ⟨pre, suf, e, (nonNegFrom_open _ _ _ h1).mp h2, ?_, ?_⟩
          · rw [numOpen_cons, numClose_cons, h1, isSym_excl _ h1] at h3; simp at h3 ⊢; omega
          · omega
    · rw [if_neg h1]
      by_cases h2 : t.1.isSym ')' = true
      · rw [if_pos h2]
        have ht : t.1 = .sym ')' := (isSym_iff _ _).mp h2
        cases d with
        | nil =>
          by_cases hb : B = 0
          · rw [if_pos hb]
            constructor
            · intro h; simp at h
            · rintro ⟨pre, suf, e, k2, k3, k4⟩
              cases pre with
              | nil => simp [numOpen] at k4; omega
              | cons a pre =>
                simp only [List.cons_append, List.cons.injEq] at e
                obtain ⟨rfl, e⟩ := e
                exact absurd k2 (nonNegFrom_close_zero _ _ h2)
          · rw [if_neg hb]
            constructor
            · intro _
              exact ⟨[], ts.map Prod.fst, by simp [ht], nonNegFrom_nil _, by simp [numClose, numOpen], by omega⟩
            · intro _; rfl
        | cons p d =>
          simp only [List.length_cons] at hB ⊢
          rw [if_neg (by omega)]
          rw [ih _ _ (by omega)]
          constructor
          · rintro ⟨pre, suf, e, k2, k3, k4⟩
            refine ⟨t.1 :: pre, suf, by rw [e]; rfl, (nonNegFrom_close _ _ _ h2).mpr k2, ?_, ?_⟩
            · rw [numOpen_cons, numClose_cons, h2]; simp only [h1, if_true, if_false] at k3 ⊢; simp at k3 ⊢; omega
            · rw [numOpen_cons]; simp [h1]; omega
          · rintro ⟨pre, suf, e, k2, k3, k4⟩
            cases pre with
            | nil =>
              simp [numOpen, numClose] at k3
            | cons a pre =>
              simp only [List.cons_append, List.cons.injEq] at e
              obtain ⟨rfl, e⟩ := e
              refine ⟨pre, suf, e, (nonNegFrom_close _ _ _ h2).mp k2, ?_, by omega⟩
              rw [numOpen_cons, numClose_cons, h2] at k3; simp [h1] at k3; omega
      · rw [if_neg h2, ih _ _ hB]
        have h1' : t.1.isSym '(' = false := by simpa using h1
        have h2' : t.1.isSym ')' = false := by simpa using h2
        constructor
        · rintro ⟨pre, suf, e, k2, k3, k4⟩
          refine ⟨t.1 :: pre, suf, by rw [e]; rfl, (nonNegFrom_other _ _ _ h1' h2').mpr k2, ?_, ?_⟩
          · rw [numOpen_cons, numClose_cons, h1', h2']; simpa using k3
          · rw [numOpen_cons, h1']; simpa using k4
        · rintro ⟨pre, suf, e, k2, k3, k4⟩
          cases pre with
          | nil =>
            simp only [List.nil_append, List.singleton_append, List.cons.injEq] at e
            rw [e.1] at h2; simp [Tok.isSym] at h2
          | cons a pre =>
            simp only [List.cons_append, List.cons.injEq] at e
            obtain ⟨rfl, e⟩ := e
            refine ⟨pre, suf, e, (nonNegFrom_other _ _ _ h1' h2').mp k2, ?_, ?_⟩
            · rw [numOpen_cons, numClose_cons, h1', h2'] at k3; simpa using k3
            · rw [numOpen_cons, h1'] at k4; simpa using k4

/-- failure: the column of a closing parenthesis with no opening one before it, or of an opening one that is never closed
(or one that was already open) -/
theorem scanT_throw (ts : List (Tok α × Nat)) (B : Nat) (d : List Nat) (e : Exc) (h : scanT ts B d = .throw e) :
    ∃ k, e = .singleParse k ∧
      ((∃ pre suf, ts = pre ++ [(.sym ')', k)] ++ suf ∧ B + numOpen (pre.map Prod.fst) = 0) ∨
       (∃ pre suf, ts = pre ++ [(.sym '(', k)] ++ suf ∧ NonNegFrom 0 (suf.map Prod.fst)) ∨
       ∃ i, d[i]? = some k ∧ NonNegFrom i (ts.map Prod.fst)) := by
  induction ts generalizing B d with
  | nil =>
    cases d with
    | nil => simp [scanT] at h
    | cons p d =>
      simp only [scanT, Res.throw.injEq] at h
      exact ⟨p, h.symm, .inr (.inr ⟨0, rfl, nonNegFrom_nil 0⟩)⟩
  | cons t ts ih =>
    rw [scanT_cons] at h
    obtain ⟨t, k⟩ := t
    simp only at h
    by_cases h1 : t.isSym '(' = true
    · rw [if_pos h1] at h
      have ht : t = .sym '(' := (isSym_iff _ _).mp h1
      obtain ⟨k', he, hk⟩ := ih _ _ h
      refine ⟨k', he, ?_⟩
      rcases hk with ⟨pre, suf, e1, e2⟩ | ⟨pre, suf, e1, e2⟩ | ⟨i, e1, e2⟩
      · omega
      · exact .inr (.inl ⟨(t, k) :: pre, suf, by rw [e1]; rfl, e2⟩)
      · cases i with
        | zero =>
          simp only [List.getElem?_cons_zero, Option.some.injEq] at e1
          subst e1; subst ht
          exact .inr (.inl ⟨[], ts, rfl, e2⟩)
        | succ i =>
          exact .inr (.inr ⟨i, by simpa using e1, (nonNegFrom_open _ _ _ h1).mpr e2⟩)
    · rw [if_neg h1] at h
      by_cases h2 : t.isSym ')' = true
      · have ht : t = .sym ')' := (isSym_iff _ _).mp h2
        rw [if_pos h2] at h
        by_cases hb : B = 0
        · rw [if_pos hb] at h
          simp only [Res.throw.injEq] at h
          refine ⟨k, h.symm, .inl ⟨[], ts, by rw [ht]; rfl, by simp [hb, numOpen]⟩⟩
        · rw [if_neg hb] at h
          cases d with
          | nil => simp at h
          | cons p d =>
            obtain ⟨k', he, hk⟩ := ih _ _ h
            refine ⟨k', he, ?_⟩
            rcases hk with ⟨pre, suf, e1, e2⟩ | ⟨pre, suf, e1, e2⟩ | ⟨i, e1, e2⟩
            · omega
            · exact .inr (.inl ⟨(t, k) :: pre, suf, by rw [e1]; rfl, e2⟩)
            · exact .inr (.inr ⟨i + 1, by simpa using e1, (nonNegFrom_close _ _ _ h2).mpr e2⟩)
      · rw [if_neg h2] at h
        have h1' : t.isSym '(' = false := by simpa using h1
        have h2' : t.isSym ')' = false := by simpa using h2
        obtain ⟨k', he, hk⟩ := ih _ _ h
        refine ⟨k', he, ?_⟩
        rcases hk with ⟨pre, suf, e1, e2⟩ | ⟨pre, suf, e1, e2⟩ | ⟨i, e1, e2⟩
        · refine .inl ⟨(t, k) :: pre, suf, by rw [e1]; rfl, ?_⟩
          rw [List.map_cons, numOpen_cons, h1']; simpa using e2
        · exact .inr (.inl ⟨(t, k) :: pre, suf, by rw [e1]; rfl, e2⟩)
        · exact .inr (.inr ⟨i, e1, (nonNegFrom_other _ _ _ h1' h2').mpr e2⟩)

theorem scanT_no_other (ts : List (Tok α × Nat)) (B : Nat) (d : List Nat) :
    scanT ts B d = .ok () ∨ scanT ts B d = .ub ∨ ∃ e, scanT ts B d = .throw e := by
  induction ts generalizing B d with
  | nil => cases d <;> simp [scanT]
  | cons t ts ih =>
    rw [scanT_cons]
    split
    · exact ih _ _
    · split
      · split
        · simp
        · split
          · simp
          · exact ih _ _
      · exact ih _ _

theorem plain_markToks (ts : List (Tok α × Nat)) (h : ∀ t ∈ ts.map Prod.fst, SymOk t) (u : Bool) :
    plain (markToks u ts) = [] ↔ ∀ t ∈ ts.map Prod.fst, t.isParen = true := by
  induction ts generalizing u with
  | nil => simp [markToks, plain]
  | cons t ts ih =>
    have ht := h t.1 (by simp)
    have := ih (fun t ht => h t (by simp only [List.map_cons, List.mem_cons]; exact .inr ht)) (signAfter t.1)
    have e : ∀ k, notParen (⟨tokNode t.1 u, k⟩ : Token α) = !t.1.isParen := by
      intro k
      simp only [notParen, isOp_lparen _ ht, isOp_rparen _ ht, Tok.isParen]
      cases t.1.isSym '(' <;> cases t.1.isSym ')' <;> rfl
    simp only [markToks, plain, List.filter_cons, e, List.map_cons, List.mem_cons, forall_eq_or_imp]
    rw [← this]
    cases t.1.isParen <;> simp [plain]

/-- Everything after the lexer, by cases. -/
theorem build_cases (ts : List (Tok α × Nat)) (h : ∀ t ∈ ts.map Prod.fst, SymOk t) :
    (scanT ts 0 [] = .ub ∧ (inOrderToPostOrder (markToks true ts) >>= buildExpressionTree) = .ub) ∨
    (∃ e, scanT ts 0 [] = .throw e ∧ (inOrderToPostOrder (markToks true ts) >>= buildExpressionTree) = .throw e) ∨
    (scanT ts 0 [] = .ok () ∧ plain (markToks true ts) = [] ∧
      (inOrderToPostOrder (markToks true ts) >>= buildExpressionTree) = .ub) ∨
    (scanT ts 0 [] = .ok () ∧ plain (markToks true ts) ≠ [] ∧
      ((inOrderToPostOrder (markToks true ts) >>= buildExpressionTree) = .throw (.math .wrongExpression) ∨
       (∃ ks, (inOrderToPostOrder (markToks true ts) >>= buildExpressionTree) = .throw (.multiParse ks) ∧
          ks ≠ [] ∧ ∀ k ∈ ks, k ∈ ts.map Prod.snd) ∨
       ∃ e, (inOrderToPostOrder (markToks true ts) >>= buildExpressionTree) = .ok (embed e) ∧
          (post e).Perm ((plain (markToks true ts)).map Token.node))) := by
  have hs := shunt_scan (markToks true ts) 0 [] [] (markToks_good ts h true) (by simp)
  rw [scan_eq ts h] at hs
  have e0 : opens ([] : List (Token α)) = [] := rfl
  rw [e0] at hs
  unfold inOrderToPostOrder
  rcases scanT_no_other ts 0 [] with hk | hk | ⟨e, hk⟩
  · rw [hk] at hs
    simp only at hs
    obtain ⟨out, ho, hp⟩ := hs
    rw [ho, Res.bind_ok]
    simp only [plain, List.filter_nil, List.append_nil, List.nil_append] at hp
    by_cases hpl : plain (markToks true ts) = []
    · right; right; left
      refine ⟨hk, hpl, ?_⟩
      have : out = [] := by
        have := hp.length_eq
        simp only [plain] at hpl
        rw [hpl] at this
        exact List.length_eq_zero_iff.mp this
      subst this
      rfl
    · right; right; right
      refine ⟨hk, hpl, ?_⟩
      have hbt : ∀ t ∈ out, BuildTok t := by
        intro t ht
        have := hp.mem_iff.mp ht
        rw [List.mem_filter] at this
        exact buildTok_of_good (markToks_good ts h true t this.1) this.2
      have hone : out ≠ [] := by
        intro h0; subst h0
        exact hpl (by simpa [plain] using hp.symm.eq_nil)
      rcases buildLoop_cases out [] [] hbt rfl with hw | ⟨stk, es, h1, h2, h3, h4, h5⟩
      · left; simp [buildExpressionTree, hw]
      · right
        have hne := h5 (.inr hone)
        match stk, hne with
        | [t], _ =>
          right
          cases es with
          | nil => simp at h2
          | cons e es =>
            cases es with
            | cons _ _ => simp at h2
            | nil =>
              simp only [List.map_cons, List.map_nil, List.cons.injEq, and_true] at h2
              refine ⟨e, by simp [buildExpressionTree, h1, h2], ?_⟩
              have h3' : post e = out.map Token.node := by simpa [posts] using h3
              rw [h3']
              exact hp.map _
        | a :: b :: stk, _ =>
          left
          refine ⟨(b :: stk).map Token.pos, by simp [buildExpressionTree, h1], by simp, ?_⟩
          intro k hk
          rcases h4 k (by simp only [List.map_cons, List.mem_cons] at hk ⊢; exact .inr hk) with h | h
          · simp at h
          · rw [← markToks_pos true ts]
            obtain ⟨t, ht, rfl⟩ := List.mem_map.mp h
            have := hp.mem_iff.mp ht
            rw [List.mem_filter] at this
            exact List.mem_map.mpr ⟨t, this.1, rfl⟩
  · rw [hk] at hs
    left
    simp only at hs
    exact ⟨hk, by rw [hs]; rfl⟩
  · rw [hk] at hs
    right; left
    simp only at hs
    exact ⟨e, hk, by rw [hs]; rfl⟩

/-- recover the token from its node -/
def nodeTok : Raw α → Tok α
  | .nil => .sym '('
  | .mk .number _ v _ _ _ => .num v
  | .mk .variable _ _ x _ _ => .var x
  | .mk .operator o _ _ _ _ =>
    match o with
    | .sin => .fn .sin | .cos => .fn .cos | .tan => .fn .tan | .arcsin => .fn .asin | .arccos => .fn .acos
    | .arctan => .fn .atan | .sqrt => .fn .sqrt | .log => .fn .log | .log2 => .fn .log2 | .log10 => .fn .log10
    | .exp => .fn .exp
    | .positive => .sym '+' | .negative => .sym '-' | .add => .sym '+' | .sub => .sym '-' | .mul => .sym '*'
    | .div => .sym '/' | .pow => .sym '^' | .and => .sym '&' | .or => .sym '|' | .mod => .sym '%'
    | .lparen => .sym '(' | .rparen => .sym ')' | .null => .sym '('

/-- function tokens of the lexer are functions, not signs -/
def FnOk (t : Tok α) : Prop := ∀ f, t = .fn f → f ≠ .pos ∧ f ≠ .neg

theorem nodeTok_tokNode (t : Tok α) (h : SymOk t) (hf : FnOk t) (u : Bool) : nodeTok (tokNode t u) = t := by
  cases t with
  | num v => rfl
  | var x => rfl
  | fn f =>
    have := hf f rfl
    cases f <;> first | rfl | simp at this
  | sym c =>
    have hc := h c rfl
    simp only [OpChar, List.mem_cons, List.not_mem_nil, or_false] at hc
    rcases hc with h | h | h | h | h | h | h | h | h | h <;> subst h <;> cases u <;> rfl

theorem post_symbols (e : Expr α) : ((post e).map nodeTok).Perm e.symbols := by
  induction e with
  | num v => exact List.Perm.refl _
  | var x => exact List.Perm.refl _
  | un o e ih =>
    rw [post, List.map_append, Expr.symbols]
    have : ([opNode o.toMathOp] : List (Raw α)).map nodeTok = [o.symbol] := by cases o <;> rfl
    rw [this]
    exact (List.perm_append_singleton _ _).trans (ih.cons _)
  | bin o a b iha ihb =>
    rw [post, List.map_append, List.map_append, Expr.symbols]
    have : ([opNode o.toMathOp] : List (Raw α)).map nodeTok = [.sym o.char] := by cases o <;> rfl
    rw [this]
    have h1 : ((post a).map nodeTok ++ (post b).map nodeTok ++ [Tok.sym o.char]).Perm
        (a.symbols ++ b.symbols ++ [Tok.sym o.char]) := (iha.append ihb).append_right _
    refine h1.trans ?_
    rw [List.append_assoc, List.append_assoc]
    exact List.Perm.append_left _ List.perm_append_comm

theorem plain_map_nodeTok (ts : List (Tok α × Nat)) (h : ∀ t ∈ ts.map Prod.fst, SymOk t) (hf : ∀ t ∈ ts.map Prod.fst, FnOk t)
    (u : Bool) : ((plain (markToks u ts)).map Token.node).map nodeTok = (ts.map Prod.fst).filter (fun t => !t.isParen) := by
  induction ts generalizing u with
  | nil => rfl
  | cons t ts ih =>
    have ht := h t.1 (by simp)
    have hft := hf t.1 (by simp)
    have := ih (fun t ht => h t (by simp only [List.map_cons, List.mem_cons]; exact .inr ht))
      (fun t ht => hf t (by simp only [List.map_cons, List.mem_cons]; exact .inr ht)) (signAfter t.1)
    have e : ∀ k, notParen (⟨tokNode t.1 u, k⟩ : Token α) = !t.1.isParen := by
      intro k
      simp only [notParen, isOp_lparen _ ht, isOp_rparen _ ht, Tok.isParen]
      cases t.1.isSym '(' <;> cases t.1.isSym ')' <;> rfl
    simp only [markToks, plain, List.filter_cons, e, List.map_cons]
    rw [← this]
    cases t.1.isParen with
    | true => simp [plain]
    | false => simp [plain, nodeTok_tokNode _ ht hft]

theorem lexed_fnOk {k : Nat} {s : Str} {ts : List (Tok α × Nat)} (h : Lexed HashMeans k s ts) :
    ∀ t ∈ ts.map Prod.fst, FnOk t := by
  induction h with
  | blank hw => simp
  | sym hw hc _ ih =>
    intro t ht
    simp only [List.map_cons, List.mem_cons] at ht
    rcases ht with rfl | ht
    · intro f h'; cases h'
    · exact ih t ht
  | word hw hne hu hd h1 _ ih =>
    intro t ht
    simp only [List.map_cons, List.mem_cons] at ht
    rcases ht with rfl | ht
    · intro f hf
      cases h1 with
      | num => cases hf
      | fn _ hs _ => cases hf; cases hs <;> simp
      | var => cases hf
    · exact ih t ht

theorem parse_lexed {s : Str} {ts : List (Tok α × Nat)} (h : Lexed HashMeans 0 s ts) (hs : s ≠ []) :
    parse s = (inOrderToPostOrder (markToks true ts) >>= buildExpressionTree) := by
  unfold parse parseToTokens
  rw [if_neg hs, lexLoop_lexed h]
  rfl

end Tom
