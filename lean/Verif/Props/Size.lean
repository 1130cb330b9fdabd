import Verif.Spec.Size
import Verif.Props.Parse
import Verif.Props.Print
import Verif.Props.Simplify
import Verif.Props.Diff
import Verif.Props.Subs
/-
Property C93: how large results can become.
-/
set_option linter.unusedSectionVars false
namespace Tom
variable {α : Type} [Dbl α]

/-! ### Parse -/

theorem symbols_length (e : Expr α) : (e.symbols).length = e.size := by
  induction e with
  | num v => rfl
  | var x => rfl
  | un o e ih => simp [Expr.symbols, Expr.size, ih]
  | bin o a b iha ihb => simp [Expr.symbols, Expr.size, iha, ihb]; omega

theorem lexed_length {means : Str → Tok α → Prop} {k : Nat} {s : Str} {ts : List (Tok α × Nat)} (h : Lexed means k s ts) :
    ts.length ≤ s.length := by
  induction h with
  | blank _ => simp
  | sym _ _ _ ih => simp; omega
  | @word k w u rest t ts _ hu _ _ _ _ ih =>
    have : 0 < u.length := List.length_pos_iff.mpr hu
    simp; omega

/-- C93, `Parse`: the tree has at most as many nodes as the text has characters -/
theorem C93_parse (s : Str) (t : Raw α) (h : parse s = .ok t) : ∃ e : Expr α, t = embed e ∧ e.size ≤ s.length := by
  obtain ⟨ts, e, h1, h2, _, _, h5⟩ := C56_partial s t h
  refine ⟨e, h2, ?_⟩
  rw [← symbols_length e, ← h5.length_eq]
  refine le_trans (List.length_filter_le _ _) ?_
  rw [List.length_map]
  exact lexed_length h1

/-- ... and this is attained: `x^2+1` -/
example : parse "x^2+1".toList = .ok (embed (.bin .add (.bin .pow (.var ['x']) (.num (.fin 2))) (.num (.fin 1)) : Expr (XNum Rat))) ∧
    (.bin .add (.bin .pow (.var ['x']) (.num (.fin 2))) (.num (.fin 1)) : Expr (XNum Rat)).size = "x^2+1".toList.length := by
  decide +kernel

/-! ### Subs -/

theorem subst_size_one (e r : Expr α) (x : Str) :
    (e.subst fun y => if y = x then some r else none).size + e.occurrences x = e.size + e.occurrences x * r.size := by
  induction e with
  | num v => simp [Expr.subst, Expr.size, Expr.occurrences]
  | var y =>
    by_cases h : y = x
    · simp [Expr.subst, Expr.size, Expr.occurrences, h]; omega
    · simp [Expr.subst, Expr.size, Expr.occurrences, h]
  | un o e ih => simp only [Expr.subst, Expr.size, Expr.occurrences]; omega
  | bin o a b iha ihb =>
    simp only [Expr.subst, Expr.size, Expr.occurrences, Nat.add_mul]; omega

theorem subst_size_le (e : Expr α) (σ : Str → Option (Expr α)) (M : Nat) (hM : 1 ≤ M) (h : ∀ x r, σ x = some r → r.size ≤ M) :
    (e.subst σ).size ≤ e.size * M := by
  induction e with
  | num v => simpa [Expr.subst, Expr.size] using hM
  | var y =>
    simp only [Expr.subst, Expr.size, one_mul]
    cases hy : σ y with
    | none => exact hM
    | some r => exact h y r hy
  | un o e ih => simp only [Expr.subst, Expr.size, Nat.add_mul]; omega
  | bin o a b iha ihb => simp only [Expr.subst, Expr.size, Nat.add_mul]; omega

/-- C93, `Subs(expr, var, node)`: every occurrence of the variable, one node each, gives way to a copy of the replacement; nothing
else changes -/
theorem C93_subs (e r : Expr α) (x : Str) : ∃ e', subs1 (embed e) x (embed r) = .ok (embed e') ∧
    e'.size + e.occurrences x = e.size + e.occurrences x * r.size :=
  ⟨_, C18_subs1 e x r, subst_size_one e r x⟩

/-- C93, `Subs(expr, vars, nodes)`: at most the size of the expression times that of the largest replacement -/
theorem C93_subsVec (e : Expr α) (vars : List Str) (imgs : List (Expr α)) (h : vars.length = imgs.length) (M : Nat) (hM : 1 ≤ M)
    (hs : ∀ r ∈ imgs, r.size ≤ M) :
    ∃ e', subsVec (embed e) vars (imgs.map embed) = .ok (embed e') ∧ e'.size ≤ e.size * M := by
  refine ⟨_, C18_subsVec e vars imgs h, subst_size_le e _ M hM fun x r hr => hs r ?_⟩
  rw [List.lookup_eq_some_iff] at hr
  obtain ⟨l1, l2, hl, _⟩ := hr
  have hm : (x, r) ∈ vars.zip imgs := by rw [hl]; simp
  exact (List.of_mem_zip hm).2

/-- C93, `Subs` with numbers: the size does not change -/
theorem C93_subsValues (e : Expr α) (values : List (Str × α)) :
    ∃ e', subsValues (embed e) values = .ok (embed e') ∧ e'.size = e.size ∧ e'.height = e.height := by
  refine ⟨_, C18_subsValues e values, ?_⟩
  induction e with
  | num v => exact ⟨rfl, rfl⟩
  | var y =>
    simp only [Expr.subst]
    cases values.lookup y <;> exact ⟨rfl, rfl⟩
  | un o e ih => simp only [Expr.subst, Expr.size, Expr.height, ih, and_self]
  | bin o a b iha ihb => simp only [Expr.subst, Expr.size, Expr.height, iha, ihb, and_self]

/-! ### Diff -/

theorem size_pos (e : Expr α) : 1 ≤ e.size := by cases e <;> simp [Expr.size]
theorem height_pos (e : Expr α) : 1 ≤ e.height := by cases e <;> simp [Expr.height]
theorem height_le_size (e : Expr α) : e.height ≤ e.size := by
  induction e with
  | num v => exact le_refl _
  | var v => exact le_refl _
  | un o e ih => simp only [Expr.height, Expr.size]; omega
  | bin o a b iha ihb =>
    have := size_pos a; have := size_pos b
    simp only [Expr.height, Expr.size]; omega

theorem dE_pow_measure (x : Str) (a b : Expr α) :
    (dE x (.bin .pow a b)).size ≤ (dE x a).size + (dE x b).size + 3 * a.size + 2 * b.size + 9 ∧
    (dE x (.bin .pow a b)).height ≤ max (max (a.height + 5) (b.height + 3)) (max (dE x a).height (dE x b).height + 4) := by
  have h1 := height_pos a; have h2 := size_pos a
  have h3 := height_pos b; have h4 := size_pos b
  have h5 := height_pos (dE x a); have h6 := size_pos (dE x a)
  have h7 := height_pos (dE x b); have h8 := size_pos (dE x b)
  generalize hA : dE x a = da at h5 h6 ⊢
  generalize hB : dE x b = db at h7 h8 ⊢
  unfold dE
  split
  · simp only [Expr.size, Expr.height]; omega
  · simp only [Expr.size, Expr.height, hA] at *; omega
  · simp only [Expr.size, Expr.height, hB] at *; omega
  · simp only [Expr.size, Expr.height, hA, hB] at *; omega

theorem dE_height (x : Str) (e : Expr α) : (dE x e).height ≤ 4 * e.height := by
  induction e with
  | num v => simp [dE, Expr.height]
  | var v => simp [dE, Expr.height]
  | un o e ih =>
    have := height_pos e
    cases o <;> simp only [dE] <;> (try split) <;> (try split) <;> simp only [Expr.height] <;> omega
  | bin o a b iha ihb =>
    have := height_pos a; have := height_pos b
    have hp := (dE_pow_measure x a b).2
    cases o
    case pow => simp only [Expr.height]; omega
    all_goals simp only [dE] <;> (try split) <;> (try split) <;> simp only [Expr.height] at * <;> omega

theorem dE_size (x : Str) (e : Expr α) : (dE x e).size ≤ 4 * (e.size * e.height) := by
  induction e with
  | num v => simp [dE, Expr.size, Expr.height]
  | var v => simp [dE, Expr.size, Expr.height]
  | un o e ih =>
    have h1 := height_pos e; have h2 := size_pos e
    have key : 4 * ((e.size + 1) * (e.height + 1)) = 4 * (e.size * e.height) + 4 * e.size + 4 * e.height + 4 := by ring
    cases o <;> simp only [dE] <;> (try split) <;> (try split) <;> simp only [Expr.size, Expr.height, key] <;> omega
  | bin o a b iha ihb =>
    have h1 := height_pos a; have h2 := size_pos a
    have h3 := height_pos b; have h4 := size_pos b
    have key : 4 * (a.size * a.height) + 4 * (b.size * b.height) + 4 * a.size + 4 * b.size + 8 ≤
        4 * ((a.size + b.size + 1) * (max a.height b.height + 1)) := by
      have m1 : a.size * a.height ≤ a.size * max a.height b.height := Nat.mul_le_mul_left _ (le_max_left _ _)
      have m2 : b.size * b.height ≤ b.size * max a.height b.height := Nat.mul_le_mul_left _ (le_max_right _ _)
      have m3 : 1 ≤ max a.height b.height := le_trans h1 (le_max_left _ _)
      have : 4 * ((a.size + b.size + 1) * (max a.height b.height + 1)) =
        4 * (a.size * max a.height b.height) + 4 * (b.size * max a.height b.height) + 4 * max a.height b.height + 4 * a.size + 4 * b.size + 4 := by ring
      omega
    have hp := (dE_pow_measure x a b).1
    cases o
    case pow => simp only [Expr.size, Expr.height]; omega
    all_goals simp only [dE] <;> (try split) <;> (try split) <;> simp only [Expr.size, Expr.height] at * <;> omega

theorem iterate_size (x : Str) (k : Nat) (e : Expr α) :
    ((dE x)^[k] e).height ≤ 4 ^ k * e.height ∧
    ((dE x)^[k] e).size ≤ 4 ^ (k * (k + 1) / 2) * (e.size * e.height ^ k) := by
  induction k with
  | zero => simp
  | succ k ih =>
    obtain ⟨i1, i2⟩ := ih
    rw [Function.iterate_succ_apply']
    refine ⟨le_trans (dE_height x _) ?_, le_trans (dE_size x _) ?_⟩
    · calc 4 * ((dE x)^[k] e).height ≤ 4 * (4 ^ k * e.height) := Nat.mul_le_mul_left _ i1
        _ = 4 ^ (k + 1) * e.height := by ring
    · have e1 : (k + 1) * (k + 1 + 1) / 2 = k * (k + 1) / 2 + (k + 1) := by
        rw [show (k + 1) * (k + 1 + 1) = k * (k + 1) + (k + 1) * 2 by ring, Nat.add_mul_div_right _ _ (by decide)]
      rw [e1]
      calc 4 * (((dE x)^[k] e).size * ((dE x)^[k] e).height)
          ≤ 4 * ((4 ^ (k * (k + 1) / 2) * (e.size * e.height ^ k)) * (4 ^ k * e.height)) :=
            Nat.mul_le_mul_left _ (Nat.mul_le_mul i2 i1)
        _ = 4 ^ (k * (k + 1) / 2 + (k + 1)) * (e.size * e.height ^ (k + 1)) := by ring

/-- C93, `Diff`: the first derivative of an expression with n nodes and height h has at most 4nh nodes, the k-th derivative at most
4^(k(k+1)/2) n h^k: for a fixed order a polynomial in n, never an exponential -/
theorem C93_diff (cfg : Config α) (x : Str) (i : Int) (hi : 0 < i) (e e' : Expr α) (h : diff cfg (embed e) x i = .ok (embed e')) :
    e'.size ≤ 4 ^ (i.toNat * (i.toNat + 1) / 2) * (e.size * e.height ^ i.toNat) ∧
    e'.size ≤ 4 ^ (i.toNat * (i.toNat + 1) / 2) * e.size ^ (i.toNat + 1) := by
  have key : e'.size ≤ 4 ^ (i.toNat * (i.toNat + 1) / 2) * (e.size * e.height ^ i.toNat) := by
    cases hq : e.hasIntOp with
    | true => rw [diff_throw cfg x i hi e hq] at h; cases h
    | false =>
      rw [diff_ok cfg x i hi e hq] at h
      exact le_trans (C25_no_growth cfg _ _ h).1 (iterate_size x _ e).2
  refine ⟨key, le_trans key (Nat.mul_le_mul_left _ ?_)⟩
  rw [pow_succ']
  exact Nat.mul_le_mul_left _ (Nat.pow_le_pow_left (height_le_size e) _)

/-- C93 for the first derivative -/
theorem C93_diff_first (cfg : Config α) (x : Str) (e e' : Expr α) (h : diff cfg (embed e) x 1 = .ok (embed e')) :
    e'.size ≤ 4 * (e.size * e.height) ∧ e'.size ≤ 4 * e.size ^ 2 := by
  have := C93_diff cfg x 1 (by decide) e e' h
  simpa using this

/-- x * (x * (... * x)) with k+1 factors -/
def chain : Nat → Expr (XNum Rat)
  | 0 => .var ['x']
  | k + 1 => .bin .mul (.var ['x']) (chain k)

/-- what `Diff` makes of `chain (k + 1)` -/
def chainDiff : Nat → Expr (XNum Rat)
  | 0 => .bin .add (.var ['x']) (.var ['x'])
  | k + 1 => .bin .add (chain (k + 1)) (.bin .mul (.var ['x']) (chainDiff k))

theorem chain_isNum (k : Nat) : (chain k).isNum = false ∧ (chain k).hasIntOp = false ∧ isLit (Dbl.ofInt 0) (chain k) = false ∧
    isLit (Dbl.ofInt 1) (chain k) = false := by
  induction k with
  | zero => exact ⟨rfl, rfl, rfl, rfl⟩
  | succ k ih => exact ⟨rfl, by simpa [chain, Expr.hasIntOp] using ih.2.1, rfl, rfl⟩

theorem simpE_chain (cfg : Config (XNum Rat)) (k : Nat) : simpE cfg (chain k) = .ok (chain k) := by
  induction k with
  | zero => rfl
  | succ k ih =>
    obtain ⟨h1, _, h3, h4⟩ := chain_isNum k
    simp only [chain, simpE, ih, Res.bind_ok]
    generalize chain k = c at h1 h3 h4 ⊢
    cases c <;> simp_all [simpTop, isLit]

theorem simpE_one_chain (cfg : Config (XNum Rat)) (k : Nat) :
    simpE cfg (.bin .mul (.num (Dbl.ofInt 1)) (chain k)) = .ok (chain k) := by
  obtain ⟨h1, _, h3, h4⟩ := chain_isNum k
  have o1 : isLit (Dbl.ofInt 1 : XNum Rat) (.num (Dbl.ofInt 1)) = true := by decide +kernel
  have o0 : isLit (Dbl.ofInt 0 : XNum Rat) (.num (Dbl.ofInt 1)) = false := by decide +kernel
  simp only [simpE, simpE_chain, Res.bind_ok]
  generalize chain k = c at h1 h3 h4 ⊢
  cases c <;> simp_all [simpTop, Expr.isNum]

theorem simpE_chainDiff (cfg : Config (XNum Rat)) (k : Nat) : simpE cfg (dE ['x'] (chain (k + 1))) = .ok (chainDiff k) := by
  have hd : ∀ k, dE ['x'] (chain (k + 1)) =
      .bin .add (.bin .mul (.num (Dbl.ofInt 1)) (chain k)) (.bin .mul (.var ['x']) (dE ['x'] (chain k))) := by
    intro k
    obtain ⟨h1, _⟩ := chain_isNum k
    show (if (Expr.var ['x'] : Expr (XNum Rat)).isNum = true then _ else if (chain k).isNum = true then _ else _) = _
    rw [if_neg (by decide), if_neg (by rw [h1]; decide)]
    rfl
  have o1 : isLit (Dbl.ofInt 1 : XNum Rat) (.num (Dbl.ofInt 1)) = true := by decide +kernel
  have o0 : isLit (Dbl.ofInt 0 : XNum Rat) (.num (Dbl.ofInt 1)) = false := by decide +kernel
  induction k with
  | zero =>
    rw [hd 0]
    have h2 := simpE_one_chain cfg 0
    have h3 : simpE cfg (.bin .mul (.var ['x']) (dE ['x'] (chain 0))) = .ok (.var ['x']) := by
      have h4 : isLit (Dbl.ofInt 0 : XNum Rat) (.var ['x']) = false := rfl
      have h5 : isLit (Dbl.ofInt 1 : XNum Rat) (.var ['x']) = false := rfl
      simp only [chain, dE, if_true, simpE, Res.bind_ok]
      simp [simpTop, o1, o0, h4, h5]
    rw [simpE, h2, Res.bind_ok, h3, Res.bind_ok]
    rfl
  | succ k ih =>
    rw [hd (k + 1)]
    have h2 := simpE_one_chain cfg (k + 1)
    have h3 : simpE cfg (.bin .mul (.var ['x']) (dE ['x'] (chain (k + 1)))) = .ok (.bin .mul (.var ['x']) (chainDiff k)) := by
      rw [simpE, ih]
      cases k <;> rfl
    rw [simpE, h2, Res.bind_ok, h3, Res.bind_ok]
    rfl

theorem chain_size (k : Nat) : (chain k).size = 2 * k + 1 ∧ (chainDiff k).size = k ^ 2 + 5 * k + 3 := by
  have h1 : ∀ k, (chain k).size = 2 * k + 1 := by
    intro k
    induction k with
    | zero => rfl
    | succ k ih => simp only [chain, Expr.size, ih]; omega
  refine ⟨h1 k, ?_⟩
  induction k with
  | zero => rfl
  | succ k ih => simp only [chainDiff, Expr.size, h1, ih]; ring

/-- C93: the growth is quadratic already for products: there are arbitrarily large n and expressions with n nodes, the product
x * (x * (... * x)), whose derivative has at least n²/4 nodes -/
theorem C93_diff_attained (cfg : Config (XNum Rat)) (n : Nat) : ∃ e e' : Expr (XNum Rat), n ≤ e.size ∧
    diff cfg (embed e) ['x'] 1 = .ok (embed e') ∧ e.size ^ 2 ≤ 4 * e'.size := by
  refine ⟨chain (n + 1), chainDiff n, by rw [(chain_size _).1]; omega, ?_, ?_⟩
  · rw [diff_ok cfg ['x'] 1 (by decide) _ (chain_isNum _).2.1]
    show simplify cfg (embed (dE ['x'] (chain (n + 1)))) = _
    rw [simplify_embed, simpE_chainDiff]
    rfl
  · rw [(chain_size _).1, (chain_size _).2]
    have : (2 * (n + 1) + 1) ^ 2 + (8 * n + 3) = 4 * (n ^ 2 + 5 * n + 3) := by ring
    omega

/-! ### ToString -/

theorem un_text_length (o : UnOp) : o.text.length ≤ 5 := by cases o <;> decide

theorem infixText_length (N : Nat) (e : Expr α) (hn : ∀ v ∈ e.literals, (Dbl.toStr v).length ≤ N) (hv : ∀ x ∈ e.vars, x.length ≤ N) :
    ∀ ctx, (infixText ctx e).length ≤ (N + 7) * e.size := by
  induction e with
  | num v =>
    intro ctx
    have := hn v (by simp [Expr.literals])
    simp only [infixText, Expr.size]
    split <;> simp <;> omega
  | var x =>
    intro ctx
    have := hv x (by simp [Expr.vars])
    simp only [infixText, Expr.size]; omega
  | un o e ih =>
    intro ctx
    have h1 := ih hn hv none
    have h2 := un_text_length o
    simp only [infixText, Expr.size, Nat.mul_add]
    split <;> simp <;> omega
  | bin o a b iha ihb =>
    intro ctx
    have h1 := iha (fun v h => hn v (by simp [Expr.literals, h])) (fun v h => hv v (by simp [Expr.vars, h])) (some (o, false))
    have h2 := ihb (fun v h => hn v (by simp [Expr.literals, h])) (fun v h => hv v (by simp [Expr.vars, h])) (some (o, true))
    have key : (N + 7) * (a.size + b.size + 1) = (N + 7) * a.size + (N + 7) * b.size + N + 7 := by ring
    simp only [infixText, Expr.size, key]
    cases ctx with
    | none => simp; omega
    | some c =>
      simp only
      split <;> simp <;> omega

/-- C93, `ToString`: if the texts of the numbers and the names have at most N characters, the text of an expression of n nodes has
at most (N + 7) n characters -/
theorem C93_toString (N : Nat) (e : Expr α) (hn : ∀ v ∈ e.literals, (Dbl.toStr v).length ≤ N) (hv : ∀ x ∈ e.vars, x.length ≤ N) :
    ∃ s, toStringNode (embed e) = .ok s ∧ s.length ≤ (N + 7) * e.size :=
  ⟨_, C62_toString e, infixText_length N e hn hv none⟩

end Tom
