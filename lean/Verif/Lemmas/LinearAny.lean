import Verif.Lemmas.LinearRun
/-
One elimination step of `SolveLinear` on arbitrary (not necessarily exact) numbers.
-/
set_option linter.unusedSectionVars false
set_option linter.unusedSimpArgs false
namespace Tom
variable {α : Type} [Arith α]

/-- the matrix after one elimination step, linear.cpp:92-109 -/
def elimD (eps : α) (r : ℕ) (f : ℕ → ℕ → α) (y x : ℕ) (i j : ℕ) : α :=
  if i = y ∧ x ≤ j then Arith.div (f y j) (f y x)
  else if y < i ∧ i < r ∧ x ≤ j ∧ Arith.le eps (Arith.abs (f i x)) = true then
    Arith.sub (f i j) (Arith.mul (Arith.div (f y j) (f y x)) (f i x))
  else f i j

/-- the right-hand side after one elimination step, linear.cpp:92-109 -/
def elimBD (eps : α) (r : ℕ) (f : ℕ → ℕ → α) (y x : ℕ) (b : ℕ → α) (i : ℕ) : α :=
  if i = y then Arith.div (b y) (f y x)
  else if y < i ∧ i < r ∧ Arith.le eps (Arith.abs (f i x)) = true then
    Arith.sub (b i) (Arith.mul (Arith.div (b y) (f y x)) (f i x))
  else b i

theorem eliminate_mk' {r c : ℕ} (eps : α) (f : ℕ → ℕ → α) (b : ℕ → α) {y x : ℕ} (hy : y < r) (hx : x < c) :
    eliminate eps (Mat.mk' r c f) (Mat.mk' r 1 fun i _ => b i) y x
      = .ok (Mat.mk' r c (elimD eps r f y x), Mat.mk' r 1 fun i _ => elimBD eps r f y x b i) := by
  unfold eliminate
  rw [value_mk' _ hy hx, Res.bind_ok, row_mk' _ hy, Res.bind_ok]
  have hmap : List.map (fun v => Arith.div v (f y x)) ((List.range (c - x)).map fun k => f y (x + k))
      = (List.range (c - x)).map fun k => Arith.div (f y (x + k)) (f y x) := by
    rw [List.map_map]; rfl
  simp only [hmap]
  rw [setRow_mk' _ (fun k => Arith.div (f y (x + k)) (f y x)) hy, Res.bind_ok, at_mk' _ hy, Res.bind_ok, setAt_mk' _ _ hy,
    Res.bind_ok, Mat.mk'_rows]
  -- the states of the loop: `n` rows have been processed
  let F : ℕ → ℕ → ℕ → α := fun n i j => if i < y + 1 + n then elimD eps r f y x i j else f i j
  let B : ℕ → ℕ → α := fun n i => if i < y + 1 + n then elimBD eps r f y x b i else b i
  have hA0 : (Mat.mk' r c fun i j => if i = y ∧ x ≤ j then Arith.div (f y (x + (j - x))) (f y x) else f i j) = Mat.mk' r c (F 0) := by
    apply Mat.mk'_congr
    intro i j hi hj
    simp only [F, elimD]
    by_cases h : i = y ∧ x ≤ j
    · rw [if_pos h, if_pos (by omega), if_pos h]
      congr 2
      omega
    · rw [if_neg h]
      split
      · rw [if_neg (by omega)]
      · rfl
  have hB0 : (Mat.mk' r 1 fun i _ => if i = y then Arith.div (b y) (f y x) else b i) = Mat.mk' r 1 fun i _ => B 0 i := by
    apply Mat.mk'_congr
    intro i j hi hj
    simp only [B, elimBD]
    by_cases h : i = y
    · rw [if_pos h, if_pos (by omega), if_pos h]
    · rw [if_neg h]
      split
      · rw [if_neg (by omega)]
      · rfl
  rw [hA0, hB0]
  have hfin : ((Mat.mk' r c (F (r - (y + 1))), Mat.mk' r 1 fun i _ => B (r - (y + 1)) i) : Mat α × Mat α)
      = (Mat.mk' r c (elimD eps r f y x), Mat.mk' r 1 fun i _ => elimBD eps r f y x b i) := by
    congr 1
    · apply Mat.mk'_congr; intro i j hi hj; simp only [F]; rw [if_pos (by omega)]
    · apply Mat.mk'_congr; intro i j hi hj; simp only [B]; rw [if_pos (by omega)]
  have hmapf : ∀ (g : Mat α × Mat α → ℕ → Res (Mat α × Mat α)) (l : List ℕ) s,
      forRes g (l.map (· + (y + 1))) s = forRes (fun s k => g s (k + (y + 1))) l s := by
    intro g l
    induction l with
    | nil => intro s; rfl
    | cons a l ih => intro s; simp only [List.map_cons, forRes]; cases g s (a + (y + 1)) <;> simp [ih]
  rw [← hfin, hmapf]
  refine forRes_range _ (r - (y + 1)) (fun n => (Mat.mk' r c (F n), Mat.mk' r 1 fun i _ => B n i)) ?_
  intro k hk
  have hkr : k + (y + 1) < r := by omega
  have v1 : (Mat.mk' r c (F k)).value (k + (y + 1)) x = .ok (f (k + (y + 1)) x) := by
    refine (value_mk' _ hkr hx).trans ?_
    simp only [F]
    rw [if_neg (by omega)]
  simp only
  rw [v1, Res.bind_ok]
  by_cases hle : Arith.le eps (Arith.abs (f (k + (y + 1)) x)) = true
  · rw [if_pos hle]
    have r1 : (Mat.mk' r c (F k)).row (k + (y + 1)) x = .ok ((List.range (c - x)).map fun j => f (k + (y + 1)) (x + j)) := by
      refine (row_mk' _ hkr).trans ?_
      simp only [F]
      congr 1
      apply List.map_congr_left
      intro j _
      rw [if_neg (by omega)]
    rw [r1, Res.bind_ok]
    have m1 : List.map (fun v => Arith.mul v (f (k + (y + 1)) x)) ((List.range (c - x)).map fun k => Arith.div (f y (x + k)) (f y x))
        = (List.range (c - x)).map fun j => Arith.mul (Arith.div (f y (x + j)) (f y x)) (f (k + (y + 1)) x) := by
      rw [List.map_map]; rfl
    rw [m1, zipV_range, Res.bind_ok]
    have s1 : (Mat.mk' r c (F k)).setRow (k + (y + 1)) x
        ((List.range (c - x)).map fun j => Arith.sub (f (k + (y + 1)) (x + j)) (Arith.mul (Arith.div (f y (x + j)) (f y x)) (f (k + (y + 1)) x)))
        = .ok (Mat.mk' r c (F (k + 1))) := by
      refine (setRow_mk' _ (fun j => Arith.sub (f (k + (y + 1)) (x + j)) (Arith.mul (Arith.div (f y (x + j)) (f y x)) (f (k + (y + 1)) x))) hkr).trans ?_
      congr 1
      apply Mat.mk'_congr
      intro i j hi hj
      simp only [F, elimD]
      by_cases h : i = k + (y + 1) ∧ x ≤ j
      · obtain ⟨rfl, hxj⟩ := h
        have ej : x + (j - x) = j := by omega
        rw [if_pos ⟨rfl, hxj⟩, ej, if_pos (by omega), if_neg (by omega), if_pos ⟨by omega, hkr, hxj, hle⟩]
      · rw [if_neg h]
        by_cases h2 : i = k + (y + 1)
        · subst h2
          rw [if_neg (by omega), if_pos (by omega), if_neg (by omega), if_neg (by intro h3; exact h ⟨rfl, h3.2.2.1⟩)]
        · by_cases h3 : i < y + 1 + k
          · have h4 : i < y + 1 + (k + 1) := by omega
            simp only [h3, h4, if_true]
          · have h4 : ¬ i < y + 1 + (k + 1) := by omega
            simp only [h3, h4, if_false]
    rw [s1, Res.bind_ok]
    have b1 : (Mat.mk' r 1 fun i _ => B k i).at_ (k + (y + 1)) = .ok (b (k + (y + 1))) := by
      refine (at_mk' _ hkr).trans ?_
      simp only [B]
      rw [if_neg (by omega)]
    have b2 : (Mat.mk' r 1 fun i _ => B k i).at_ y = .ok (Arith.div (b y) (f y x)) := by
      refine (at_mk' _ hy).trans ?_
      simp only [B, elimBD]
      rw [if_pos (by omega), if_pos trivial]
    rw [b1, Res.bind_ok, b2, Res.bind_ok]
    have s2 : (Mat.mk' r 1 fun i _ => B k i).setAt (k + (y + 1)) (Arith.sub (b (k + (y + 1))) (Arith.mul (Arith.div (b y) (f y x)) (f (k + (y + 1)) x)))
        = .ok (Mat.mk' r 1 fun i _ => B (k + 1) i) := by
      refine (setAt_mk' _ _ hkr).trans ?_
      congr 1
      apply Mat.mk'_congr
      intro i j hi hj
      simp only [B, elimBD]
      by_cases h : i = k + (y + 1)
      · subst h
        rw [if_pos rfl, if_pos (by omega), if_neg (by omega), if_pos ⟨by omega, hkr, hle⟩]
      · rw [if_neg h]
        by_cases h3 : i < y + 1 + k
        · have h4 : i < y + 1 + (k + 1) := by omega
          simp only [h3, h4, if_true]
        · have h4 : ¬ i < y + 1 + (k + 1) := by omega
          simp only [h3, h4, if_false]
    rw [s2, Res.bind_ok]
  · rw [if_neg hle]
    congr 2
    · apply Mat.mk'_congr
      intro i j hi hj
      simp only [F, elimD]
      by_cases h : i = k + (y + 1)
      · subst h
        rw [if_neg (by omega), if_pos (by omega), if_neg (by omega), if_neg (fun h => hle h.2.2.2)]
      · by_cases h3 : i < y + 1 + k
        · have h4 : i < y + 1 + (k + 1) := by omega
          simp only [h3, h4, if_true]
        · have h4 : ¬ i < y + 1 + (k + 1) := by omega
          simp only [h3, h4, if_false]
    · apply Mat.mk'_congr
      intro i j hi hj
      simp only [B, elimBD]
      by_cases h : i = k + (y + 1)
      · subst h
        rw [if_neg (by omega), if_pos (by omega), if_neg (by omega), if_neg (fun h => hle h.2.2)]
      · by_cases h3 : i < y + 1 + k
        · have h4 : i < y + 1 + (k + 1) := by omega
          simp only [h3, h4, if_true]
        · have h4 : ¬ i < y + 1 + (k + 1) := by omega
          simp only [h3, h4, if_false]

end Tom
