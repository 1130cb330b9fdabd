import Verif.Lemmas.DoubleSum
import Verif.Lemmas.MatInverse
import Mathlib.Data.Nat.Factorial.Basic
/-
Determinant and adjoint of integer matrices in doubles.
-/
namespace Tom

/-- entries without row `p` and column `q` -/
def minorA {β : Type} (p q : ℕ) (f : ℕ → ℕ → β) (i j : ℕ) : β := f (if i < p then i else i + 1) (if j < q then j else j + 1)

/-- the determinant of the leading block -/
def detZ (n : ℕ) (f : ℕ → ℕ → ℤ) : ℤ := (Matrix.of fun (i j : Fin n) => f i j).det

theorem detZ_succ (n : ℕ) (f : ℕ → ℕ → ℤ) :
    detZ (n + 1) f = ∑ j ∈ Finset.range (n + 1), (-1) ^ j * f 0 j * detZ n (minorA 0 j f) := by
  unfold detZ
  rw [Matrix.det_succ_row_zero, Finset.sum_range]
  apply Finset.sum_congr rfl
  intro j _
  simp only [Matrix.of_apply, Fin.val_zero]
  congr 2
  ext a b
  simp only [Matrix.submatrix_apply, Matrix.of_apply, minorA, Nat.not_lt_zero, if_false, Fin.val_succ]
  congr 1
  unfold Fin.succAbove
  simp only [Fin.lt_def, Fin.val_castSucc]
  split <;> simp

theorem minorA_lt {i p n : ℕ} (h : i < n - 1) : (if i < p then i else i + 1) < n := by split <;> omega

namespace Double
variable {L : Libm}

theorem int_add {x y : Double L} {a b : ℤ} (hx : x.Is a) (hy : y.Is b) (h : |a + b| ≤ 2 ^ 53) : (Arith.add x y).Is ((a + b : ℤ) : ℚ) := by
  have hd := isDouble_int (a + b) h
  push_cast at hd ⊢
  have := add_is hx hy (by rw [rnd_of_isDouble hd]; exact isDouble_lt hd)
  rwa [rnd_of_isDouble hd] at this

theorem int_sub {x y : Double L} {a b : ℤ} (hx : x.Is a) (hy : y.Is b) (h : |a - b| ≤ 2 ^ 53) : (Arith.sub x y).Is ((a - b : ℤ) : ℚ) := by
  have hd := isDouble_int (a - b) h
  push_cast at hd ⊢
  have := sub_is hx hy (by rw [rnd_of_isDouble hd]; exact isDouble_lt hd)
  rwa [rnd_of_isDouble hd] at this

theorem int_mul {x y : Double L} {a b : ℤ} (hx : x.Is a) (hy : y.Is b) (h : |a * b| ≤ 2 ^ 53) : (Arith.mul x y).Is ((a * b : ℤ) : ℚ) := by
  have hd := isDouble_int (a * b) h
  push_cast at hd ⊢
  have := mul_is hx hy (by rw [rnd_of_isDouble hd]; exact isDouble_lt hd)
  rwa [rnd_of_isDouble hd] at this

theorem int_neg {x : Double L} {a : ℤ} (hx : x.Is a) : (Arith.neg x).Is ((-a : ℤ) : ℚ) := by
  push_cast
  exact neg_is hx

theorem oneZ_is : (Arith.one : Double L).Is ((1 : ℤ) : ℚ) := is_ofInt (i := 1) (by norm_num)

/-- all entries are integers of absolute value at most `M` -/
def Ints (r c : ℕ) (M : ℕ) (f : ℕ → ℕ → Double L) (z : ℕ → ℕ → ℤ) : Prop :=
  ∀ i j, i < r → j < c → (f i j).Is (z i j) ∧ |z i j| ≤ M

theorem Ints.minor {r c M n p q : ℕ} {f : ℕ → ℕ → Double L} {z : ℕ → ℕ → ℤ} (h : Ints r c M f z) (hr : n ≤ r) (hc : n ≤ c) :
    Ints (n - 1) (n - 1) M (minorA p q f) (minorA p q z) := fun i j hi hj =>
  h _ _ (lt_of_lt_of_le (minorA_lt hi) hr) (lt_of_lt_of_le (minorA_lt hj) hc)

theorem factorial_mono {a b M : ℕ} (hM : 0 < M) (h : a ≤ b) : a.factorial * M ^ a ≤ b.factorial * M ^ b :=
  Nat.mul_le_mul (Nat.factorial_le h) (Nat.pow_le_pow_right hM h)

theorem det_ints (M : ℕ) (hM : 0 < M) (n : ℕ) : ∀ (r c : ℕ) (f : ℕ → ℕ → Double L) (z : ℕ → ℕ → ℤ), 0 < n → n ≤ r → n ≤ c →
    Ints r c M f z → n.factorial * M ^ n ≤ 2 ^ 53 →
    ∃ x, det n (Mat.mk' r c f) = .ok x ∧ x.Is (detZ n z) ∧ |detZ n z| ≤ (n.factorial * M ^ n : ℕ) := by
  induction n using Nat.strong_induction_on with
  | _ n ih =>
    intro r c f z h0 hr hc hz hb
    have hbz : ((n.factorial * M ^ n : ℕ) : ℤ) ≤ 2 ^ 53 := by exact_mod_cast hb
    match n, ih with
    | 0, _ => omega
    | 1, _ =>
      obtain ⟨h1, h2⟩ := hz 0 0 (by omega) (by omega)
      refine ⟨f 0 0, ?_, ?_, ?_⟩
      · unfold det
        rw [value_mk' _ (by omega) (by omega)]
      · simpa [detZ] using h1
      · simpa [detZ] using h2
    | 2, _ =>
      obtain ⟨a1, a2⟩ := hz 0 0 (by omega) (by omega)
      obtain ⟨b1, b2⟩ := hz 0 1 (by omega) (by omega)
      obtain ⟨c1, c2⟩ := hz 1 0 (by omega) (by omega)
      obtain ⟨d1, d2⟩ := hz 1 1 (by omega) (by omega)
      have hM2 : (2 : ℤ) * (M * M) ≤ 2 ^ 53 := by simpa [Nat.factorial, pow_two] using hbz
      have m1 : |z 0 0 * z 1 1| ≤ (M * M : ℤ) := by rw [abs_mul]; exact mul_le_mul a2 d2 (abs_nonneg _) (by positivity)
      have m2 : |z 1 0 * z 0 1| ≤ (M * M : ℤ) := by rw [abs_mul]; exact mul_le_mul c2 b2 (abs_nonneg _) (by positivity)
      have hMM : (0 : ℤ) ≤ M * M := by positivity
      have m3 : |z 0 0 * z 1 1 - z 1 0 * z 0 1| ≤ 2 * (M * M : ℤ) := le_trans (abs_sub _ _) (by linarith)
      have e : detZ 2 z = z 0 0 * z 1 1 - z 1 0 * z 0 1 := by
        simp only [detZ, Matrix.det_fin_two, Matrix.of_apply, Fin.val_zero, Fin.val_one]
        rw [mul_comm (z 0 1)]
      refine ⟨Arith.sub (Arith.mul (f 0 0) (f 1 1)) (Arith.mul (f 1 0) (f 0 1)), ?_, ?_, ?_⟩
      · unfold det
        rw [value_mk' _ (by omega) (by omega), value_mk' _ (by omega) (by omega), value_mk' _ (by omega) (by omega),
          value_mk' _ (by omega) (by omega)]
        simp only [Res.bind_ok]
      · rw [e]
        exact int_sub (int_mul a1 d1 (by linarith)) (int_mul c1 b1 (by linarith)) (by linarith)
      · rw [e]; simpa [Nat.factorial, pow_two] using m3
    | n + 3, ih =>
      unfold det
      rw [new_mk' (by omega) (by omega)]
      simp only [Res.bind_ok]
      set P : ℕ := (n + 2).factorial * M ^ (n + 2) with hP
      have hbP : (n + 3).factorial * M ^ (n + 3) = (n + 3) * (M * P) := by
        rw [hP, Nat.factorial_succ, pow_succ]; ring
      have hPle : P ≤ 2 ^ 53 := le_trans (factorial_mono hM (by omega)) hb
      let t : ℕ → ℤ := fun j => (-1) ^ j * z 0 j * detZ (n + 2) (minorA 0 j z)
      have hstep : ∀ k, k < n + 3 → ∃ x, det (n + 2) (Mat.mk' (n + 2) (n + 2) (minorA 0 k f)) = .ok x ∧
          x.Is (detZ (n + 2) (minorA 0 k z)) ∧ |detZ (n + 2) (minorA 0 k z)| ≤ P := fun k _ =>
        ih (n + 2) (by omega) (n + 2) (n + 2) _ _ (by omega) le_rfl le_rfl (hz.minor hr hc) hPle
      have ht : ∀ k, k < n + 3 → |t k| ≤ (M * P : ℕ) := by
        intro k hk
        obtain ⟨-, -, -, hd⟩ := hstep k hk
        have hv := (hz 0 k (by omega) (by omega)).2
        simp only [t, abs_mul, abs_pow, abs_neg, abs_one, one_pow, one_mul]
        push_cast
        exact mul_le_mul hv hd (abs_nonneg _) (by positivity)
      have hsum : ∀ k, k ≤ n + 3 → |∑ j ∈ Finset.range k, t j| ≤ (k * (M * P) : ℕ) := by
        intro k hk
        refine le_trans (Finset.abs_sum_le_sum_abs _ _) ?_
        refine le_trans (Finset.sum_le_card_nsmul _ _ _ fun j hj => ht j (by have := Finset.mem_range.mp hj; omega)) ?_
        simp
      have hcap : ∀ k, k ≤ n + 3 → ((k * (M * P) : ℕ) : ℤ) ≤ 2 ^ 53 := by
        intro k hk
        have : k * (M * P) ≤ (n + 3) * (M * P) := Nat.mul_le_mul_right _ hk
        rw [← hbP] at this
        exact_mod_cast le_trans this hb
      obtain ⟨s', hs, -, hD, -⟩ := forRes_inv (n := n + 3)
        (s := ((Mat.mk' (n + 2) (n + 2) fun _ _ => Arith.zero : Mat (Double L)), (Arith.zero : Double L), (Arith.one : Double L)))
        (f := fun (s : Mat (Double L) × Double L × Double L) j => do
          let cof ← getCofactor (Mat.mk' r c f) s.1 0 j (n + 3)
          let dt ← det (n + 2) cof
          let v ← (Mat.mk' r c f).value 0 j
          .ok (cof, Arith.add s.2.1 (Arith.mul (Arith.mul s.2.2 v) dt), Arith.neg s.2.2))
        (P := fun k s => (∃ g, s.1 = Mat.mk' (n + 2) (n + 2) g) ∧ s.2.1.Is ((∑ j ∈ Finset.range k, t j : ℤ) : ℚ) ∧
          s.2.2.Is (((-1) ^ k : ℤ) : ℚ))
        ⟨⟨_, rfl⟩, by simpa using zero_is, by simpa using oneZ_is⟩ (by
          rintro k hk ⟨_, D, sg⟩ ⟨⟨g, rfl⟩, hD, hsg⟩
          simp only at hD hsg
          obtain ⟨x, hx1, hx2, hx3⟩ := hstep k hk
          obtain ⟨v1, v2⟩ := hz 0 k (by omega) (by omega)
          have e1 : getCofactor (Mat.mk' r c f) (Mat.mk' (n + 2) (n + 2) g) 0 k (n + 3) = .ok (Mat.mk' (n + 2) (n + 2) (minorA 0 k f)) :=
            getCofactor_mk' f g (n := n + 3) (by omega) hk hr hc
          have e2 : (Mat.mk' r c f).value 0 k = .ok (f 0 k) := value_mk' _ (by omega) (by omega)
          simp only [e1, Res.bind_ok, hx1, e2]
          refine ⟨_, rfl, ⟨_, rfl⟩, ?_, ?_⟩
          · have hMP : M ≤ 2 ^ 53 := by
              refine le_trans ?_ hb
              calc M = 1 * M ^ 1 := by simp
                _ ≤ _ := Nat.mul_le_mul (Nat.factorial_pos _) (Nat.pow_le_pow_right hM (by omega))
            have c1 := hcap 1 (by omega)
            rw [one_mul] at c1
            have hsv := int_mul hsg v1 (by
              rw [abs_mul, abs_pow, abs_neg, abs_one, one_pow, one_mul]
              exact le_trans v2 (by exact_mod_cast hMP))
            have htk := int_mul hsv hx2 (le_trans (ht k hk) c1)
            have := int_add hD htk (by
              have h1 := hsum (k + 1) (by omega)
              rw [Finset.sum_range_succ] at h1
              exact le_trans h1 (hcap (k + 1) (by omega)))
            rw [Finset.sum_range_succ]
            exact this
          · have := int_neg hsg
            rw [pow_succ, mul_neg_one]
            exact this)
      rw [hs]
      simp only [Res.bind_ok]
      refine ⟨_, rfl, ?_, ?_⟩
      · rw [detZ_succ]; exact hD
      · rw [detZ_succ, hbP]; exact hsum (n + 3) le_rfl

end Double

/-- the adjoint, whatever the numbers -/
theorem adjoint_mk' {α : Type} [Arith α] {n : ℕ} (hn : 1 < n) (f g d : ℕ → ℕ → α)
    (hd : ∀ i j, i < n → j < n → det (n - 1) (Mat.mk' (n - 1) (n - 1) (minorA i j f)) = .ok (d i j)) :
    adjoint (Mat.mk' n n f) (Mat.mk' n n g) = .ok (Mat.mk' n n fun a b => if (b + a) % 2 ≠ 0 then Arith.neg (d b a) else d b a) := by
  set v : ℕ → ℕ → α := fun a b => if (b + a) % 2 ≠ 0 then Arith.neg (d b a) else d b a with hv
  unfold adjoint
  have e0 : (Mat.mk' n n f).rows = n := rfl
  have e1 : (Mat.mk' n n f).cols = n := rfl
  rw [e0, e1, if_neg (by omega), new_mk' (by omega) (by omega)]
  simp only [Res.bind_ok]
  obtain ⟨⟨c', m'⟩, h1, _, g', hm, hg⟩ := forRes_inv (n := n)
    (s := ((Mat.mk' (n - 1) (n - 1) fun _ _ => Arith.zero : Mat α), Mat.mk' n n g))
    (f := fun (s : Mat α × Mat α) i =>
        forRes (fun (s : Mat α × Mat α) j => do
            let cof ← getCofactor (Mat.mk' n n f) s.1 i j n
            let dt ← det (n - 1) cof
            let dt := if (i + j) % 2 ≠ 0 then Arith.neg dt else dt
            let adj ← s.2.setValue j i dt
            .ok (cof, adj))
          (List.range n) s)
    (P := fun i s => (∃ c, s.1 = Mat.mk' (n - 1) (n - 1) c) ∧ ∃ g, s.2 = Mat.mk' n n g ∧ ∀ a b, a < n → b < i → g a b = v a b)
    ⟨⟨_, rfl⟩, g, rfl, by intro a b _ h; omega⟩ (by
      rintro i hi ⟨_, _⟩ ⟨⟨c, rfl⟩, g, rfl, hg⟩
      obtain ⟨⟨c', m'⟩, h1, hc', g', hm, hg1, hg2⟩ := forRes_inv (n := n) (s := (Mat.mk' (n - 1) (n - 1) c, Mat.mk' n n g))
        (f := fun (s : Mat α × Mat α) j => do
            let cof ← getCofactor (Mat.mk' n n f) s.1 i j n
            let dt ← det (n - 1) cof
            let dt := if (i + j) % 2 ≠ 0 then Arith.neg dt else dt
            let adj ← s.2.setValue j i dt
            .ok (cof, adj))
        (P := fun j s => (∃ c, s.1 = Mat.mk' (n - 1) (n - 1) c) ∧ ∃ g, s.2 = Mat.mk' n n g ∧
          (∀ a b, a < n → b < i → g a b = v a b) ∧ ∀ a, a < j → g a i = v a i)
        ⟨⟨c, rfl⟩, g, rfl, hg, by intro a h; omega⟩ (by
          rintro j hj ⟨_, _⟩ ⟨⟨c, rfl⟩, g, rfl, hg1, hg2⟩
          have e1 : getCofactor (Mat.mk' n n f) (Mat.mk' (n - 1) (n - 1) c) i j n = .ok (Mat.mk' (n - 1) (n - 1) (minorA i j f)) :=
            getCofactor_mk' f c (n := n) hi hj le_rfl le_rfl
          simp only [e1, Res.bind_ok, hd i j hi hj]
          rw [setValue_mk' _ _ hj hi]
          refine ⟨_, rfl, ⟨_, rfl⟩, _, rfl, ?_, ?_⟩
          · intro a b ha hb
            rw [if_neg (by omega)]; exact hg1 a b ha hb
          · intro a ha
            by_cases haj : a = j
            · subst haj; simp [hv]
            · rw [if_neg (by omega)]; exact hg2 a (by omega))
      refine ⟨_, h1, hc', g', hm, ?_⟩
      intro a b ha hb
      by_cases hbi : b = i
      · subst hbi; exact hg2 a ha
      · exact hg1 a b ha (by omega))
  rw [h1]
  simp only [Res.bind_ok]
  simp only at hm
  rw [hm]
  congr 1
  exact Mat.mk'_congr (fun a b ha hb => hg a b ha hb)

end Tom
