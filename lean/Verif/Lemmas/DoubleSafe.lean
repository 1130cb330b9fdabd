import Verif.Lemmas.DoubleBack
import Verif.Spec.Safety
/-
`SolveLinear` with doubles on any system, singular or not, whose numbers have room for the growth of elimination: no NaN arises, so every
index it uses exists.
-/
namespace Tom
namespace Double
variable {L : Libm}

/-- rows `y` and below are finite and bounded by `W` -/
def Bounded (r c y : ℕ) (W : ℚ) (f : ℕ → ℕ → Double L) (b : ℕ → Double L) : Prop :=
  ∀ i, y ≤ i → i < r → (∀ j, j < c → (f i j).Finite ∧ |(f i j).rat| ≤ W) ∧ (b i).Finite ∧ |(b i).rat| ≤ W

theorem Bounded.perm {r c y : ℕ} {W : ℚ} {f : ℕ → ℕ → Double L} {b : ℕ → Double L} (h : Bounded r c y W f b) {σ : Equiv.Perm ℕ}
    (hσ : RowPerm r y σ) : Bounded r c y W (fun i j => f (σ i) j) fun i => b (σ i) :=
  fun i h1 h2 => h (σ i) ((hσ.mem i).mpr ⟨h1, h2⟩).1 ((hσ.mem i).mpr ⟨h1, h2⟩).2

theorem findPivot_safe {r c : ℕ} {eps : Double L} {ε : ℚ} (he : eps.Is ε) {y : ℕ} (hy : y < r) :
    ∀ fuel x (f : ℕ → ℕ → Double L) (b : ℕ → Double L), x < c → c < fuel + x →
    (∀ k, y ≤ k → k < r → ∀ j, j < c → (f k j).Finite) → (∀ k, y ≤ k → k < r → |(f k x).rat| ≤ |(f y x).rat|) →
    ∃ σ x', RowPerm r y σ ∧ findPivot eps fuel (Mat.mk' r c f) (Mat.mk' r 1 fun i _ => b i) y x
      = .ok (Mat.mk' r c fun i j => f (σ i) j, Mat.mk' r 1 fun i _ => b (σ i), x') ∧ x ≤ x' ∧ x' ≤ c ∧
      (x' < c → ε ≤ |(f (σ y) x').rat| ∧ ∀ k, y ≤ k → k < r → |(f (σ k) x').rat| ≤ |(f (σ y) x').rat|) := by
  intro fuel
  induction fuel with
  | zero => intro x f b h1 h2; omega
  | succ fuel ih =>
    intro x f b hx hfuel hfin hmax
    unfold findPivot
    rw [value_mk' _ hy hx, Res.bind_ok, lt_is (abs_is (hfin y le_rfl hy x hx).is) he]
    by_cases hlt : |(f y x).rat| < ε
    · rw [if_pos (by simpa using hlt)]
      have e : (Mat.mk' r c f).cols = c := rfl
      by_cases hc : x + 1 = c
      · rw [e, if_pos hc]
        exact ⟨Equiv.refl ℕ, x + 1, .refl r y, rfl, by omega, by omega, by omega⟩
      · rw [e, if_neg hc]
        obtain ⟨σ, h1, h2, h3⟩ := bringPivot_double f hy (by omega : x + 1 < c) fun k a b => hfin k a b _ (by omega)
        rw [h2 b, Res.bind_ok]
        simp only
        have mem : ∀ k, y ≤ k → k < r → y ≤ σ k ∧ σ k < r := fun k a b => (h1.mem k).mpr ⟨a, b⟩
        obtain ⟨τ, x', g1, g2, g3, g4, g5⟩ := ih (x + 1) (fun i j => f (σ i) j) (fun i => b (σ i)) (by omega) (by omega)
          (fun k a b j hj => hfin (σ k) (mem k a b).1 (mem k a b).2 j hj) (fun k a b => h3 (σ k) (mem k a b).1 (mem k a b).2)
        exact ⟨τ.trans σ, x', h1.trans g1, g2, by omega, g4, g5⟩
    · rw [if_neg (by simpa using hlt)]
      exact ⟨Equiv.refl ℕ, x, .refl r y, rfl, le_rfl, hx.le, fun _ => ⟨not_lt.mp hlt, hmax⟩⟩

/-- one elimination step keeps the rows below finite -/
theorem elim_safe {r c : ℕ} {eps : Double L} {ε W : ℚ} (hε : 0 < ε) (hε1 : ε ≤ 1) (hW : 1 ≤ W) (hover : W ≤ ε * 2 ^ 998) {y x : ℕ} (hy : y < r) (hx : x < c)
    {f : ℕ → ℕ → Double L} {b : ℕ → Double L} (h : Bounded r c y W f b) (hp : ε ≤ |(f y x).rat|)
    (hmax : ∀ k, y ≤ k → k < r → |(f k x).rat| ≤ |(f y x).rat|) :
    Bounded r c (y + 1) ((2 + 8 * unitRound) * W) (elimD eps r f y x) (elimBD eps r f y x b) := by
  have hu := u_nonneg
  have hW0 : 0 ≤ W := by linarith
  have pf := ((h y le_rfl hy).1 x hx)
  have grow : W ≤ (2 + 8 * unitRound) * W := by nlinarith
  have h998 : W ≤ 2 ^ 998 := hover.trans (mul_le_of_le_one_left (by positivity) hε1)
  have hunder : 1 / 2 ^ 1022 ≤ unitRound * W := by
    refine le_trans ?_ (mul_le_mul_of_nonneg_left hW hu)
    unfold unitRound
    rw [mul_one]
    exact one_div_le_one_div_of_le (by positivity) (pow_le_pow_right₀ (by norm_num) (by norm_num))
  -- one entry `w` of row `i` and the entry `v` above it in the pivot row
  have key : ∀ i, y < i → i < r → ∀ v w : Double L, v.Finite → |v.rat| ≤ W → w.Finite → |w.rat| ≤ W →
      (Arith.sub w (Arith.mul (Arith.div v (f y x)) (f i x))).Finite ∧
      |(Arith.sub w (Arith.mul (Arith.div v (f y x)) (f i x))).rat| ≤ (2 + 8 * unitRound) * W := by
    intro i hi hir v w hv hvW hw hwW
    have d := div_step hv pf.1 hε hp hvW (hover.trans (mul_le_mul_of_nonneg_left (pow_le_pow_right₀ (by norm_num) (by norm_num)) hε.le))
      ((mul_le_of_le_one_right (abs_nonneg _) (by rw [div_le_one (by positivity)]; exact one_le_pow₀ (by norm_num))).trans pf.2)
    have hrow : |(f y x).rat * (Arith.div v (f y x)).rat| ≤ (1 + 2 * unitRound) * W := by
      have h2 := abs_sub_abs_le_abs_sub ((f y x).rat * (Arith.div v (f y x)).rat) v.rat
      have := d.2
      linarith
    have s := sub_step hw d.1 ((h i hi.le hir).1 x hx).1 hwW (by
      refine le_trans ?_ hrow
      rw [abs_mul, abs_mul]
      exact mul_le_mul_of_nonneg_right (hmax i hi.le hir) (abs_nonneg _)) h998 hunder
    exact ⟨s.1, s.2.2⟩
  intro i hi hir
  have hi' : y < i := by omega
  have hb := h i hi'.le hir
  have hby := h y le_rfl hy
  refine ⟨fun j hj => ?_, ?_⟩
  · unfold elimD
    rw [if_neg (by omega)]
    split
    · exact key i hi' hir _ _ (hby.1 j hj).1 (hby.1 j hj).2 (hb.1 j hj).1 (hb.1 j hj).2
    · exact ⟨(hb.1 j hj).1, (hb.1 j hj).2.trans grow⟩
  · unfold elimBD
    rw [if_neg (by omega)]
    split
    · exact key i hi' hir _ _ hby.2.1 hby.2.2 hb.2.1 hb.2.2
    · exact ⟨hb.2.1, hb.2.2.trans grow⟩

/-- the elimination loop ends, or reports a singular matrix -/
theorem elimLoop_safe {r c : ℕ} (hc : 0 < c) {eps : Double L} {ε M : ℚ} (he : eps.Is ε) (hε : 0 < ε) (hε1 : ε ≤ 1) (hM : 1 ≤ M)
    (hover : stepGrowth ^ r * M ≤ ε * 2 ^ 998) : ∀ (fuel y x : ℕ) (f : ℕ → ℕ → Double L) (b : ℕ → Double L) (trn : List ℕ) (ra rb : ℕ),
    r < y + fuel → y ≤ r → x ≤ c → trn.length = c → (∀ t ∈ trn, t < c) → Bounded r c y (stepGrowth ^ y * M) f b →
    (∃ (f' : ℕ → ℕ → Double L) (b' : ℕ → Double L) (trn' : List ℕ) (ra' rb' : ℕ), elimLoop eps fuel ⟨Mat.mk' r c f, Mat.mk' r 1 fun i _ => b i, trn, ra, rb⟩ y x
        = .ok ⟨Mat.mk' r c f', Mat.mk' r 1 fun i _ => b' i, trn', ra', rb'⟩ ∧ trn'.length = c ∧ ∀ t ∈ trn', t < c) ∨
    elimLoop eps fuel ⟨Mat.mk' r c f, Mat.mk' r 1 fun i _ => b i, trn, ra, rb⟩ y x = .throw (.math .singularMatrix) := by
  intro fuel
  induction fuel with
  | zero => intro y x f b trn ra rb h1 h2; omega
  | succ fuel ih =>
    intro y x f b trn ra rb hf hyr hxc hl ht hB
    unfold elimLoop
    simp only [Mat.mk'_rows, Mat.mk'_cols]
    by_cases hyx : y < r ∧ x < c
    swap
    · rw [if_neg hyx]
      exact .inl ⟨f, b, trn, ra, rb, rfl, hl, ht⟩
    rw [if_pos hyx]
    obtain ⟨hy, hx⟩ := hyx
    obtain ⟨σ, h1, h2, h3⟩ := bringPivot_double f hy hx fun k a b => ((hB k a b).1 x hx).1
    rw [h2 b, Res.bind_ok]
    simp only
    have hB1 := hB.perm h1
    have mem : ∀ k, y ≤ k → k < r → y ≤ σ k ∧ σ k < r := fun k a b => (h1.mem k).mpr ⟨a, b⟩
    obtain ⟨τ, x', g1, g2, g3, g4, g5⟩ := findPivot_safe he hy (c + 1) x (fun i j => f (σ i) j) (fun i => b (σ i)) hx (by omega)
      (fun k a b j hj => ((hB1 k a b).1 j hj).1) (fun k a b => h3 (σ k) (mem k a b).1 (mem k a b).2)
    rw [g2, Res.bind_ok]
    simp only [Mat.mk'_cols]
    have hB2 := hB1.perm g1
    by_cases hxe : x' = c
    · rw [if_pos hxe, at_mk' _ hy, Res.bind_ok]
      generalize (if Arith.lt (Arith.abs (b (σ (τ y)))) eps = true then y else rb) = q
      by_cases hq : y = q
      · rw [if_neg (not_not.mpr hq)]
        exact .inl ⟨_, _, _, _, _, rfl, hl, ht⟩
      · rw [if_pos hq]
        exact .inr rfl
    · rw [if_neg hxe]
      have hx' : x' < c := by omega
      rw [eliminate_mk' _ _ _ hy hx', Res.bind_ok]
      simp only
      have hg : 1 ≤ stepGrowth := by unfold stepGrowth; have := u_nonneg; linarith
      have hp1 : 1 ≤ stepGrowth ^ y := one_le_pow₀ hg
      have hW : stepGrowth ^ y * M ≤ ε * 2 ^ 998 :=
        (mul_le_mul_of_nonneg_right (pow_le_pow_right₀ hg hy.le) (by linarith)).trans hover
      have hB3 := elim_safe (eps := eps) hε hε1 (by nlinarith) hW hy hx' hB2 (g5 hx').1 (g5 hx').2
      refine ih (y + 1) (x' + 1) _ _ _ ra rb (by omega) (by omega) (by omega) (by split <;> simp [hl]) ?_ ?_
      · intro t h
        split at h
        · rcases List.mem_or_eq_of_mem_set h with h | rfl
          · exact ht t h
          · exact hx'
        · exact ht t h
      · rw [pow_succ, mul_right_comm]
        rw [mul_comm] at hB3
        exact hB3

theorem placeRows_any {α : Type} [Arith α] {c : ℕ} (trn : List ℕ) (hl : trn.length = c) (ht : ∀ t ∈ trn, t < c) (f : ℕ → ℕ → α) (b : ℕ → α) :
    ∃ (f' : ℕ → ℕ → α) (b' : ℕ → α), placeRows trn (Mat.mk' c c f) (Mat.mk' c 1 fun i _ => b i) = .ok (Mat.mk' c c f', Mat.mk' c 1 fun i _ => b' i) := by
  unfold placeRows
  rw [Mat.mk'_rows]
  obtain ⟨s', h1, f', b', h2⟩ := forRes_reverse_inv (f := fun (s : Mat α × Mat α) i => do
      let t ← readAt trn i
      if t ≠ 0 then do
        let A ← s.1.swapRow i t
        let b ← s.2.swapRow i t
        .ok (A, b)
      else .ok s)
    (P := fun _ s => ∃ (f' : ℕ → ℕ → α) (b' : ℕ → α), s = ((Mat.mk' c c f', Mat.mk' c 1 fun i _ => b' i) : Mat α × Mat α)) c
    (Mat.mk' c c f, Mat.mk' c 1 fun i _ => b i) ⟨f, b, rfl⟩ (by
      rintro k hk s ⟨f', b', rfl⟩
      have hread : readAt trn k = .ok (trn[k]'(by omega)) := by
        unfold readAt
        rw [List.getElem?_eq_getElem (by omega)]
      simp only
      rw [hread, Res.bind_ok]
      split
      · have := ht _ (List.getElem_mem (by omega : k < trn.length))
        rw [swapRow_mk' _ hk this, Res.bind_ok, swapRow_mk' _ hk this, Res.bind_ok]
        exact ⟨_, rfl, _, _, rfl⟩
      · exact ⟨_, rfl, _, _, rfl⟩)
  exact ⟨f', b', h1.trans (by rw [h2])⟩

/-- a vector of `c` numbers, or an exception -/
def SolOut (c : ℕ) (R : Res (Mat (Double L))) : Prop :=
  (∃ w : ℕ → Double L, R = .ok (Mat.mk' c 1 fun i _ => w i)) ∨ ∃ e, R = .throw (.math e)

/-- `SolveLinear` on numbers that leave room for the elimination: it returns a vector of the right size, or throws -/
theorem solveLinear_safe (cfg : Config (Double L)) {r c : ℕ} (hr : 0 < r) (hc : 0 < c) {ε M : ℚ} (he : cfg.epsilon.Is ε) (hε : 0 < ε)
    (hε1 : ε ≤ 1) (hM : 1 ≤ M) (hover : stepGrowth ^ r * M ≤ ε * 2 ^ 998) {f : ℕ → ℕ → Double L} {b : ℕ → Double L}
    (hB : Bounded r c 0 M f b) :
    SolOut c (solveLinear cfg (Mat.mk' r c f) (Mat.mk' r 1 fun i _ => b i)) := by
  unfold solveLinear
  have e1 : (Mat.mk' r c f).rows = r := rfl
  have e2 : (Mat.mk' r c f).cols = c := rfl
  have e3 : (Mat.mk' r 1 fun i _ => b i).rows = r := rfl
  rw [e1, e2, e3, if_neg (by simp), new_mk' hr Nat.one_pos, Res.bind_ok]
  by_cases hrc : r > c
  · rw [if_pos hrc]
    exact .inr ⟨_, rfl⟩
  rw [if_neg hrc]
  have hret : ∃ z : ℕ → Double L, (if c ≠ r then (Mat.mk' r 1 fun _ _ => (Arith.zero : Double L)).resize c 1 else .ok (Mat.mk' r 1 fun _ _ => (Arith.zero : Double L)))
      = .ok (Mat.mk' c 1 fun i _ => z i) := by
    by_cases h : c = r
    · subst h
      exact ⟨fun _ => Arith.zero, by simp⟩
    · rw [if_pos h, resize_mk' _ hc Nat.one_pos]
      refine ⟨fun _ => Arith.zero, ?_⟩
      congr 1
      apply Mat.mk'_congr
      intro i j _ _
      split <;> rfl
  obtain ⟨z, hz⟩ := hret
  rw [hz, Res.bind_ok]
  rcases elimLoop_safe hc he hε hε1 hM hover (r + 1) 0 0 f b (List.replicate c 0) r r (by omega) (by omega) (by omega) (by simp)
    (fun t ht => by rw [List.eq_of_mem_replicate ht]; exact hc) (by simpa using hB) with ⟨f', b', trn', ra, rb, h1, h2, h3⟩ | h1
  swap
  · rw [h1]
    exact .inr ⟨_, rfl⟩
  rw [h1, Res.bind_ok]
  simp only
  by_cases hne : r = c
  · subst hne
    rw [if_neg (by simp)]
    obtain ⟨w, hw, _⟩ := backSubst_double f' b' z
    rw [hw, Res.bind_ok]
    split
    · exact .inr ⟨_, rfl⟩
    · exact .inl ⟨w, rfl⟩
  · rw [if_pos hne, resize_mk' _ hc hc, Res.bind_ok]
    have hb' : ∃ b'' : ℕ → Double L, (Mat.mk' r 1 fun i _ => b' i).resize c 1 = .ok (Mat.mk' c 1 fun i _ => b'' i) := by
      refine ⟨fun i => if i < r then b' i else Arith.zero, (resize_mk' _ hc Nat.one_pos).trans ?_⟩
      congr 1
      apply Mat.mk'_congr
      intro i j hi hj
      simp [hj]
    obtain ⟨b'', hb''⟩ := hb'
    rw [hb'', Res.bind_ok]
    obtain ⟨f3, b3, h4⟩ := placeRows_any trn' h2 h3 (fun i j => if i < r ∧ j < c then f' i j else Arith.zero) b''
    rw [h4, Res.bind_ok]
    simp only
    obtain ⟨w, hw, _⟩ := backSubst_double f3 b3 z
    rw [hw, Res.bind_ok]
    split
    · split
      · exact .inl ⟨w, rfl⟩
      · exact .inr ⟨_, rfl⟩
    · exact .inl ⟨w, rfl⟩

end Double
end Tom
