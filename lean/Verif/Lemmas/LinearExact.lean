import Verif.Lemmas.LinearElim
/-
For a given system and a sufficiently small `epsilon` the elimination loop ignores nothing.
-/
set_option linter.unusedSectionVars false
set_option linter.unusedSimpArgs false
namespace Tom
open Finset
variable {α K : Type} [Arith α] [Field K] [LinearOrder K] [IsStrictOrderedRing K] [Exact α K]

theorem exists_small (r : ℕ) (u : ℕ → K) : ∃ e : K, 0 < e ∧ ∀ i, i < r → u i ≠ 0 → e ≤ |u i| := by
  induction r with
  | zero => exact ⟨1, one_pos, fun i h => by omega⟩
  | succ r ih =>
    obtain ⟨e, h1, h2⟩ := ih
    by_cases h : u r = 0
    · refine ⟨e, h1, fun i hi h0 => ?_⟩
      rcases Nat.lt_succ_iff_lt_or_eq.mp hi with h3 | rfl
      · exact h2 i h3 h0
      · exact absurd h h0
    · refine ⟨min e |u r|, lt_min h1 (abs_pos.mpr h), fun i hi h0 => ?_⟩
      rcases Nat.lt_succ_iff_lt_or_eq.mp hi with h3 | rfl
      · exact (min_le_left _ _).trans (h2 i h3 h0)
      · exact min_le_right _ _

theorem findPivot_exact {r c : ℕ} {y : ℕ} (hy : y < r) : ∀ (fuel x : ℕ) (f : ℕ → ℕ → K), x < c → c < fuel + x →
    (∀ k, y ≤ k → k < r → |f k x| ≤ |f y x|) →
    ∃ e σ x', 0 < e ∧ RowPerm r y σ ∧ (∀ eps, 0 < eps → eps ≤ e → ∀ b : ℕ → K, findPivot (fin eps) fuel (finMat α r c f) (finVec α r b) y x
      = .ok (finMat α r c fun i j => f (σ i) j, finVec α r fun i => b (σ i), x')) ∧ x ≤ x' ∧ x' ≤ c ∧
      (∀ i j, y ≤ i → i < r → x ≤ j → j < x' → f i j = 0) ∧
      (x' < c → f (σ y) x' ≠ 0) := by
  intro fuel
  induction fuel with
  | zero => intro x f h1 h2; omega
  | succ fuel ih =>
    intro x f hx hfuel hmax
    have hv : (finMat α r c f).value y x = .ok (fin (f y x)) := value_mk' _ hy hx
    have e : (finMat α r c f).cols = c := rfl
    by_cases h0 : f y x = 0
    · have hcol : ∀ i, y ≤ i → i < r → f i x = 0 := fun i h1 h2 => by
        have := hmax i h1 h2
        rw [h0, abs_zero] at this
        exact abs_nonpos_iff.mp this
      by_cases hc : x + 1 = c
      · refine ⟨1, Equiv.refl ℕ, x + 1, one_pos, .refl r y, ?_, by omega, by omega, ?_, by omega⟩
        · intro eps h1 h2 b
          unfold findPivot
          rw [hv, Res.bind_ok, Exact.abs, Exact.lt, h0, abs_zero, if_pos (by simpa using h1), e, if_pos hc]
          rfl
        · intro i j h1 h2 h3 h4
          have : j = x := by omega
          subst this
          exact hcol i h1 h2
      · obtain ⟨σ, h1, h2, h3⟩ := bringPivot_fin (α := α) f hy (by omega : x + 1 < c)
        have hmax' : ∀ k, y ≤ k → k < r → |f (σ k) (x + 1)| ≤ |f (σ y) (x + 1)| := fun k a b =>
          h3 (σ k) ((h1.mem k).mpr ⟨a, b⟩).1 ((h1.mem k).mpr ⟨a, b⟩).2
        obtain ⟨e', τ, x', g0, g1, g2, g3, g4, g5, g6⟩ := ih (x + 1) (fun i j => f (σ i) j) (by omega) (by omega) hmax'
        refine ⟨e', τ.trans σ, x', g0, h1.trans g1, ?_, by omega, g4, ?_, g6⟩
        · intro eps k1 k2 b
          unfold findPivot
          rw [hv, Res.bind_ok, Exact.abs, Exact.lt, h0, abs_zero, if_pos (by simpa using k1), e, if_neg hc, h2, Res.bind_ok]
          exact g2 eps k1 k2 _
        · intro i j a1 a2 a3 a4
          rcases Nat.eq_or_lt_of_le a3 with rfl | a3
          · exact hcol i a1 a2
          · have hp := (h1.mem (σ.symm i)).mp (by simpa using ⟨a1, a2⟩)
            have := g5 (σ.symm i) j hp.1 hp.2 a3 a4
            simpa using this
    · refine ⟨|f y x|, Equiv.refl ℕ, x, abs_pos.mpr h0, .refl r y, ?_, le_rfl, hx.le, fun i j _ _ h1 h2 => by omega, fun _ => h0⟩
      intro eps k1 k2 b
      unfold findPivot
      rw [hv, Res.bind_ok, Exact.abs, Exact.lt, if_neg (by simpa using k2)]
      rfl

theorem elimLoop_exact {r c : ℕ} : ∀ (fuel y x : ℕ) (f : ℕ → ℕ → K), r < y + fuel → y ≤ r → x ≤ c → y ≤ x →
    ∃ e : K, 0 < e ∧ ∀ eps, 0 < eps → eps ≤ e → ∃ f' T ρ p, Run eps r c y x f f' T ρ p (fun _ _ => 0) ∧
      ∀ (b : ℕ → K) (t : ℕ → ℕ), ((∃ ra, elimLoop (fin eps) fuel ⟨finMat α r c f, finVec α r b, (List.range c).map t, r, r⟩ y x
          = .ok ⟨finMat α r c f', finVec α r (T b), (List.range c).map fun i => if y ≤ i ∧ i < ρ ∧ i < p i then p i else t i, ra, ra⟩ ∧
          ((ra = r) ∨ (ra = ρ ∧ ρ < r ∧ |T b ρ| < eps))) ∨
        (elimLoop (fin eps) fuel ⟨finMat α r c f, finVec α r b, (List.range c).map t, r, r⟩ y x = .throw (.math .singularMatrix) ∧
          ρ < r ∧ eps ≤ |T b ρ|)) := by
  intro fuel
  induction fuel with
  | zero => intro y x f h1 h2; omega
  | succ fuel ih =>
    intro y x f hfuel hy hx hyx
    have er : (finMat α r c f).rows = r := rfl
    have ec : (finMat α r c f).cols = c := rfl
    by_cases hcond : y < r ∧ x < c
    · obtain ⟨hyr, hxc⟩ := hcond
      obtain ⟨σ1, h1, h2, h3⟩ := bringPivot_fin (α := α) f hyr hxc
      have hmax' : ∀ k, y ≤ k → k < r → |f (σ1 k) x| ≤ |f (σ1 y) x| := fun k a b =>
        h3 (σ1 k) ((h1.mem k).mpr ⟨a, b⟩).1 ((h1.mem k).mpr ⟨a, b⟩).2
      obtain ⟨e1, σ2, x', g0, g1, g2, g3, g4, g5, g6⟩ := findPivot_exact (α := α) hyr (c + 1) x (fun i j => f (σ1 i) j) hxc (by omega) hmax'
      set σ := σ2.trans σ1 with hσ
      have hperm : RowPerm r y σ := h1.trans g1
      have g5' : ∀ i j, y ≤ i → i < r → x ≤ j → j < x' → f i j = 0 := by
        intro i j a1 a2 a3 a4
        have hp := (h1.mem (σ1.symm i)).mp (by simpa using ⟨a1, a2⟩)
        have := g5 (σ1.symm i) j hp.1 hp.2 a3 a4
        simpa using this
      have ec' : (finMat α r c fun i j => f (σ1 (σ2 i)) j).cols = c := rfl
      by_cases hxc' : x' = c
      · refine ⟨e1, g0, fun eps k1 k2 => ?_⟩
        have hsm : ∀ i j, y ≤ i → i < r → x ≤ j → j < c → |f i j| < eps := by
          intro i j a1 a2 a3 a4
          rw [g5' i j a1 a2 a3 (by omega), abs_zero]
          exact k1
        have hrun := Run.stop k1 f hyr hperm hsm
        have hE : (fun i j => if y ≤ i ∧ i < r ∧ x ≤ j ∧ j < c then f i j else 0) = fun _ _ => (0 : K) := by
          funext i j
          split
          · rename_i h
            exact g5' i j h.1 h.2.1 h.2.2.1 (by omega)
          · rfl
        rw [hE] at hrun
        refine ⟨_, _, _, _, hrun, fun b t => ?_⟩
        have hstep : elimLoop (fin eps) (fuel + 1) ⟨finMat α r c f, finVec α r b, (List.range c).map t, r, r⟩ y x =
            (if y ≠ (if Arith.lt (Arith.abs (fin (b (σ1 (σ2 y))) : α)) (fin eps) then y else r) then .throw (.math .singularMatrix)
             else .ok ⟨finMat α r c fun i j => f (σ1 (σ2 i)) j, finVec α r fun i => b (σ1 (σ2 i)), (List.range c).map t, y,
              (if Arith.lt (Arith.abs (fin (b (σ1 (σ2 y))) : α)) (fin eps) then y else r)⟩) := by
          rw [elimLoop]
          simp only [er, ec]
          rw [if_pos ⟨hyr, hxc⟩, h2, Res.bind_ok]
          simp only
          rw [g2 eps k1 k2 _, Res.bind_ok]
          simp only
          rw [ec', if_pos hxc']
          have hb : (finVec α r fun i => b (σ1 (σ2 i))).at_ y = .ok (fin (b (σ1 (σ2 y)))) := at_mk' _ hyr
          rw [hb, Res.bind_ok]
        rw [hstep, Exact.abs, Exact.lt]
        by_cases hbs : |b (σ y)| < eps
        · left
          refine ⟨y, ?_, .inr ⟨rfl, hyr, hbs⟩⟩
          have hbs' : |b (σ1 (σ2 y))| < eps := hbs
          simp only [hbs', decide_true, if_true, ne_eq, not_true_eq_false, if_false]
          congr 2
          apply List.map_congr_left
          intro i hi
          rw [if_neg (by omega)]
        · right
          have hbs' : ¬ |b (σ1 (σ2 y))| < eps := hbs
          simp only [hbs', decide_false]
          refine ⟨?_, hyr, not_lt.mp hbs⟩
          rw [if_neg Bool.false_ne_true, if_pos (Nat.ne_of_lt hyr)]
      · have hx'c : x' < c := by omega
        have hpiv : f (σ y) x' ≠ 0 := g6 hx'c
        obtain ⟨e2, q1, q2⟩ := exists_small r fun i => f (σ i) x'
        have hfac : ∀ eps, 0 < eps → eps ≤ e2 → ∀ i, i < r → factor eps (fun i j => f (σ i) j) x' i = f (σ i) x' := by
          intro eps k1 k2 i hi
          unfold factor
          split
          · rfl
          · rename_i h
            by_contra h0
            exact h (k2.trans (q2 i hi (Ne.symm h0)))
        have hF : ∀ eps, 0 < eps → eps ≤ e2 → elimF eps r (fun i j => f (σ i) j) y x' = elimF e2 r (fun i j => f (σ i) j) y x' := by
          intro eps k1 k2
          funext i j
          unfold elimF
          by_cases hi : i < r
          · rw [hfac eps k1 k2 i hi, hfac e2 q1 le_rfl i hi]
          · simp [hi]
        obtain ⟨e3, p1, p2⟩ := ih (y + 1) (x' + 1) (elimF e2 r (fun i j => f (σ i) j) y x')
          (by omega) (by omega) (by omega) (by omega)
        refine ⟨min e1 (min e2 e3), lt_min g0 (lt_min q1 p1), fun eps k1 k2 => ?_⟩
        have l1 : eps ≤ e1 := k2.trans (min_le_left _ _)
        have l2 : eps ≤ e2 := k2.trans ((min_le_right _ _).trans (min_le_left _ _))
        have l3 : eps ≤ e3 := k2.trans ((min_le_right _ _).trans (min_le_right _ _))
        obtain ⟨f', T, ρ, p, hrun, hout⟩ := p2 eps k1 l3
        rw [← hF eps k1 l2] at hrun hout
        have hsm : ∀ i j, y ≤ i → i < r → x ≤ j → j < x' → |f i j| < eps := by
          intro i j a1 a2 a3 a4
          rw [g5' i j a1 a2 a3 a4, abs_zero]
          exact k1
        obtain ⟨E', hrun', hz⟩ := Run.step k1 hyr hperm g3 hx'c hsm hpiv hrun
        have hE : E' = fun _ _ => 0 := by
          funext i j
          exact hz (fun _ _ => rfl) g5' (hfac eps k1 l2) i j
        rw [hE] at hrun'
        have := hrun.y_le
        refine ⟨_, _, _, _, hrun', fun b t => ?_⟩
        replace hout := hout (elimB eps r (fun i j => f (σ i) j) y x' fun i => b (σ i)) fun i => if i = y ∧ y < x' then x' else t i
        have hstep : elimLoop (fin eps) (fuel + 1) ⟨finMat α r c f, finVec α r b, (List.range c).map t, r, r⟩ y x =
            elimLoop (fin eps) fuel ⟨finMat α r c (elimF eps r (fun i j => f (σ i) j) y x'),
              finVec α r (elimB eps r (fun i j => f (σ i) j) y x' fun i => b (σ i)), (List.range c).map fun i => if i = y ∧ y < x' then x' else t i, r, r⟩
              (y + 1) (x' + 1) := by
          rw [elimLoop]
          simp only [er, ec]
          rw [if_pos ⟨hyr, hxc⟩, h2, Res.bind_ok]
          simp only
          rw [g2 eps k1 l1 _, Res.bind_ok]
          simp only
          rw [ec', if_neg hxc', eliminate_fin eps (fun i j => f (σ1 (σ2 i)) j) (fun i => b (σ1 (σ2 i))) hyr hx'c hpiv, Res.bind_ok]
          simp only
          have htrn : (if x' > y then ((List.range c).map t).set y x' else (List.range c).map t)
              = (List.range c).map fun i => if i = y ∧ y < x' then x' else t i := by
            split
            · rename_i h
              rw [set_range_map]
              apply List.map_congr_left
              intro i _
              simp [h]
            · rename_i h
              apply List.map_congr_left
              intro i _
              rw [if_neg (by omega)]
          rw [htrn]
          rfl
        rw [hstep]
        rcases hout with ⟨ra, ho1, ho2⟩ | ho
        · left
          refine ⟨ra, ho1.trans ?_, ho2⟩
          congr 2
          apply List.map_congr_left
          intro i _
          by_cases hi : i = y
          · subst hi
            rw [if_neg (by omega)]
            simp only [if_true, true_and, le_refl]
            split_ifs <;> first | rfl | (exfalso; omega)
          · rw [if_neg hi]
            split_ifs <;> first | rfl | (exfalso; omega)
        · right
          exact ho
    · refine ⟨1, one_pos, fun eps k1 k2 => ?_⟩
      refine ⟨f, _, _, _, Run.done k1 f hy (by omega), fun b t => .inl ⟨r, ?_, .inl rfl⟩⟩
      rw [elimLoop]
      simp only [er, ec]
      rw [if_neg hcond]
      congr 2
      apply List.map_congr_left
      intro i _
      rw [if_neg (by omega)]

end Tom
