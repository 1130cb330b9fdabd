import Verif.Lemmas.SumOrder
import Verif.Spec.Underflow
import Verif.Props.Endless
/-
C43, C53: in an arithmetic that underflows, the line search ends.
-/
set_option linter.unusedSectionVars false
namespace Tom
variable {α : Type} [Dbl α]

theorem readAll_mem {β : Type} (d : List β) : ∀ (is : List ℕ) (vs : List β), readAll d is = .ok vs → ∀ v ∈ vs, v ∈ d := by
  intro is
  induction is with
  | nil => intro vs h v hv; simp only [readAll, Res.ok.injEq] at h; subst h; simp at hv
  | cons i is ih =>
    intro vs h v hv
    obtain ⟨w, h1, h⟩ := Res.bind_eq_ok.mp h
    obtain ⟨ws, h2, h⟩ := Res.bind_eq_ok.mp h
    rw [Res.ok.injEq] at h
    subst h
    rcases List.mem_cons.mp hv with rfl | hv
    · unfold readAt at h1
      split at h1
      · rename_i u hu
        rw [Res.ok.injEq] at h1
        subst h1
        exact List.mem_of_getElem? hu
      · cases h1
    · exact ih ws h2 v hv

theorem writeAt_mem {β : Type} {d d' : List β} {i : ℕ} {v : β} (h : writeAt d i v = .ok d') : ∀ w ∈ d', w ∈ d ∨ w = v := by
  unfold writeAt at h
  split at h
  · rw [Res.ok.injEq] at h
    subst h
    intro w hw
    exact List.mem_or_eq_of_mem_set hw
  · cases h

theorem writeAll_mem {β : Type} : ∀ (is : List ℕ) (vs d d' : List β), writeAll d is vs = .ok d' → ∀ w ∈ d', w ∈ d ∨ w ∈ vs := by
  intro is
  induction is with
  | nil =>
    intro vs d d' h w hw
    cases vs with
    | nil => simp only [writeAll, Res.ok.injEq] at h; subst h; exact .inl hw
    | cons => cases h
  | cons i is ih =>
    intro vs d d' h w hw
    cases vs with
    | nil => cases h
    | cons v vs =>
      obtain ⟨d1, h1, h⟩ := Res.bind_eq_ok.mp h
      rcases ih vs d1 d' h w hw with h2 | h2
      · rcases writeAt_mem h1 w h2 with h3 | h3
        · exact .inl h3
        · exact .inr (by simp [h3])
      · exact .inr (by simp [h2])

theorem forRes_keeps {σ ι : Type} {f : σ → ι → Res σ} {P : σ → Prop} (step : ∀ s i s', P s → f s i = .ok s' → P s') :
    ∀ (is : List ι) (s s' : σ), P s → forRes f is s = .ok s' → P s' := by
  intro is
  induction is with
  | nil => intro s s' h1 h2; simp only [forRes, Res.ok.injEq] at h2; subst h2; exact h1
  | cons i is ih =>
    intro s s' h1 h2
    obtain ⟨s1, h3, h4⟩ := Res.bind_eq_ok.mp h2
    exact ih s1 s' (step s i s1 h1 h3) h4

theorem new_all {P : α → Prop} {v : α} (hv : P v) {r c : ℕ} {m : Mat α} (h : Mat.new r c v = .ok m) : ∀ w ∈ m.data, P w := by
  unfold Mat.new at h
  split at h
  · rw [Res.ok.injEq] at h
    subst h
    intro w hw
    rw [List.eq_of_mem_replicate hw]
    exact hv
  · cases h

theorem transpose_all {P : α → Prop} (h0 : P Arith.zero) {m m' : Mat α} (hm : ∀ v ∈ m.data, P v) (h : m.transpose = .ok m') :
    ∀ v ∈ m'.data, P v := by
  obtain ⟨ans, h1, h⟩ := Res.bind_eq_ok.mp h
  refine forRes_keeps (P := fun a : Mat α => ∀ v ∈ a.data, P v) ?_ _ _ _ (new_all h0 h1) h
  intro a i a' ha h2
  obtain ⟨c, h3, h2⟩ := Res.bind_eq_ok.mp h2
  obtain ⟨d, h4, h2⟩ := Res.bind_eq_ok.mp h2
  rw [Res.ok.injEq] at h2
  subst h2
  intro v hv
  rcases writeAll_mem _ _ _ _ h4 v hv with h5 | h5
  · exact ha v h5
  · exact hm v (readAll_mem _ _ _ h3 v h5)

theorem sumV_all {P : α → Prop} (hadd : ∀ {a b}, P a → P b → P (Arith.add a b)) {l : List α} (hl : ∀ v ∈ l, P v) {s : α} (h : sumV l = .ok s) :
    P s := by
  replace h := sumV_addsUp h
  induction h with
  | one x => exact hl x (by simp)
  | add _ _ hp ihx ihy =>
    exact hadd (ihx fun v hv => hl v (hp.mem_iff.mpr (List.mem_append_left _ hv)))
      (ihy fun v hv => hl v (hp.mem_iff.mpr (List.mem_append_right _ hv)))

theorem mul_all {P Q R : α → Prop} (h0 : R Arith.zero) (hmul : ∀ {a b}, P a → Q b → R (Arith.mul a b))
    (hadd : ∀ {a b}, R a → R b → R (Arith.add a b)) {a b m : Mat α} (ha : ∀ v ∈ a.data, P v) (hb : ∀ v ∈ b.data, Q v)
    (h : a.mul b = .ok m) : ∀ v ∈ m.data, R v := by
  unfold Mat.mul at h
  split at h
  · obtain ⟨ans, h1, h⟩ := Res.bind_eq_ok.mp h
    refine forRes_keeps (P := fun a : Mat α => ∀ v ∈ a.data, R v) ?_ _ _ _ (new_all h0 h1) h
    intro s i s' hs h2
    refine forRes_keeps (P := fun a : Mat α => ∀ v ∈ a.data, R v) ?_ _ _ _ hs h2
    intro s j s' hs h2
    obtain ⟨r, h3, h2⟩ := Res.bind_eq_ok.mp h2
    obtain ⟨c, h4, h2⟩ := Res.bind_eq_ok.mp h2
    obtain ⟨p, h5, h2⟩ := Res.bind_eq_ok.mp h2
    obtain ⟨u, h6, h2⟩ := Res.bind_eq_ok.mp h2
    obtain ⟨d, h7, h2⟩ := Res.bind_eq_ok.mp h2
    rw [Res.ok.injEq] at h2
    subst h2
    have hp : ∀ v ∈ p, R v := by
      unfold zipV at h5
      split at h5
      · rw [Res.ok.injEq] at h5
        subst h5
        intro v hv
        obtain ⟨x, y, hx, hy, rfl⟩ := exists_mem_zipWith hv
        exact hmul (ha x (readAll_mem _ _ _ h3 x hx)) (hb y (readAll_mem _ _ _ h4 y hy))
      · cases h5
    intro v hv
    rcases writeAt_mem h7 v hv with h8 | rfl
    · exact hs v h8
    · exact sumV_all hadd hp h6
  · cases h
where
  exists_mem_zipWith {β γ δ : Type} {f : β → γ → δ} {v : δ} {l : List β} {l' : List γ} (h : v ∈ List.zipWith f l l') :
      ∃ x y, x ∈ l ∧ y ∈ l' ∧ v = f x y := by
    induction l generalizing l' with
    | nil => simp at h
    | cons a l ih =>
      cases l' with
      | nil => simp at h
      | cons b l' =>
        rw [List.zipWith_cons_cons, List.mem_cons] at h
        rcases h with rfl | h
        · exact ⟨a, b, by simp, by simp, rfl⟩
        · obtain ⟨x, y, h1, h2, h3⟩ := ih h
          exact ⟨x, y, by simp [h1], by simp [h2], h3⟩

namespace Underflows
variable {N : ℕ} (U : Underflows α N)

theorem add_all {x y m : Mat α} (hx : ∀ v ∈ x.data, U.plain v) (hy : ∀ v ∈ y.data, U.zero v) (h : x.add y = .ok m) : m = x := by
  unfold Mat.add at h
  split at h
  · obtain ⟨d, h1, h⟩ := Res.bind_eq_ok.mp h
    rw [Res.ok.injEq] at h
    subst h
    unfold zipV at h1
    split at h1
    · rename_i hl
      rw [Res.ok.injEq] at h1
      have : d = x.data := by
        rw [← h1]
        generalize x.data = l at hx hl
        generalize y.data = l' at hy hl
        clear h1
        induction l generalizing l' with
        | nil => simp
        | cons a l ih =>
          cases l' with
          | nil => simp at hl
          | cons b l' =>
            rw [List.zipWith_cons_cons, U.add_zero (hx a (by simp)) (hy b (by simp)),
              ih (fun v hv => hx v (by simp [hv])) _ (fun v hv => hy v (by simp [hv])) (by simpa using hl)]
      rw [this]
    · cases h1
  · cases h

theorem add_square {x y m : Mat α} (hx : ∀ v ∈ x.data, U.fin v) (hy : ∀ v ∈ y.data, U.zero v) (h : x.add y = .ok m) : m.norm2 = x.norm2 := by
  unfold Mat.add at h
  split at h
  · obtain ⟨d, h1, h⟩ := Res.bind_eq_ok.mp h
    rw [Res.ok.injEq] at h
    subst h
    unfold zipV at h1
    split at h1
    · rename_i hl
      rw [Res.ok.injEq] at h1
      have : List.zipWith Arith.mul d d = List.zipWith Arith.mul x.data x.data := by
        rw [← h1]
        generalize x.data = l at hx hl
        generalize y.data = l' at hy hl
        clear h1
        induction l generalizing l' with
        | nil => simp
        | cons a l ih =>
          cases l' with
          | nil => simp at hl
          | cons b l' =>
            simp only [List.zipWith_cons_cons]
            rw [U.square (hx a (by simp)) (hy b (by simp)),
              ih (fun v hv => hx v (by simp [hv])) _ (fun v hv => hy v (by simp [hv])) (by simpa using hl)]
      unfold Mat.norm2
      rw [this]
    · cases h1
  · cases h

theorem norm2_le {x : Mat α} (hx : ∀ v ∈ x.data, U.fin v) {s : α} (h : x.norm2 = .ok s) : Arith.le s s = true := by
  refine U.le_refl (sumV_all (P := U.nonneg) U.add_nonneg ?_ h)
  intro v hv
  obtain ⟨a, ha, rfl⟩ : ∃ a ∈ x.data, v = Arith.mul a a := by
    revert hv
    generalize x.data = l
    intro hv
    induction l with
    | nil => simp at hv
    | cons a l ih =>
      rw [List.zipWith_cons_cons, List.mem_cons] at hv
      rcases hv with rfl | hv
      · exact ⟨a, by simp, rfl⟩
      · obtain ⟨b, h1, h2⟩ := ih hv
        exact ⟨b, by simp [h1], h2⟩
  exact U.square_nonneg (hx a ha)

end Underflows

/-- not an endless loop -/
theorem bind_ne_diverge {β γ : Type} {r : Res β} {k : β → Res γ} (h1 : r ≠ .diverge) (h2 : ∀ b, r = .ok b → k b ≠ .diverge) :
    (r >>= k) ≠ .diverge := by
  cases r <;> first | exact h2 _ rfl | exact absurd rfl h1 | simp

/-- C43, C53: in an arithmetic that underflows, `Armijo` ends after at most `N + 1` rounds if the point, the direction, the equations and
the Jacobian at the point are finite (and no coordinate of the point is `-0`), and the callbacks return. -/
theorem C43_line_search {N : ℕ} (U : Underflows α N) (f df : Mat α → Res (Mat α)) (hf : ∀ v, f v ≠ .diverge) (hdf : ∀ v, df v ≠ .diverge)
    (x d : Mat α) (hx : ∀ v ∈ x.data, U.plain v) (hd : ∀ v ∈ d.data, U.fin v) (hF : ∀ F, f x = .ok F → ∀ v ∈ F.data, U.fin v)
    (hJ : ∀ J, df x = .ok J → ∀ v ∈ J.data, U.fin v) (fuel : ℕ) (hfuel : N < fuel) : armijo fuel x d f df ≠ .diverge := by
  have key : ∀ (k fuel : ℕ) (a : α), U.zero ((fun a => Arith.mul a (lit 5 (-1)))^[k] a) → k < fuel →
      armijoLoop f df x d fuel a ≠ .diverge := by
    intro k
    induction k with
    | zero =>
      intro fuel a ha hk
      obtain ⟨g, rfl⟩ : ∃ g, fuel = g + 1 := ⟨fuel - 1, by omega⟩
      simp only [Function.iterate_zero, id] at ha
      refine bind_ne_diverge (fine_add _ _).1 fun xN h1 => bind_ne_diverge (hf _) fun FN h2 => bind_ne_diverge (fine_norm2 _).1 fun l h3 =>
        bind_ne_diverge (hf _) fun F0 h4 => bind_ne_diverge (hdf _) fun J h5 => bind_ne_diverge (fine_transpose _).1 fun JT h6 =>
        bind_ne_diverge (fine_mul _ _).1 fun p h7 => bind_ne_diverge (fine_add _ _).1 fun s h8 => bind_ne_diverge (fine_norm2 _).1 fun r h9 => ?_
      have hz : ∀ v ∈ (Mat.scaleLeft a d).data, U.zero v := by
        intro v hv
        obtain ⟨w, hw, rfl⟩ := List.mem_map.mp hv
        exact U.mul_zero (hd w hw) ha
      have e1 := U.add_all hx hz h1
      subst e1
      rw [h4, Res.ok.injEq] at h2
      subst h2
      have hp : ∀ v ∈ p.data, U.zero v := by
        refine mul_all (P := U.zero) (Q := U.fin) (R := U.zero) U.zero_zero U.zero_mul U.zero_add ?_ hd h7
        intro v hv
        obtain ⟨w, hw, rfl⟩ := List.mem_map.mp hv
        exact U.mul_zero (transpose_all (P := U.fin) U.fin_zero (hJ J h5) h6 w hw) (U.lit_mul ha)
      have e2 := U.add_square (hF F0 h4) hp h8
      rw [h9, h3, Res.ok.injEq] at e2
      subst e2
      rw [if_pos (U.norm2_le (hF F0 h4) h3)]
      simp
    | succ k ih =>
      intro fuel a ha hk
      obtain ⟨g, rfl⟩ : ∃ g, fuel = g + 1 := ⟨fuel - 1, by omega⟩
      refine bind_ne_diverge (fine_add _ _).1 fun xN h1 => bind_ne_diverge (hf _) fun FN h2 => bind_ne_diverge (fine_norm2 _).1 fun l h3 =>
        bind_ne_diverge (hf _) fun F0 h4 => bind_ne_diverge (hdf _) fun J h5 => bind_ne_diverge (fine_transpose _).1 fun JT h6 =>
        bind_ne_diverge (fine_mul _ _).1 fun p h7 => bind_ne_diverge (fine_add _ _).1 fun s h8 => bind_ne_diverge (fine_norm2 _).1 fun r h9 => ?_
      split
      · simp
      · exact ih g _ ha (by omega)
  exact key N fuel (Dbl.ofInt 1) U.halves hfuel

/-- C43, partial: in an arithmetic that underflows, LM with a non-negative `maxIterations` ends, unless a line search starts at a
point where a coordinate, the direction, an equation or an entry of the Jacobian is inf or nan (or a coordinate is `-0`).  `P` is any
property of points that additions of steps preserve (for `double`: no coordinate is `-0`).
Missing: that case, see `C43_false_nan`. -/
theorem C43_lm_underflow_partial {N r : ℕ} (U : Underflows α N) (hr : 0 < r) (cfg : Config α) (hmax : 0 ≤ cfg.maxIterations)
    (lsFuel fuel : ℕ) (hls : N < lsFuel) (hfuel : cfg.maxIterations < fuel) (f : Matrix (Fin r) (Fin 1) (Expr α)) {t : VarsTable α}
    (ht : t.Reachable) (P : Mat α → Prop) (hP : ∀ q d q' : Mat α, P q → q.add d = .ok q' → P q') (hPt : P t.values)
    (hfin : ∀ J, (symOf f).jacobian cfg t.vars = .ok J → ∀ (t0 : VarsTable α) k (t1 : VarsTable α) (d : Mat α),
      t0.vars = t.vars → P t0.values → LMSearch cfg (symOf f) J t0 k t1 d →
      (∀ v ∈ t0.values.data, U.plain v) ∧ (∀ v ∈ d.data, U.fin v) ∧ (∀ F, evalVec cfg (symOf f) t0 = .ok F → ∀ v ∈ F.data, U.fin v) ∧
      ∀ j, evalMat cfg J t0 = .ok j → ∀ v ∈ j.data, U.fin v) :
    solveByLM cfg lsFuel fuel (symOf f) t ≠ .diverge := by
  refine C43_lm_inv_partial hr cfg hmax lsFuel fuel hfuel f ht P hP hPt ?_
  intro J hJ t0 k t1 d hvs hPt0 hs
  obtain ⟨h1, h2, h3, h4⟩ := hfin J hJ t0 k t1 d hvs hPt0 hs
  obtain ⟨r0, r1, hv, _⟩ := hs
  obtain ⟨D, rfl⟩ := jacobian_symOf hr cfg f t.vars ht.pos J hJ
  have back : ∀ t2, t1.setValues t0.values = .ok t2 → t2 = t0 := by
    intro t2 h
    obtain ⟨hg, hv', hx⟩ := setValues_good r1.good r0.good.vec h
    exact hg.ext r0.good (hv'.trans hv) hx
  refine C43_line_search U _ _ ?_ ?_ _ _ h1 h2 ?_ ?_ lsFuel hls
  · intro v; exact (fine_bind (fine_setValues _ _) fun t _ => fine_evalVec hr cfg f t).1
  · intro v; exact (fine_bind (fine_setValues _ _) fun t _ => fine_evalMat hr ht.pos cfg D t).1
  · intro F hF
    obtain ⟨t2, h5, h6⟩ := Res.bind_eq_ok.mp hF
    rw [back t2 h5] at h6
    exact h3 F h6
  · intro j hj
    obtain ⟨t2, h5, h6⟩ := Res.bind_eq_ok.mp hj
    rw [back t2 h5] at h6
    exact h4 j h6

/-! ### the hypotheses are met -/

/-- `SolveLinear` on one equation, for any arithmetic -/
theorem solve_one (cfg : Config α) (m b : α) (h1 : Arith.lt (Arith.abs m) cfg.epsilon = false) (h2 : Arith.eq (Arith.abs m) (Arith.abs m) = true) :
    solveLinear cfg ⟨1, 1, [m]⟩ ⟨1, 1, [b]⟩ = .ok ⟨1, 1, [Arith.sub (Arith.div b m) Arith.zero]⟩ := by
  have e1 : bringPivot (⟨1, 1, [m]⟩ : Mat α) ⟨1, 1, [b]⟩ 0 0 = .ok (⟨1, 1, [m]⟩, ⟨1, 1, [b]⟩) := by
    have : getMaxAbsRowIndex (⟨1, 1, [m]⟩ : Mat α) 0 0 0 = .ok 0 := by
      show Res.ok (List.findIdx (fun v => Arith.eq v (Arith.abs m)) [Arith.abs m] + 0) = .ok 0
      simp [List.findIdx_cons, h2]
    unfold bringPivot
    rw [show (1 - 1 : ℕ) = 0 from rfl, this]
    rfl
  have e2 : findPivot cfg.epsilon 2 (⟨1, 1, [m]⟩ : Mat α) ⟨1, 1, [b]⟩ 0 0 = .ok (⟨1, 1, [m]⟩, ⟨1, 1, [b]⟩, 0) := by
    show (if Arith.lt (Arith.abs m) cfg.epsilon then _ else _) = _
    rw [h1]; rfl
  have e3 : elimLoop cfg.epsilon 2 ⟨⟨1, 1, [m]⟩, ⟨1, 1, [b]⟩, [0], 1, 1⟩ 0 0 = .ok ⟨⟨1, 1, [Arith.div m m]⟩, ⟨1, 1, [Arith.div b m]⟩, [0], 1, 1⟩ := by
    unfold elimLoop
    rw [if_pos ⟨Nat.one_pos, Nat.one_pos⟩]
    simp only [e1, Res.bind_ok]
    rw [show (1 + 1 : ℕ) = 2 from rfl, e2]
    rfl
  have e4 : solveLinear cfg (⟨1, 1, [m]⟩ : Mat α) ⟨1, 1, [b]⟩ = (do
      let s ← elimLoop cfg.epsilon 2 ⟨⟨1, 1, [m]⟩, ⟨1, 1, [b]⟩, [0], 1, 1⟩ 0 0
      let ret ← backSubst s.A s.b ⟨1, 1, [Arith.zero]⟩
      if s.rankA < 1 ∧ s.rankA = s.rankAb then .throw (.math .infinitySolutions) else .ok ret) := rfl
  rw [e4, e3]
  rfl

/-- rational numbers whose products are rounded to zero below 1/1000: a small arithmetic that underflows -/
structure Flush where
  num : XNum Rat
  deriving DecidableEq

namespace Flush

/-- a finite number -/
def of (q : Rat) : Flush := ⟨.fin q⟩

/-- products below 1/1000 in absolute value become zero -/
def flush : XNum Rat → XNum Rat
  | .fin q => if -1 / 1000 < q ∧ q < 1 / 1000 then .fin 0 else .fin q
  | .bad => .bad

instance : Dbl Flush where
  zero := of 0
  one := of 1
  add a b := ⟨Arith.add a.num b.num⟩
  sub a b := ⟨Arith.sub a.num b.num⟩
  mul a b := ⟨flush (Arith.mul a.num b.num)⟩
  div a b := ⟨Arith.div a.num b.num⟩
  neg a := ⟨Arith.neg a.num⟩
  abs a := ⟨Arith.abs a.num⟩
  lt a b := Arith.lt a.num b.num
  le a b := Arith.le a.num b.num
  eq a b := Arith.eq a.num b.num
  ofInt i := ⟨Dbl.ofInt i⟩
  sin a := ⟨Dbl.sin a.num⟩
  cos a := ⟨Dbl.cos a.num⟩
  tan a := ⟨Dbl.tan a.num⟩
  asin a := ⟨Dbl.asin a.num⟩
  acos a := ⟨Dbl.acos a.num⟩
  atan a := ⟨Dbl.atan a.num⟩
  sqrt a := ⟨Dbl.sqrt a.num⟩
  log a := ⟨Dbl.log a.num⟩
  log2 a := ⟨Dbl.log2 a.num⟩
  log10 a := ⟨Dbl.log10 a.num⟩
  exp a := ⟨Dbl.exp a.num⟩
  pow a b := ⟨Dbl.pow a.num b.num⟩
  nan := ⟨Dbl.nan⟩
  inf := ⟨Dbl.inf⟩
  toInt32 a := Dbl.toInt32 a.num
  isInvalid a := Dbl.isInvalid a.num
  ofDec m e := (Dbl.ofDec m e).map mk
  ofHex m e := (Dbl.ofHex m e).map mk
  toStr a := Dbl.toStr a.num

theorem mul_of (a b : Rat) : ∃ q, Arith.mul (of a) (of b) = of q ∧ (0 ≤ a → 0 ≤ b → 0 ≤ q) := by
  have : Arith.mul (of a) (of b) = ⟨flush (.fin (a * b))⟩ := rfl
  rw [this]
  simp only [flush]
  split
  · exact ⟨0, rfl, fun _ _ => le_refl _⟩
  · exact ⟨a * b, rfl, fun h1 h2 => mul_nonneg h1 h2⟩

/-- ten halvings lead to zero -/
def underflows : Underflows Flush 10 where
  fin v := ∃ q : Rat, v = of q
  zero v := v = of 0
  plain v := ∃ q : Rat, v = of q
  nonneg v := ∃ q : Rat, v = of q
  halves := by decide +kernel
  fin_zero := ⟨0, rfl⟩
  zero_zero := rfl
  lit_mul h := by subst h; decide +kernel
  mul_zero := by
    rintro v a ⟨q, rfl⟩ rfl
    show (⟨flush (XNum.fin (q * 0))⟩ : Flush) = of 0
    rw [mul_zero]; decide +kernel
  zero_mul := by
    rintro a v rfl ⟨q, rfl⟩
    show (⟨flush (XNum.fin (0 * q))⟩ : Flush) = of 0
    rw [zero_mul]; decide +kernel
  zero_add := by
    rintro a b rfl rfl
    decide +kernel
  add_zero := by
    rintro v a ⟨q, rfl⟩ rfl
    show (of (q + 0)) = of q
    rw [add_zero]
  square := by
    rintro v a ⟨q, rfl⟩ rfl
    show (⟨flush (XNum.fin ((q + 0) * (q + 0)))⟩ : Flush) = ⟨flush (XNum.fin (q * q))⟩
    rw [add_zero]
  square_nonneg := by
    rintro v ⟨q, rfl⟩
    obtain ⟨p, h, _⟩ := mul_of q q
    exact ⟨p, h⟩
  add_nonneg := by
    rintro a b ⟨p, rfl⟩ ⟨q, rfl⟩
    exact ⟨p + q, rfl⟩
  le_refl := by
    rintro a ⟨q, rfl⟩
    show decide (q ≤ q) = true
    simp

/-- `x + 1` -/
def plusOne : Matrix (Fin 1) (Fin 1) (Expr Flush) := fun _ _ => .bin .add (.var ['x']) (.num (of 1))

/-- its derivative -/
def plusOneJ : Matrix (Fin 1) (Fin 1) (Expr Flush) := fun _ _ => .num (of 1)

def config : Config Flush where
  throwOnInvalidValue := true
  epsilon := of (1 / 100)
  maxIterations := 100
  nonlinearMethod := .lm
  initialValue := of 1
  allowIndeterminateEquation := false

/-- a table with the variable `x` -/
def var (v : Flush) : VarsTable Flush := ⟨[['x']], ⟨1, 1, [v]⟩, [(['x'], v)]⟩

theorem damping (k : ℕ) : ∃ q : Rat, (lmDamping k : Flush) = of q ∧ 0 ≤ q := by
  induction k with
  | zero => exact ⟨1 / 100000, by decide +kernel, by norm_num⟩
  | succ k ih =>
    obtain ⟨q, h1, h2⟩ := ih
    unfold lmDamping at h1 ⊢
    rw [Function.iterate_succ_apply', h1]
    obtain ⟨p, h3, h4⟩ := mul_of q 10
    exact ⟨p, h3, h4 h2 (by norm_num)⟩

theorem table_one {t : VarsTable Flush} (ht : t.Reachable) (hv : t.vars = [['x']]) : ∃ v, t = var v := by
  have hg := ht.good
  obtain ⟨vars, ⟨r, c, data⟩, table⟩ := t
  obtain ⟨h1, h2⟩ := hg.vec
  have h3 := hg.len
  simp only at h1 h2 h3 hv
  subst hv h1
  simp only [List.length_singleton] at h3
  subst h3
  obtain ⟨v, rfl⟩ := List.length_eq_one_iff.mp h2
  refine ⟨v, ?_⟩
  exact hg.ext (VarsTable.Reachable.ofList (l := [(['x'], v)]) rfl : (var v).Reachable).good rfl rfl

/-- The hypotheses of `C43_lm_underflow_partial` are met by `x + 1`: with at most 11 halvings per line search, LM ends. -/
example (v : Flush) : solveByLM config 11 101 (symOf plusOne) (var v) ≠ .diverge := by
  have hr : (var v).Reachable := .ofList (l := [(['x'], v)]) rfl
  refine C43_lm_underflow_partial underflows Nat.one_pos config (by decide) 11 101 (by decide) (by decide) plusOne hr (fun _ => True)
    (fun _ _ _ _ _ => trivial) trivial ?_
  intro J hJ t0 k t1 d hv _ ⟨r0, r1, hv1, _, F, hF, hd⟩
  have hJ' : (symOf plusOne).jacobian config [['x']] = .ok (symOf plusOneJ) := by decide +kernel
  rw [show (var v).vars = [['x']] from rfl, hJ', Res.ok.injEq] at hJ
  subst hJ
  obtain ⟨v0, rfl⟩ := table_one r0 hv
  obtain ⟨v1, rfl⟩ := table_one r1 (hv1.trans hv)
  have hj : ∀ w j, evalMat config (symOf plusOneJ) (var w) = .ok j → j = ⟨1, 1, [of 1]⟩ := by
    intro w j h
    obtain ⟨u, h1, h2⟩ := (C50_evaluate Nat.one_pos Nat.one_pos config plusOneJ (var w) j).mp h
    have h3 := h2 0 0
    simp only [plusOneJ, Expr.eval, Res.ok.injEq] at h3
    rw [h1]
    show (⟨1, 1, [u 0 0]⟩ : Mat Flush) = _
    rw [← h3]
  have hF' : ∃ q : Rat, v0 = of q ∧ F = ⟨1, 1, [of (q + 1)]⟩ := by
    obtain ⟨m, h1, h2⟩ := Res.bind_eq_ok.mp hF
    obtain ⟨u, h3, h4⟩ := (C50_evaluate Nat.one_pos Nat.one_pos config plusOne (var v0) m).mp h1
    subst h3
    have h5 := h4 0 0
    have h6 : (⟨1, 1, [u 0 0]⟩ : Mat Flush) = F := by
      have : (ofEntries u).toVec = .ok ⟨1, 1, [u 0 0]⟩ := rfl
      rw [this, Res.ok.injEq] at h2
      exact h2
    obtain ⟨x⟩ := v0
    cases x with
    | bad => cases h5
    | fin q =>
      refine ⟨q, rfl, ?_⟩
      have h7 : (plusOne 0 0).eval true (envOf (var ⟨.fin q⟩).table) = .ok (of (q + 1)) := rfl
      rw [show config.throwOnInvalidValue = true from rfl, h7, Res.ok.injEq] at h5
      rw [← h6, h5]
  obtain ⟨q, rfl, rfl⟩ := hF'
  refine ⟨?_, ?_, ?_, ?_⟩
  · intro w hw
    simp only [var, List.mem_singleton] at hw
    exact ⟨q, hw⟩
  · obtain ⟨j, h1, hd⟩ := Res.bind_eq_ok.mp hd
    rw [hj _ _ h1] at hd
    obtain ⟨mu, h2, h3⟩ := damping k
    rw [h2] at hd
    obtain ⟨p, h4, h5⟩ := mul_of 1 mu
    obtain ⟨g, h6, _⟩ := mul_of 1 (q + 1)
    have e4 : (⟨1, 1, [of 1]⟩ : Mat Flush).transpose = .ok ⟨1, 1, [of 1]⟩ := by decide +kernel
    have e5 : (⟨1, 1, [of 1]⟩ : Mat Flush).mul ⟨1, 1, [of 1]⟩ = .ok ⟨1, 1, [of 1]⟩ := by decide +kernel
    have e7 : Mat.new 1 1 (Arith.zero : Flush) = .ok ⟨1, 1, [of 0]⟩ := by decide +kernel
    have e8 : (⟨1, 1, [of 0]⟩ : Mat Flush).ones = .ok ⟨1, 1, [of 1]⟩ := by decide +kernel
    have e9 : (⟨1, 1, [of 1]⟩ : Mat Flush).add (Mat.scaleLeft (of mu) ⟨1, 1, [of 1]⟩) = .ok ⟨1, 1, [of (1 + p)]⟩ := by
      show Res.ok (⟨1, 1, [Arith.add (of 1) (Arith.mul (of 1) (of mu))]⟩ : Mat Flush) = _
      rw [h4]; rfl
    have e6 : (⟨1, 1, [of 1]⟩ : Mat Flush).mul ⟨1, 1, [of (q + 1)]⟩ = .ok ⟨1, 1, [of g]⟩ := by
      show Res.ok (⟨1, 1, [Arith.mul (of 1) (of (q + 1))]⟩ : Mat Flush) = _
      rw [h6]
    have e10 : (⟨1, 1, [of g]⟩ : Mat Flush).toVec = .ok ⟨1, 1, [of g]⟩ := rfl
    have e11 : (⟨1, 1, [of g]⟩ : Mat Flush).neg = ⟨1, 1, [of (-g)]⟩ := rfl
    have hp : 0 ≤ p := h5 (by norm_num) h3
    rw [e4, Res.bind_ok, e5, Res.bind_ok] at hd
    simp only [e7, Res.bind_ok, e8, e9, e6, e10, e11] at hd
    have habs : Arith.abs (of (1 + p)) = of (1 + p) := by
      show (⟨XNum.fin (if 1 + p < 0 then -(1 + p) else 1 + p)⟩ : Flush) = _
      rw [if_neg (by linarith)]; rfl
    rw [solve_one config (of (1 + p)) (of (-g))
      (by rw [habs]; exact decide_eq_false (by show ¬ 1 + p < 1 / 100; linarith))
      (by rw [habs]; exact decide_eq_true (rfl : 1 + p = 1 + p)), Res.ok.injEq] at hd
    subst hd
    intro w hw
    simp only [List.mem_singleton] at hw
    have hdiv : Arith.div (of (-g)) (of (1 + p)) = of (-g / (1 + p)) := by
      have : (1 + p : ℚ) ≠ 0 := by linarith
      simp [Arith.div, of, XNum.map2O, this]
    rw [hdiv] at hw
    exact ⟨-g / (1 + p) - 0, hw⟩
  · intro F hF2
    rw [hF, Res.ok.injEq] at hF2
    subst hF2
    intro w hw
    simp only [List.mem_singleton] at hw
    exact ⟨_, hw⟩
  · intro j h
    rw [hj _ _ h]
    intro w hw
    simp only [List.mem_singleton] at hw
    exact ⟨_, hw⟩

end Flush

end Tom
