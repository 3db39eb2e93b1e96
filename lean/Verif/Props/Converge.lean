import Verif.Props.Descent
import Mathlib.Analysis.SpecialFunctions.Pow.Real

/-!
# Convergence of the proximal gradient solver on convex problems

Generic part (any oracle, any regularizer with an exact prox for a convex penalty) of C102 (accuracy certificate), C103 (rate) and C104 (termination).
-/

namespace Verif

variable {n : ℕ} {σ : Type}

/-! ## Vocabulary -/

/-- `f` lies below the parabola of curvature `L` touching it at any point. -/
def BelowParabola (f : Vec ℝ n → ℝ) (gr : Vec ℝ n → Vec ℝ n) (L : ℝ) : Prop :=
  ∀ x z, f z ≤ f x + (∑ i, gr x i * (z i - x i)) + L / 2 * ∑ i, (z i - x i) ^ 2

/-- The smallest step length a run may use: the fixed one, or (line search) half the inverse curvature, if that is smaller. -/
noncomputable def stepFloor (cfg : PGDCfg ℝ) (L : ℝ) : ℝ :=
  if cfg.stepping = "line-search" then min cfg.fixedStepLen (1 / (2 * L)) else cfg.fixedStepLen

/-- The step lengths a user is told to use: any positive one with line search (up to the floor of the line search, `1e-14`), at most `1/L` with fixed steps. -/
def StepRule (cfg : PGDCfg ℝ) (L : ℝ) : Prop :=
  0 < cfg.fixedStepLen ∧ 0 < L ∧ if cfg.stepping = "line-search" then L ≤ 10 ^ 14 else cfg.fixedStepLen ≤ 1 / L

theorem stepFloor_pos {cfg : PGDCfg ℝ} {L : ℝ} (h : StepRule cfg L) : 0 < stepFloor cfg L := by
  obtain ⟨h1, h2, -⟩ := h
  unfold stepFloor
  split_ifs
  · exact lt_min h1 (by positivity)
  · exact h1

/-! ## One step -/

/-- Below a parabola of curvature `L` every step of at most `1/L` passes the sufficient-decrease test. -/
theorem BelowParabola.decrease {f : Vec ℝ n → ℝ} {gr : Vec ℝ n → Vec ℝ n} {L : ℝ} (h : BelowParabola f gr L) (hL : 0 < L) (t : ℝ) (ht : 0 < t)
    (htL : t ≤ 1 / L) (x z : Vec ℝ n) : SufficientDecrease f (fun i => - gr x i) t x z := by
  unfold SufficientDecrease
  have h1 := h x z
  have h2 : L / 2 ≤ 1 / (2 * t) := by
    rw [div_le_div_iff₀ (by norm_num) (by positivity)]
    rw [le_div_iff₀ hL] at htL
    linarith
  have h3 : 0 ≤ ∑ i, (z i - x i) ^ 2 := Finset.sum_nonneg fun i _ => sq_nonneg _
  have h4 := mul_le_mul_of_nonneg_right h2 h3
  have e1 : (∑ i, -gr x i * (z i - x i)) = -∑ i, gr x i * (z i - x i) := by
    rw [← Finset.sum_neg_distrib]
    exact Finset.sum_congr rfl fun i _ => by ring
  rw [e1, div_eq_mul_inv]
  rw [one_div] at h4
  linarith

/-- What the choice of the step guarantees. -/
theorem chooseStep_bounds (o : Oracle ℝ n σ) (R : Regularizer ℝ n) (f : Vec ℝ n → ℝ) (hf : o.Values f) (gr : Vec ℝ n → Vec ℝ n) (L : ℝ)
    (hb : BelowParabola f gr L) (prox : Vec ℝ n → ℝ → Vec ℝ n) (hp : ∀ y t, R.prox y t = .ok (prox y t)) (cfg : PGDCfg ℝ) (hr : StepRule cfg L)
    (x : Vec ℝ n) (s s' : σ) (t : ℝ) (h : chooseStep o R cfg x (-(gr x)) s = .ok (t, s')) :
    stepFloor cfg L ≤ t ∧ t ≤ cfg.fixedStepLen ∧ SufficientDecrease f (fun i => - gr x i) t x (prox (fun i => x i - t * gr x i) t) := by
  obtain ⟨hs, hL, hr⟩ := hr
  unfold chooseStep at h
  unfold stepFloor
  split_ifs at h hr ⊢ with hls
  · obtain ⟨j, s1, hj, hor, hmin⟩ := C19_line_search o R f hf prox hp x (-(gr x)) cfg.fixedStepLen s
    rw [h] at hj
    obtain ⟨rfl, rfl⟩ := Prod.mk.inj (Except.ok.inj hj)
    simp only [Pi.neg_apply, mul_neg, ← sub_eq_add_neg] at hor hmin
    have ht : 0 < cfg.fixedStepLen / 2 ^ j := by positivity
    refine ⟨?_, div_le_self hs.le (one_le_pow₀ (by norm_num)), ?_⟩
    · cases j with
      | zero => simp
      | succ j =>
        refine (min_le_right _ _).trans ?_
        have h1 := (hmin j (by omega)).1
        have h2 : 1 / L < cfg.fixedStepLen / 2 ^ j := by
          by_contra hc
          exact h1 (hb.decrease hL _ (by positivity) (not_lt.1 hc) x _)
        have e1 : cfg.fixedStepLen / 2 ^ (j + 1) = cfg.fixedStepLen / 2 ^ j / 2 := by rw [pow_succ, div_div]
        have e2 : 1 / (2 * L) = 1 / L / 2 := by rw [div_div, mul_comm]
        rw [e1, e2]
        linarith
    · rcases hor with hor | hor
      · exact hor
      · refine hb.decrease hL _ ht (hor.trans ?_) x _
        exact one_div_le_one_div_of_le hL hr
  · obtain ⟨rfl, -⟩ := pure_ok.1 h
    exact ⟨le_rfl, le_rfl, hb.decrease hL _ hs hr x _⟩

/-- The prox of a convex penalty satisfies the three-point inequality. -/
theorem prox_three_point (g : Vec ℝ n → WithTop ℝ) (hg : ConvexPenalty g) (t : ℝ) (ht : 0 < t) (y z : Vec ℝ n) (hz : IsProxOf g t y z) :
    ∃ gz : ℝ, g z = gz ∧ ∀ (u : Vec ℝ n) (gu : ℝ), g u = gu →
      t * gz + normSq (z - y) / 2 + normSq (u - z) / 2 ≤ t * gu + normSq (u - y) / 2 := by
  obtain ⟨gz, hgz, hmin⟩ := hz
  refine ⟨gz, hgz, fun u gu hgu => ?_⟩
  set B := normSq (u - z) with hB
  set C := ∑ i, (z i - y i) * (u i - z i) with hC
  have hBnn : 0 ≤ B := Finset.sum_nonneg fun i _ => sq_nonneg _
  have e : normSq (u - y) = normSq (z - y) + 2 * C + B := by
    simp only [hB, hC, normSq, Pi.sub_apply, Finset.mul_sum, ← Finset.sum_add_distrib]
    exact Finset.sum_congr rfl fun i _ => by ring
  have hs : ∀ s, 0 < s → s ≤ 1 → 0 ≤ t * (gu - gz) + C + s * B / 2 := by
    intro s hs0 hs1
    have hc := hg z u gz gu s hgz hgu hs0.le hs1
    obtain ⟨gv, hgv⟩ : ∃ gv : ℝ, g (fun i => z i + s * (u i - z i)) = gv := by
      cases hh : g (fun i => z i + s * (u i - z i)) with
      | top => rw [hh] at hc; exact absurd (top_le_iff.1 hc) WithTop.coe_ne_top
      | coe r => exact ⟨r, rfl⟩
    rw [hgv] at hc
    have hc' : gv ≤ gz + s * (gu - gz) := by exact_mod_cast hc
    have h1 := hmin _ gv hgv
    have e2 : normSq ((fun i => z i + s * (u i - z i)) - y) = normSq (z - y) + 2 * s * C + s ^ 2 * B := by
      simp only [hB, hC, normSq, Pi.sub_apply, Finset.mul_sum, ← Finset.sum_add_distrib]
      exact Finset.sum_congr rfl fun i _ => by ring
    rw [e2] at h1
    have h2 : t * gv ≤ t * (gz + s * (gu - gz)) := mul_le_mul_of_nonneg_left hc' ht.le
    have h3 : 0 ≤ s * (t * (gu - gz) + C + s * B / 2) := by nlinarith
    exact nonneg_of_mul_nonneg_right h3 hs0
  have key : 0 ≤ t * (gu - gz) + C := by
    by_contra hneg
    push Not at hneg
    set D := -(t * (gu - gz) + C) with hD
    have hDp : 0 < D := by linarith
    rcases hBnn.lt_or_eq with hBp | hB0
    · have h1 := hs (min 1 (D / B)) (lt_min one_pos (div_pos hDp hBp)) (min_le_left _ _)
      have h2 : min 1 (D / B) * B ≤ D := by
        calc min 1 (D / B) * B ≤ D / B * B := mul_le_mul_of_nonneg_right (min_le_right _ _) hBnn
          _ = D := div_mul_cancel₀ _ hBp.ne'
      linarith
    · have h1 := hs 1 one_pos le_rfl
      rw [← hB0] at h1
      linarith
  rw [e]
  linarith

/-- One accepted step from `x` to `z`: compared with any point `u`, the excess of the objective is paid for by the distance to `u`. -/
theorem step_compare (f : Vec ℝ n → ℝ) (gr : Vec ℝ n → Vec ℝ n) (hconv : ∀ x, AboveTangent f (gr x) x) (g : Vec ℝ n → WithTop ℝ) (hg : ConvexPenalty g)
    (t : ℝ) (ht : 0 < t) (x z : Vec ℝ n) (hz : IsProxOf g t (fun i => x i - t * gr x i) z)
    (hsd : SufficientDecrease f (fun i => - gr x i) t x z) :
    ∃ gz : ℝ, g z = gz ∧ ∀ (u : Vec ℝ n) (gu : ℝ), g u = gu →
      2 * t * ((f z + gz) - (f u + gu)) ≤ normSq (x - u) - normSq (z - u) := by
  obtain ⟨gz, hgz, h3⟩ := prox_three_point g hg t ht _ z hz
  refine ⟨gz, hgz, fun u gu hgu => ?_⟩
  have h1 := h3 u gu hgu
  have h2 := hconv x u
  unfold SufficientDecrease at hsd
  set Z := ∑ i, (z i - x i) ^ 2 with hZ
  have e0 : (∑ i, -gr x i * (z i - x i)) = -∑ i, gr x i * (z i - x i) := by
    rw [← Finset.sum_neg_distrib]
    exact Finset.sum_congr rfl fun i _ => by ring
  rw [e0] at hsd
  have e1 : normSq (z - fun i => x i - t * gr x i) = Z + 2 * t * (∑ i, gr x i * (z i - x i)) + t ^ 2 * ∑ i, gr x i ^ 2 := by
    simp only [hZ, normSq, Pi.sub_apply, Finset.mul_sum, ← Finset.sum_add_distrib]
    exact Finset.sum_congr rfl fun i _ => by ring
  have e2 : normSq (u - fun i => x i - t * gr x i) = normSq (x - u) + 2 * t * (∑ i, gr x i * (u i - x i)) + t ^ 2 * ∑ i, gr x i ^ 2 := by
    simp only [normSq, Pi.sub_apply, Finset.mul_sum, ← Finset.sum_add_distrib]
    exact Finset.sum_congr rfl fun i _ => by ring
  have e3 : normSq (u - z) = normSq (z - u) := by
    simp only [normSq, Pi.sub_apply]
    exact Finset.sum_congr rfl fun i _ => by ring
  rw [e1, e2, e3] at h1
  have h4 := mul_le_mul_of_nonneg_left hsd (by positivity : 0 ≤ 2 * t)
  have e4 : 2 * t * (f x - -(∑ i, gr x i * (z i - x i)) + Z / (2 * t)) = 2 * t * f x + 2 * t * (∑ i, gr x i * (z i - x i)) + Z := by
    field_simp
    ring
  rw [e4] at h4
  have h5 := mul_le_mul_of_nonneg_left h2 (by positivity : 0 ≤ 2 * t)
  nlinarith

/-! ## The whole run -/

/-- The points visited by a run, with the step lengths. -/
theorem run_steps (o : Oracle ℝ n σ) (R : Regularizer ℝ n) (f : Vec ℝ n → ℝ) (gr : Vec ℝ n → Vec ℝ n) (hf : o.Values f) (hgr : o.Grads gr)
    (L : ℝ) (hb : BelowParabola f gr L) (hconv : ∀ x, AboveTangent f (gr x) x)
    (g : Vec ℝ n → WithTop ℝ) (hg : ConvexPenalty g) (prox : Vec ℝ n → ℝ → Vec ℝ n) (hp : ∀ y t, R.prox y t = .ok (prox y t))
    (hexact : ∀ y t, 0 < t → IsProxOf g t y (prox y t)) (cfg : PGDCfg ℝ) (hr : StepRule cfg L) (x0 : Vec ℝ n) (Lg : Logger (PyVal ℝ n))
    (s s' : σ) (x : Vec ℝ n) (Lf : Logger (PyVal ℝ n)) (h : pgdOptimize o R cfg x0 Lg s = .ok ((x, Lf), s')) :
    ∃ (k : ℕ) (X : ℕ → Vec ℝ n), X 0 = x0 ∧ X k = x ∧ Lf.get "converged" = .ok (.atom (.bool (decide ((k : ℤ) < cfg.maxIter)))) ∧
      Lf.get "iteration" = .ok (.atom (.int k)) ∧
      (∀ i < k, ∃ t, stepFloor cfg L ≤ t ∧ t ≤ cfg.fixedStepLen ∧ ∃ gz : ℝ, g (X (i + 1)) = gz ∧ ∀ (u : Vec ℝ n) (gu : ℝ), g u = gu →
        2 * t * ((f (X (i + 1)) + gz) - (f u + gu)) ≤ normSq (X i - u) - normSq (X (i + 1) - u)) ∧
      (∀ i < k, guardAt cfg X 0 i none) ∧ ¬ guardAt cfg X 0 k none := by
  obtain ⟨k, X, Ls, s1, L1, -, h0, hk, hc, hit, hsteps, hguards, hend⟩ := pgdOptimize_trace o R cfg x0 Lg
    (fun x _ x' _ => ∃ t, stepFloor cfg L ≤ t ∧ t ≤ cfg.fixedStepLen ∧ ∃ gz : ℝ, g x' = gz ∧ ∀ (u : Vec ℝ n) (gu : ℝ), g u = gu →
        2 * t * ((f x' + gz) - (f u + gu)) ≤ normSq (x - u) - normSq (x' - u))
    (fun x it L s x' L' s' hbd => by
      obtain ⟨gv, s1, t, s2, hgv, hst, hpx, -⟩ := pgdBody_ok _ _ _ _ _ _ _ _ _ _ _ hbd
      obtain ⟨s3, hgv'⟩ := hgr x s
      rw [hgv'] at hgv
      obtain ⟨rfl, rfl⟩ := Prod.mk.inj (Except.ok.inj hgv)
      obtain ⟨hlo, hhi, hsd⟩ := chooseStep_bounds o R f hf gr _ hb prox hp cfg hr x _ _ t hst
      rw [hp] at hpx
      obtain rfl := Except.ok.inj hpx
      have htp : 0 < t := (stepFloor_pos hr).trans_le hlo
      exact ⟨t, hlo, hhi, step_compare f gr hconv g hg t htp x _ (hexact _ t htp) hsd⟩) s s' x Lf h
  refine ⟨k, X, h0, hk, ?_, (Logger.add_get hit).1, hsteps, hguards, hend⟩
  rw [(Logger.add_get hit).2 _ (by decide)]
  exact (Logger.add_get hc).1

/-- A positive-length move compared through the steps: the three consequences of `run_steps` used by C102, C103 and C104. -/
theorem run_bounds (o : Oracle ℝ n σ) (R : Regularizer ℝ n) (f : Vec ℝ n → ℝ) (gr : Vec ℝ n → Vec ℝ n) (hf : o.Values f) (hgr : o.Grads gr)
    (L : ℝ) (hb : BelowParabola f gr L) (hconv : ∀ x, AboveTangent f (gr x) x)
    (g : Vec ℝ n → WithTop ℝ) (hg : ConvexPenalty g) (prox : Vec ℝ n → ℝ → Vec ℝ n) (hp : ∀ y t, R.prox y t = .ok (prox y t))
    (hexact : ∀ y t, 0 < t → IsProxOf g t y (prox y t)) (cfg : PGDCfg ℝ) (hr : StepRule cfg L) (x0 : Vec ℝ n) (Lg : Logger (PyVal ℝ n))
    (s s' : σ) (x : Vec ℝ n) (Lf : Logger (PyVal ℝ n)) (h : pgdOptimize o R cfg x0 Lg s = .ok ((x, Lf), s')) :
    ∃ k : ℕ, Lf.get "converged" = .ok (.atom (.bool (decide ((k : ℤ) < cfg.maxIter)))) ∧ Lf.get "iteration" = .ok (.atom (.int k)) ∧
      ((k : ℤ) < cfg.maxIter → 0 < n → ∃ gx : ℝ, g x = gx ∧ ∀ (u : Vec ℝ n) (gu : ℝ), g u = gu →
        f x + gx ≤ f u + gu + (cfg.tol ^ 2 / 2 + cfg.tol * √(normSq (x - u))) / stepFloor cfg L) ∧
      (0 < k → ∃ gx : ℝ, g x = gx ∧ ∀ (u : Vec ℝ n) (gu : ℝ), g u = gu → f x + gx ≤ f u + gu + normSq (x0 - u) / (2 * stepFloor cfg L * k)) ∧
      (0 < cfg.tol → ∀ g0 B : ℝ, g x0 = g0 → (∀ (v : Vec ℝ n) (gv : ℝ), g v = gv → B ≤ f v + gv) →
        ((k : ℝ) - 1) * cfg.tol ^ 2 ≤ 2 * cfg.fixedStepLen * (f x0 + g0 - B)) := by
  obtain ⟨k, X, h0, hk, hc, hit, hsteps, hguards, hend⟩ := run_steps o R f gr hf hgr L hb hconv g hg prox hp hexact cfg hr x0 Lg s s' x Lf h
  have hfl := stepFloor_pos hr
  refine ⟨k, hc, hit, fun hlt hn => ?_, fun hk0 => ?_, fun htol g0 B hg0 hB => ?_⟩
  · cases k with
    | zero => exact absurd ⟨Or.inl hn, by simpa using hlt⟩ hend
    | succ j =>
      have hfar : ¬ farApart cfg.tol (some (X j)) (X (j + 1)) := fun hf => hend ⟨hf, by simpa using hlt⟩
      simp only [farApart, not_or, not_lt] at hfar
      obtain ⟨ht0, hsq⟩ := hfar
      obtain ⟨t, hlo, -, gx, hgx, hcmp⟩ := hsteps j (by omega)
      rw [hk] at hgx hcmp hsq
      refine ⟨gx, hgx, fun u gu hgu => ?_⟩
      have h1 := hcmp u gu hgu
      have htp : 0 < t := hfl.trans_le hlo
      have e1 : normSq (X j - u) = normSq (x - X j) - 2 * (∑ i, (x i - X j i) * (x i - u i)) + normSq (x - u) := by
        simp only [normSq, Pi.sub_apply, Finset.mul_sum, ← Finset.sum_add_distrib, ← Finset.sum_sub_distrib]
        exact Finset.sum_congr rfl fun i _ => by ring
      have hcs : -(cfg.tol * √(normSq (x - u))) ≤ ∑ i, (x i - X j i) * (x i - u i) := by
        have h2 := Finset.sum_mul_sq_le_sq_mul_sq Finset.univ (fun i => x i - X j i) (fun i => x i - u i)
        have h3 : (∑ i, (x i - X j i) * (x i - u i)) ^ 2 ≤ (cfg.tol * √(normSq (x - u))) ^ 2 := by
          rw [mul_pow, Real.sq_sqrt (show 0 ≤ normSq (x - u) from Finset.sum_nonneg fun i _ => sq_nonneg _)]
          refine h2.trans ?_
          exact mul_le_mul_of_nonneg_right hsq (Finset.sum_nonneg fun i _ => sq_nonneg _)
        exact (abs_le_of_sq_le_sq' h3 (by positivity)).1
      have h4 : 2 * t * ((f x + gx) - (f u + gu)) ≤ cfg.tol ^ 2 + 2 * (cfg.tol * √(normSq (x - u))) := by
        rw [e1] at h1
        linarith
      have h5 : 0 ≤ cfg.tol ^ 2 + 2 * (cfg.tol * √(normSq (x - u))) := by positivity
      have h6 : 2 * stepFloor cfg L * ((f x + gx) - (f u + gu)) ≤ cfg.tol ^ 2 + 2 * (cfg.tol * √(normSq (x - u))) := by
        rcases le_or_gt ((f x + gx) - (f u + gu)) 0 with hneg | hpos
        · exact (mul_nonpos_of_nonneg_of_nonpos (by positivity) hneg).trans h5
        · have := mul_le_mul_of_nonneg_right hlo hpos.le
          linarith
      have h7 : (f x + gx) - (f u + gu) ≤ (cfg.tol ^ 2 / 2 + cfg.tol * √(normSq (x - u))) / stepFloor cfg L := by
        rw [le_div_iff₀ hfl]
        linarith
      linarith
  · have hG : ∀ i, ∃ gi : ℝ, 1 ≤ i → i ≤ k → g (X i) = gi := by
      intro i
      by_cases hi : 1 ≤ i ∧ i ≤ k
      · obtain ⟨j, rfl⟩ : ∃ j, i = j + 1 := ⟨i - 1, by omega⟩
        obtain ⟨t, -, -, gz, hgz, -⟩ := hsteps j (by omega)
        exact ⟨gz, fun _ _ => hgz⟩
      · exact ⟨0, fun h1 h2 => absurd ⟨h1, h2⟩ hi⟩
    choose G hG using hG
    have hmono : ∀ i, 1 ≤ i → i < k → f (X (i + 1)) + G (i + 1) ≤ f (X i) + G i := by
      intro i h1 h2
      obtain ⟨t, hlo, -, gz, hgz, hcmp⟩ := hsteps i h2
      have htp : 0 < t := hfl.trans_le hlo
      have e := hG (i + 1) (by omega) (by omega)
      rw [hgz] at e
      obtain rfl := WithTop.coe_inj.1 e
      have h3 := hcmp (X i) (G i) (hG i h1 h2.le)
      have h4 : normSq (X i - X i) = 0 := by simp [normSq]
      have h5 : 0 ≤ normSq (X (i + 1) - X i) := Finset.sum_nonneg fun i _ => sq_nonneg _
      by_contra hcon
      push Not at hcon
      have := mul_pos (mul_pos two_pos htp) (sub_pos.2 hcon)
      linarith
    have hdesc : ∀ j i, i + j = k → 1 ≤ i → f (X k) + G k ≤ f (X i) + G i := by
      intro j
      induction j with
      | zero => intro i hi _; rw [show i = k by omega]
      | succ j ih => intro i hi h1; exact (ih (i + 1) (by omega) (by omega)).trans (hmono i h1 (by omega))
    refine ⟨G k, hk ▸ hG k hk0 le_rfl, fun u gu hgu => ?_⟩
    rw [← hk]
    by_contra hcon
    push Not at hcon
    set δ := (f (X k) + G k) - (f u + gu) with hδ
    have hkp : (0 : ℝ) < k := by exact_mod_cast hk0
    have hδ1 : normSq (x0 - u) / (2 * stepFloor cfg L * k) < δ := by rw [hδ]; linarith
    have hδ0 : 0 < δ := lt_of_le_of_lt (div_nonneg (Finset.sum_nonneg fun i _ => sq_nonneg _) (by positivity)) hδ1
    have hsum : ∀ i ≤ k, 2 * stepFloor cfg L * i * δ ≤ normSq (X 0 - u) - normSq (X i - u) := by
      intro i
      induction i with
      | zero => intro _; simp
      | succ i ih =>
        intro hi
        have h1 := ih (by omega)
        obtain ⟨t, hlo, -, gz, hgz, hcmp⟩ := hsteps i (by omega)
        have e := hG (i + 1) (by omega) (by omega)
        rw [hgz] at e
        obtain rfl := WithTop.coe_inj.1 e
        have h2 := hcmp u gu hgu
        have h3 : δ ≤ (f (X (i + 1)) + G (i + 1)) - (f u + gu) := by
          rw [hδ]; linarith [hdesc (k - (i + 1)) (i + 1) (by omega) (by omega)]
        have h4 : 2 * stepFloor cfg L * δ ≤ 2 * t * ((f (X (i + 1)) + G (i + 1)) - (f u + gu)) := by
          have := mul_le_mul hlo h3 hδ0.le (hfl.le.trans hlo)
          linarith
        push_cast
        linarith
    have h1 := hsum k le_rfl
    rw [h0] at h1
    have h2 : 0 ≤ normSq (X k - u) := Finset.sum_nonneg fun i _ => sq_nonneg _
    rw [div_lt_iff₀ (by positivity)] at hδ1
    linarith
  · have hG : ∀ i, ∃ gi : ℝ, i ≤ k → g (X i) = gi := by
      intro i
      cases i with
      | zero => exact ⟨g0, fun _ => by rw [h0]; exact hg0⟩
      | succ j =>
        by_cases hi : j + 1 ≤ k
        · obtain ⟨t, -, -, gz, hgz, -⟩ := hsteps j (by omega)
          exact ⟨gz, fun _ => hgz⟩
        · exact ⟨0, fun h1 => absurd h1 hi⟩
    choose G hG using hG
    have hG0 : G 0 = g0 := by
      have := hG 0 (Nat.zero_le _)
      rw [h0, hg0] at this
      exact (WithTop.coe_inj.1 this).symm
    have hs0 : 0 < cfg.fixedStepLen := hr.1
    have hen : ∀ i, i < k → (i : ℝ) * cfg.tol ^ 2 ≤ 2 * cfg.fixedStepLen * ((f x0 + g0) - (f (X i) + G i)) := by
      intro i
      induction i with
      | zero => intro _; rw [h0, hG0]; simp
      | succ i ih =>
        intro hi
        have h1 := ih (by omega)
        obtain ⟨t, hlo, hhi, gz, hgz, hcmp⟩ := hsteps i (by omega)
        have e := hG (i + 1) (by omega)
        rw [hgz] at e
        obtain rfl := WithTop.coe_inj.1 e
        have h3 := hcmp (X i) (G i) (hG i (by omega))
        have h4 : normSq (X i - X i) = 0 := by simp [normSq]
        rw [h4] at h3
        have h5 : cfg.tol ^ 2 < normSq (X (i + 1) - X i) := by
          rcases (hguards (i + 1) hi).1 with h6 | h6
          · exact absurd h6 (not_lt.2 htol.le)
          · exact h6
        have h6 : 0 ≤ (f (X i) + G i) - (f (X (i + 1)) + G (i + 1)) := by
          have htp : 0 < t := hfl.trans_le hlo
          by_contra hcon
          push Not at hcon
          have := mul_pos (mul_pos two_pos htp) (neg_pos.2 hcon)
          have := sq_nonneg cfg.tol
          linarith
        have h7 := mul_le_mul_of_nonneg_right hhi h6
        push_cast
        linarith
    cases k with
    | zero =>
      have := hB x0 g0 hg0
      have h8 : 0 ≤ 2 * cfg.fixedStepLen * (f x0 + g0 - B) := mul_nonneg (by positivity) (by linarith)
      have := sq_nonneg cfg.tol
      push_cast
      linarith
    | succ j =>
      have h1 := hen j (by omega)
      have h2 := hB (X j) (G j) (hG j (by omega))
      have h3 := mul_le_mul_of_nonneg_left h2 (by positivity : 0 ≤ 2 * cfg.fixedStepLen)
      push_cast
      linarith

end Verif
