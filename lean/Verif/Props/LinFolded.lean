import Verif.Props.LinNonconvex
import Verif.Props.LmeConverge

/-!
# C161: converged linear fits with SCAD and CAD: optimality conditions, and equality with least squares on the true features
-/

open Matrix

namespace Verif

noncomputable section

variable {m n : ℕ}

/-! ## The last step -/

/-- The last step of a converged run, when the proximal operator may fail. -/
theorem run_last_step_ok {σ : Type} (hn : 0 < n) (o : Oracle ℝ n σ) (R : Regularizer ℝ n) (f : Vec ℝ n → ℝ) (gr : Vec ℝ n → Vec ℝ n) (hf : o.Values f) (hgr : o.Grads gr) (L : ℝ)
    (hb : BelowParabola f gr L) (cfg : PGDCfg ℝ) (hr : StepRule cfg L) (x0 : Vec ℝ n) (Lg : Logger (PyVal ℝ n))
    (s s' : σ) (x : Vec ℝ n) (Lf : Logger (PyVal ℝ n)) (h : pgdOptimize o R cfg x0 Lg s = .ok ((x, Lf), s')) (hc : Lf.get "converged" = .ok (.atom (.bool true))) :
    0 ≤ cfg.tol ∧ ∃ (t : ℝ) (y : Vec ℝ n), stepFloor cfg L ≤ t ∧ t ≤ cfg.fixedStepLen ∧ ∑ j, (x j - y j) ^ 2 ≤ cfg.tol ^ 2 ∧ R.prox (fun i => y i - t * gr y i) t = .ok x := by
  obtain ⟨hs, hL, hr'⟩ := hr
  obtain ⟨k, X, Ls, s1, L1, -, -, hk, hcv, hit, hsteps, -, hend⟩ := pgdOptimize_trace o R cfg _ _
    (fun x _ x' _ => ∃ t, stepFloor cfg L ≤ t ∧ t ≤ cfg.fixedStepLen ∧ R.prox (fun i => x i - t * gr x i) t = .ok x')
    (fun x it L' s x' L'' s' hbd => by
      obtain ⟨gv, s1, t, s2, hgv, hst, hpx', -⟩ := pgdBody_ok _ _ _ _ _ _ _ _ _ _ _ hbd
      obtain ⟨s3, hgv'⟩ := hgr x s
      rw [hgv'] at hgv
      obtain ⟨rfl, rfl⟩ := Prod.mk.inj (Except.ok.inj hgv)
      refine ⟨t, ?_⟩
      have hval : ∀ x s v s', o.value x s = .ok (v, s') → v = f x := by
        intro x s v s' h
        obtain ⟨s4, h'⟩ := hf x s
        rw [h'] at h
        exact (Prod.mk.inj (Except.ok.inj h)).1.symm
      have hlo : stepFloor cfg L ≤ t ∧ t ≤ cfg.fixedStepLen := by
        unfold chooseStep at hst
        unfold stepFloor
        split_ifs at hst hr' ⊢ with hls
        · obtain ⟨a1, -, a3⟩ := lineSearch_floor (step0 := cfg.fixedStepLen) hL (fun t z fz fx s1 s2 s3 s4 ht ht0 htL hz hfz hfx => by
            rw [hval _ _ _ _ hfz, hval _ _ _ _ hfx]
            have h1 := hb x z
            have h2 : L / 2 ≤ 1 / (2 * t) := by
              rw [div_le_div_iff₀ (by norm_num) (by positivity)]
              rw [le_div_iff₀ hL] at htL
              linarith
            have h3 : 0 ≤ ∑ i, (z i - x i) ^ 2 := Finset.sum_nonneg fun i _ => sq_nonneg _
            have h4 := mul_le_mul_of_nonneg_right h2 h3
            have e1 : dot (-gr x) (z - x) = -∑ i, gr x i * (z i - x i) := by
              simp only [dot, Pi.neg_apply, Pi.sub_apply]
              rw [← Finset.sum_neg_distrib]
              exact Finset.sum_congr rfl fun i _ => by ring
            have e2 : normSq (z - x) = ∑ i, (z i - x i) ^ 2 := rfl
            unfold Accept
            rw [e1, e2]
            linarith) hs le_rfl hst
          exact ⟨a1, a3⟩
        · obtain ⟨rfl, -⟩ := pure_ok.1 hst
          exact ⟨le_rfl, le_rfl⟩
      exact ⟨hlo.1, hlo.2, hpx'⟩) _ _ _ _ h
  rw [(Logger.add_get hit).2 _ (by decide), (Logger.add_get hcv).1] at hc
  have hlt : (k : ℤ) < cfg.maxIter := by
    have h3 : decide ((k : ℤ) < cfg.maxIter) = true := by injection hc with h1; injection h1 with h1; injection h1
    exact of_decide_eq_true h3
  cases k with
  | zero => exact absurd ⟨Or.inl hn, by simpa using hlt⟩ hend
  | succ j =>
    have hfar : ¬ farApart cfg.tol (some (X j)) (X (j + 1)) := fun hf => hend ⟨hf, by simpa using hlt⟩
    simp only [farApart, not_or, not_lt] at hfar
    obtain ⟨t, hlo, hhi, hx⟩ := hsteps j (by omega)
    rw [hk] at hx hfar
    exact ⟨hfar.1, t, X j, hlo, hhi, hfar.2, hx⟩

/-- The correlations of the features with the residual of a converged plain fit are the last changes made by the proximal operator, divided by the step. -/
theorem lin_last_slope (M : LinModelCfg) (hs : M.sr3 = none) (P : LinProblem ℝ) (hn : 0 < P.n) (x0 : Option (Vec ℝ P.n)) (warm : Bool) (w : Option (Vec ℝ P.n))
    (L : ℝ) (hL : ∀ h : Vec ℝ P.n, ∑ r, (∑ j, P.a r j * h j) ^ 2 ≤ L * ∑ j, h j ^ 2) (hr : StepRule M.solver L)
    (x : Vec ℝ P.n) (Lf : Logger (PyVal ℝ P.n)) (h : linFit M P x0 warm w = .ok (x, Lf)) (hc : Lf.get "converged" = .ok (.atom (.bool true))) :
    0 ≤ M.tol ∧ ∃ (t : ℝ) (v : Vec ℝ P.n), 0 < t ∧ t ≤ M.step ∧ (M.regularizer P.n (w.getD fun _ => 1)).prox v t = .ok x ∧
      ∀ j, |(∑ r, P.a r j * (P.b r - ∑ i, P.a r i * x i)) - (v j - x j) / t| ≤ M.tol * (1 / stepFloor M.solver L + L) := by
  unfold linFit at h
  simp only [hs] at h
  obtain ⟨pr, hpr, h⟩ := except_bind_ok.1 h
  have hpr' : pr = .nonInformative := by
    unfold linOracleInstantiate at hpr
    cases hm : M.prior with
    | none => rw [hm] at hpr; cases hpr; rfl
    | gaussian params => rw [hm] at hpr; simp [gaussInstantiateArg] at hpr
  subst hpr'
  obtain ⟨⟨⟨x', Ly⟩, sy⟩, hy, h⟩ := except_bind_ok.1 h
  obtain ⟨Lz, hLz, h⟩ := except_bind_ok.1 h
  cases h
  rw [logIC_keeps _ _ _ _ hLz _ (by decide) (by decide)] at hc
  obtain ⟨hb, -⟩ := linLoss_belowParabola P.a P.b L hL
  obtain ⟨htol, t, y, hlo, hhi, hd, hx⟩ := run_last_step_ok hn (linOracle P.a P.b .nonInformative) _ (linValueFunction P.a P.b .nonInformative) (linGradientValueFunction P.a P.b .nonInformative)
    (fun x s => ⟨s, rfl⟩) (fun x s => ⟨s, rfl⟩) L hb M.solver hr _ _ _ _ _ _ hy hc
  have htol' : 0 ≤ M.tol := htol
  have hd' : ∑ j, (x' j - y j) ^ 2 ≤ M.tol ^ 2 := hd
  have hfl := stepFloor_pos hr
  have ht : 0 < t := hfl.trans_le hlo
  refine ⟨htol', t, _, ht, hhi, hx, fun j => ?_⟩
  have hg : linGradientValueFunction P.a P.b .nonInformative y j = ∑ r, P.a r j * ((∑ i, P.a r i * y i) - P.b r) := by
    show ∑ r, P.a r j * _ + 0 = _
    rw [add_zero]
    rfl
  have hyx : |y j - x' j| ≤ M.tol := by
    refine abs_le_of_sq_le_sq ?_ htol'
    refine le_trans ?_ hd'
    rw [show (y j - x' j) ^ 2 = (x' j - y j) ^ 2 by ring]
    exact Finset.single_le_sum (f := fun j => (x' j - y j) ^ 2) (fun i _ => sq_nonneg _) (Finset.mem_univ j)
  have hdiff := gram_coord_le P.a L hL (fun i => x' i - y i) M.tol htol' hd' j
  have hgr : ∑ r, P.a r j * (P.b r - ∑ i, P.a r i * x' i) = -linGradientValueFunction P.a P.b .nonInformative y j - ∑ r, P.a r j * ∑ i, P.a r i * (x' i - y i) := by
    rw [hg, ← Finset.sum_neg_distrib, ← Finset.sum_sub_distrib]
    refine Finset.sum_congr rfl fun r _ => ?_
    have e : ∑ i, P.a r i * (x' i - y i) = (∑ i, P.a r i * x' i) - ∑ i, P.a r i * y i := by
      rw [← Finset.sum_sub_distrib]
      exact Finset.sum_congr rfl fun i _ => by ring
    rw [e]
    ring
  have e2 : (y j - t * linGradientValueFunction P.a P.b .nonInformative y j - x' j) / t = (y j - x' j) / t - linGradientValueFunction P.a P.b .nonInformative y j := by
    field_simp
    ring
  rw [hgr, e2]
  have h1 : |(y j - x' j) / t| ≤ M.tol * (1 / stepFloor M.solver L) := by
    rw [abs_div, abs_of_pos ht, ← div_eq_mul_one_div]
    exact (div_le_div_of_nonneg_right hyx ht.le).trans (div_le_div_of_nonneg_left htol' hfl hlo)
  have h2 := abs_add_le (∑ r, P.a r j * ∑ i, P.a r i * (x' i - y i)) ((y j - x' j) / t)
  have e3 : -linGradientValueFunction P.a P.b .nonInformative y j - ∑ r, P.a r j * ∑ i, P.a r i * (x' i - y i) - ((y j - x' j) / t - linGradientValueFunction P.a P.b .nonInformative y j)
      = -((∑ r, P.a r j * ∑ i, P.a r i * (x' i - y i)) + (y j - x' j) / t) := by ring
  rw [e3, abs_neg]
  refine h2.trans ((add_le_add hdiff h1).trans (le_of_eq ?_))
  ring

/-! ## The proximal operators -/

theorem scadSlope_facts {rho sigma z : ℝ} (hr : 1 < rho) (hs : 0 ≤ sigma) (hz : 0 ≤ z) :
    0 ≤ scadSlope rho sigma z ∧ scadSlope rho sigma z ≤ sigma ∧ (z ≤ sigma → scadSlope rho sigma z = sigma) ∧
      (sigma ≤ z → z ≤ rho * sigma → scadSlope rho sigma z = (rho * sigma - z) / (rho - 1)) ∧ (rho * sigma < z → scadSlope rho sigma z = 0) := by
  have hr0 : 0 < rho - 1 := by linarith
  have hrs : sigma ≤ rho * sigma := by nlinarith
  unfold scadSlope
  split_ifs with h1 h2
  · exact ⟨hs, le_rfl, fun _ => rfl, fun h => absurd h1 (not_lt.2 h), fun h => by linarith⟩
  · push Not at h1
    refine ⟨div_nonneg (by linarith) hr0.le, ?_, fun h => ?_, fun _ _ => rfl, fun h => absurd h2 (not_le.2 h)⟩
    · rw [div_le_iff₀ hr0]
      linarith
    · rw [div_eq_iff hr0.ne']
      linarith
  · push Not at h1 h2
    exact ⟨le_rfl, hs, fun h => by linarith, fun _ h => absurd h (not_le.2 h2), fun _ => rfl⟩

/-- What SCAD takes off a coefficient. -/
theorem scadProx1_slope {rho sigma w ae v x : ℝ} (hr : 1 < rho) (hs : 0 ≤ sigma) (hae : 0 ≤ ae) (hlt : ae < rho - 1) (hw : w = 0 → ae = 0) (h : scadProx1 rho sigma w ae v = .ok x) :
    |v - x| ≤ sigma * ae ∧ 0 ≤ (v - x) * x ∧ (0 < |x| → |x| ≤ sigma → |v - x| = sigma * ae) ∧ (sigma ≤ |x| → |x| ≤ rho * sigma → |v - x| = ae * ((rho * sigma - |x|) / (rho - 1))) ∧
      (rho * sigma < |x| → v - x = 0) := by
  by_cases h0 : w = 0
  · have hx : v = x := by
      unfold scadProx1 at h
      rw [if_pos h0] at h
      exact Except.ok.inj h
    have ha := hw h0
    subst hx
    simp [ha]
  have key : ∀ v x : ℝ, 0 ≤ v → scadProx1 rho sigma w ae v = .ok x → 0 ≤ x ∧ 0 ≤ v - x ∧ v - x ≤ sigma * ae ∧ (0 < x → x ≤ sigma → v - x = sigma * ae) ∧
      (sigma ≤ x → x ≤ rho * sigma → v - x = ae * ((rho * sigma - x) / (rho - 1))) ∧ (rho * sigma < x → v - x = 0) := by
    intro v x hv h
    obtain ⟨z, hz, hz0, hzv, hsl⟩ := scadProx1_pos rho sigma w ae v hr hs hae hlt h0 hv
    obtain rfl : z = x := Except.ok.inj (hz.symm.trans h)
    obtain ⟨f1, f2, f3, f4, f5⟩ := scadSlope_facts (z := z) hr hs hz0
    rcases hsl with hsl | ⟨rfl, hle⟩
    · refine ⟨hz0, by linarith, ?_, fun _ h => ?_, fun ha hb => ?_, fun h => ?_⟩
      · rw [hsl, mul_comm]
        exact mul_le_mul_of_nonneg_right f2 hae
      · rw [hsl, f3 h, mul_comm]
      · rw [hsl, f4 ha hb]
      · rw [hsl, f5 h, mul_zero]
    · rw [f3 hs] at hle
      refine ⟨le_rfl, by linarith, by linarith, fun h => absurd h (lt_irrefl _), fun ha _ => ?_, fun h => ?_⟩
      · have hs0 : sigma = 0 := le_antisymm ha hs
        rw [hs0, mul_zero] at hle
        have : v = 0 := le_antisymm hle hv
        rw [this, hs0]
        simp
      · exact absurd (mul_nonneg (by linarith : 0 ≤ rho) hs) (not_le.2 h)
  rcases le_total 0 v with hv | hv
  · obtain ⟨k1, k2, k3, k4, k5, k6⟩ := key v x hv h
    rw [abs_of_nonneg k1, abs_of_nonneg k2]
    exact ⟨k3, mul_nonneg k2 k1, k4, k5, k6⟩
  · obtain ⟨k1, k2, k3, k4, k5, k6⟩ := key (-v) (-x) (by linarith) (scadProx1_neg _ _ _ _ _ _ h)
    rw [abs_of_nonpos (by linarith : x ≤ 0), abs_of_nonpos (by linarith : v - x ≤ 0)]
    have e : -v - -x = -(v - x) := by ring
    rw [e] at k2 k3 k4 k5 k6
    exact ⟨k3, by nlinarith, k4, k5, fun h => by linarith [k6 h]⟩

/-- What CAD takes off a coefficient. -/
theorem cadProx1_slope {rho w th v x : ℝ} (hth : 0 ≤ th) (hw0 : 0 ≤ w) (hw : w = 0 → th = 0) (h : (if |v| ≤ rho ∧ 0 < w then soft th v else v) = x) :
    |v - x| ≤ th ∧ 0 ≤ (v - x) * x ∧ (0 < |x| → |x| ≤ rho → |v - x| = th) ∧ (rho < |x| → v - x = 0) := by
  split_ifs at h with h1
  · obtain ⟨h1, h2⟩ := h1
    have hsh := soft_shrinks v hth
    rw [h] at hsh
    refine ⟨?_, ?_, fun hx _ => ?_, fun hx => absurd (hsh.abs_le.trans h1) (not_le.2 hx)⟩
    · rcases soft_cases v hth with ⟨a, b⟩ | ⟨a, b⟩ | ⟨a, b⟩
      · rw [h] at b
        rw [b, sub_sub_cancel, abs_of_nonneg hth]
      · rw [h] at b
        rw [b]
        ring_nf
        rw [abs_neg, abs_of_nonneg hth]
      · rw [h] at b
        rw [b, sub_zero]
        exact a
    · rcases hsh with ⟨a, b⟩ | ⟨a, b⟩
      · exact mul_nonneg (by linarith) a
      · exact mul_nonneg_of_nonpos_of_nonpos (by linarith) b
    · rcases soft_cases v hth with ⟨a, b⟩ | ⟨a, b⟩ | ⟨a, b⟩
      · rw [h] at b
        rw [b, sub_sub_cancel, abs_of_nonneg hth]
      · rw [h] at b
        rw [b]
        ring_nf
        rw [abs_neg, abs_of_nonneg hth]
      · rw [h] at b
        rw [b, abs_zero] at hx
        exact absurd hx (lt_irrefl _)
  · subst h
    refine ⟨by simpa using hth, by simp, fun hx hle => ?_, fun _ => sub_self _⟩
    have : w = 0 := by
      by_contra hne
      exact h1 ⟨hle, lt_of_le_of_ne hw0 (Ne.symm hne)⟩
    rw [hw this]
    simp

/-! ## Optimality conditions -/

/-- **C161**, optimality conditions of SCAD: a converged plain fit with SCAD (in the range of steps in which its proximal operator is exact, C06) satisfies the optimality conditions of its problem up to
`tol (1/t + L)`. The correlation of feature `j` with the residual is, up to this error, a number `s` with the sign of the coefficient and `|s|` equal to the slope of the penalty: `lam w sigma` for
coefficients up to `sigma`, `lam w (rho sigma - |x|) / (rho - 1)` between `sigma` and `rho sigma`, and zero beyond: large coefficients are not shrunk. For zero coefficients `|s| ≤ lam w sigma`. -/
theorem C161_scad (M : LinModelCfg) (hs : M.sr3 = none) (P : LinProblem ℝ) (hn : 0 < P.n) (x0 : Option (Vec ℝ P.n)) (warm : Bool) (w : Option (Vec ℝ P.n)) (rho sigma lam : ℝ)
    (hreg : M.regularizer P.n (w.getD fun _ => 1) = scadRegularizer rho sigma lam (some (w.getD fun _ => 1))) (hrho : 1 < rho) (hsig : 0 ≤ sigma) (hlam : 0 ≤ lam)
    (hw : ∀ i, 0 ≤ (w.getD fun _ => 1) i) (hstep : ∀ i, M.step * lam * (w.getD fun _ => 1) i < rho - 1)
    (L : ℝ) (hL : ∀ h : Vec ℝ P.n, ∑ r, (∑ j, P.a r j * h j) ^ 2 ≤ L * ∑ j, h j ^ 2) (hr : StepRule M.solver L)
    (x : Vec ℝ P.n) (Lf : Logger (PyVal ℝ P.n)) (h : linFit M P x0 warm w = .ok (x, Lf)) (hc : Lf.get "converged" = .ok (.atom (.bool true))) (j : Fin P.n) :
    ∃ s : ℝ, |(∑ r, P.a r j * (P.b r - ∑ i, P.a r i * x i)) - s| ≤ M.tol * (1 / stepFloor M.solver L + L) ∧ |s| ≤ lam * (w.getD fun _ => 1) j * sigma ∧ 0 ≤ s * x j ∧
      (0 < |x j| → |x j| ≤ sigma → |s| = lam * (w.getD fun _ => 1) j * sigma) ∧
      (sigma ≤ |x j| → |x j| ≤ rho * sigma → |s| = lam * (w.getD fun _ => 1) j * ((rho * sigma - |x j|) / (rho - 1))) ∧ (rho * sigma < |x j| → s = 0) := by
  obtain ⟨-, t, v, ht, htle, hpx, hsl⟩ := lin_last_slope M hs P hn x0 warm w L hL hr x Lf h hc
  rw [hreg] at hpx
  have hpj := (collect_ok_iff _ _).1 hpx j
  have hwj : 0 ≤ (w.getD fun _ => 1) j := hw j
  have he : weightsOrOnes (some (w.getD fun _ => 1)) j = (w.getD fun _ => 1) j := rfl
  rw [he] at hpj
  have hst := hstep j
  generalize (w.getD fun _ => 1) j = wj at hpj hwj hst ⊢
  have hae : 0 ≤ t * lam * wj := mul_nonneg (mul_nonneg ht.le hlam) hwj
  have hlt : t * lam * wj < rho - 1 := lt_of_le_of_lt (mul_le_mul_of_nonneg_right (mul_le_mul_of_nonneg_right htle hlam) hwj) hst
  obtain ⟨h1, h2, h3, h4, h5⟩ := scadProx1_slope hrho hsig hae hlt (fun h0 => by rw [h0, mul_zero]) hpj
  have hdiv : ∀ B, |v j - x j| = t * B → |(v j - x j) / t| = B := fun B hB => by rw [abs_div, abs_of_pos ht, hB, mul_div_cancel_left₀ _ ht.ne']
  refine ⟨(v j - x j) / t, hsl j, ?_, ?_, fun a b => hdiv _ ?_, fun a b => hdiv _ ?_, fun a => ?_⟩
  · rw [abs_div, abs_of_pos ht, div_le_iff₀ ht]
    linarith
  · rw [div_mul_eq_mul_div]
    exact div_nonneg h2 ht.le
  · rw [h3 a b]
    ring
  · rw [h4 a b]
    ring
  · rw [h5 a, zero_div]

/-- **C161**, optimality conditions of CAD: as for SCAD, with slope `lam w` for coefficients up to `rho` and zero beyond. No condition on the step other than convergence is needed. -/
theorem C161_cad (M : LinModelCfg) (hs : M.sr3 = none) (P : LinProblem ℝ) (hn : 0 < P.n) (x0 : Option (Vec ℝ P.n)) (warm : Bool) (w : Option (Vec ℝ P.n)) (rho lam : ℝ)
    (hreg : M.regularizer P.n (w.getD fun _ => 1) = cadRegularizer rho lam (some (w.getD fun _ => 1))) (hlam : 0 ≤ lam) (hw : ∀ i, 0 ≤ (w.getD fun _ => 1) i)
    (L : ℝ) (hL : ∀ h : Vec ℝ P.n, ∑ r, (∑ j, P.a r j * h j) ^ 2 ≤ L * ∑ j, h j ^ 2) (hr : StepRule M.solver L)
    (x : Vec ℝ P.n) (Lf : Logger (PyVal ℝ P.n)) (h : linFit M P x0 warm w = .ok (x, Lf)) (hc : Lf.get "converged" = .ok (.atom (.bool true))) (j : Fin P.n) :
    ∃ s : ℝ, |(∑ r, P.a r j * (P.b r - ∑ i, P.a r i * x i)) - s| ≤ M.tol * (1 / stepFloor M.solver L + L) ∧ |s| ≤ lam * (w.getD fun _ => 1) j ∧ 0 ≤ s * x j ∧
      (0 < |x j| → |x j| ≤ rho → |s| = lam * (w.getD fun _ => 1) j) ∧ (rho < |x j| → s = 0) := by
  obtain ⟨-, t, v, ht, htle, hpx, hsl⟩ := lin_last_slope M hs P hn x0 warm w L hL hr x Lf h hc
  rw [hreg] at hpx
  have hpj := congrFun (Except.ok.inj hpx) j
  have hwj : 0 ≤ (w.getD fun _ => 1) j := hw j
  generalize (w.getD fun _ => 1) j = wj at hpj hwj ⊢
  obtain ⟨h1, h2, h3, h4⟩ := cadProx1_slope (mul_nonneg (mul_nonneg hwj ht.le) hlam) hwj (fun h0 => by rw [h0, zero_mul, zero_mul]) hpj
  refine ⟨(v j - x j) / t, hsl j, ?_, ?_, fun a b => ?_, fun a => ?_⟩
  · rw [abs_div, abs_of_pos ht, div_le_iff₀ ht]
    linarith
  · rw [div_mul_eq_mul_div]
    exact div_nonneg h2 ht.le
  · rw [abs_div, abs_of_pos ht, h3 a b, div_eq_iff ht.ne']
    ring
  · rw [h4 a, zero_div]

/-! ## The true features -/

/-- Rows of the Gram matrix of nearly uncorrelated features. -/
theorem gram_row_bound {A : Matrix (Fin m) (Fin n) ℝ} {c theta : ℝ} (hc : 0 < c) (hth : 0 ≤ theta) (hdiag : ∀ j, c ≤ ∑ r, A r j ^ 2) (hoff : ∀ j k, j ≠ k → |∑ r, A r j * A r k| ≤ theta)
    (hcard : 16 * n * theta ≤ c) {d : Vec ℝ n} {B : ℝ} (hB : ∀ j, |d j| ≤ B) (j : Fin n) :
    c * |d j| ≤ |∑ k, (∑ r, A r j * A r k) * d k| + c / 16 * B ∧ (∀ σ : ℝ, σ = 1 ∨ σ = -1 → σ * d j = |d j| → c * |d j| - c / 16 * B ≤ σ * ∑ k, (∑ r, A r j * A r k) * d k) := by
  have hB0 : 0 ≤ B := (abs_nonneg _).trans (hB j)
  have e : ∑ k, (∑ r, A r j * A r k) * d k = (∑ r, A r j ^ 2) * d j + ∑ k ∈ Finset.univ.erase j, (∑ r, A r j * A r k) * d k := by
    rw [← Finset.add_sum_erase _ _ (Finset.mem_univ j)]
    congr 2
    exact Finset.sum_congr rfl fun r _ => by ring
  have h1 : |∑ k ∈ Finset.univ.erase j, (∑ r, A r j * A r k) * d k| ≤ c / 16 * B := by
    refine (Finset.abs_sum_le_sum_abs _ _).trans ?_
    have h2 : ∑ k ∈ Finset.univ.erase j, |(∑ r, A r j * A r k) * d k| ≤ ∑ _k ∈ Finset.univ.erase j, theta * B := by
      refine Finset.sum_le_sum fun k hk => ?_
      rw [abs_mul]
      exact mul_le_mul (hoff j k (Finset.ne_of_mem_erase hk).symm) (hB k) (abs_nonneg _) hth
    refine h2.trans ?_
    rw [Finset.sum_const, nsmul_eq_mul]
    have h3 : ((Finset.univ.erase j).card : ℝ) ≤ n := by
      have := Finset.card_le_card (Finset.erase_subset j (Finset.univ : Finset (Fin n)))
      rw [Finset.card_univ, Fintype.card_fin] at this
      exact_mod_cast this
    have h4 := mul_le_mul_of_nonneg_right h3 (mul_nonneg hth hB0)
    have h5 := mul_le_mul_of_nonneg_right hcard hB0
    linarith
  have hsgn : ∀ σ : ℝ, σ = 1 ∨ σ = -1 → σ * d j = |d j| → c * |d j| - c / 16 * B ≤ σ * ∑ k, (∑ r, A r j * A r k) * d k := by
    intro σ hσ hd
    rw [e, mul_add]
    have h2 : σ * ((∑ r, A r j ^ 2) * d j) = (∑ r, A r j ^ 2) * |d j| := by rw [← hd]; ring
    have h3 := mul_le_mul_of_nonneg_right (hdiag j) (abs_nonneg (d j))
    have h4 : -(c / 16 * B) ≤ σ * ∑ k ∈ Finset.univ.erase j, (∑ r, A r j * A r k) * d k := by
      have h5 := abs_le.1 h1
      rcases hσ with rfl | rfl
      · linarith [h5.1]
      · linarith [h5.2]
    linarith
  refine ⟨?_, hsgn⟩
  rcases le_total 0 (d j) with hd | hd
  · have := hsgn 1 (.inl rfl) (by rw [one_mul, abs_of_nonneg hd])
    have h2 := le_abs_self (∑ k, (∑ r, A r j * A r k) * d k)
    linarith
  · have := hsgn (-1) (.inr rfl) (by rw [abs_of_nonpos hd]; ring)
    have h2 := neg_le_abs (∑ k, (∑ r, A r j * A r k) * d k)
    linarith

/-- Differences of correlations. -/
theorem corr_sub (A : Matrix (Fin m) (Fin n) ℝ) (b : Vec ℝ m) (x z : Vec ℝ n) (j : Fin n) :
    ∑ r, A r j * (b r - ∑ i, A r i * x i) = (∑ r, A r j * (b r - ∑ i, A r i * z i)) - ∑ k, (∑ r, A r j * A r k) * (x k - z k) := by
  have h1 : ∑ k, (∑ r, A r j * A r k) * (x k - z k) = ∑ r, A r j * ∑ k, A r k * (x k - z k) := by
    simp only [Finset.sum_mul, Finset.mul_sum]
    rw [Finset.sum_comm]
    exact Finset.sum_congr rfl fun r _ => Finset.sum_congr rfl fun k _ => by ring
  rw [h1, ← Finset.sum_sub_distrib]
  refine Finset.sum_congr rfl fun r _ => ?_
  have h2 : ∑ k, A r k * (x k - z k) = ∑ k, A r k * x k - ∑ k, A r k * z k := by
    rw [← Finset.sum_sub_distrib]
    exact Finset.sum_congr rfl fun k _ => by ring
  rw [h2]
  ring

/-- If the Gram matrix maps `d` to values bounded by `K` where `d` is nonzero, then `d` is bounded by `16 K / (15 c)`. -/
theorem gram_sup_bound {A : Matrix (Fin m) (Fin n) ℝ} {c theta : ℝ} (hc : 0 < c) (hth : 0 ≤ theta) (hdiag : ∀ j, c ≤ ∑ r, A r j ^ 2) (hoff : ∀ j k, j ≠ k → |∑ r, A r j * A r k| ≤ theta)
    (hcard : 16 * n * theta ≤ c) {d : Vec ℝ n} {K : ℝ} (hK : 0 ≤ K) (hd : ∀ j, d j ≠ 0 → |∑ k, (∑ r, A r j * A r k) * d k| ≤ K) (j : Fin n) : |d j| ≤ 16 / 15 * K / c := by
  obtain ⟨j0, -, hmax⟩ := Finset.exists_max_image (Finset.univ : Finset (Fin n)) (fun j => |d j|) ⟨j, Finset.mem_univ j⟩
  refine (hmax j (Finset.mem_univ j)).trans ?_
  rw [le_div_iff₀ hc]
  by_cases h0 : d j0 = 0
  · rw [h0, abs_zero, zero_mul]
    linarith
  · have h1 := (gram_row_bound hc hth hdiag hoff hcard (fun k => hmax k (Finset.mem_univ k)) j0).1
    have h2 := hd j0 h0
    linarith

/-- The optimality conditions of a penalty with slope `Λ` up to `R₀` and no slope beyond `R₁` determine the support, and the coefficients are those of least squares on it. -/
theorem support_of_folded (A : Matrix (Fin m) (Fin n) ℝ) (b : Vec ℝ m) (Lam R0 R1 c theta delta : ℝ) (hLam : 0 ≤ Lam) (hR1 : 0 ≤ R1) (hc : 0 < c) (hth : 0 ≤ theta) (x xs : Vec ℝ n) (e : Vec ℝ m)
    (hb : ∀ r, b r = (∑ j, A r j * xs j) + e r) (S : Finset (Fin n))
    (hdiag : ∀ j, c ≤ ∑ r, A r j ^ 2) (hoff : ∀ j k, j ≠ k → |∑ r, A r j * A r k| ≤ theta) (hcard : 16 * n * theta ≤ c) (hS : ∀ j, j ∉ S → xs j = 0)
    (he : ∀ j, |∑ r, A r j * e r| + delta ≤ Lam / 2) (hR0 : 8 * Lam ≤ 5 * c * R0) (hmin : ∀ j ∈ S, R1 + 8 * Lam / (5 * c) < |xs j|)
    (hkkt : ∀ j, ∃ s : ℝ, |(∑ r, A r j * (b r - ∑ i, A r i * x i)) - s| ≤ delta ∧ |s| ≤ Lam ∧ 0 ≤ s * x j ∧ (0 < |x j| → |x j| ≤ R0 → |s| = Lam) ∧ (R1 < |x j| → s = 0)) :
    (∀ j, j ∉ S → x j = 0) ∧ (∀ j ∈ S, R1 < |x j| ∧ 0 < x j * xs j) ∧ (∀ j, |x j - xs j| ≤ 8 * Lam / (5 * c)) ∧
      ∀ z : Vec ℝ n, (∀ j, j ∉ S → z j = 0) → (∀ j ∈ S, ∑ r, A r j * (b r - ∑ i, A r i * z i) = 0) → ∀ j, |x j - z j| ≤ 16 / 15 * delta / c := by
  have hcorr : ∀ j, ∑ r, A r j * (b r - ∑ i, A r i * x i) = (∑ r, A r j * e r) - ∑ k, (∑ r, A r j * A r k) * (x k - xs k) := by
    intro j
    rw [corr_sub A b x xs j]
    congr 1
    exact Finset.sum_congr rfl fun r _ => by rw [hb r]; ring
  have hB : ∀ j, |x j - xs j| ≤ 8 * Lam / (5 * c) := by
    intro j
    have h1 := gram_sup_bound hc hth hdiag hoff hcard (d := fun k => x k - xs k) (K := 3 / 2 * Lam) (by linarith) (fun j _ => by
      obtain ⟨s, h1, h2, -⟩ := hkkt j
      rw [hcorr j] at h1
      have h3 := abs_le.1 h1
      have h4 := abs_le.1 h2
      have h5 := abs_le.1 (show |∑ r, A r j * e r| ≤ Lam / 2 - delta by linarith [he j])
      exact abs_le.2 ⟨by linarith [h3.1, h3.2], by linarith [h3.1, h3.2]⟩) j
    refine h1.trans (le_of_eq ?_)
    field_simp
    ring
  have hBR : 8 * Lam / (5 * c) ≤ R0 := by
    rw [div_le_iff₀ (by linarith)]
    linarith
  have hoffS : ∀ j, j ∉ S → x j = 0 := by
    intro j hj
    by_contra hx
    have hxs := hS j hj
    obtain ⟨s, h1, h2, h3, h4, -⟩ := hkkt j
    have hxB := hB j
    rw [hxs, sub_zero] at hxB
    have hsabs := h4 (abs_pos.2 hx) (hxB.trans hBR)
    have hrow := (gram_row_bound hc hth hdiag hoff hcard (d := fun k => x k - xs k) hB j).2
    simp only [hxs, sub_zero] at hrow
    rw [hcorr j] at h1
    have hcB : c / 16 * (8 * Lam / (5 * c)) = Lam / 10 := by
      field_simp
      ring
    rw [hcB] at hrow
    have h3' := abs_le.1 h1
    have h5 := abs_le.1 (show |∑ r, A r j * e r| ≤ Lam / 2 - delta by linarith [he j])
    have hpos : 0 < c * |x j| := mul_pos hc (abs_pos.2 hx)
    rcases lt_or_gt_of_ne hx with hneg | hpos'
    · have hs : s = -Lam := by
        have : s ≤ 0 := by
          by_contra hcon
          push Not at hcon
          have := mul_neg_of_pos_of_neg hcon hneg
          linarith
        rw [abs_of_nonpos this] at hsabs
        linarith
      have h6 := hrow (-1) (.inr rfl) (by rw [abs_of_neg hneg]; ring)
      linarith [h3'.1, h3'.2, h5.1, h5.2]
    · have hs : s = Lam := by
        have : 0 ≤ s := by
          by_contra hcon
          push Not at hcon
          have := mul_neg_of_neg_of_pos hcon hpos'
          linarith
        rwa [abs_of_nonneg this] at hsabs
      have h6 := hrow 1 (.inl rfl) (by rw [abs_of_pos hpos']; ring)
      linarith [h3'.1, h3'.2, h5.1, h5.2]
  have honS : ∀ j ∈ S, R1 < |x j| ∧ 0 < x j * xs j := by
    intro j hj
    have h1 := hmin j hj
    have h2 := abs_le.1 (hB j)
    rcases le_total 0 (xs j) with h0 | h0
    · rw [abs_of_nonneg h0] at h1
      have hx : R1 < x j := by linarith [h2.1]
      refine ⟨hx.trans_le (le_abs_self _), mul_pos (by linarith) ?_⟩
      have := (abs_nonneg _).trans (hB j)
      linarith
    · rw [abs_of_nonpos h0] at h1
      have hx : R1 < -x j := by linarith [h2.2]
      refine ⟨hx.trans_le (neg_le_abs _), mul_pos_of_neg_of_neg (by linarith) ?_⟩
      have := (abs_nonneg _).trans (hB j)
      linarith
  refine ⟨hoffS, honS, hB, fun z hz hz0 j => ?_⟩
  have hdel : 0 ≤ delta := by
    obtain ⟨s, h1, -⟩ := hkkt j
    exact (abs_nonneg _).trans h1
  refine gram_sup_bound hc hth hdiag hoff hcard (d := fun k => x k - z k) hdel (fun j hj => ?_) j
  have hjS : j ∈ S := by
    by_contra hn
    exact hj (by simp only [hoffS j hn, hz j hn, sub_zero])
  obtain ⟨s, h1, -, -, -, h5⟩ := hkkt j
  rw [h5 (honS j hjS).1, sub_zero, corr_sub A b x z j, hz0 j hjS, zero_sub, abs_neg] at h1
  exact h1

/-- **C161**, SCAD and the true features (unit weights): if the response is `A xs + e` with nearly uncorrelated features, every true coefficient is well above the threshold and the noise correlations are
at most half the penalty slope, a converged SCAD fit has exactly the true features, with the right signs, and its coefficients are (up to the tolerance) those of least squares on the true features: no
shrinkage, unlike the lasso (C151). -/
theorem C161_scad_support (M : LinModelCfg) (hs : M.sr3 = none) (P : LinProblem ℝ) (hn : 0 < P.n) (x0 : Option (Vec ℝ P.n)) (warm : Bool) (rho sigma lam : ℝ)
    (hreg : M.regularizer P.n (fun _ => 1) = scadRegularizer rho sigma lam (some fun _ => 1)) (hrho : 1 < rho) (hsig : 0 < sigma) (hlam : 0 ≤ lam) (hstep : M.step * lam < rho - 1)
    (L : ℝ) (hL : ∀ h : Vec ℝ P.n, ∑ r, (∑ j, P.a r j * h j) ^ 2 ≤ L * ∑ j, h j ^ 2) (hr : StepRule M.solver L)
    (x : Vec ℝ P.n) (Lf : Logger (PyVal ℝ P.n)) (h : linFit M P x0 warm none = .ok (x, Lf)) (hc : Lf.get "converged" = .ok (.atom (.bool true)))
    (xs : Vec ℝ P.n) (e : Vec ℝ P.m) (hb : ∀ r, P.b r = (∑ j, P.a r j * xs j) + e r) (S : Finset (Fin P.n)) (c theta : ℝ) (hc0 : 0 < c) (hth : 0 ≤ theta)
    (hdiag : ∀ j, c ≤ ∑ r, P.a r j ^ 2) (hoff : ∀ j k, j ≠ k → |∑ r, P.a r j * P.a r k| ≤ theta) (hcard : 16 * P.n * theta ≤ c) (hS : ∀ j, j ∉ S → xs j = 0)
    (he : ∀ j, |∑ r, P.a r j * e r| + M.tol * (1 / stepFloor M.solver L + L) ≤ lam * sigma / 2) (hR0 : 8 * lam ≤ 5 * c) (hmin : ∀ j ∈ S, rho * sigma + 8 * (lam * sigma) / (5 * c) < |xs j|) :
    (∀ j, x j ≠ 0 ↔ j ∈ S) ∧ (∀ j ∈ S, rho * sigma < |x j| ∧ 0 < x j * xs j) ∧
      ∀ z : Vec ℝ P.n, (∀ j, j ∉ S → z j = 0) → (∀ j ∈ S, ∑ r, P.a r j * (P.b r - ∑ i, P.a r i * z i) = 0) → ∀ j, |x j - z j| ≤ 16 / 15 * (M.tol * (1 / stepFloor M.solver L + L)) / c := by
  have hk := C161_scad M hs P hn x0 warm none rho sigma lam hreg hrho hsig.le hlam (fun _ => zero_le_one) (fun _ => by simpa using hstep) L hL hr x Lf h hc
  obtain ⟨h1, h2, -, h4⟩ := support_of_folded P.a P.b (lam * sigma) sigma (rho * sigma) c theta _ (mul_nonneg hlam hsig.le) (mul_nonneg (by linarith) hsig.le) hc0 hth x xs e hb S hdiag hoff hcard hS he
    (by nlinarith) hmin (fun j => by
      obtain ⟨s, a1, a2, a3, a4, -, a6⟩ := hk j
      simp only [Option.getD_none, mul_one] at a2 a4
      exact ⟨s, a1, a2, a3, a4, a6⟩)
  refine ⟨fun j => ⟨fun hx => ?_, fun hj hx => ?_⟩, h2, h4⟩
  · by_contra hj
    exact hx (h1 j hj)
  · have := (h2 j hj).2
    rw [hx, zero_mul] at this
    exact lt_irrefl _ this

/-- **C161**, CAD and the true features (unit weights). -/
theorem C161_cad_support (M : LinModelCfg) (hs : M.sr3 = none) (P : LinProblem ℝ) (hn : 0 < P.n) (x0 : Option (Vec ℝ P.n)) (warm : Bool) (rho lam : ℝ)
    (hreg : M.regularizer P.n (fun _ => 1) = cadRegularizer rho lam (some fun _ => 1)) (hrho : 0 ≤ rho) (hlam : 0 ≤ lam)
    (L : ℝ) (hL : ∀ h : Vec ℝ P.n, ∑ r, (∑ j, P.a r j * h j) ^ 2 ≤ L * ∑ j, h j ^ 2) (hr : StepRule M.solver L)
    (x : Vec ℝ P.n) (Lf : Logger (PyVal ℝ P.n)) (h : linFit M P x0 warm none = .ok (x, Lf)) (hc : Lf.get "converged" = .ok (.atom (.bool true)))
    (xs : Vec ℝ P.n) (e : Vec ℝ P.m) (hb : ∀ r, P.b r = (∑ j, P.a r j * xs j) + e r) (S : Finset (Fin P.n)) (c theta : ℝ) (hc0 : 0 < c) (hth : 0 ≤ theta)
    (hdiag : ∀ j, c ≤ ∑ r, P.a r j ^ 2) (hoff : ∀ j k, j ≠ k → |∑ r, P.a r j * P.a r k| ≤ theta) (hcard : 16 * P.n * theta ≤ c) (hS : ∀ j, j ∉ S → xs j = 0)
    (he : ∀ j, |∑ r, P.a r j * e r| + M.tol * (1 / stepFloor M.solver L + L) ≤ lam / 2) (hR0 : 8 * lam ≤ 5 * c * rho) (hmin : ∀ j ∈ S, rho + 8 * lam / (5 * c) < |xs j|) :
    (∀ j, x j ≠ 0 ↔ j ∈ S) ∧ (∀ j ∈ S, rho < |x j| ∧ 0 < x j * xs j) ∧
      ∀ z : Vec ℝ P.n, (∀ j, j ∉ S → z j = 0) → (∀ j ∈ S, ∑ r, P.a r j * (P.b r - ∑ i, P.a r i * z i) = 0) → ∀ j, |x j - z j| ≤ 16 / 15 * (M.tol * (1 / stepFloor M.solver L + L)) / c := by
  have hk := C161_cad M hs P hn x0 warm none rho lam hreg hlam (fun _ => zero_le_one) L hL hr x Lf h hc
  obtain ⟨h1, h2, -, h4⟩ := support_of_folded P.a P.b lam rho rho c theta _ hlam hrho hc0 hth x xs e hb S hdiag hoff hcard hS he hR0 hmin (fun j => by
      obtain ⟨s, a1, a2, a3, a4, a5⟩ := hk j
      simp only [Option.getD_none, mul_one] at a2 a4
      exact ⟨s, a1, a2, a3, a4, a5⟩)
  refine ⟨fun j => ⟨fun hx => ?_, fun hj hx => ?_⟩, h2, h4⟩
  · by_contra hj
    exact hx (h1 j hj)
  · have := (h2 j hj).2
    rw [hx, zero_mul] at this
    exact lt_irrefl _ this

/-! ## Examples -/

/-- A fit with fixed steps whose first step leads to the same point from everywhere converges, whatever the penalty. -/
theorem const_step_converges (M : LinModelCfg) (hs : M.sr3 = none) (hpr : M.prior = .none) (hk : M.loggerKind = .tuple) (hks : M.loggerKeys.Nodup) (hst : M.stepping ≠ "line-search")
    (P : LinProblem ℝ) (w : Option (Vec ℝ P.n)) (g : Vec ℝ P.n → WithTop ℝ) (hg : ∀ x, (M.regularizer P.n (w.getD fun _ => 1)).value x = .ok (g x))
    (hprox : ∀ y, ∃ z, (M.regularizer P.n (w.getD fun _ => 1)).prox y M.step = .ok z) (v : Vec ℝ P.n)
    (hv : ∀ y i, y i - M.step * linGradientValueFunction P.a P.b .nonInformative y i = v i) (htol : 0 ≤ M.tol) (hmax : 2 < M.maxIter) :
    ∃ x Lf, linFit M P none false w = .ok (x, Lf) ∧ Lf.get "converged" = .ok (.atom (.bool true)) := by
  obtain ⟨p, hp⟩ := hprox v
  obtain ⟨x, Lf, s', h⟩ := returns_fixed (linOracle P.a P.b .nonInformative) (M.regularizer P.n (w.getD fun _ => 1)) _ _ g
    (fun x s => ⟨s, rfl⟩) (fun x s => ⟨s, rfl⟩) hg M.solver hst hprox (fun _ => 1) _ (Logger.good_init M.loggerKeys hks) ()
  obtain ⟨L', hL'⟩ := logIC_ok Lf (linAic P.a P.b .nonInformative x) (linBic P.a P.b .nonInformative x)
  refine ⟨x, L', ?_, ?_⟩
  · unfold linFit
    simp only [hs, hpr, hk, linOracleInstantiate]
    exact except_bind_ok.2 ⟨_, rfl, except_bind_ok.2 ⟨_, h, except_bind_ok.2 ⟨_, hL', rfl⟩⟩⟩
  · rw [logIC_keeps _ _ _ _ hL' _ (by decide) (by decide)]
    obtain ⟨k, X, Ls, s1, L1, -, h0, hk, hcv, hit, hsteps, hguards, -⟩ := pgdOptimize_trace (linOracle P.a P.b .nonInformative) (M.regularizer P.n (w.getD fun _ => 1)) M.solver _ _ (fun _ _ x' _ => x' = p)
      (fun x it L' s x' L'' s' hbd => by
        obtain ⟨gv, s1, t, s2, hgv, hstp, hpx', -⟩ := pgdBody_ok _ _ _ _ _ _ _ _ _ _ _ hbd
        have e : gv = linGradientValueFunction P.a P.b .nonInformative x := (Prod.mk.inj (Except.ok.inj hgv)).1.symm
        unfold chooseStep at hstp
        rw [if_neg (show ¬ M.solver.stepping = "line-search" from hst)] at hstp
        obtain ⟨rfl, -⟩ := pure_ok.1 hstp
        have e2 : (fun i => x i - M.step * linGradientValueFunction P.a P.b .nonInformative x i) = v := funext fun i => hv x i
        have hpx2 : (M.regularizer P.n (w.getD fun _ => 1)).prox (fun i => x i - M.step * gv i) M.step = .ok x' := hpx'
        rw [e, e2, hp] at hpx2
        exact (Except.ok.inj hpx2).symm) _ _ _ _ h
    rw [(Logger.add_get hit).2 _ (by decide), (Logger.add_get hcv).1]
    have hk2 : k ≤ 2 := by
      by_contra hcon
      push Not at hcon
      have hgd := (hguards 2 hcon).1
      have e1 := hsteps 0 (by omega)
      have e2 := hsteps 1 (by omega)
      have hgd' : farApart M.tol (some (X 1)) (X 2) := hgd
      rw [e1, e2] at hgd'
      rcases hgd' with h3 | h3
      · exact absurd h3 (not_lt.2 htol)
      · rw [sub_self] at h3
        have h4 : normSq (0 : Vec ℝ P.n) = 0 := by simp [normSq]
        rw [h4] at h3
        exact absurd h3 (not_lt.2 (sq_nonneg _))
    have : (k : ℤ) < M.solver.maxIter := lt_of_le_of_lt (by exact_mod_cast hk2) hmax
    rw [decide_eq_true this]

/-- `LinearSCADModel(lam=0.5, rho=3.7, sigma=0.5, stepping="fixed", fixed_step_len=1)`. -/
def foldedScad : LinModelCfg := linClass (.scad (1 / 2) (37 / 10) (1 / 2)) false { stepping := "fixed", fixedStepLen := some 1 }

/-- `LinearCADModel(lam=0.25, rho=1, stepping="fixed", fixed_step_len=1)`. -/
def foldedCad : LinModelCfg := linClass (.cad (1 / 4) 1) false { stepping := "fixed", fixedStepLen := some 1 }

theorem folded_step (pen : LinPenalty) : (linClass pen false { stepping := "fixed", fixedStepLen := some 1 }).step = 1 := by norm_num [linClass, LinModelCfg.step]

theorem folded_floor (pen : LinPenalty) : stepFloor (linClass pen false { stepping := "fixed", fixedStepLen := some 1 }).solver 1 = 1 := by
  unfold stepFloor
  rw [if_neg (by show ¬ "fixed" = "line-search"; decide)]
  exact folded_step pen

theorem folded_rule (pen : LinPenalty) : StepRule (linClass pen false { stepping := "fixed", fixedStepLen := some 1 }).solver 1 := by
  have h1 : (linClass pen false { stepping := "fixed", fixedStepLen := some 1 }).solver.fixedStepLen = 1 := folded_step pen
  refine ⟨by rw [h1]; exact one_pos, one_pos, ?_⟩
  rw [if_neg (by show ¬ "fixed" = "line-search"; decide), h1]
  norm_num

theorem folded_move (pen : LinPenalty) (e y : Vec ℝ 2) (i : Fin 2) :
    y i - (linClass pen false { stepping := "fixed", fixedStepLen := some 1 }).step * linGradientValueFunction (twoProblem e).a (twoProblem e).b .nonInformative y i = (twoProblem e).b i := by
  obtain ⟨b, hb⟩ : ∃ b : Vec ℝ 2, b = (twoProblem e).b := ⟨_, rfl⟩
  have h1 : linGradientValueFunction (twoProblem e).a (twoProblem e).b .nonInformative y = (1 : Matrix (Fin 2) (Fin 2) ℝ)ᵀ *ᵥ ((1 : Matrix (Fin 2) (Fin 2) ℝ) *ᵥ y - b) + (0 : Vec ℝ 2) := by
    rw [hb]
    rfl
  rw [Matrix.transpose_one, Matrix.one_mulVec, Matrix.one_mulVec, add_zero] at h1
  have h2 : linGradientValueFunction (twoProblem e).a (twoProblem e).b .nonInformative y i = y i - b i := congrFun h1 i
  have h3 : (twoProblem e).b i = b i := (congrFun hb i).symm
  rw [h2, h3, folded_step]
  ring

/-- The design of the examples: two uncorrelated features of length one. -/
theorem folded_design (j k : Fin 2) : (1 : ℝ) ≤ ∑ r : Fin 2, (1 : Matrix (Fin 2) (Fin 2) ℝ) r j ^ 2 ∧ (j ≠ k → |∑ r : Fin 2, (1 : Matrix (Fin 2) (Fin 2) ℝ) r j * (1 : Matrix (Fin 2) (Fin 2) ℝ) r k| ≤ 0) ∧
    |∑ r : Fin 2, (1 : Matrix (Fin 2) (Fin 2) ℝ) r j * (![1 / 10, -1 / 10] : Vec ℝ 2) r| ≤ 1 / 10 := by
  have h01 : ∀ j : Fin 2, j = 0 ∨ j = 1 := by decide
  refine ⟨?_, fun hjk => ?_, ?_⟩
  · rcases h01 j with rfl | rfl <;> simp [Matrix.one_apply, Fin.sum_univ_two]
  · rcases h01 j with rfl | rfl <;> rcases h01 k with rfl | rfl
    · exact absurd rfl hjk
    · simp [Matrix.one_apply, Fin.sum_univ_two]
    · simp [Matrix.one_apply, Fin.sum_univ_two]
    · exact absurd rfl hjk
  · rcases h01 j with rfl | rfl <;> simp [Matrix.one_apply, Fin.sum_univ_two] <;> norm_num [abs_le]

/-- Least squares on the first feature. -/
theorem folded_ls (j : Fin 2) (hj : j ∈ ({0} : Finset (Fin 2))) :
    ∑ r, (twoProblem ![1 / 10, -1 / 10]).a r j * ((twoProblem ![1 / 10, -1 / 10]).b r - ∑ i, (twoProblem ![1 / 10, -1 / 10]).a r i * (![51 / 10, 0] : Vec ℝ 2) i) = 0 := by
  rw [Finset.mem_singleton.1 hj]
  show ∑ r : Fin 2, (1 : Matrix (Fin 2) (Fin 2) ℝ) r 0 * (((∑ j : Fin 2, (1 : Matrix (Fin 2) (Fin 2) ℝ) r j * (![5, 0] : Vec ℝ 2) j) + (![1 / 10, -1 / 10] : Vec ℝ 2) r) -
    ∑ i : Fin 2, (1 : Matrix (Fin 2) (Fin 2) ℝ) r i * (![51 / 10, 0] : Vec ℝ 2) i) = 0
  simp [Matrix.one_apply, Fin.sum_univ_two]
  norm_num

/-- Non-vacuity of C161 for SCAD: two features of which one matters, errors `(1/10, -1/10)`, all other arguments by default: the fit converges, drops the second feature and gives the first the coefficient
`51/10` of least squares up to `10⁻⁴`; the lasso of the same slope would give `51/10 - 1/4`. -/
example : ∃ (x : Vec ℝ 2) (Lf : Logger (PyVal ℝ 2)), linFit foldedScad (twoProblem ![1 / 10, -1 / 10]) none false none = .ok (x, Lf) ∧
    Lf.get "converged" = .ok (.atom (.bool true)) ∧ x 1 = 0 ∧ |x 0 - 51 / 10| ≤ 1 / 10 ^ 4 := by
  have hL : ∀ h : Vec ℝ 2, ∑ r, (∑ j, (1 : Matrix (Fin 2) (Fin 2) ℝ) r j * h j) ^ 2 ≤ 1 * ∑ j, h j ^ 2 := fun h => ((two_design h).trans (one_mul _).symm).le
  obtain ⟨x, Lf, h, hc⟩ := const_step_converges foldedScad rfl rfl rfl (by simp [foldedScad, linClass]) (by show "fixed" ≠ "line-search"; decide) (twoProblem ![1 / 10, -1 / 10]) none _ (fun _ => rfl)
    (fun y => by
      obtain ⟨g, -, z, hz, -⟩ := (C06_scad_exact_partial (37 / 10) (1 / 2) (1 / 2) 1 (some fun _ => 1) (y : Vec ℝ 2) (by norm_num) (by norm_num) (by norm_num) one_pos.le (fun _ => zero_le_one) (fun _ => by show (1 : ℝ) * (1 / 2) * 1 < _; norm_num)).1
      exact ⟨z, by rw [show foldedScad.step = 1 from folded_step _]; exact hz⟩) (twoProblem ![1 / 10, -1 / 10]).b (fun y i => folded_move _ _ y i) (by show (0 : ℝ) ≤ 1 / 10 ^ 5; norm_num) (by show (2 : ℤ) < 1000; norm_num)
  obtain ⟨h1, h2, h3⟩ := C161_scad_support foldedScad rfl (twoProblem ![1 / 10, -1 / 10]) two_pos none false (37 / 10) (1 / 2) (1 / 2) rfl (by norm_num) (by norm_num) (by norm_num)
    (by rw [show foldedScad.step = 1 from folded_step _]; norm_num) 1 hL (folded_rule _) x Lf h hc ![5, 0] ![1 / 10, -1 / 10] (fun r => rfl) {(0 : Fin 2)} 1 0 one_pos le_rfl (fun j => (folded_design j j).1)
    (fun j k hjk => (folded_design j k).2.1 hjk) (by norm_num) (fun j hj => by
      have h01 : ∀ j : Fin 2, j = 0 ∨ j = 1 := by decide
      rcases h01 j with rfl | rfl
      · exact absurd (Finset.mem_singleton_self _) hj
      · rfl) (fun j => by
      have h4 := (folded_design j j).2.2
      rw [show stepFloor foldedScad.solver 1 = 1 from folded_floor _]
      show |∑ r : Fin 2, (1 : Matrix (Fin 2) (Fin 2) ℝ) r j * (![1 / 10, -1 / 10] : Vec ℝ 2) r| + 1 / 10 ^ 5 * (1 / 1 + 1) ≤ _
      norm_num at h4 ⊢
      linarith) (by norm_num) (fun j hj => by
      rw [Finset.mem_singleton.1 hj]
      show (37 / 10 * (1 / 2) + 8 * (1 / 2 * (1 / 2)) / (5 * 1) : ℝ) < |(5 : ℝ)|
      norm_num)
  refine ⟨x, Lf, h, hc, ?_, ?_⟩
  · by_contra hne
    exact absurd (Finset.mem_singleton.1 ((h1 (1 : Fin 2)).1 hne)) (show ¬ (1 : Fin 2) = 0 by decide)
  · have h4 := h3 ![51 / 10, 0] (fun j hj => by
      have h01 : ∀ j : Fin 2, j = 0 ∨ j = 1 := by decide
      rcases h01 j with rfl | rfl
      · exact absurd (Finset.mem_singleton_self _) hj
      · rfl) folded_ls (0 : Fin 2)
    rw [show stepFloor foldedScad.solver 1 = 1 from folded_floor _] at h4
    have h5 : |x (0 : Fin 2) - 51 / 10| ≤ 16 / 15 * (1 / 10 ^ 5 * (1 / 1 + 1)) / 1 := h4
    norm_num at h5 ⊢
    linarith

/-- Non-vacuity of C161 for CAD, on the same data. -/
example : ∃ (x : Vec ℝ 2) (Lf : Logger (PyVal ℝ 2)), linFit foldedCad (twoProblem ![1 / 10, -1 / 10]) none false none = .ok (x, Lf) ∧
    Lf.get "converged" = .ok (.atom (.bool true)) ∧ x 1 = 0 ∧ |x 0 - 51 / 10| ≤ 1 / 10 ^ 4 := by
  have hL : ∀ h : Vec ℝ 2, ∑ r, (∑ j, (1 : Matrix (Fin 2) (Fin 2) ℝ) r j * h j) ^ 2 ≤ 1 * ∑ j, h j ^ 2 := fun h => ((two_design h).trans (one_mul _).symm).le
  obtain ⟨x, Lf, h, hc⟩ := const_step_converges foldedCad rfl rfl rfl (by simp [foldedCad, linClass]) (by show "fixed" ≠ "line-search"; decide) (twoProblem ![1 / 10, -1 / 10]) none _ (fun _ => rfl)
    (fun y => ⟨_, rfl⟩) (twoProblem ![1 / 10, -1 / 10]).b (fun y i => folded_move _ _ y i) (by show (0 : ℝ) ≤ 1 / 10 ^ 5; norm_num) (by show (2 : ℤ) < 1000; norm_num)
  obtain ⟨h1, h2, h3⟩ := C161_cad_support foldedCad rfl (twoProblem ![1 / 10, -1 / 10]) two_pos none false 1 (1 / 4) rfl zero_le_one (by norm_num)
    1 hL (folded_rule _) x Lf h hc ![5, 0] ![1 / 10, -1 / 10] (fun r => rfl) {(0 : Fin 2)} 1 0 one_pos le_rfl (fun j => (folded_design j j).1)
    (fun j k hjk => (folded_design j k).2.1 hjk) (by norm_num) (fun j hj => by
      have h01 : ∀ j : Fin 2, j = 0 ∨ j = 1 := by decide
      rcases h01 j with rfl | rfl
      · exact absurd (Finset.mem_singleton_self _) hj
      · rfl) (fun j => by
      have h4 := (folded_design j j).2.2
      rw [show stepFloor foldedCad.solver 1 = 1 from folded_floor _]
      show |∑ r : Fin 2, (1 : Matrix (Fin 2) (Fin 2) ℝ) r j * (![1 / 10, -1 / 10] : Vec ℝ 2) r| + 1 / 10 ^ 5 * (1 / 1 + 1) ≤ _
      norm_num at h4 ⊢
      linarith) (by norm_num) (fun j hj => by
      rw [Finset.mem_singleton.1 hj]
      show (1 + 8 * (1 / 4) / (5 * 1) : ℝ) < |(5 : ℝ)|
      norm_num)
  refine ⟨x, Lf, h, hc, ?_, ?_⟩
  · by_contra hne
    exact absurd (Finset.mem_singleton.1 ((h1 (1 : Fin 2)).1 hne)) (show ¬ (1 : Fin 2) = 0 by decide)
  · have h4 := h3 ![51 / 10, 0] (fun j hj => by
      have h01 : ∀ j : Fin 2, j = 0 ∨ j = 1 := by decide
      rcases h01 j with rfl | rfl
      · exact absurd (Finset.mem_singleton_self _) hj
      · rfl) folded_ls (0 : Fin 2)
    rw [show stepFloor foldedCad.solver 1 = 1 from folded_floor _] at h4
    have h5 : |x (0 : Fin 2) - 51 / 10| ≤ 16 / 15 * (1 / 10 ^ 5 * (1 / 1 + 1)) / 1 := h4
    norm_num at h5 ⊢
    linarith

end

end Verif
