import Verif.Props.LinSr3Stat
import Verif.Model.LinClasses

/-!
# Linear fits with the L0 penalty (C153, C154)
-/

open Matrix

namespace Verif

noncomputable section

variable {m n : ℕ}

/-! ## The proximal operator -/

/-- A regularizer whose proximal operator keeps the `k` entries of largest absolute value. -/
def KeepsLargest (k : ℕ) (R : Regularizer ℝ n) (prox : Vec ℝ n → ℝ → Vec ℝ n) : Prop :=
  ∀ y t, R.prox y t = .ok (prox y t) ∧
    (∃ T : Finset (Fin n), T.card = min k n ∧ (∀ i ∈ T, prox y t i = y i) ∧ (∀ i ∉ T, prox y t i = 0) ∧ ∀ i ∈ T, ∀ j ∉ T, |y j| ≤ |y i|) ∧
    ∀ u : Vec ℝ n, numNonzero u ≤ k → ∑ i, (prox y t i - y i) ^ 2 ≤ ∑ i, (u i - y i) ^ 2

/-- The regularizer of `LinearL0Model(nnz=k)` keeps the `k` largest entries if no weight is zero (the default weights are ones). -/
theorem l0_keepsLargest (k : ℕ) (as : ArgSort (Fin n) ℝ) (ws : L0Weights ℝ n) (hw : ∀ i, ws.w i ≠ 0) :
    KeepsLargest k (l0Regularizer (some (k : ℤ)) as (some ws)) fun y _ => maskedKMax (participation ws.w) ws.as y k := by
  classical
  have hpart : ∀ i, participation ws.w i = true := fun i => by simp [participation, hw i]
  have hcard0 : Fintype.card {i // participation ws.w i = false} = 0 := by
    rw [Fintype.card_eq_zero_iff]
    exact ⟨fun i => by have h1 := i.2; rw [hpart] at h1; cases h1⟩
  have hcard : Fintype.card {i // participation ws.w i = true} = n := by
    rw [Fintype.card_congr (Equiv.subtypeUnivEquiv hpart), Fintype.card_fin]
  have hb : ∀ (y : Vec ℝ n) (i : Fin n), maskedKMax (participation ws.w) ws.as y k i = takeOnlyKMax ws.as (fun j => y j.1) k ⟨i, hpart i⟩ := fun y i => by
    unfold maskedKMax
    rw [dif_pos (hpart i), hcard0, Nat.cast_zero, sub_zero]
  intro y t
  refine ⟨rfl, ⟨(keptSet ws.as (fun j => y j.1) k).map ⟨Subtype.val, Subtype.val_injective⟩, ?_, fun i hi => ?_, fun i hi => ?_, fun i hi j hj => ?_⟩, fun u hu => ?_⟩
  · rw [Finset.card_map, keptSet_card, hcard, Int.toNat_natCast]
  · obtain ⟨i', hi', rfl⟩ := Finset.mem_map.1 hi
    show maskedKMax _ _ _ _ _ = _
    rw [hb, takeOnlyKMax_eq, if_pos]
    exact hi'
  · show maskedKMax _ _ _ _ _ = _
    rw [hb, takeOnlyKMax_eq, if_neg]
    intro h1
    exact hi (Finset.mem_map.2 ⟨_, h1, rfl⟩)
  · obtain ⟨i', hi', rfl⟩ := Finset.mem_map.1 hi
    exact keptSet_dom ws.as (fun j => y j.1) k hi' (j := ⟨j, hpart j⟩) fun h1 => hj (Finset.mem_map.2 ⟨_, h1, rfl⟩)
  · obtain ⟨b, hb1, -, -, -, -, hbest⟩ := C02_l0_prox_weights (k : ℤ) as ws y t
    have hb2 : maskedKMax (participation ws.w) ws.as y k = b := Except.ok.inj hb1
    show ∑ i, (maskedKMax (participation ws.w) ws.as y k i - y i) ^ 2 ≤ _
    rw [hb2]
    refine hbest u (fun i hi => absurd hi (hw i)) ?_
    have h0 : {i | ws.w i = 0} = ∅ := by ext i; simp [hw i]
    have h1 : {i | ws.w i ≠ 0 ∧ u i ≠ 0} = {i | u i ≠ 0} := by ext i; simp [hw i]
    rw [h0, h1, Set.ncard_empty, Nat.cast_zero, sub_zero]
    refine le_max_of_le_left ?_
    exact_mod_cast hu

/-! ## Optimality conditions -/

/-- **C153**, optimality conditions of hard thresholding: a converged plain fit with the L0 penalty has a set `T` of `min(k, n)` features such that the coefficients vanish outside `T`, the correlations of the
features in `T` with the residual are zero up to `tol (1/t + L)`, and those of the others are at most the smallest coefficient in `T` divided by the step length, up to the same error. -/
theorem C153_stationary (M : LinModelCfg) (hs : M.sr3 = none) (P : LinProblem ℝ) (hn : 0 < P.n) (x0 : Option (Vec ℝ P.n)) (warm : Bool) (w : Option (Vec ℝ P.n))
    (k : ℕ) (prox : Vec ℝ P.n → ℝ → Vec ℝ P.n) (hreg : KeepsLargest k (M.regularizer P.n (w.getD fun _ => 1)) prox)
    (L : ℝ) (hL : ∀ h : Vec ℝ P.n, ∑ r, (∑ j, P.a r j * h j) ^ 2 ≤ L * ∑ j, h j ^ 2) (hr : StepRule M.solver L)
    (x : Vec ℝ P.n) (Lf : Logger (PyVal ℝ P.n)) (h : linFit M P x0 warm w = .ok (x, Lf)) (hc : Lf.get "converged" = .ok (.atom (.bool true))) :
    0 ≤ M.tol ∧ ∃ T : Finset (Fin P.n), T.card = min k P.n ∧ (∀ j ∉ T, x j = 0) ∧
      (∀ j ∈ T, |∑ r, P.a r j * (P.b r - ∑ i, P.a r i * x i)| ≤ M.tol * (1 / stepFloor M.solver L + L)) ∧
      ∀ i ∈ T, ∀ j ∉ T, |∑ r, P.a r j * (P.b r - ∑ i, P.a r i * x i)| ≤ |x i| / stepFloor M.solver L + M.tol * (1 / stepFloor M.solver L + L) := by
  unfold linFit at h
  simp only [hs] at h
  obtain ⟨pr, hpr, h⟩ := except_bind_ok.1 h
  have hpr' : pr = .nonInformative := by
    unfold linOracleInstantiate at hpr
    cases hm : M.prior with
    | none => rw [hm] at hpr; cases hpr; rfl
    | gaussian params => rw [hm] at hpr; simp [gaussInstantiateArg] at hpr
  subst hpr'
  obtain ⟨⟨⟨x', Ly⟩, sy⟩, hy, h⟩ := except_bind_ok.1 h
  obtain ⟨Lz, hLz, h⟩ := except_bind_ok.1 h
  cases h
  rw [logIC_keeps _ _ _ _ hLz _ (by decide) (by decide)] at hc
  obtain ⟨hb, -⟩ := linLoss_belowParabola P.a P.b L hL
  obtain ⟨htol, t, y, hlo, hd, hx⟩ := run_last_step_prox hn (linOracle P.a P.b .nonInformative) _ (linValueFunction P.a P.b .nonInformative) (linGradientValueFunction P.a P.b .nonInformative)
    (fun x s => ⟨s, rfl⟩) (fun x s => ⟨s, rfl⟩) L hb prox (fun y t => (hreg y t).1) M.solver hr _ _ _ _ _ _ hy hc
  have htol' : 0 ≤ M.tol := htol
  have hd' : ∑ j, (x' j - y j) ^ 2 ≤ M.tol ^ 2 := hd
  have hfl := stepFloor_pos hr
  have ht : 0 < t := hfl.trans_le hlo
  have hg : ∀ j, linGradientValueFunction P.a P.b .nonInformative y j = ∑ r, P.a r j * ((∑ i, P.a r i * y i) - P.b r) := fun j => by
    show ∑ r, P.a r j * _ + 0 = _
    rw [add_zero]
    rfl
  obtain ⟨T, hT, h1, h2, h3⟩ := (hreg (fun i => y i - t * linGradientValueFunction P.a P.b .nonInformative y i) t).2.1
  rw [← hx] at h1 h2
  have hyx : ∀ j, |y j - x' j| ≤ M.tol := fun j => by
    refine abs_le_of_sq_le_sq ?_ htol'
    refine le_trans ?_ hd'
    rw [show (y j - x' j) ^ 2 = (x' j - y j) ^ 2 by ring]
    exact Finset.single_le_sum (f := fun j => (x' j - y j) ^ 2) (fun i _ => sq_nonneg _) (Finset.mem_univ j)
  have hdiff : ∀ j, |∑ r, P.a r j * ∑ i, P.a r i * (x' i - y i)| ≤ L * M.tol := fun j => gram_coord_le P.a L hL (fun i => x' i - y i) M.tol htol' hd' j
  have hgr : ∀ j, ∑ r, P.a r j * (P.b r - ∑ i, P.a r i * x' i) = -linGradientValueFunction P.a P.b .nonInformative y j - ∑ r, P.a r j * ∑ i, P.a r i * (x' i - y i) := fun j => by
    rw [hg, ← Finset.sum_neg_distrib, ← Finset.sum_sub_distrib]
    refine Finset.sum_congr rfl fun r _ => ?_
    have e : ∑ i, P.a r i * (x' i - y i) = (∑ i, P.a r i * x' i) - ∑ i, P.a r i * y i := by
      rw [← Finset.sum_sub_distrib]
      exact Finset.sum_congr rfl fun i _ => by ring
    rw [e]
    ring
  have hfin : ∀ j B, 0 ≤ B → |t * linGradientValueFunction P.a P.b .nonInformative y j| ≤ B + M.tol →
      |∑ r, P.a r j * (P.b r - ∑ i, P.a r i * x' i)| ≤ B / stepFloor M.solver L + M.tol * (1 / stepFloor M.solver L + L) := fun j B hB h4 => by
    have h5 : |linGradientValueFunction P.a P.b .nonInformative y j| ≤ (B + M.tol) / stepFloor M.solver L := by
      rw [abs_mul, abs_of_pos ht] at h4
      rw [le_div_iff₀ hfl]
      refine le_trans ?_ h4
      rw [mul_comm]
      exact mul_le_mul_of_nonneg_right hlo (abs_nonneg _)
    rw [hgr]
    have h6 := abs_sub (-linGradientValueFunction P.a P.b .nonInformative y j) (∑ r, P.a r j * ∑ i, P.a r i * (x' i - y i))
    rw [abs_neg] at h6
    refine h6.trans ((add_le_add h5 (hdiff j)).trans (le_of_eq ?_))
    ring
  refine ⟨htol', T, hT, h2, fun j hj => ?_, fun i hi j hj => ?_⟩
  · have h4 := hfin j 0 le_rfl (by
      have e : t * linGradientValueFunction P.a P.b .nonInformative y j = y j - x' j := by
        have h5 : x' j = _ := h1 j hj
        rw [h5]; ring
      rw [e, zero_add]
      exact hyx j)
    rw [zero_div, zero_add] at h4
    exact h4
  · refine hfin j |x' i| (abs_nonneg _) ?_
    have h4 := h3 i hi j hj
    have h5 : x' i = _ := h1 i hi
    rw [← h5] at h4
    have h6 := hyx j
    have h7 : x' j = 0 := h2 j hj
    rw [h7, sub_zero] at h6
    have h8 := abs_sub (y j) (y j - t * linGradientValueFunction P.a P.b .nonInformative y j)
    rw [sub_sub_cancel] at h8
    linarith

/-! ## Support -/

theorem support_of_threshold (A : Matrix (Fin m) (Fin n) ℝ) (c theta Q t : ℝ) (hc : 0 < c) (hth : 0 ≤ theta) (ht : 0 < t) (x xs eps : Vec ℝ n) (S T : Finset (Fin n))
    (hdiag : ∀ j, c ≤ ∑ r, A r j ^ 2) (hoff : ∀ j k, j ≠ k → |∑ r, A r j * A r k| ≤ theta) (hS : ∀ j, j ∉ S → xs j = 0) (hT : ∀ j, j ∉ T → x j = 0) (hST : S.card ≤ T.card)
    (hcard : 16 * T.card * theta * (1 + 1 / (c * t)) ≤ c) (delta : ℝ) (hdelta : 0 ≤ delta) (heps : ∀ j, |eps j| + delta ≤ Q)
    (hin : ∀ j ∈ T, |eps j - ∑ k, (∑ r, A r j * A r k) * (x k - xs k)| ≤ delta)
    (hout : ∀ i ∈ T, ∀ j ∉ T, |eps j - ∑ k, (∑ r, A r j * A r k) * (x k - xs k)| ≤ |x i| / t + delta)
    (hmin : ∀ j ∈ S, 8 / 7 * (1 + 1 / (c * t)) * Q / c < |xs j|) :
    S ⊆ T ∧ ∀ j, |x j - xs j| ≤ 16 / 15 * Q / c := by
  classical
  have hQ : ∀ _ : Fin n, 0 ≤ Q := fun j => (add_nonneg (abs_nonneg _) hdelta).trans (heps j)
  obtain ⟨d, hd⟩ : ∃ d : Vec ℝ n, d = fun j => x j - xs j := ⟨_, rfl⟩
  have hd' : ∀ j, x j - xs j = d j := fun j => by rw [hd]
  obtain ⟨G, hG⟩ : ∃ G : Fin n → Fin n → ℝ, G = fun j k => ∑ r, A r j * A r k := ⟨_, rfl⟩
  have hG' : ∀ j k, ∑ r, A r j * A r k = G j k := fun j k => by rw [hG]
  simp only [hd', hG'] at hin hout hoff ⊢
  have hdG : ∀ j, c ≤ G j j := fun j => by
    rw [← hG']
    exact (hdiag j).trans (le_of_eq (Finset.sum_congr rfl fun r _ => pow_two _))
  obtain ⟨D, hD⟩ : ∃ D, D = ∑ j, |d j| := ⟨_, rfl⟩
  have hD0 : 0 ≤ D := by rw [hD]; exact Finset.sum_nonneg fun j _ => abs_nonneg _
  obtain ⟨rho, hrho⟩ : ∃ rho, rho = 1 / (c * t) := ⟨_, rfl⟩
  have hrho0 : 0 < rho := by rw [hrho]; positivity
  have hrt : ∀ a, a / t = rho * (c * a) := fun a => by rw [hrho]; field_simp
  rw [← hrho] at hcard hmin
  simp only [hrt] at hout
  have hrow : ∀ j, c * |d j| ≤ |∑ k, G j k * d k| + theta * D := fun j => by
    have e : ∑ k, G j k * d k = G j j * d j + ∑ k ∈ Finset.univ.erase j, G j k * d k := (Finset.add_sum_erase _ _ (Finset.mem_univ j)).symm
    have h1 : |∑ k ∈ Finset.univ.erase j, G j k * d k| ≤ theta * D := by
      refine (Finset.abs_sum_le_sum_abs _ _).trans ?_
      rw [hD, Finset.mul_sum]
      refine (Finset.sum_le_sum fun k hk => ?_).trans (Finset.sum_le_sum_of_subset_of_nonneg (Finset.erase_subset j _) fun k _ _ => mul_nonneg hth (abs_nonneg _))
      rw [abs_mul]
      exact mul_le_mul_of_nonneg_right (hoff j k (Finset.ne_of_mem_erase hk).symm) (abs_nonneg _)
    have h2 : c * |d j| ≤ |G j j * d j| := by
      rw [abs_mul, abs_of_pos (hc.trans_le (hdG j))]
      exact mul_le_mul_of_nonneg_right (hdG j) (abs_nonneg _)
    have h3 : G j j * d j = (∑ k, G j k * d k) - ∑ k ∈ Finset.univ.erase j, G j k * d k := by rw [e]; ring
    rw [h3] at h2
    have h4 := abs_sub (∑ k, G j k * d k) (∑ k ∈ Finset.univ.erase j, G j k * d k)
    linarith
  have hnoise : ∀ j B, |eps j - ∑ k, G j k * d k| ≤ B + delta → |∑ k, G j k * d k| ≤ B + Q := fun j B h1 => by
    have h2 := abs_sub (eps j) (eps j - ∑ k, G j k * d k)
    rw [sub_sub_cancel] at h2
    linarith [heps j]
  have hTrow : ∀ j ∈ T, c * |d j| ≤ Q + theta * D := fun j hj => by
    have h1 := hnoise j 0 (by rw [zero_add]; exact hin j hj)
    rw [zero_add] at h1
    linarith [hrow j]
  obtain ⟨X, hX0, hXS, hXb⟩ : ∃ X, 0 ≤ X ∧ (∀ j ∈ S \ T, |d j| ≤ X) ∧ c * X ≤ (1 + rho) * (max Q 0 + theta * D) ∧ (S \ T ≠ ∅ → ∃ j ∈ S, X = |xs j|) ∧ (S \ T = ∅ → X = 0) := by
    rcases (S \ T).eq_empty_or_nonempty with h0 | h0
    · refine ⟨0, le_rfl, fun j hj => by rw [h0] at hj; exact absurd hj (Finset.notMem_empty _), ?_, fun h1 => absurd h0 h1, fun _ => rfl⟩
      rw [mul_zero]
      have := le_max_right Q 0
      positivity
    · obtain ⟨j, hj, hmax⟩ := Finset.exists_max_image (S \ T) (fun j => |d j|) h0
      obtain ⟨hjS, hjT⟩ := Finset.mem_sdiff.1 hj
      have hdj : d j = -xs j := by rw [← hd', hT j hjT, zero_sub]
      refine ⟨|d j|, abs_nonneg _, hmax, ?_, fun _ => ⟨j, hjS, by rw [hdj, abs_neg]⟩, fun h1 => absurd h1 h0.ne_empty⟩
      have hne : (T \ S).Nonempty := by
        rw [← Finset.card_pos]
        have h1 := Finset.card_sdiff_add_card_inter S T
        have h2 := Finset.card_sdiff_add_card_inter T S
        have h3 := Finset.card_pos.2 h0
        rw [Finset.inter_comm] at h2
        omega
      obtain ⟨i, hi⟩ := hne
      obtain ⟨hiT, hiS⟩ := Finset.mem_sdiff.1 hi
      have h1 := hnoise j _ (hout i hiT j hjT)
      have h2 := hrow j
      have h3 := hTrow i hiT
      have h4 : d i = x i := by rw [← hd', hS i hiS, sub_zero]
      rw [h4] at h3
      have h5 := mul_le_mul_of_nonneg_left h3 hrho0.le
      have h6 := mul_le_mul_of_nonneg_left (le_max_left Q 0) (by positivity : (0 : ℝ) ≤ 1 + rho)
      linarith
  have hDle : c * D ≤ T.card * (Q + theta * D) + T.card * (c * X) := by
    have h1 : D ≤ ∑ j ∈ T, |d j| + ∑ j ∈ S \ T, |d j| := by
      rw [hD, ← Finset.sum_union (Finset.disjoint_sdiff)]
      refine le_of_eq (Finset.sum_subset (Finset.subset_univ _) fun j _ hj => ?_).symm
      rw [Finset.union_sdiff_self_eq_union, Finset.mem_union, not_or] at hj
      rw [← hd', hT j hj.1, hS j hj.2, sub_zero, abs_zero]
    have h2 : c * ∑ j ∈ T, |d j| ≤ T.card * (Q + theta * D) := by
      rw [Finset.mul_sum]
      refine (Finset.sum_le_sum hTrow).trans (le_of_eq ?_)
      rw [Finset.sum_const, nsmul_eq_mul]
    have h3 : ∑ j ∈ S \ T, |d j| ≤ T.card * X := by
      refine (Finset.sum_le_sum hXS).trans ?_
      rw [Finset.sum_const, nsmul_eq_mul]
      refine mul_le_mul_of_nonneg_right ?_ hX0
      exact_mod_cast (Finset.card_le_card Finset.sdiff_subset).trans hST
    have h4 := mul_le_mul_of_nonneg_left h1 hc.le
    have h5 := mul_le_mul_of_nonneg_left h3 hc.le
    linarith
  -- `u = |T| theta`
  obtain ⟨u, hu⟩ : ∃ u, u = T.card * theta := ⟨_, rfl⟩
  have hu0 : 0 ≤ u := by rw [hu]; positivity
  have hu1 : 16 * (u * (1 + rho)) ≤ c := by rw [hu]; linarith
  have hu2 : 16 * u ≤ c := by
    have := mul_nonneg hu0 hrho0.le
    linarith
  have hQ0 : 0 ≤ max Q 0 := le_max_right _ _
  have hthD : c * (theta * D) ≤ u * (max Q 0 + theta * D) + u * (c * X) := by
    have h1 := mul_le_mul_of_nonneg_left hDle hth
    have h2 := mul_le_mul_of_nonneg_left (le_max_left Q 0) hu0
    have e : theta * (T.card * (Q + theta * D) + T.card * (c * X)) = u * (Q + theta * D) + u * (c * X) := by rw [hu]; ring
    rw [e] at h1
    linarith
  have hv0 : 0 ≤ theta * D := mul_nonneg hth hD0
  obtain ⟨v, hv⟩ : ∃ v, v = theta * D := ⟨_, rfl⟩
  rw [← hv] at hthD hv0 hXb hTrow
  have hcv : 15 * (c * v) ≤ 16 * (u * (max Q 0 + c * X)) := by
    have h1 := mul_le_mul_of_nonneg_right hu2 hv0
    linarith
  have hcv1 : 15 * ((1 + rho) * v) ≤ max Q 0 + c * X := by
    have h1 : 0 ≤ max Q 0 + c * X := by positivity
    have h2 := mul_le_mul_of_nonneg_right hu1 h1
    have h3 := mul_le_mul_of_nonneg_left hcv (by positivity : (0 : ℝ) ≤ 1 + rho)
    have h4 : c * (15 * ((1 + rho) * v)) ≤ c * (max Q 0 + c * X) := by linarith
    exact le_of_mul_le_mul_left h4 hc
  have hXle : c * X ≤ 8 / 7 * (1 + rho) * max Q 0 := by
    have h1 := mul_nonneg hrho0.le hQ0
    have h2 := hXb.1
    linarith
  have hsub : S \ T = ∅ := by
    by_contra hne
    obtain ⟨j, hjS, hj⟩ := hXb.2.1 hne
    have h1 := hmin j hjS
    rw [div_lt_iff₀ hc, ← hj] at h1
    rw [max_eq_left (hQ j)] at hXle
    linarith
  refine ⟨Finset.sdiff_eq_empty_iff_subset.1 hsub, fun j => ?_⟩
  rw [le_div_iff₀ hc]
  rw [hXb.2.2 hsub, mul_zero, add_zero, max_eq_left (hQ j)] at hcv1
  have h1 := mul_nonneg hrho0.le hv0
  by_cases hj : j ∈ T
  · have := hTrow j hj
    linarith
  · have hjS : j ∉ S := fun h => hj (Finset.sdiff_eq_empty_iff_subset.1 hsub h)
    rw [← hd', hT j hj, hS j hjS, sub_zero, abs_zero, zero_mul]
    have := hQ j
    positivity

/-- **C153**, support: data `b = A x* + e` with true features `S`, at most `k` of them, and nearly uncorrelated features: if the true coefficients are large compared with the correlations of the features with
`e` and the accuracy of the solver, a converged plain fit with the L0 penalty selects all true features, whatever the starting point, and misses the true coefficients by at most `(16/15) Q / c`; with
`k = |S|` it selects no other feature. -/
theorem C153_support (M : LinModelCfg) (hs : M.sr3 = none) (P : LinProblem ℝ) (hn : 0 < P.n) (x0 : Option (Vec ℝ P.n)) (warm : Bool) (w : Option (Vec ℝ P.n))
    (k : ℕ) (hk : k ≤ P.n) (prox : Vec ℝ P.n → ℝ → Vec ℝ P.n) (hreg : KeepsLargest k (M.regularizer P.n (w.getD fun _ => 1)) prox)
    (L : ℝ) (hL : ∀ h : Vec ℝ P.n, ∑ r, (∑ j, P.a r j * h j) ^ 2 ≤ L * ∑ j, h j ^ 2) (hr : StepRule M.solver L)
    (x : Vec ℝ P.n) (Lf : Logger (PyVal ℝ P.n)) (h : linFit M P x0 warm w = .ok (x, Lf)) (hc : Lf.get "converged" = .ok (.atom (.bool true)))
    (xs : Vec ℝ P.n) (e : Vec ℝ P.m) (hb : ∀ r, P.b r = (∑ j, P.a r j * xs j) + e r) (S : Finset (Fin P.n)) (hS : ∀ j, j ∉ S → xs j = 0) (hSk : S.card ≤ k)
    (c theta Q : ℝ) (hcp : 0 < c) (hdiag : ∀ j, c ≤ ∑ r, P.a r j ^ 2) (hoff : ∀ j k, j ≠ k → |∑ r, P.a r j * P.a r k| ≤ theta) (hth : 0 ≤ theta)
    (hcard : 16 * k * theta * (1 + 1 / (c * stepFloor M.solver L)) ≤ c)
    (hQ : ∀ j, |∑ r, P.a r j * e r| + M.tol * (1 / stepFloor M.solver L + L) ≤ Q)
    (hmin : ∀ j ∈ S, 8 / 7 * (1 + 1 / (c * stepFloor M.solver L)) * Q / c < |xs j|) :
    (∀ j, |x j - xs j| ≤ 16 / 15 * Q / c) ∧ (∀ j ∈ S, 0 < x j * xs j) ∧ (S.card = k → ∀ j, x j ≠ 0 ↔ j ∈ S) := by
  obtain ⟨htol, T, hT, h0, h1, h2⟩ := C153_stationary M hs P hn x0 warm w k prox hreg L hL hr x Lf h hc
  rw [min_eq_left hk] at hT
  have hfl := stepFloor_pos hr
  have hcor : ∀ j, ∑ r, P.a r j * (P.b r - ∑ i, P.a r i * x i) = (∑ r, P.a r j * e r) - ∑ k, (∑ r, P.a r j * P.a r k) * (x k - xs k) := fun j => by
    have e1 : ∑ k, (∑ r, P.a r j * P.a r k) * (x k - xs k) = ∑ r, P.a r j * ∑ k, P.a r k * (x k - xs k) := by
      simp only [Finset.sum_mul, Finset.mul_sum]
      rw [Finset.sum_comm]
      exact Finset.sum_congr rfl fun r _ => Finset.sum_congr rfl fun k _ => by ring
    rw [e1, ← Finset.sum_sub_distrib]
    refine Finset.sum_congr rfl fun r _ => ?_
    have e3 : ∑ i, P.a r i * (x i - xs i) = (∑ i, P.a r i * x i) - ∑ i, P.a r i * xs i := by
      rw [← Finset.sum_sub_distrib]
      exact Finset.sum_congr rfl fun i _ => by ring
    rw [hb, e3]
    ring
  simp only [hcor] at h1 h2
  have hdl : 0 ≤ M.tol * (1 / stepFloor M.solver L + L) := by
    have := hr.2.1
    positivity
  obtain ⟨hST, herr⟩ := support_of_threshold P.a c theta Q (stepFloor M.solver L) hcp hth hfl x xs (fun j => ∑ r, P.a r j * e r) S T hdiag hoff hS h0 (by rw [hT]; exact hSk)
    (by rw [hT]; exact hcard) _ hdl hQ h1 h2 hmin
  have hQ0 : ∀ _ : Fin P.n, 0 ≤ Q := fun j => (add_nonneg (abs_nonneg _) hdl).trans (hQ j)
  have hsign : ∀ j ∈ S, 0 < x j * xs j := fun j hj => by
    have h3 : |x j - xs j| < |xs j| := by
      refine lt_of_le_of_lt (herr j) (lt_of_le_of_lt ?_ (hmin j hj))
      refine div_le_div_of_nonneg_right ?_ hcp.le
      refine mul_le_mul_of_nonneg_right ?_ (hQ0 j)
      have : 0 < 1 / (c * stepFloor M.solver L) := by positivity
      linarith
    have h4 := abs_lt.1 h3
    rcases lt_trichotomy (xs j) 0 with hneg | hz | hpos
    · rw [abs_of_neg hneg] at h4
      exact mul_pos_of_neg_of_neg (by linarith) hneg
    · rw [hz, abs_zero] at h3
      exact absurd h3 (not_lt.2 (abs_nonneg _))
    · rw [abs_of_pos hpos] at h4
      exact mul_pos (by linarith) hpos
  refine ⟨herr, hsign, fun hcd j => ⟨fun hx => ?_, fun hj h3 => ?_⟩⟩
  · have hTS : S = T := Finset.eq_of_subset_of_card_le hST (by rw [hT, hcd])
    rw [hTS]
    by_contra h3
    exact hx (h0 j h3)
  · have := hsign j hj
    rw [h3, zero_mul] at this
    exact lt_irrefl _ this

end

end Verif
