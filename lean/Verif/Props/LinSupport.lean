import Verif.Props.LinStat

/-!
# Optimality conditions and exact support of converged convex linear fits (C150, C151)
-/

open MeasureTheory

namespace Verif

noncomputable section

variable {m n : ℕ}

/-- The optimality condition of soft thresholding. -/
theorem soft_kkt {t : ℝ} (y : ℝ) (ht : 0 ≤ t) : ∃ z : ℝ, |z| ≤ 1 ∧ (0 < soft t y → z = 1) ∧ (soft t y < 0 → z = -1) ∧ y - soft t y = t * z := by
  rcases soft_cases y ht with ⟨h, hs⟩ | ⟨h, hs⟩ | ⟨h, hs⟩
  · exact ⟨1, by simp, fun _ => rfl, fun h' => by rw [hs] at h'; linarith, by rw [hs]; ring⟩
  · exact ⟨-1, by simp, fun h' => by rw [hs] at h'; linarith, fun _ => rfl, by rw [hs]; ring⟩
  · rcases ht.eq_or_lt with h0 | h0
    · subst h0
      have : y = 0 := by simpa using h
      exact ⟨0, by simp, fun h' => by rw [hs] at h'; exact absurd h' (lt_irrefl _), fun h' => by rw [hs] at h'; exact absurd h' (lt_irrefl _), by rw [hs, this]; ring⟩
    · refine ⟨y / t, ?_, fun h' => by rw [hs] at h'; exact absurd h' (lt_irrefl _), fun h' => by rw [hs] at h'; exact absurd h' (lt_irrefl _), by rw [hs]; field_simp; ring⟩
      rw [abs_div, abs_of_pos h0]
      exact div_le_one_of_le₀ h h0.le

/-- The last step of a converged fit: the returned point is a soft-thresholded gradient step from a point at distance at most `tol`. -/
theorem lasso_last_step (M : LinModelCfg) (hs : M.sr3 = none) (P : LinProblem ℝ) (hn : 0 < P.n) (x0 : Option (Vec ℝ P.n)) (warm : Bool) (w : Option (Vec ℝ P.n))
    (lam : ℝ) (hreg : LassoLike (M.regularizer P.n (w.getD fun _ => 1)) lam (w.getD fun _ => 1))
    (L : ℝ) (hL : ∀ h : Vec ℝ P.n, ∑ r, (∑ j, P.a r j * h j) ^ 2 ≤ L * ∑ j, h j ^ 2) (hr : StepRule M.solver L)
    (x : Vec ℝ P.n) (Lf : Logger (PyVal ℝ P.n)) (h : linFit M P x0 warm w = .ok (x, Lf)) (hc : Lf.get "converged" = .ok (.atom (.bool true))) :
    0 ≤ M.tol ∧ ∃ (t : ℝ) (y : Vec ℝ P.n), stepFloor M.solver L ≤ t ∧ ∑ j, (x j - y j) ^ 2 ≤ M.tol ^ 2 ∧
      ∀ j, x j = soft (t * (lam * (w.getD fun _ => 1) j)) (y j - t * ∑ r, P.a r j * ((∑ i, P.a r i * y i) - P.b r)) := by
  unfold linFit at h
  simp only [hs] at h
  obtain ⟨pr, hpr, h⟩ := except_bind_ok.1 h
  have hpr' : pr = .nonInformative := by
    unfold linOracleInstantiate at hpr
    cases hm : M.prior with
    | none => rw [hm] at hpr; cases hpr; rfl
    | gaussian params => rw [hm] at hpr; simp [gaussInstantiateArg] at hpr
  subst hpr'
  obtain ⟨⟨⟨y, Ly⟩, sy⟩, hy, h⟩ := except_bind_ok.1 h
  obtain ⟨Lz, hLz, h⟩ := except_bind_ok.1 h
  cases h
  rw [logIC_keeps _ _ _ _ hLz _ (by decide) (by decide)] at hc
  obtain ⟨hb, -⟩ := linLoss_belowParabola P.a P.b L hL
  obtain ⟨prox, hp, hpx⟩ : ∃ prox : Vec ℝ P.n → ℝ → Vec ℝ P.n, (∀ y t, (M.regularizer P.n (w.getD fun _ => 1)).prox y t = .ok (prox y t)) ∧
      ∀ y t j, prox y t j = soft (t * (lam * (w.getD fun _ => 1) j)) (y j) := by
    rcases hreg with ⟨h0, h1⟩ | ⟨h0, -, -⟩
    · refine ⟨fun y _ => y, fun _ _ => by rw [h0]; rfl, fun y t j => ?_⟩
      rw [h1, zero_mul, mul_zero, soft_zero]
    · refine ⟨fun y t i => soft (t * (w.getD fun _ => 1) i * lam) (y i), fun _ _ => by rw [h0]; rfl, fun y t j => ?_⟩
      show soft _ _ = _
      congr 1
      ring
  obtain ⟨k, X, Ls, s1, L1, -, -, hk, hcv, hit, hsteps, -, hend⟩ := pgdOptimize_trace (linOracle P.a P.b .nonInformative) _ M.solver _ _
    (fun x _ x' _ => ∃ t, stepFloor M.solver L ≤ t ∧ x' = prox (fun i => x i - t * linGradientValueFunction P.a P.b .nonInformative x i) t)
    (fun x it L' s x' L'' s' hbd => by
      obtain ⟨gv, s1, t, s2, hgv, hst, hpx', -⟩ := pgdBody_ok _ _ _ _ _ _ _ _ _ _ _ hbd
      obtain ⟨rfl, rfl⟩ := Prod.mk.inj (Except.ok.inj hgv)
      obtain ⟨hlo, -, -⟩ := chooseStep_bounds (linOracle P.a P.b .nonInformative) _ (linValueFunction P.a P.b .nonInformative) (fun x s => ⟨s, rfl⟩)
        (linGradientValueFunction P.a P.b .nonInformative) _ hb prox hp M.solver hr x _ _ t hst
      rw [hp] at hpx'
      exact ⟨t, hlo, (Except.ok.inj hpx').symm⟩) _ _ _ _ hy
  rw [(Logger.add_get hit).2 _ (by decide), (Logger.add_get hcv).1] at hc
  have hlt : (k : ℤ) < M.solver.maxIter := by
    have h3 : decide ((k : ℤ) < M.solver.maxIter) = true := by injection hc with h1; injection h1 with h1; injection h1
    exact of_decide_eq_true h3
  cases k with
  | zero => exact absurd ⟨Or.inl hn, by simpa using hlt⟩ hend
  | succ j =>
    have hfar : ¬ farApart M.solver.tol (some (X j)) (X (j + 1)) := fun hf => hend ⟨hf, by simpa using hlt⟩
    simp only [farApart, not_or, not_lt] at hfar
    obtain ⟨t, hlo, hx⟩ := hsteps j (by omega)
    rw [hk] at hx hfar
    refine ⟨hfar.1, t, X j, hlo, hfar.2, fun i => ?_⟩
    show y i = _
    rw [hx, hpx]
    show soft _ (X j i - t * ((∑ r, P.a r i * ((∑ l, P.a r l * X j l) - P.b r)) + 0)) = _
    rw [add_zero]

/-- **C150**: a converged fit without penalty or with the L1 penalty satisfies the optimality conditions of its problem up to `tol (1/t + L)`: the correlation of every feature with the residual is
`lam w_j` times the sign of its coefficient if the coefficient is not zero, and lies between `-lam w_j` and `lam w_j` if the coefficient is exactly zero. -/
theorem C150_stationary (M : LinModelCfg) (hs : M.sr3 = none) (P : LinProblem ℝ) (hn : 0 < P.n) (x0 : Option (Vec ℝ P.n)) (warm : Bool) (w : Option (Vec ℝ P.n))
    (lam : ℝ) (hreg : LassoLike (M.regularizer P.n (w.getD fun _ => 1)) lam (w.getD fun _ => 1))
    (L : ℝ) (hL : ∀ h : Vec ℝ P.n, ∑ r, (∑ j, P.a r j * h j) ^ 2 ≤ L * ∑ j, h j ^ 2) (hr : StepRule M.solver L)
    (x : Vec ℝ P.n) (Lf : Logger (PyVal ℝ P.n)) (h : linFit M P x0 warm w = .ok (x, Lf)) (hc : Lf.get "converged" = .ok (.atom (.bool true))) (j : Fin P.n) :
    ∃ z : ℝ, |z| ≤ 1 ∧ (0 < x j → z = 1) ∧ (x j < 0 → z = -1) ∧
      |(∑ r, P.a r j * (P.b r - ∑ i, P.a r i * x i)) - lam * (w.getD fun _ => 1) j * z| ≤ M.tol * (1 / stepFloor M.solver L + L) := by
  obtain ⟨htol, t, y, hlo, hd, hx⟩ := lasso_last_step M hs P hn x0 warm w lam hreg L hL hr x Lf h hc
  have hfl := stepFloor_pos hr
  have ht : 0 < t := hfl.trans_le hlo
  have hlw : ∀ i, 0 ≤ lam * (w.getD fun _ => 1) i := fun i => by
    rcases hreg with ⟨-, h0⟩ | ⟨-, h0, h1⟩
    · simp [h0]
    · exact mul_nonneg h0 (h1 i)
  obtain ⟨z, hz, hp, hm, he⟩ := soft_kkt (y j - t * ∑ r, P.a r j * ((∑ i, P.a r i * y i) - P.b r)) (mul_nonneg ht.le (hlw j))
  rw [← hx j] at hp hm he
  refine ⟨z, hz, hp, hm, ?_⟩
  have e1 : (∑ r, P.a r j * (P.b r - ∑ i, P.a r i * x i)) - lam * (w.getD fun _ => 1) j * z = -((y j - x j) / t) - ∑ r, P.a r j * (∑ i, P.a r i * (x i - y i)) := by
    have e2 : ∑ r, P.a r j * (P.b r - ∑ i, P.a r i * x i) = -(∑ r, P.a r j * ((∑ i, P.a r i * y i) - P.b r)) - ∑ r, P.a r j * (∑ i, P.a r i * (x i - y i)) := by
      rw [← Finset.sum_neg_distrib, ← Finset.sum_sub_distrib]
      refine Finset.sum_congr rfl fun r _ => ?_
      have : ∑ i, P.a r i * (x i - y i) = (∑ i, P.a r i * x i) - ∑ i, P.a r i * y i := by
        rw [← Finset.sum_sub_distrib]
        exact Finset.sum_congr rfl fun i _ => by ring
      rw [this]
      ring
    rw [e2]
    have e3 : (y j - x j) / t = (∑ r, P.a r j * ((∑ i, P.a r i * y i) - P.b r)) + lam * (w.getD fun _ => 1) j * z := by
      rw [div_eq_iff ht.ne']
      linarith
    rw [e3]
    ring
  have h1 : |y j - x j| ≤ M.tol := by
    refine abs_le_of_sq_le_sq ?_ htol
    refine le_trans ?_ hd
    rw [show (y j - x j) ^ 2 = (x j - y j) ^ 2 by ring]
    exact Finset.single_le_sum (f := fun j => (x j - y j) ^ 2) (fun i _ => sq_nonneg _) (Finset.mem_univ j)
  have hLnn : 0 ≤ L := by
    have h2 := hL (Pi.single j 1)
    have h3 : ∑ i, (Pi.single j (1 : ℝ) : Vec ℝ P.n) i ^ 2 = 1 := by
      rw [Finset.sum_eq_single j]
      · simp
      · intro i _ hi; simp [hi]
      · intro hi; exact absurd (Finset.mem_univ _) hi
    rw [h3, mul_one] at h2
    exact (Finset.sum_nonneg fun r _ => sq_nonneg _).trans h2
  have hcol : ∑ r, P.a r j ^ 2 ≤ L := by
    have h2 := hL (Pi.single j 1)
    have h3 : ∑ i, (Pi.single j (1 : ℝ) : Vec ℝ P.n) i ^ 2 = 1 := by
      rw [Finset.sum_eq_single j]
      · simp
      · intro i _ hi; simp [hi]
      · intro hi; exact absurd (Finset.mem_univ _) hi
    rw [h3, mul_one] at h2
    refine le_trans (le_of_eq ?_) h2
    refine Finset.sum_congr rfl fun r _ => ?_
    congr 1
    rw [Finset.sum_eq_single j]
    · simp
    · intro i _ hi; simp [hi]
    · intro hi; exact absurd (Finset.mem_univ _) hi
  have h2 : |∑ r, P.a r j * (∑ i, P.a r i * (x i - y i))| ≤ L * M.tol := by
    refine abs_le_of_sq_le_sq ?_ (mul_nonneg hLnn htol)
    have h3 := Finset.sum_mul_sq_le_sq_mul_sq Finset.univ (fun r => P.a r j) (fun r => ∑ i, P.a r i * (x i - y i))
    refine h3.trans ?_
    have h4 := (hL fun i => x i - y i).trans (mul_le_mul_of_nonneg_left hd hLnn)
    calc (∑ r, P.a r j ^ 2) * ∑ r, (∑ i, P.a r i * (x i - y i)) ^ 2 ≤ L * (L * M.tol ^ 2) :=
          mul_le_mul hcol h4 (Finset.sum_nonneg fun r _ => sq_nonneg _) hLnn
      _ = (L * M.tol) ^ 2 := by ring
  rw [e1]
  have h5 : |(y j - x j) / t| ≤ M.tol / stepFloor M.solver L := by
    rw [abs_div, abs_of_pos ht]
    exact div_le_div₀ htol h1 hfl hlo
  have h6 := abs_sub (-((y j - x j) / t)) (∑ r, P.a r j * (∑ i, P.a r i * (x i - y i)))
  rw [abs_neg] at h6
  refine h6.trans ((add_le_add h5 h2).trans (le_of_eq ?_))
  ring

/-- The optimality conditions and a design with nearly uncorrelated features determine the support. -/
theorem support_of_kkt (A : Matrix (Fin m) (Fin n) ℝ) (lam c theta delta : ℝ) (hlam : 0 < lam) (hc : 0 < c) (hth : 0 ≤ theta) (x xs eps : Vec ℝ n) (S : Finset (Fin n))
    (hdiag : ∀ j, c ≤ ∑ r, A r j ^ 2) (hoff : ∀ j k, j ≠ k → |∑ r, A r j * A r k| ≤ theta) (hS : ∀ j, j ∉ S → xs j = 0) (hcard : 16 * S.card * theta ≤ c)
    (heps : ∀ j, |eps j| + delta ≤ lam / 2)
    (hk : ∀ j, ∃ z : ℝ, |z| ≤ 1 ∧ (0 < x j → z = 1) ∧ (x j < 0 → z = -1) ∧ |(∑ k, (∑ r, A r j * A r k) * (x k - xs k)) - eps j + lam * z| ≤ delta) :
    (∀ j, j ∉ S → x j = 0) ∧ ∀ j, |x j - xs j| ≤ 2 * lam / c := by
  choose z hz hzp hzm hkk using hk
  obtain ⟨d, hd⟩ : ∃ d : Vec ℝ n, d = fun j => x j - xs j := ⟨_, rfl⟩
  have hd' : ∀ j, x j - xs j = d j := fun j => by rw [hd]
  simp only [hd'] at hkk ⊢
  obtain ⟨G, hG⟩ : ∃ G : Fin n → Fin n → ℝ, G = fun j k => ∑ r, A r j * A r k := ⟨_, rfl⟩
  have hG' : ∀ j k, ∑ r, A r j * A r k = G j k := fun j k => by rw [hG]
  simp only [hG'] at hkk hoff
  have hdG : ∀ j, c ≤ G j j := fun j => by
    rw [← hG']
    simpa only [pow_two] using hdiag j
  -- the condition without the errors
  have hkk' : ∀ j, |(∑ k, G j k * d k) + lam * z j| ≤ lam / 2 := fun j => by
    have h1 := hkk j
    have h2 := heps j
    rw [abs_le] at h1 ⊢
    have h3 := neg_abs_le (eps j)
    have h4 := le_abs_self (eps j)
    constructor <;> linarith
  have hN : ∀ j, j ∉ S → d j = x j := fun j hj => by rw [← hd', hS j hj, sub_zero]
  have hdz : ∀ j, j ∉ S → d j * z j = |d j| := fun j hj => by
    rw [hN j hj]
    rcases lt_trichotomy (x j) 0 with h | h | h
    · rw [hzm j h, abs_of_neg h]; ring
    · rw [h]; simp
    · rw [hzp j h, abs_of_pos h]; ring
  have hdz' : ∀ j, -(d j * z j) ≤ |d j| := fun j => by
    have h1 := neg_abs_le (d j * z j)
    have h2 : |d j * z j| ≤ |d j| := by
      rw [abs_mul]
      exact mul_le_of_le_one_right (abs_nonneg _) (hz j)
    linarith
  have hquad : 0 ≤ ∑ j, d j * ∑ k, G j k * d k := by
    have e : ∑ j, d j * ∑ k, G j k * d k = ∑ r, (∑ j, A r j * d j) ^ 2 := by
      simp only [← hG', Finset.sum_mul, Finset.mul_sum, pow_two]
      have e1 : ∀ j, ∑ k, ∑ r, d j * (A r j * A r k * d k) = ∑ r, ∑ k, d j * (A r j * A r k * d k) := fun j => Finset.sum_comm
      simp only [e1]
      rw [Finset.sum_comm]
      refine Finset.sum_congr rfl fun r _ => ?_
      exact Finset.sum_congr rfl fun j _ => Finset.sum_congr rfl fun k _ => by ring
    rw [e]
    exact Finset.sum_nonneg fun r _ => sq_nonneg _
  obtain ⟨a, ha⟩ : ∃ a, a = ∑ j ∈ S, |d j| := ⟨_, rfl⟩
  obtain ⟨b, hb⟩ : ∃ b, b = ∑ j ∈ Sᶜ, |d j| := ⟨_, rfl⟩
  have hab : ∑ j, |d j| = a + b := by rw [ha, hb]; exact (Finset.sum_add_sum_compl S _).symm
  have hcone : b ≤ 3 * a := by
    have hterm : ∀ j, d j * ∑ k, G j k * d k ≤ |d j| * (lam / 2) - lam * (d j * z j) := fun j => by
      have h1 : d j * ((∑ k, G j k * d k) + lam * z j) ≤ |d j| * (lam / 2) := by
        refine (le_abs_self _).trans ?_
        rw [abs_mul]
        exact mul_le_mul_of_nonneg_left (hkk' j) (abs_nonneg _)
      linarith
    have h1 : ∑ j ∈ S, d j * ∑ k, G j k * d k ≤ 3 / 2 * lam * a := by
      rw [ha, Finset.mul_sum]
      refine Finset.sum_le_sum fun j _ => ?_
      have := mul_le_mul_of_nonneg_left (hdz' j) hlam.le
      linarith [hterm j]
    have h2 : ∑ j ∈ Sᶜ, d j * ∑ k, G j k * d k ≤ -(lam / 2 * b) := by
      rw [hb, Finset.mul_sum, ← Finset.sum_neg_distrib]
      refine Finset.sum_le_sum fun j hj => ?_
      have := hterm j
      rw [hdz j (by simpa using hj)] at this
      linarith
    rw [← Finset.sum_add_sum_compl S] at hquad
    have h3 : lam / 2 * b ≤ lam / 2 * (3 * a) := by linarith
    exact le_of_mul_le_mul_left h3 (by positivity)
  -- coordinates
  have hrow : ∀ j, ∃ eta, |eta| ≤ theta * (a + b) ∧ ∑ k, G j k * d k = G j j * d j + eta := fun j => by
    refine ⟨∑ k ∈ Finset.univ.erase j, G j k * d k, ?_, ?_⟩
    · refine (Finset.abs_sum_le_sum_abs _ _).trans ?_
      rw [← hab, Finset.mul_sum]
      refine le_trans (Finset.sum_le_sum fun k hk => ?_) (Finset.sum_le_sum_of_subset_of_nonneg (f := fun k => theta * |d k|) (Finset.erase_subset j _) fun k _ _ => mul_nonneg hth (abs_nonneg _))
      rw [abs_mul]
      exact mul_le_mul_of_nonneg_right (hoff j k (Finset.ne_of_mem_erase hk).symm) (abs_nonneg _)
    · rw [Finset.add_sum_erase _ (fun k => G j k * d k) (Finset.mem_univ j)]
  have hcoord : ∀ j, c * |d j| ≤ 3 / 2 * lam + theta * (a + b) := fun j => by
    obtain ⟨eta, h1, h2⟩ := hrow j
    have h3 := hkk' j
    rw [h2] at h3
    have h4 : |G j j * d j| ≤ lam / 2 + |eta| + lam * |z j| := by
      have e : G j j * d j = (G j j * d j + eta + lam * z j) + -eta + -(lam * z j) := by ring
      rw [e]
      refine (abs_add_le _ _).trans ?_
      refine add_le_add ((abs_add_le _ _).trans (add_le_add h3 (abs_neg _).le)) ?_
      rw [abs_neg, abs_mul, abs_of_pos hlam]
    have h5 : c * |d j| ≤ |G j j * d j| := by
      rw [abs_mul, abs_of_pos (hc.trans_le (hdG j))]
      exact mul_le_mul_of_nonneg_right (hdG j) (abs_nonneg _)
    have h6 := mul_le_mul_of_nonneg_left (hz j) hlam.le
    linarith
  have hu : theta * (a + b) ≤ lam / 2 := by
    have ha0 : 0 ≤ a := by rw [ha]; exact Finset.sum_nonneg fun _ _ => abs_nonneg _
    have hb0 : 0 ≤ b := by rw [hb]; exact Finset.sum_nonneg fun _ _ => abs_nonneg _
    have h1 : c * a ≤ S.card * (3 / 2 * lam + theta * (a + b)) := by
      rw [ha, Finset.mul_sum, ← ha]
      refine (Finset.sum_le_sum fun j _ => hcoord j).trans ?_
      rw [Finset.sum_const, nsmul_eq_mul]
    have h2 : a + b ≤ 4 * a := by linarith
    have h3 : theta * (a + b) ≤ theta * (4 * a) := mul_le_mul_of_nonneg_left h2 hth
    obtain ⟨u, hu'⟩ : ∃ u, u = theta * (a + b) := ⟨_, rfl⟩
    rw [← hu'] at h1 h3 ⊢
    have hu0 : 0 ≤ u := by rw [hu']; exact mul_nonneg hth (add_nonneg ha0 hb0)
    have h4 : c * u ≤ c / 4 * (3 / 2 * lam + u) := by
      calc c * u ≤ c * (theta * (4 * a)) := mul_le_mul_of_nonneg_left h3 hc.le
        _ = 4 * theta * (c * a) := by ring
        _ ≤ 4 * theta * (S.card * (3 / 2 * lam + u)) := mul_le_mul_of_nonneg_left h1 (by positivity)
        _ = (16 * S.card * theta) / 4 * (3 / 2 * lam + u) := by ring
        _ ≤ c / 4 * (3 / 2 * lam + u) := mul_le_mul_of_nonneg_right (by linarith) (by positivity)
    have h5 : c * u ≤ c * ((3 / 2 * lam + u) / 4) := by linarith
    have h6 := le_of_mul_le_mul_left h5 hc
    linarith
  refine ⟨fun j hj => ?_, fun j => ?_⟩
  · obtain ⟨eta, h1, h2⟩ := hrow j
    have h3 := hkk' j
    rw [h2] at h3
    have h4 : d j * (G j j * d j + eta + lam * z j) ≤ |d j| * (lam / 2) := by
      refine (le_abs_self _).trans ?_
      rw [abs_mul]
      exact mul_le_mul_of_nonneg_left h3 (abs_nonneg _)
    have h5 : -(d j * eta) ≤ |d j| * (lam / 2) := by
      refine (neg_le_abs _).trans ?_
      rw [abs_mul]
      exact mul_le_mul_of_nonneg_left (h1.trans hu) (abs_nonneg _)
    have h6 : lam * (d j * z j) = lam * |d j| := by rw [hdz j hj]
    have h7 : G j j * d j ^ 2 ≤ 0 := by linarith
    have h8 := mul_le_mul_of_nonneg_right (hdG j) (sq_nonneg (d j))
    have h9 : d j ^ 2 ≤ 0 := by
      by_contra hno
      push Not at hno
      linarith [mul_pos hc hno]
    rw [← hN j hj]
    exact pow_eq_zero_iff two_ne_zero |>.1 (le_antisymm h9 (sq_nonneg _))
  · rw [le_div_iff₀ hc]
    linarith [hcoord j]

/-- **C151**: if the features are nearly uncorrelated (squared lengths at least `c`, inner products of different features at most `θ`, `16 s θ ≤ c` for `s` true features) and no feature correlates with the
errors by more than half the strength of the penalty (less the accuracy of the solver), a converged L1 fit has exactly zero coefficients outside the true features, misses every true coefficient by at
most `2 lam / c`, and therefore finds the signs of all true coefficients that are larger. -/
theorem C151_support (M : LinModelCfg) (hs : M.sr3 = none) (P : LinProblem ℝ) (hn : 0 < P.n) (x0 : Option (Vec ℝ P.n)) (warm : Bool)
    (lam : ℝ) (hlam : 0 < lam) (hreg : LassoLike (M.regularizer P.n fun _ => 1) lam fun _ => 1)
    (L : ℝ) (hL : ∀ h : Vec ℝ P.n, ∑ r, (∑ j, P.a r j * h j) ^ 2 ≤ L * ∑ j, h j ^ 2) (hr : StepRule M.solver L)
    (x : Vec ℝ P.n) (Lf : Logger (PyVal ℝ P.n)) (h : linFit M P x0 warm none = .ok (x, Lf)) (hc : Lf.get "converged" = .ok (.atom (.bool true)))
    (xs : Vec ℝ P.n) (e : Vec ℝ P.m) (hb : ∀ r, P.b r = (∑ j, P.a r j * xs j) + e r) (S : Finset (Fin P.n)) (hS : ∀ j, j ∉ S → xs j = 0)
    (c theta : ℝ) (hcp : 0 < c) (hdiag : ∀ j, c ≤ ∑ r, P.a r j ^ 2) (hoff : ∀ j k, j ≠ k → |∑ r, P.a r j * P.a r k| ≤ theta) (hth : 0 ≤ theta) (hcard : 16 * S.card * theta ≤ c)
    (he : ∀ j, |∑ r, P.a r j * e r| + M.tol * (1 / stepFloor M.solver L + L) ≤ lam / 2) :
    (∀ j, j ∉ S → x j = 0) ∧ (∀ j, |x j - xs j| ≤ 2 * lam / c) ∧ (∀ j, 2 * lam / c < |xs j| → 0 < x j * xs j) := by
  have hmain := support_of_kkt P.a lam c theta (M.tol * (1 / stepFloor M.solver L + L)) hlam hcp hth x xs (fun j => ∑ r, P.a r j * e r) S hdiag hoff hS hcard he fun j => by
    obtain ⟨z, h1, h2, h3, h4⟩ := C150_stationary M hs P hn x0 warm none lam hreg L hL hr x Lf h hc j
    refine ⟨z, h1, h2, h3, ?_⟩
    rw [← abs_neg]
    refine le_trans (le_of_eq ?_) h4
    congr 1
    have e1 : ∑ k, (∑ r, P.a r j * P.a r k) * (x k - xs k) = ∑ r, P.a r j * ∑ k, P.a r k * (x k - xs k) := by
      simp only [Finset.sum_mul, Finset.mul_sum]
      rw [Finset.sum_comm]
      exact Finset.sum_congr rfl fun r _ => Finset.sum_congr rfl fun k _ => by ring
    have e2 : ∑ r, P.a r j * (P.b r - ∑ i, P.a r i * x i) = (∑ r, P.a r j * e r) - ∑ r, P.a r j * ∑ k, P.a r k * (x k - xs k) := by
      rw [← Finset.sum_sub_distrib]
      refine Finset.sum_congr rfl fun r _ => ?_
      have : ∑ i, P.a r i * (x i - xs i) = (∑ i, P.a r i * x i) - ∑ i, P.a r i * xs i := by
        rw [← Finset.sum_sub_distrib]
        exact Finset.sum_congr rfl fun i _ => by ring
      rw [hb, this]
      ring
    rw [e1, e2]
    simp only [Option.getD_none]
    ring
  refine ⟨hmain.1, hmain.2, fun j hj => ?_⟩
  have h1 := abs_lt.1 ((hmain.2 j).trans_lt hj)
  rcases lt_or_ge (xs j) 0 with hneg | hpos
  · rw [abs_of_neg hneg] at h1
    exact mul_pos_of_neg_of_neg (by linarith) hneg
  · rw [abs_of_nonneg hpos] at h1
    have h2 : 0 < xs j := by
      rcases hpos.eq_or_lt with h0 | h0
      · rw [← h0, abs_zero] at hj
        exact absurd hj (not_lt.2 (by positivity))
      · exact h0
    exact mul_pos (by linarith) h2

variable {Ω : Type*} [MeasurableSpace Ω] {μ : Measure Ω} [IsProbabilityMeasure μ]

/-- **C151** with random errors: if the errors are uncorrelated with mean square at most `σ²`, a converged L1 fit selects a wrong feature, or misses a true coefficient by more than `2 lam / c`, with probability
at most `σ² ‖A‖² / ρ²` for every `ρ` up to half the strength of the penalty (less the accuracy of the solver). -/
theorem C151_probability (M : LinModelCfg) (hs : M.sr3 = none) (hn : 0 < n) (x0 : Option (Vec ℝ n)) (warm : Bool) (A : Matrix (Fin m) (Fin n) ℝ)
    (lam : ℝ) (hlam : 0 < lam) (hreg : LassoLike (M.regularizer n fun _ => 1) lam fun _ => 1)
    (L : ℝ) (hL : ∀ h : Vec ℝ n, ∑ r, (∑ j, A r j * h j) ^ 2 ≤ L * ∑ j, h j ^ 2) (hr : StepRule M.solver L)
    (xs : Vec ℝ n) (S : Finset (Fin n)) (hS : ∀ j, j ∉ S → xs j = 0)
    (c theta : ℝ) (hcp : 0 < c) (hdiag : ∀ j, c ≤ ∑ r, A r j ^ 2) (hoff : ∀ j k, j ≠ k → |∑ r, A r j * A r k| ≤ theta) (hth : 0 ≤ theta) (hcard : 16 * S.card * theta ≤ c)
    (e : Ω → Vec ℝ m) (he : ∀ r, MemLp (fun ω => e ω r) 2 μ) (sigma : ℝ) (hvar : ∀ r, ∫ ω, e ω r ^ 2 ∂μ ≤ sigma ^ 2)
    (hcov : ∀ r r', r ≠ r' → ∫ ω, e ω r * e ω r' ∂μ = 0) (rho : ℝ) (hrho : 0 < rho) (hrl : rho + M.tol * (1 / stepFloor M.solver L + L) ≤ lam / 2) :
    μ {ω | ∃ x Lf, linFit M ⟨m, n, A, fun r => (∑ j, A r j * xs j) + e ω r, 1, none, .none⟩ x0 warm none = .ok (x, Lf) ∧ Lf.get "converged" = .ok (.atom (.bool true)) ∧
      ((∃ j, j ∉ S ∧ x j ≠ 0) ∨ ∃ j, 2 * lam / c < |x j - xs j|)} ≤ ENNReal.ofReal (sigma ^ 2 * (∑ r, ∑ j, A r j ^ 2) / rho ^ 2) := by
  refine (measure_mono ?_).trans (correlation_markov A e he sigma hvar hcov rho hrho)
  rintro ω ⟨x, Lf, h, hc, hbad⟩
  by_contra hno
  have hno' : ∑ j, (∑ r, A r j * e ω r) ^ 2 < rho ^ 2 := not_le.1 hno
  obtain ⟨h1, h2, -⟩ := C151_support M hs ⟨m, n, A, fun r => (∑ j, A r j * xs j) + e ω r, 1, none, .none⟩ hn x0 warm lam hlam hreg L hL hr x Lf h hc xs (e ω) (fun r => rfl) S hS
    c theta hcp hdiag hoff hth hcard (fun j => by
      have h3 : |∑ r, A r j * e ω r| ≤ rho := by
        refine abs_le_of_sq_le_sq (le_trans ?_ hno'.le) hrho.le
        exact Finset.single_le_sum (f := fun j => (∑ r, A r j * e ω r) ^ 2) (fun i _ => sq_nonneg _) (Finset.mem_univ j)
      show |∑ r, A r j * e ω r| + _ ≤ _
      linarith)
  rcases hbad with ⟨j, hj, hx⟩ | ⟨j, hj⟩
  · exact hx (h1 j hj)
  · exact absurd (h2 j) (not_le.2 hj)

/-- Non-vacuity of C150 and C151: a converged fit of two features, of which one matters, with errors `(1/10, -1/10)` and the default tolerance: the coefficient of the other feature is exactly zero. -/
example : ∃ (N : ℤ) (x : Vec ℝ 2) (Lf : Logger (PyVal ℝ 2)), linFit (lassoModel N) (twoProblem ![1 / 10, -1 / 10]) none false none = .ok (x, Lf) ∧
    Lf.get "converged" = .ok (.atom (.bool true)) ∧ x 1 = 0 ∧ |x 0 - 5| ≤ 2 ∧ 0 < x 0 ∧ |5 + 1 / 10 - x 0 - 1| ≤ 21 / 10 ^ 5 := by
  obtain ⟨N, x, Lf, h, hc⟩ := two_converges ![1 / 10, -1 / 10]
  have hL : ∀ h : Vec ℝ 2, ∑ r, (∑ j, (1 : Matrix (Fin 2) (Fin 2) ℝ) r j * h j) ^ 2 ≤ 1 * ∑ j, h j ^ 2 := fun h => ((two_design h).trans (one_mul _).symm).le
  have h01 : ∀ j : Fin 2, j = 0 ∨ j = 1 := by decide
  obtain ⟨h1, h2, h3⟩ := C151_support (lassoModel N) rfl (twoProblem ![1 / 10, -1 / 10]) two_pos none false 1 one_pos (Or.inr ⟨rfl, zero_le_one, fun _ => zero_le_one⟩) 1 hL (lassoModel_rule N)
    x Lf h hc ![5, 0] ![1 / 10, -1 / 10] (fun r => rfl) {(0 : Fin 2)} (fun j hj => by
      rcases h01 j with rfl | rfl
      · exact absurd (Finset.mem_singleton_self _) hj
      · rfl) 1 0 one_pos (fun j => by
      show (1 : ℝ) ≤ ∑ r : Fin 2, (1 : Matrix (Fin 2) (Fin 2) ℝ) r j ^ 2
      rcases h01 j with rfl | rfl <;> simp [Matrix.one_apply, Fin.sum_univ_two]) (fun j k hjk => by
      show |∑ r : Fin 2, (1 : Matrix (Fin 2) (Fin 2) ℝ) r j * (1 : Matrix (Fin 2) (Fin 2) ℝ) r k| ≤ 0
      rcases h01 j with rfl | rfl <;> rcases h01 k with rfl | rfl
      · exact absurd rfl hjk
      · simp [Matrix.one_apply, Fin.sum_univ_two]
      · simp [Matrix.one_apply, Fin.sum_univ_two]
      · exact absurd rfl hjk) le_rfl (by simp) (fun j => by
      rw [lassoModel_floor]
      show |∑ r : Fin 2, (1 : Matrix (Fin 2) (Fin 2) ℝ) r j * (![1 / 10, -1 / 10] : Vec ℝ 2) r| + 1 / 10 ^ 5 * (1 / (1 / 20) + 1) ≤ 1 / 2
      have h4 : |∑ r : Fin 2, (1 : Matrix (Fin 2) (Fin 2) ℝ) r j * (![1 / 10, -1 / 10] : Vec ℝ 2) r| ≤ 1 / 10 := by
        rcases h01 j with rfl | rfl <;> simp [Matrix.one_apply, Fin.sum_univ_two] <;> norm_num [abs_le]
      norm_num at h4 ⊢
      linarith)
  have hx0 : 0 < x 0 := by
    have h4 : 0 < x 0 * 5 := h3 (0 : Fin 2) (by show 2 * (1 : ℝ) / 1 < |5|; norm_num)
    linarith
  refine ⟨N, x, Lf, h, hc, h1 (1 : Fin 2) (fun hh => absurd (Finset.mem_singleton.1 hh) (show ¬ (1 : Fin 2) = 0 by decide)), ?_, hx0, ?_⟩
  · have h4 : |x 0 - 5| ≤ 2 * 1 / 1 := h2 (0 : Fin 2)
    linarith
  · obtain ⟨z, -, hz, -, hk⟩ := C150_stationary (lassoModel N) rfl (twoProblem ![1 / 10, -1 / 10]) two_pos none false none 1 (Or.inr ⟨rfl, zero_le_one, fun _ => zero_le_one⟩) 1 hL (lassoModel_rule N)
      x Lf h hc (0 : Fin 2)
    rw [hz hx0, lassoModel_floor] at hk
    have e1 : (∑ r : Fin 2, (1 : Matrix (Fin 2) (Fin 2) ℝ) r 0 * ((∑ j, (1 : Matrix (Fin 2) (Fin 2) ℝ) r j * (![5, 0] : Vec ℝ 2) j) + (![1 / 10, -1 / 10] : Vec ℝ 2) r -
        ∑ i, (1 : Matrix (Fin 2) (Fin 2) ℝ) r i * x i)) = 5 + 1 / 10 - x 0 := by
      simp [Matrix.one_apply, Fin.sum_univ_two]
    have hk' : |(∑ r : Fin 2, (1 : Matrix (Fin 2) (Fin 2) ℝ) r 0 * ((∑ j, (1 : Matrix (Fin 2) (Fin 2) ℝ) r j * (![5, 0] : Vec ℝ 2) j) + (![1 / 10, -1 / 10] : Vec ℝ 2) r -
        ∑ i, (1 : Matrix (Fin 2) (Fin 2) ℝ) r i * x i)) - 1 * 1 * 1| ≤ 1 / 10 ^ 5 * (1 / (1 / 20) + 1) := hk
    rw [e1] at hk'
    norm_num at hk' ⊢
    exact hk'

/-- Non-vacuity of C151 with random errors: independent normal errors of variance `1/1000`; the fit selects the feature that does not matter with probability at most `1/80`. -/
example (N : ℤ) : (Measure.pi fun _ => ProbabilityTheory.gaussianReal 0 (1 / 1000)) {e : Fin 2 → ℝ | ∃ x Lf, linFit (lassoModel N) (twoProblem e) none false none = .ok (x, Lf) ∧
    Lf.get "converged" = .ok (.atom (.bool true)) ∧ x (1 : Fin 2) ≠ 0} ≤ ENNReal.ofReal (1 / 80) := by
  obtain ⟨h1, h2, h3⟩ := gaussian_errors (m := 2) (1 / 1000)
  have h01 : ∀ j : Fin 2, j = 0 ∨ j = 1 := by decide
  have h := C151_probability (μ := Measure.pi fun _ : Fin 2 => ProbabilityTheory.gaussianReal 0 (1 / 1000)) (lassoModel N) rfl two_pos none false (1 : Matrix (Fin 2) (Fin 2) ℝ) 1 one_pos
    (Or.inr ⟨rfl, zero_le_one, fun _ => zero_le_one⟩) 1 (fun h => ((two_design h).trans (one_mul _).symm).le) (lassoModel_rule N) ![5, 0] {0} (fun j hj => by
      rcases h01 j with rfl | rfl
      · exact absurd (Finset.mem_singleton_self _) hj
      · rfl) 1 0 one_pos (fun j => by rcases h01 j with rfl | rfl <;> simp [Matrix.one_apply, Fin.sum_univ_two])
    (fun j k hjk => by
      rcases h01 j with rfl | rfl <;> rcases h01 k with rfl | rfl
      · exact absurd rfl hjk
      · simp [Matrix.one_apply, Fin.sum_univ_two]
      · simp [Matrix.one_apply, Fin.sum_univ_two]
      · exact absurd rfl hjk) le_rfl (by simp) (fun e => e) h1 (√(1 / 1000))
    (fun r => by rw [h2, Real.sq_sqrt (by norm_num)]; norm_num) h3 (4 / 10) (by norm_num) (by rw [lassoModel_floor]; norm_num [lassoModel])
  refine le_trans (measure_mono ?_) (h.trans (ENNReal.ofReal_le_ofReal (le_of_eq ?_)))
  · rintro e ⟨x, Lf, hf, hc, hx⟩
    exact ⟨x, Lf, hf, hc, Or.inl ⟨1, by decide, hx⟩⟩
  · rw [Real.sq_sqrt (by norm_num)]
    simp [Matrix.one_apply, Fin.sum_univ_two]
    norm_num

end

end Verif
