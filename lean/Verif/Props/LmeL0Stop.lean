import Verif.Props.LmeLast
import Verif.Props.LmeL0Descent
import Verif.Props.LmeConverge

/-!
# C168: L0 mixed-effects fits with small fixed steps stop
-/

open Matrix

namespace Verif

section Solver

variable {n : ℕ} {σ : Type} {o : Oracle ℝ n σ} {R : Regularizer ℝ n}

/-- Fixed steps shorter than the inverse curvature, on a set that need not be convex. -/
theorem pgd_sparse {A : Vec ℝ n → Prop} {f pen : Vec ℝ n → ℝ} {gr : Vec ℝ n → Vec ℝ n} {L F0 : ℝ} (hgrad : ∀ x s v s', o.grad x s = .ok (v, s') → v = gr x)
    {cfg : PGDCfg ℝ} (hst : cfg.stepping ≠ "line-search") (hs : 0 < cfg.fixedStepLen) (hsL : cfg.fixedStepLen * L < 1)
    (hprox : ∀ x z, A x → R.prox (fun i => x i - cfg.fixedStepLen * gr x i) cfg.fixedStepLen = .ok z → A z ∧
      cfg.fixedStepLen * pen z + normSq (z - fun i => x i - cfg.fixedStepLen * gr x i) / 2 ≤ cfg.fixedStepLen * pen x + normSq (x - fun i => x i - cfg.fixedStepLen * gr x i) / 2)
    (hcurv : ∀ x z, A x → f x + pen x ≤ F0 → A z → f z ≤ f x + (∑ i, gr x i * (z i - x i)) + L / 2 * ∑ i, (z i - x i) ^ 2)
    {x0 : Vec ℝ n} (hx0 : A x0) (hF0 : f x0 + pen x0 ≤ F0) {Lg : Logger (PyVal ℝ n)}
    {s s' : σ} {x : Vec ℝ n} {Lf : Logger (PyVal ℝ n)} (h : pgdOptimize o R cfg x0 Lg s = .ok ((x, Lf), s')) :
    ∃ k : ℕ, Lf.get "converged" = .ok (.atom (.bool (decide ((k : ℤ) < cfg.maxIter)))) ∧ A x ∧ f x + pen x ≤ f x0 + pen x0 ∧
      (0 < cfg.tol → ∀ B, (∀ z, A z → B ≤ f z + pen z) → ((k : ℝ) - 1) * cfg.tol ^ 2 * (1 - cfg.fixedStepLen * L) ≤ 2 * cfg.fixedStepLen * (F0 - B)) := by
  obtain ⟨k, X, Ls, s1, L1, -, h0, hk, hc, hit, hsteps, hguards, hend⟩ := pgdOptimize_trace o R cfg x0 Lg
    (fun x _ x' _ => A x → f x + pen x ≤ F0 → A x' ∧ f x' + pen x' + (1 - cfg.fixedStepLen * L) / (2 * cfg.fixedStepLen) * normSq (x' - x) ≤ f x + pen x)
    (fun x it L' s x' L'' s' hbd hAx hFx => by
      obtain ⟨gv, s1, t, s2, hgv, hch, hpx, -⟩ := pgdBody_ok _ _ _ _ _ _ _ _ _ _ _ hbd
      have := hgrad _ _ _ _ hgv
      subst this
      unfold chooseStep at hch
      rw [if_neg hst] at hch
      obtain ⟨rfl, -⟩ := pure_ok.1 hch
      obtain ⟨hAx', hmin⟩ := hprox x x' hAx hpx
      refine ⟨hAx', ?_⟩
      have h1 := hcurv x x' hAx hFx hAx'
      have e1 : normSq (x' - fun i => x i - cfg.fixedStepLen * gr x i) = normSq (x' - x) + 2 * cfg.fixedStepLen * (∑ i, gr x i * (x' i - x i)) + cfg.fixedStepLen ^ 2 * ∑ i, gr x i ^ 2 := by
        simp only [normSq, Pi.sub_apply, Finset.mul_sum, ← Finset.sum_add_distrib]
        exact Finset.sum_congr rfl fun i _ => by ring
      have e2 : normSq (x - fun i => x i - cfg.fixedStepLen * gr x i) = cfg.fixedStepLen ^ 2 * ∑ i, gr x i ^ 2 := by
        simp only [normSq, Pi.sub_apply, Finset.mul_sum]
        exact Finset.sum_congr rfl fun i _ => by ring
      rw [e1, e2] at hmin
      have e3 : ∑ i, (x' i - x i) ^ 2 = normSq (x' - x) := rfl
      rw [e3] at h1
      have e4 : (1 - cfg.fixedStepLen * L) / (2 * cfg.fixedStepLen) * normSq (x' - x) = normSq (x' - x) / 2 / cfg.fixedStepLen - L / 2 * normSq (x' - x) := by
        field_simp
      have h2 : normSq (x' - x) / 2 / cfg.fixedStepLen ≤ pen x - pen x' - ∑ i, gr x i * (x' i - x i) := by
        rw [div_le_iff₀ hs]
        linarith
      rw [e4]
      linarith) s s' x Lf h
  have hκ' : 0 ≤ (1 - cfg.fixedStepLen * L) / (2 * cfg.fixedStepLen) := div_nonneg (by linarith) (by linarith)
  have hN : ∀ v : Vec ℝ n, 0 ≤ normSq v := fun v => Finset.sum_nonneg fun i _ => sq_nonneg _
  have hinv : ∀ i ≤ k, A (X i) ∧ f (X i) + pen (X i) ≤ f x0 + pen x0 := by
    intro i
    induction i with
    | zero => exact fun _ => by rw [h0]; exact ⟨hx0, le_rfl⟩
    | succ i ih =>
      intro hi
      obtain ⟨h1, h2⟩ := ih (by omega)
      obtain ⟨h3, h4⟩ := hsteps i (by omega) h1 (h2.trans hF0)
      exact ⟨h3, by linarith [mul_nonneg hκ' (hN (X (i + 1) - X i))]⟩
  refine ⟨k, ?_, hk ▸ (hinv k le_rfl).1, hk ▸ (hinv k le_rfl).2, fun htol B hB => ?_⟩
  · rw [(Logger.add_get hit).2 _ (by decide)]
    exact (Logger.add_get hc).1
  have hen : ∀ i, i < k → (i : ℝ) * (cfg.tol ^ 2 * ((1 - cfg.fixedStepLen * L) / (2 * cfg.fixedStepLen))) ≤ F0 - (f (X i) + pen (X i)) := by
    intro i
    induction i with
    | zero => intro _; rw [h0]; simpa using hF0
    | succ i ih =>
      intro hi
      have h1 := ih (by omega)
      obtain ⟨h3, h4⟩ := hsteps i (by omega) (hinv i (by omega)).1 ((hinv i (by omega)).2.trans hF0)
      have h5 : cfg.tol ^ 2 < normSq (X (i + 1) - X i) := by
        rcases (hguards (i + 1) hi).1 with h6 | h6
        · exact absurd h6 (not_lt.2 htol.le)
        · exact h6
      have := mul_le_mul_of_nonneg_right h5.le hκ'
      push_cast
      linarith
  have hle : ((k : ℝ) - 1) * (cfg.tol ^ 2 * ((1 - cfg.fixedStepLen * L) / (2 * cfg.fixedStepLen))) ≤ F0 - B := by
    rcases Nat.eq_zero_or_pos k with hk0 | hk0
    · have := hB x0 hx0
      have h1 : 0 ≤ cfg.tol ^ 2 * ((1 - cfg.fixedStepLen * L) / (2 * cfg.fixedStepLen)) := mul_nonneg (sq_nonneg _) hκ'
      subst hk0
      push_cast
      linarith
    · have h1 := hen (k - 1) (by omega)
      have h2 := hB (X (k - 1)) (hinv (k - 1) (by omega)).1
      have e : ((k - 1 : ℕ) : ℝ) = (k : ℝ) - 1 := by
        push_cast [hk0]
        ring
      rw [e] at h1
      linarith
  have := mul_le_mul_of_nonneg_left hle (by linarith : 0 ≤ 2 * cfg.fixedStepLen)
  have e : 2 * cfg.fixedStepLen * (((k : ℝ) - 1) * (cfg.tol ^ 2 * ((1 - cfg.fixedStepLen * L) / (2 * cfg.fixedStepLen)))) =
      ((k : ℝ) - 1) * cfg.tol ^ 2 * (1 - cfg.fixedStepLen * L) := by
    field_simp
  rw [e] at this
  exact this

end Solver

section Fit

variable {p q : ℕ}

theorem mapEntry_some {m : List ℤ} {i : ℕ} {j : Fin q} (h : mapEntry q m i = some j) : m[i]? = some ((j : ℕ) : ℤ) := by
  unfold mapEntry at h
  split at h
  · cases h
  · rename_i e he
    split_ifs at h with h1
    cases h
    rw [he, Int.toNat_of_nonneg h1.1]

/-- Runs of L0 models without prior. -/
theorem l0Run_stops {D : List (LmeGroup p q)} (hD : PosVar D) {nb ng : Option ℤ} {sort : NpSort} {m : List ℤ} {w : Vec ℝ (p + q)} {eps : ℝ} (heps : 0 ≤ eps)
    (hmap : ∀ (i : Fin p) (j : Fin q), m[(i : ℕ)]? = some ((j : ℕ) : ℤ) → xGamma w j = 0)
    {base : Regularizer ℝ (p + q)} (hbase : (LmeReg.l0 nb ng sort).build p q m w = .ok base) {cfg : PGDCfg ℝ} {L : ℝ}
    (hst : cfg.stepping ≠ "line-search") (hs : 0 < cfg.fixedStepLen) (hsL : cfg.fixedStepLen * L < 1)
    {b0 : Vec ℝ p} {g0 : Vec ℝ q} (hsp : LmeSparse (nb.getD p) (ng.getD q) (fun j : Fin p => mapEntry q m j) (xBeta w) (xGamma w) (joinX b0 g0))
    (hL : fixedCurvature D + 2 * (lmeObjective D eps (fun _ _ => 0) b0 g0 - noiseFloor D) * relaxationNeeded D ≤ L)
    {Lg Lf : Logger (PyVal ℝ (p + q))} {x : Vec ℝ (p + q)} {s s' : Unit}
    (h : pgdOptimize (lmeOracle D .nonInformative) (wrapReg p q eps base) cfg (joinX b0 g0) Lg s = .ok ((x, Lf), s')) :
    ∃ k : ℕ, Lf.get "converged" = .ok (.atom (.bool (decide ((k : ℤ) < cfg.maxIter)))) ∧
      LmeSparse (nb.getD p) (ng.getD q) (fun j : Fin p => mapEntry q m j) (xBeta w) (xGamma w) x ∧
      lmeObjective D eps (fun _ _ => 0) (xBeta x) (xGamma x) ≤ lmeObjective D eps (fun _ _ => 0) b0 g0 ∧
      (0 < cfg.tol → ((k : ℝ) - 1) * cfg.tol ^ 2 * (1 - cfg.fixedStepLen * L) ≤ 2 * cfg.fixedStepLen * (lmeObjective D eps (fun _ _ => 0) b0 g0 - noiseFloor D)) := by
  cases hbase
  have hgrad : ∀ x s v s', (lmeOracle D .nonInformative).grad x s = .ok (v, s') → v = nllGradient D x := by
    intro x s v s' hv
    change (lmeGradientBeta D .nonInformative _ _ >>= fun gb => lmeGradientGamma D .nonInformative _ _ >>= fun gg => Except.ok (joinX gb gg, s)) = _ at hv
    obtain ⟨gb, h1, hv⟩ := ebind_ok.1 hv
    obtain ⟨gg, h2, hv⟩ := ebind_ok.1 hv
    cases hv
    rw [(lmeGradientBeta_ok.1 h1).2, (lmeGradientGamma_ok'.1 h2).2]
    unfold nllGradient
    congr 1
    · exact add_zero _
    · exact add_zero _
  have hinner : ∀ x z : Vec ℝ (p + q), ∑ i, nllGradient D x i * (z i - x i) =
      (D.map fun g => -(g.xᵀ *ᵥ ((margCov g (xGamma x))⁻¹ *ᵥ residual g (xBeta x)))).sum ⬝ᵥ (xBeta z - xBeta x)
        + (D.map fun g => nllGradGamma g (xBeta x) (xGamma x)).sum ⬝ᵥ (xGamma z - xGamma x) := by
    intro x z
    rw [sum_join (φ := fun a b => a * b) (nllGradient D x) (fun i => z i - x i)]
    unfold nllGradient
    rw [xBeta_join, xGamma_join]
    rfl
  have hsq : ∀ x z : Vec ℝ (p + q), ∑ i, (z i - x i) ^ 2 = ∑ i, (xBeta z i - xBeta x i) ^ 2 + ∑ j, (xGamma z j - xGamma x j) ^ 2 := fun x z =>
    sum_join (φ := fun a b => (a - b) ^ 2) z x
  have eo : ∀ x : Vec ℝ (p + q), marginalNLL D (xBeta x) (xGamma x) + eps / 2 * normSq x = lmeObjective D eps (fun _ _ => 0) (xBeta x) (xGamma x) := by
    intro x
    rw [lmeObjective_join, Finset.sum_const_zero, add_zero]
    rfl
  have e0 := eo (joinX b0 g0)
  rw [xBeta_join, xGamma_join] at e0
  have hpn : ∀ z : Vec ℝ (p + q), 0 ≤ eps / 2 * normSq z := fun z => mul_nonneg (by linarith) (Finset.sum_nonneg fun _ _ => sq_nonneg _)
  obtain ⟨k, h1, h2, h3, h4⟩ := pgd_sparse (A := LmeSparse (nb.getD p) (ng.getD q) (fun j : Fin p => mapEntry q m j) (xBeta w) (xGamma w))
    (f := fun x => marginalNLL D (xBeta x) (xGamma x)) (pen := fun u => eps / 2 * normSq u) (gr := nllGradient D) (L := L) (F0 := lmeObjective D eps (fun _ _ => 0) b0 g0)
    hgrad hst hs hsL
    (fun x z hx hz => by
      obtain ⟨hA, hmin⟩ := l0_wrap_min heps hs _ _ _ _ _ hz
      exact ⟨hA, hmin x hx fun j i hji hw _ => absurd (hmap j i (mapEntry_some hji)) hw⟩)
    (fun x z hAx hFx hAz => by
      have hv : marginalNLL D (xBeta x) (xGamma x) ≤ lmeObjective D eps (fun _ _ => 0) b0 g0 := by
        have := hpn x
        linarith
      have hup := marginalNLL_upper hD hAx.nonneg hAz.nonneg (xBeta x) (xBeta z) hv
      rw [hinner, hsq]
      have hS : 0 ≤ ∑ i, (xBeta z i - xBeta x i) ^ 2 + ∑ j, (xGamma z j - xGamma x j) ^ 2 :=
        add_nonneg (Finset.sum_nonneg fun _ _ => sq_nonneg _) (Finset.sum_nonneg fun _ _ => sq_nonneg _)
      have := mul_le_mul_of_nonneg_right hL hS
      linarith) hsp (by rw [xBeta_join, xGamma_join]; exact e0.le) h
  simp only [xBeta_join, xGamma_join] at h3
  rw [eo, e0] at h3
  refine ⟨k, h1, h2, h3, fun htol => h4 htol _ fun z hz => ?_⟩
  have := hpn z
  have := noiseFloor_le hD hz.nonneg (xBeta z)
  linarith

/-- **C168**: L0 fits with fixed steps stop. For every table with positive observation variances, every plain L0 model without prior, weights 0 and 1 and every start that respects the budgets and has
nonnegative variances, when the random effects that belong to a fixed effect must be included (for instance when no column has both): let `F₀` be the negative log-likelihood plus `eps/2 |x|²` at the
start, `N = 1/2 Σ log l` its noise level and `L` at least the curvature `Σ x²/l + 2 (F₀ - N) Σ_groups Σ_j (Σ z²/l)²`. If `step L < 1` and the steps are fixed, then the fit returns, has converged whenever
`max_iter > 1 + 2 step (F₀ - N) / (tol² (1 - step L))`, its objective is at most `F₀`, and the coefficients respect both budgets. -/
theorem C168_stops {N nc : ℕ} (M : LmeModelCfg) (hM : M.Robust) (nb ng : Option ℤ) (sort : NpSort) (hreg : M.reg = .l0 nb ng sort) (hsr : M.sr3 = none) (hpr : M.prior = none) (htol : 0 < M.tol)
    (hst : M.stepping ≠ "line-search") (st : LmeState) (x : Matrix (Fin N) (Fin nc) ℝ) (y : Vec ℝ N)
    (columns : Option (List String)) (labels : List String) (ffi fri : Bool) (mustFe mustRe : Option (List String))
    (P : LmeProblem ℝ) (hP : lmeFromXY x (some y) columns labels ffi fri mustFe mustRe = .ok P)
    (hpos : ∀ v : Fin nc, labels[(v : ℕ)]? = some "variance" → ∀ r, 0 < x r v) (a : LmeFitArgs)
    (wb : Vec ℝ P.numFixed) (wg : Vec ℝ P.numRandom) (hwb : List.ofFn wb = a.feWeights.getD P.feWeights) (hwg : List.ofFn wg = a.reWeights.getD P.reWeights)
    (hwb1 : ∀ i, wb i = 0 ∨ wb i = 1) (hwg1 : ∀ j, wg j = 0 ∨ wg j = 1)
    (m : List ℤ) (hm : betaToGammaMap P = .ok m) (hmap : ∀ (i : Fin P.numFixed) (j : Fin P.numRandom), m[(i : ℕ)]? = some ((j : ℕ) : ℤ) → wg j = 0)
    (D : List (LmeGroup P.numFixed P.numRandom)) (hD : lmeGroups P = .ok D) (b0 : Vec ℝ P.numFixed) (g0 : Vec ℝ P.numRandom)
    (hb : List.ofFn b0 = a.beta.getD (List.replicate P.numFixed 1)) (hg : List.ofFn g0 = a.gamma.getD (List.replicate P.numRandom 1)) (hg0 : ∀ j, 0 ≤ g0 j)
    (hbb : (Set.ncard {i | wb i ≠ 0 ∧ b0 i ≠ 0} : ℤ) ≤ max (nb.getD P.numFixed - Set.ncard {i | wb i = 0}) 0)
    (hbg : (Set.ncard {j | wg j ≠ 0 ∧ g0 j ≠ 0} : ℤ) ≤ max (ng.getD P.numRandom - Set.ncard {j | wg j = 0}) 0)
    (F0 : ℝ) (hF0 : F0 = marginalNLL D b0 g0 + M.elasticEps / 2 * (∑ i, b0 i ^ 2 + ∑ j, g0 j ^ 2)) (L : ℝ) (hsL : M.step * L < 1)
    (hL : (D.map fun g => ∑ i, (∑ k, g.x i k ^ 2) / g.l i).sum
      + 2 * (F0 - 1 / 2 * (D.map fun g => ∑ i, Real.log (g.l i)).sum) * (D.map fun g => ∑ j, (∑ i, g.z i j ^ 2 / g.l i) ^ 2).sum ≤ L)
    (hmax : 1 + 2 * M.step * (F0 - 1 / 2 * (D.map fun g => ∑ i, Real.log (g.l i)).sum) / (M.tol ^ 2 * (1 - M.step * L)) < M.maxIter) :
    ∃ Lf c b g, lmeFitProblem M st P a = (.ok Lf, some c) ∧ Lf.get "converged" = .ok (.atom (.bool true)) ∧ c.beta = List.ofFn b ∧ c.gamma = List.ofFn g ∧ (∀ j, 0 ≤ g j) ∧
      marginalNLL D b g + M.elasticEps / 2 * (∑ i, b i ^ 2 + ∑ j, g j ^ 2) ≤ F0 ∧
      (Set.ncard {i | wb i ≠ 0 ∧ b i ≠ 0} : ℤ) ≤ max (nb.getD P.numFixed - Set.ncard {i | wb i = 0}) 0 ∧
      (Set.ncard {j | wg j ≠ 0 ∧ g j ≠ 0} : ℤ) ≤ max (ng.getD P.numRandom - Set.ncard {j | wg j = 0}) 0 := by
  obtain ⟨_, _, feW, reW, -, -, hlen, -, -, -, -, -, -, -, hPe⟩ := lmeFromXY_ok x (some y) columns labels ffi fri mustFe mustRe P hP
  have hF := numFixed_eq P ffi fri (by rw [hPe])
  have hR := numRandom_eq P ffi fri (by rw [hPe])
  have hcl : P.columnLabels = labels := by rw [hPe]
  rw [hcl, ← fixedCount_eq] at hF
  rw [hcl, ← randomCount_eq] at hR
  have hDp : PosVar D := by
    obtain ⟨g, v, hg, hv, hgl, hD'⟩ := lmeGroups_table hP
    have hvl : labels[(v : ℕ)]? = some "variance" := by
      have : v ∈ labelIdx (p := nc) labels (fun l => decide (l = VARIANCE)) := by rw [hv]; simp
      rw [mem_labelIdx] at this
      have hlt : (v : ℕ) < labels.length := by omega
      rw [List.getElem?_eq_getElem hlt]
      simpa [List.getD_eq_getElem?_getD, List.getElem?_eq_getElem hlt, VARIANCE] using this
    cases hD.symm.trans hD'
    intro gr hgr i
    obtain ⟨l, -, rfl⟩ := List.mem_map.1 hgr
    exact hpos v hvl _
  obtain ⟨Lf, c, h, -, -⟩ := C83_fit_problem_returns M hM st x y columns labels ffi fri mustFe mustRe P hP hpos ⟨.nonInformative, by rw [hpr]; rfl⟩ a
    (fun b hb' => by rw [hb'] at hb; rw [← hF]; simpa using (congrArg List.length hb).symm)
    (fun g hg' => by
      rw [hg'] at hg
      refine ⟨by rw [← hR]; simpa using (congrArg List.length hg).symm, fun v hv => ?_⟩
      simp only [Option.getD_some] at hg
      rw [← hg] at hv
      obtain ⟨j, rfl⟩ := List.mem_ofFn.1 hv
      exact hg0 j)
    (fun w hw => by
      rw [← hwb] at hw
      subst hw
      refine ⟨by rw [← hF]; simp, fun v hv => ?_⟩
      obtain ⟨j, rfl⟩ := List.mem_ofFn.1 hv
      exact hwb1 j)
    (fun w hw => by
      rw [← hwg] at hw
      subst hw
      refine ⟨by rw [← hR]; simp, fun v hv => ?_⟩
      obtain ⟨j, rfl⟩ := List.mem_ofFn.1 hv
      exact hwg1 j)
  have hfit := h
  unfold lmeFitProblem at h
  split at h
  · cases h
  rename_i r hr
  obtain ⟨coef, x, L0⟩ := r
  simp only [Prod.mk.injEq] at h
  obtain ⟨h, hc⟩ := h
  cases hc
  obtain ⟨D1, -, h⟩ := ebind_ok.1 h
  obtain ⟨Pr, -, h⟩ := ebind_ok.1 h
  obtain ⟨m', Pr', w', base, D', b0', g0', us, per, hm', hPr', hw', hbase, hD', hb0', hg0', hopt, hus, -, hcoef⟩ := lmeFitCore_ok hr
  cases hD.symm.trans hD'
  obtain rfl : m = m' := Except.ok.inj (hm.symm.trans hm')
  have hstart : lmeStart st P a = (a.beta.getD (List.replicate P.numFixed 1), a.gamma.getD (List.replicate P.numRandom 1)) := by
    unfold lmeStart
    simp only [sklearnCheckTruth, Bool.and_false, Bool.false_eq_true, if_false]
    cases st <;> rfl
  rw [hstart] at hb0' hg0'
  obtain rfl : b0' = b0 := List.ofFn_injective ((asVec_ok.1 hb0').trans hb.symm)
  obtain rfl : g0' = g0 := List.ofFn_injective ((asVec_ok.1 hg0').trans hg.symm)
  have hPn : Pr' = .nonInformative := by
    rw [hpr] at hPr'
    exact (Except.ok.inj hPr').symm
  subst hPn
  obtain rfl : w' = joinX wb wg := by
    rcases LmeReg.weights_mem hw' with ⟨h0, -⟩ | ⟨hlen, hw'⟩
    · rw [hreg] at h0
      cases h0
    · refine List.ofFn_injective (hw'.trans ?_)
      unfold joinX
      rw [List.ofFn_fin_append, ← hwb, ← hwg, List.take_of_length_le (by simp)]
  unfold lmeOptimize at hopt
  simp only [hsr] at hopt
  obtain ⟨bg, hbg', hopt⟩ := ebind_ok.1 hopt
  obtain ⟨⟨⟨x', L'⟩, u⟩, hrun, hopt⟩ := ebind_ok.1 hopt
  cases hopt
  unfold lmeInitialize at hbg'
  rw [if_neg fun hE => hM.init hE hsr] at hbg'
  cases hbg'
  rw [hreg] at hbase
  have ewb : xBeta (joinX wb wg) = wb := xBeta_join _ _
  have ewg : xGamma (joinX wb wg) = wg := xGamma_join _ _
  have hobj : ∀ (b : Vec ℝ P.numFixed) (g : Vec ℝ P.numRandom), lmeObjective D M.elasticEps (fun _ _ => 0) b g = marginalNLL D b g + M.elasticEps / 2 * (∑ i, b i ^ 2 + ∑ j, g j ^ 2) := by
    intro b g
    unfold lmeObjective
    rw [Finset.sum_const_zero, add_zero]
  obtain ⟨k, h1, h2, h3, h4⟩ := l0Run_stops hDp hM.adm.eps (fun i j hij => by rw [ewg]; exact hmap i j hij) hbase (cfg := M.solver) (L := L) hst hM.adm.step_pos hsL (by
      refine ⟨fun j => by rw [xGamma_join]; exact hg0 j, fun _ _ => rfl, fun _ _ => rfl, ?_, ?_, fun _ j i hji hw _ => absurd (hmap j i (mapEntry_some hji)) (by rw [ewg] at hw; exact hw)⟩
      · rw [ewb]
        refine le_trans (le_of_eq ?_) hbb
        congr 2
        ext i
        simp only [Set.mem_ofPred_eq, joinX, Fin.append_left]
      · rw [ewg]
        refine le_trans (le_of_eq ?_) hbg
        congr 2
        ext i
        simp only [Set.mem_ofPred_eq, joinX, Fin.append_right])
    (by rw [hobj, ← hF0]; exact hL) hrun
  rw [hobj, hobj, ← hF0] at h3
  have h5 := h2.adm.budgetB
  have h6 := h2.adm.budgetG
  rw [ewb] at h5
  rw [ewg] at h6
  refine ⟨Lf, c, xBeta x, xGamma x, hfit, ?_, by rw [hcoef], by rw [hcoef], h2.nonneg, h3, h5, h6⟩
  rw [lmeLogCriteria_other h (by decide), h1]
  have hk : (k : ℤ) < M.maxIter := by
    have h1 := h4 htol
    rw [hobj, ← hF0] at h1
    change ((k : ℝ) - 1) * M.tol ^ 2 * (1 - M.step * L) ≤ 2 * M.step * (F0 - noiseFloor D) at h1
    have hden : 0 < M.tol ^ 2 * (1 - M.step * L) := mul_pos (pow_pos htol 2) (by linarith)
    have h2 : (k : ℝ) - 1 ≤ 2 * M.step * (F0 - noiseFloor D) / (M.tol ^ 2 * (1 - M.step * L)) := by
      rw [le_div_iff₀ hden]
      linarith
    have h3 : (k : ℝ) < M.maxIter := by
      unfold noiseFloor at h2
      linarith
    exact_mod_cast h3
  have : (k : ℤ) < M.solver.maxIter := hk
  simp [this]

end Fit

/-- A sorting routine. -/
noncomputable def exSort : NpSort :=
  ⟨fun _ => Classical.choice (argSort_nonempty _ _), fun _ _ => Classical.choice (argSort_nonempty _ _)⟩

/-- An L0 model with fixed steps that may keep one fixed effect. -/
noncomputable def l0Model (step : ℝ) (maxIter : ℤ) : LmeModelCfg :=
  { exModel none maxIter (.l0 (some 1) none exSort) with stepping := "fixed", fixedStepLen := some step }

theorem l0Model_step {step : ℝ} (h : step ≠ 0) (maxIter : ℤ) : (l0Model step maxIter).step = step := if_neg h

theorem l0Model_robust {step : ℝ} (h : 0 < step) (maxIter : ℤ) : (l0Model step maxIter).Robust where
  adm := ⟨trivial, by norm_num [l0Model, exModel], (fun s hs => by cases hs; exact h.le), fun s h => by cases h⟩
  init := by simp [l0Model, exModel]
  kind := rfl
  keys := by change ["converged", "loss", "jones_bic", "muller_ic"].Nodup; decide
  vaida := by change _ ∉ ["converged", "loss", "jones_bic", "muller_ic"]; decide
  flip := fun h => absurd h (by change _ ∉ ["converged", "loss", "jones_bic", "muller_ic"]; decide)
  sr3 := fun s h => by cases h
  scad := fun _ _ => trivial

/-- Non-vacuity of C168 and of C167 for L0: the example table, with two fixed effects and one random effect, is fitted from a zero start with a budget of one fixed effect; the fit converges, keeps at most
one fixed effect, and the derivatives of the negative log-likelihood near the result satisfy the conditions of C167. -/
example : ∃ (P : LmeProblem ℝ) (D : List (LmeGroup P.numFixed P.numRandom)) (step : ℝ) (maxIter : ℤ) (a : LmeFitArgs) (Lf : Logger (PyVal ℝ (P.numFixed + P.numRandom))) (c : LmeCoef)
    (b b' : Vec ℝ P.numFixed) (g' : Vec ℝ P.numRandom), lmeFromXY exTab (some ![26, 20]) none exTabLabels true false none none = .ok P ∧ lmeGroups P = .ok D ∧ 0 < step ∧
    lmeFitProblem (l0Model step maxIter) none P a = (.ok Lf, some c) ∧ Lf.get "converged" = .ok (.atom (.bool true)) ∧ P.numFixed = 2 ∧ P.numRandom = 1 ∧ c.beta = List.ofFn b ∧
    (Set.ncard {i | b i ≠ 0} : ℤ) ≤ 1 ∧ ∑ i, (b i - b' i) ^ 2 ≤ (1e-5) ^ 2 ∧
    ∀ i, ∃ G, HasDerivAt (fun t => marginalNLL D (b' + Pi.single i t) g') G 0 ∧ (b i ≠ 0 → |G + 1e-4 * b i| ≤ 1e-5 / step) ∧
      (b i = 0 → ∀ k, b k ≠ 0 → |G| ≤ (1 / step + 1e-4) * |b k| + 1e-5 / step) := by
  obtain ⟨P, hP⟩ := exTab_ok' true false ![26, 20]
  obtain ⟨_, _, feW, reW, -, -, hlen, -, -, -, -, -, hf, hr', hPe⟩ := lmeFromXY_ok exTab (some ![26, 20]) none exTabLabels
    true false none none P hP
  have e1 : P.feWeights = [1, 1] := by rw [hPe]; cases hf; rfl
  have e2 : P.reWeights = [1] := by rw [hPe]; cases hr'; rfl
  have hF : P.numFixed = 2 := (numFixed_eq P true false (by rw [hPe])).trans (by rw [show P.columnLabels = exTabLabels by rw [hPe]]; decide)
  have hR : P.numRandom = 1 := (numRandom_eq P true false (by rw [hPe])).trans (by rw [show P.columnLabels = exTabLabels by rw [hPe]]; decide)
  obtain ⟨gr, v, -, hv, -, hD⟩ := lmeGroups_table hP
  obtain ⟨D, hDe⟩ : ∃ D, D = (uniqueLabels fun r => exTab r gr).map (tableGroup exTab ![26, 20] exTabLabels true false gr v P.numFixed P.numRandom) := ⟨_, rfl⟩
  rw [← hDe] at hD
  obtain ⟨_, _, m, -, -, -, -, -, -, -, -, hm, -⟩ := C62_beta_to_gamma_map exTab (some ![26, 20]) none exTabLabels true false none none P hP
  have hneg := map_neg_of_labels hP (by decide) (by decide) m hm
  obtain ⟨F0, hF0⟩ : ∃ F0, F0 = marginalNLL D 0 0 + 1e-4 / 2 * (∑ i, (0 : Vec ℝ P.numFixed) i ^ 2 + ∑ j, (0 : Vec ℝ P.numRandom) j ^ 2) := ⟨_, rfl⟩
  obtain ⟨L, hL⟩ : ∃ L, L = max 1 ((D.map fun g => ∑ i, (∑ k, g.x i k ^ 2) / g.l i).sum
      + 2 * (F0 - 1 / 2 * (D.map fun g => ∑ i, Real.log (g.l i)).sum) * (D.map fun g => ∑ j, (∑ i, g.z i j ^ 2 / g.l i) ^ 2).sum) := ⟨_, rfl⟩
  have hL0 : 0 < L := by rw [hL]; exact lt_of_lt_of_le one_pos (le_max_left _ _)
  obtain ⟨s, hs⟩ : ∃ s, s = 1 / (2 * L) := ⟨_, rfl⟩
  have hs0 : 0 < s := by rw [hs]; positivity
  have hsL : s * L < 1 := by
    rw [hs]
    field_simp
    norm_num
  obtain ⟨mx, hmx⟩ := exists_nat_gt (1 + 2 * s * (F0 - 1 / 2 * (D.map fun g => ∑ i, Real.log (g.l i)).sum) / ((1e-5 : ℝ) ^ 2 * (1 - s * L)))
  have hstep := l0Model_step hs0.ne' (mx : ℤ)
  have hrob := l0Model_robust hs0 (mx : ℤ)
  have hone : ∀ n : ℕ, List.ofFn (fun _ : Fin n => (1 : ℝ)) = List.replicate n 1 := fun n => List.ofFn_const n 1
  have hwb : List.ofFn (fun _ : Fin P.numFixed => (1 : ℝ)) = P.feWeights := by rw [e1, hF, hone]; rfl
  have hwg : List.ofFn (fun _ : Fin P.numRandom => (1 : ℝ)) = P.reWeights := by rw [e2, hR, hone]; rfl
  let a : LmeFitArgs := { beta := some (List.ofFn (0 : Vec ℝ P.numFixed)), gamma := some (List.ofFn (0 : Vec ℝ P.numRandom)) }
  obtain ⟨Lf, c, b, g, hfit, hconv, hb, hg, -, -, hbud, -⟩ := C168_stops (l0Model s mx) hrob (some 1) none exSort rfl rfl rfl (by norm_num [l0Model, exModel]) (by simp [l0Model]) none
    exTab ![26, 20] none exTabLabels true false none none P hP exTab_positive a (fun _ => 1) (fun _ => 1) hwb hwg (fun _ => .inr rfl) (fun _ => .inr rfl) m hm
    (fun i j hij => absurd (hneg _ (List.mem_of_getElem? hij)) (by omega)) D hD 0 0 rfl rfl (fun _ => le_rfl) (by simp) (by simp) F0 hF0 L (by rw [hstep]; exact hsL) (by rw [hL]; exact le_max_right _ _)
    (by
      rw [hstep]
      change 1 + 2 * s * (F0 - _) / _ < ((mx : ℤ) : ℝ)
      rw [Int.cast_natCast]
      exact hmx)
  obtain ⟨coef, b1, g1, b', g', t, hc, hb1, -, -, ht, hd, -, hopt, -⟩ := C167_l0 (l0Model s mx) (some 1) none exSort rfl (by norm_num [l0Model, exModel]) (by rw [hstep]; exact hs0) rfl rfl none P a D hD
    (by omega) m hm (fun _ => 1) (fun _ => 1) hwb hwg Lf (some c) hfit hconv
  cases hc
  obtain rfl : b = b1 := List.ofFn_injective (hb.symm.trans hb1)
  have hts : t = s := (ht (by simp [l0Model])).trans hstep
  subst hts
  refine ⟨P, D, t, mx, a, Lf, c, b, b', g', hP, hD, hs0, hfit, hconv, hF, hR, hb, by simpa using hbud, ?_, fun i => ?_⟩
  · refine le_trans ?_ hd
    exact le_add_of_nonneg_right (Finset.sum_nonneg fun _ _ => sq_nonneg _)
  · obtain ⟨G, hG, h1, h2, -⟩ := hopt i
    exact ⟨G, hG, fun h => h1 (.inl h), fun h k hk => h2 h k one_ne_zero hk⟩

/-- A plain fit without prior whose first step, of fixed length, moves by at most the tolerance has converged. -/
theorem lmeFit_first {M : LmeModelCfg} (hst : M.stepping ≠ "line-search") (hsr : M.sr3 = none) (hpr : M.prior = none) (hinit : M.initializer ≠ some "EM") (hit : 2 ≤ M.maxIter) {st : LmeState}
    {P : LmeProblem ℝ} {a : LmeFitArgs} {D : List (LmeGroup P.numFixed P.numRandom)} (hD : lmeGroups P = .ok D) {b0 : Vec ℝ P.numFixed} {g0 : Vec ℝ P.numRandom}
    (hb : List.ofFn b0 = a.beta.getD (List.replicate P.numFixed 1)) (hg : List.ofFn g0 = a.gamma.getD (List.replicate P.numRandom 1)) (htol : 0 ≤ M.tol)
    (hmove : ∀ m w base x1, M.reg.weights P.numFixed P.numRandom (a.feWeights.getD P.feWeights ++ a.reWeights.getD P.reWeights) = .ok w → M.reg.build P.numFixed P.numRandom m w = .ok base →
      (wrapReg P.numFixed P.numRandom M.elasticEps base).prox (fun i => joinX b0 g0 i - M.step * nllGradient D (joinX b0 g0) i) M.step = .ok x1 → normSq (x1 - joinX b0 g0) ≤ M.tol ^ 2)
    {Lf : Logger (PyVal ℝ (P.numFixed + P.numRandom))} {c : LmeState} (h : lmeFitProblem M st P a = (.ok Lf, c)) : Lf.get "converged" = .ok (.atom (.bool true)) := by
  unfold lmeFitProblem at h
  split at h
  · cases h
  rename_i r hr
  obtain ⟨coef, x, L0⟩ := r
  simp only [Prod.mk.injEq] at h
  obtain ⟨h, hc⟩ := h
  obtain ⟨D1, -, h⟩ := ebind_ok.1 h
  obtain ⟨Pr, -, h⟩ := ebind_ok.1 h
  obtain ⟨m, Pr', w, base, D', b0', g0', us, per, hm, hPr', hw, hbase, hD', hb0', hg0', hopt, -, -, hcoef⟩ := lmeFitCore_ok hr
  cases hD.symm.trans hD'
  have hstart : lmeStart st P a = (a.beta.getD (List.replicate P.numFixed 1), a.gamma.getD (List.replicate P.numRandom 1)) := by
    unfold lmeStart
    simp only [sklearnCheckTruth, Bool.and_false, Bool.false_eq_true, if_false]
    cases st <;> rfl
  rw [hstart] at hb0' hg0'
  obtain rfl : b0' = b0 := List.ofFn_injective ((asVec_ok.1 hb0').trans hb.symm)
  obtain rfl : g0' = g0 := List.ofFn_injective ((asVec_ok.1 hg0').trans hg.symm)
  have hPn : Pr' = .nonInformative := by
    rw [hpr] at hPr'
    exact (Except.ok.inj hPr').symm
  subst hPn
  rw [lmeLogCriteria_other h (by decide)]
  unfold lmeOptimize at hopt
  simp only [hsr] at hopt
  obtain ⟨bg, hbg, hopt⟩ := ebind_ok.1 hopt
  obtain ⟨⟨⟨x', L'⟩, u⟩, hrun, hopt⟩ := ebind_ok.1 hopt
  cases hopt
  unfold lmeInitialize at hbg
  rw [if_neg hinit] at hbg
  cases hbg
  obtain ⟨k, X, Ls, s1, L1, -, h0, hk, hcv, hit', hsteps, hguards, hend⟩ := pgdOptimize_trace _ _ _ _ _
    (fun y _ x' _ => (wrapReg P.numFixed P.numRandom M.elasticEps base).prox (fun i => y i - M.step * nllGradient D y i) M.step = .ok x')
    (fun y it L' s x' L'' s' hbd => by
      obtain ⟨gv, s1, t, s2, hgv, hch, hpx, -⟩ := pgdBody_ok _ _ _ _ _ _ _ _ _ _ _ hbd
      change (lmeGradientBeta D .nonInformative _ _ >>= fun gb => lmeGradientGamma D .nonInformative _ _ >>= fun gg => Except.ok (joinX gb gg, s)) = _ at hgv
      obtain ⟨gb, h1, hgv⟩ := ebind_ok.1 hgv
      obtain ⟨gg, h2, hgv⟩ := ebind_ok.1 hgv
      cases hgv
      have e : joinX gb gg = nllGradient D y := by
        rw [(lmeGradientBeta_ok.1 h1).2, (lmeGradientGamma_ok'.1 h2).2]
        unfold nllGradient
        congr 1
        · exact add_zero _
        · exact add_zero _
      rw [e] at hpx
      unfold chooseStep at hch
      rw [if_neg (show M.solver.stepping ≠ "line-search" from hst)] at hch
      obtain ⟨rfl, -⟩ := pure_ok.1 hch
      exact hpx) _ _ _ _ hrun
  rw [(Logger.add_get hit').2 _ (by decide), (Logger.add_get hcv).1]
  have hk2 : k < 2 := by
    by_contra hge
    push Not at hge
    have h1 := hsteps 0 (by omega)
    rw [h0] at h1
    have h2 := hmove m w base _ hw hbase h1
    rcases (hguards 1 (by omega)).1 with h3 | h3
    · exact absurd h3 (not_lt.2 htol)
    · rw [h0] at h3
      exact absurd h3 (not_lt.2 h2)
  have : (k : ℤ) < M.solver.maxIter := lt_of_lt_of_le (by omega) (show (2 : ℤ) ≤ M.solver.maxIter from hit)
  simp [this]

/-- A CAD model with fixed steps. -/
noncomputable def cadModel (tol : ℝ) : LmeModelCfg :=
  { exModel none 1000 (.cad (1 / 2) 2) with stepping := "fixed", fixedStepLen := some (1 / 10), tol := tol }

theorem cadModel_robust (tol : ℝ) : (cadModel tol).Robust where
  adm := ⟨show (0 : ℝ) ≤ 2 by norm_num, by norm_num [cadModel, exModel], (fun s hs => by cases hs; norm_num), fun s h => by cases h⟩
  init := by simp [cadModel, exModel]
  kind := rfl
  keys := by change ["converged", "loss", "jones_bic", "muller_ic"].Nodup; decide
  vaida := by change _ ∉ ["converged", "loss", "jones_bic", "muller_ic"]; decide
  flip := fun h => absurd h (by change _ ∉ ["converged", "loss", "jones_bic", "muller_ic"]; decide)
  sr3 := fun s h => by cases h
  scad := fun _ _ => trivial

/-- Non-vacuity of C167 for CAD: the example table is fitted with a CAD penalty and a tolerance that the first step meets; the derivatives near the result satisfy the conditions. -/
example : ∃ (P : LmeProblem ℝ) (D : List (LmeGroup P.numFixed P.numRandom)) (tol : ℝ) (Lf : Logger (PyVal ℝ (P.numFixed + P.numRandom))) (c : LmeCoef)
    (b b' : Vec ℝ P.numFixed) (g' : Vec ℝ P.numRandom), lmeFromXY exTab (some ![26, 20]) none exTabLabels true true none none = .ok P ∧ lmeGroups P = .ok D ∧
    lmeFitProblem (cadModel tol) none P {} = (.ok Lf, some c) ∧ Lf.get "converged" = .ok (.atom (.bool true)) ∧ P.numFixed = 2 ∧ P.numRandom = 2 ∧ c.beta = List.ofFn b ∧
    ∑ i, (b i - b' i) ^ 2 ≤ tol ^ 2 ∧
    ∀ i, ∃ G, HasDerivAt (fun t => marginalNLL D (b' + Pi.single i t) g') G 0 ∧ (1 / 2 < |b i| → |G + 1e-4 * b i| ≤ tol / (1 / 10)) ∧ (b i = 0 → |G| ≤ 2 * 1 + tol / (1 / 10)) := by
  obtain ⟨P, hP⟩ := exTab_ok' true true ![26, 20]
  obtain ⟨_, _, feW, reW, -, -, hlen, -, -, -, -, -, hf, hr', hPe⟩ := lmeFromXY_ok exTab (some ![26, 20]) none exTabLabels
    true true none none P hP
  have e1 : P.feWeights = [1, 1] := by rw [hPe]; cases hf; rfl
  have e2 : P.reWeights = [1, 1] := by rw [hPe]; cases hr'; rfl
  have hF : P.numFixed = 2 := (numFixed_eq P true true (by rw [hPe])).trans (by rw [show P.columnLabels = exTabLabels by rw [hPe]]; decide)
  have hR : P.numRandom = 2 := (numRandom_eq P true true (by rw [hPe])).trans (by rw [show P.columnLabels = exTabLabels by rw [hPe]]; decide)
  obtain ⟨gr, v, -, hv, -, hD⟩ := lmeGroups_table hP
  obtain ⟨D, hDe⟩ : ∃ D, D = (uniqueLabels fun r => exTab r gr).map (tableGroup exTab ![26, 20] exTabLabels true true gr v P.numFixed P.numRandom) := ⟨_, rfl⟩
  rw [← hDe] at hD
  have hone : ∀ n : ℕ, List.ofFn (fun _ : Fin n => (1 : ℝ)) = List.replicate n 1 := fun n => List.ofFn_const n 1
  have hwb : List.ofFn (fun _ : Fin P.numFixed => (1 : ℝ)) = P.feWeights := by rw [e1, hF, hone]; rfl
  have hwg : List.ofFn (fun _ : Fin P.numRandom => (1 : ℝ)) = P.reWeights := by rw [e2, hR, hone]; rfl
  -- the first step
  obtain ⟨x0, hx0⟩ : ∃ x0 : Vec ℝ (P.numFixed + P.numRandom), x0 = joinX (fun _ => 1) (fun _ => 1) := ⟨_, rfl⟩
  obtain ⟨w, hw⟩ : ∃ w : Vec ℝ (P.numFixed + P.numRandom), w = joinX (fun _ => 1) (fun _ => 1) := ⟨_, rfl⟩
  obtain ⟨x1, hx1⟩ : ∃ x1, (wrapReg P.numFixed P.numRandom 1e-4 (cadRegularizer (1 / 2) 2 (some w))).prox (fun i => x0 i - 1 / 10 * nllGradient D x0 i) (1 / 10) = .ok x1 := by
    rw [wrapReg_prox_eq]
    exact ⟨_, rfl⟩
  obtain ⟨tol, htol⟩ : ∃ tol, tol = √(normSq (x1 - x0)) := ⟨_, rfl⟩
  have hN : 0 ≤ normSq (x1 - x0) := Finset.sum_nonneg fun i _ => sq_nonneg _
  obtain ⟨Lf, c, hfit, -, -⟩ := C83_fit_problem_returns (cadModel tol) (cadModel_robust tol) none exTab ![26, 20] none exTabLabels true true none none P hP exTab_positive ⟨.nonInformative, rfl⟩ {}
    (by simp) (by simp) (by rintro w rfl; simp only [Option.getD_none, e1]; exact ⟨rfl, by simp⟩) (by rintro w rfl; simp only [Option.getD_none, e2]; exact ⟨rfl, by simp⟩)
  have hstep : (cadModel tol).step = 1 / 10 := if_neg (by norm_num)
  have hconv := lmeFit_first (M := cadModel tol) (by simp [cadModel]) rfl rfl (by simp [cadModel, exModel]) (by norm_num [cadModel, exModel]) hD (b0 := fun _ => 1) (g0 := fun _ => 1) (hone _) (hone _)
    (by rw [show (cadModel tol).tol = tol from rfl, htol]; exact Real.sqrt_nonneg _) (fun m w' base x1' hw' hbase hpx => by
      obtain rfl : w' = w := by
        rcases LmeReg.weights_mem hw' with ⟨h0, -⟩ | ⟨hlen, hw'⟩
        · cases h0
        · refine List.ofFn_injective (hw'.trans ?_)
          rw [hw]
          unfold joinX
          rw [List.ofFn_fin_append, hwb, hwg]
          change List.take _ (P.feWeights ++ P.reWeights) = _
          rw [List.take_of_length_le (by rw [e1, e2, hF, hR]; simp)]
      cases hbase
      rw [hstep, ← hx0] at hpx
      cases hx1.symm.trans hpx
      rw [← hx0, show (cadModel tol).tol = tol from rfl, htol, Real.sq_sqrt hN]) hfit
  obtain ⟨coef, b, g, b', g', t, hc, hb, -, -, ht, hd, -, hopt, -⟩ := C167_cad (cadModel tol) (1 / 2) 2 rfl (by norm_num) (by norm_num [cadModel, exModel]) (by rw [hstep]; norm_num) rfl rfl none P {} D hD
    (by omega) (fun _ => 1) (fun _ => 1) hwb hwg (fun _ => zero_le_one) (fun _ => zero_le_one) Lf (some c) hfit hconv
  cases hc
  have hts : t = 1 / 10 := (ht (by simp [cadModel])).trans hstep
  subst hts
  refine ⟨P, D, tol, Lf, c, b, b', g', hP, hD, hfit, hconv, hF, hR, hb, ?_, fun i => ?_⟩
  · refine le_trans ?_ hd
    exact le_add_of_nonneg_right (Finset.sum_nonneg fun _ _ => sq_nonneg _)
  · obtain ⟨G, hG, h1, -, -, h2⟩ := hopt i
    exact ⟨G, hG, h1, h2⟩

end Verif
