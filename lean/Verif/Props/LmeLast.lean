import Verif.Props.LmeConverge
import Verif.Props.L0Lme
import Verif.Props.LinClasses

/-!
# C167: converged L0 and CAD mixed-effects fits satisfy the optimality conditions of the effects they keep

Concrete converged fits are in `Verif/Props/LmeL0Stop.lean`.
-/

open Matrix

namespace Verif

section Masked

variable {ι : Type*} [Fintype ι] {K : Type*} [Field K] [LinearOrder K] [IsStrictOrderedRing K]

/-- Among the entries taking part in the selection, those kept are at least as large as those dropped. -/
theorem maskedKMax_dom (mask : ι → Bool) (as : ArgSort {i // mask i = true} K) (x : ι → K) (k : ℤ) {i j : ι} (hi : mask i = true) (hz : maskedKMax mask as x k i ≠ 0)
    (h0 : maskedKMax mask as x k j = 0) : |x j| ≤ |x i| := by
  classical
  by_cases hj : mask j = true
  · have e1 := maskedKMax_on mask as x k ⟨i, hi⟩
    have e2 := maskedKMax_on mask as x k ⟨j, hj⟩
    simp only at e1 e2
    rw [e1, takeOnlyKMax_eq] at hz
    rw [e2, takeOnlyKMax_eq] at h0
    have h1 : (⟨i, hi⟩ : {i // mask i = true}) ∈ keptSet as (fun j => x j.1) (k - (Fintype.card {i // mask i = false} : ℤ)) := by
      by_contra hc
      exact hz (if_neg hc)
    by_cases h2 : (⟨j, hj⟩ : {i // mask i = true}) ∈ keptSet as (fun j => x j.1) (k - (Fintype.card {i // mask i = false} : ℤ))
    · rw [if_pos h2] at h0
      rw [h0, abs_zero]
      exact abs_nonneg _
    · exact keptSet_dom as (fun j => x j.1) _ h1 h2
  · rw [maskedKMax_off mask as x k j (by simpa using hj)] at h0
    rw [h0, abs_zero]
    exact abs_nonneg _

/-- If the budget is not used up, nothing nonzero was dropped. -/
theorem maskedKMax_slack (mask : ι → Bool) (as : ArgSort {i // mask i = true} K) (x : ι → K) (k : ℤ)
    (hk : (Set.ncard {i | mask i = true ∧ maskedKMax mask as x k i ≠ 0} : ℤ) + Set.ncard {i | mask i = false} < k) (j : ι) : maskedKMax mask as x k j = x j := by
  classical
  by_cases hj : mask j = true
  · have hc : Set.ncard {i | mask i = false} = Fintype.card {i // mask i = false} := by
      rw [Set.ncard_eq_toFinset_card', Fintype.card_subtype]; congr 1; ext i; simp
    have hn : Set.ncard {i | mask i = true ∧ maskedKMax mask as x k i ≠ 0} = nnzCount (takeOnlyKMax as (fun j : {i // mask i = true} => x j.1) (k - (Fintype.card {i // mask i = false} : ℤ))) := by
      have := nnzOn_eq mask (maskedKMax mask as x k)
      unfold nnzOn at this
      rw [this]
      congr 1
      funext i
      exact maskedKMax_on mask as x k i
    rw [hc, hn] at hk
    set r : ℤ := k - (Fintype.card {i // mask i = false} : ℤ) with hr
    have e2 := maskedKMax_on mask as x k ⟨j, hj⟩
    simp only at e2
    rw [e2, ← hr, takeOnlyKMax_eq]
    split_ifs with h2
    · rfl
    -- some kept entry is zero
    have hcard := keptSet_card as (fun j : {i // mask i = true} => x j.1) r
    have hlt : (keptSet as (fun j : {i // mask i = true} => x j.1) r).card < Fintype.card {i // mask i = true} :=
      (Finset.card_lt_iff_ne_univ _).2 fun h => h2 (by rw [h]; exact Finset.mem_univ _)
    have hcard' : (keptSet as (fun j : {i // mask i = true} => x j.1) r).card = r.toNat := by
      rw [hcard] at hlt ⊢
      omega
    have hlt2 : nnzCount (takeOnlyKMax as (fun j : {i // mask i = true} => x j.1) r) < (keptSet as (fun j : {i // mask i = true} => x j.1) r).card := by
      rw [hcard']
      omega
    rw [nnzCount_eq_card] at hlt2
    obtain ⟨i, hi, hi0⟩ : ∃ i ∈ keptSet as (fun j : {i // mask i = true} => x j.1) r, x i.1 = 0 := by
      by_contra hne
      push Not at hne
      refine absurd (Finset.card_le_card fun i hi => ?_) (not_le.2 hlt2)
      rw [Finset.mem_filter]
      refine ⟨Finset.mem_univ _, ?_⟩
      rw [takeOnlyKMax_eq, if_pos hi]
      exact hne i hi
    have h3 := keptSet_dom as (fun j : {i // mask i = true} => x j.1) r hi h2
    simp only at h3
    rw [hi0, abs_zero] at h3
    exact (abs_nonpos_iff.1 h3).symm
  · exact maskedKMax_off mask as x k j (by simpa using hj)

end Masked

/-- The last step of a converged plain fit without prior. -/
theorem lmeFit_last {M : LmeModelCfg} (hs : 0 < M.step) (hsr : M.sr3 = none) (hpr : M.prior = none) {st : LmeState} {P : LmeProblem ℝ} {a : LmeFitArgs}
    {D : List (LmeGroup P.numFixed P.numRandom)} (hD : lmeGroups P = .ok D) (hn : 0 < P.numFixed + P.numRandom)
    {Lf : Logger (PyVal ℝ (P.numFixed + P.numRandom))} {c : LmeState} (h : lmeFitProblem M st P a = (.ok Lf, c)) (hconv : Lf.get "converged" = .ok (.atom (.bool true))) :
    ∃ (m : List ℤ) (w : Vec ℝ (P.numFixed + P.numRandom)) (base : Regularizer ℝ (P.numFixed + P.numRandom)) (x xp : Vec ℝ (P.numFixed + P.numRandom)) (t : ℝ) (coef : LmeCoef),
      betaToGammaMap P = .ok m ∧ M.reg.weights P.numFixed P.numRandom (a.feWeights.getD P.feWeights ++ a.reWeights.getD P.reWeights) = .ok w ∧
      M.reg.build P.numFixed P.numRandom m w = .ok base ∧ c = some coef ∧ coef.beta = List.ofFn (xBeta x) ∧ coef.gamma = List.ofFn (xGamma x) ∧
      0 < t ∧ (M.stepping ≠ "line-search" → t = M.step) ∧ 0 ≤ M.tol ∧ ∑ i, (x i - xp i) ^ 2 ≤ M.tol ^ 2 ∧ InDomain D (xGamma xp) ∧
      (wrapReg P.numFixed P.numRandom M.elasticEps base).prox (fun i => xp i - t * nllGradient D xp i) t = .ok x := by
  unfold lmeFitProblem at h
  split at h
  · cases h
  rename_i r hr
  obtain ⟨coef, x, L0⟩ := r
  simp only [Prod.mk.injEq] at h
  obtain ⟨h, hc⟩ := h
  obtain ⟨D1, -, h⟩ := ebind_ok.1 h
  obtain ⟨Pr, -, h⟩ := ebind_ok.1 h
  obtain ⟨m, Pr', w, base, D', b0, g0, us, per, hm, hPr', hw, hbase, hD', -, -, hopt, -, -, hcoef⟩ := lmeFitCore_ok hr
  cases hD.symm.trans hD'
  have hPn : Pr' = .nonInformative := by
    rw [hpr] at hPr'
    exact (Except.ok.inj hPr').symm
  subst hPn
  rw [lmeLogCriteria_other h (by decide)] at hconv
  unfold lmeOptimize at hopt
  simp only [hsr] at hopt
  obtain ⟨bg, -, hopt⟩ := ebind_ok.1 hopt
  obtain ⟨⟨⟨x', L'⟩, u⟩, hrun, hopt⟩ := ebind_ok.1 hopt
  cases hopt
  obtain ⟨k, X, Ls, s1, L1, -, -, hk, hcv, hit, hsteps, -, hend⟩ := pgdOptimize_trace _ _ _ _ _
    (fun y _ x' _ => ∃ t, 0 < t ∧ (M.stepping ≠ "line-search" → t = M.step) ∧ InDomain D (xGamma y) ∧
      (wrapReg P.numFixed P.numRandom M.elasticEps base).prox (fun i => y i - t * nllGradient D y i) t = .ok x')
    (fun y it L' s x' L'' s' hbd => by
      obtain ⟨gv, s1, t, s2, hgv, hst, hpx, -⟩ := pgdBody_ok _ _ _ _ _ _ _ _ _ _ _ hbd
      change (lmeGradientBeta D .nonInformative _ _ >>= fun gb => lmeGradientGamma D .nonInformative _ _ >>= fun gg => Except.ok (joinX gb gg, s)) = _ at hgv
      obtain ⟨gb, h1, hgv⟩ := ebind_ok.1 hgv
      obtain ⟨gg, h2, hgv⟩ := ebind_ok.1 hgv
      cases hgv
      have e : joinX gb gg = nllGradient D y := by
        rw [(lmeGradientBeta_ok.1 h1).2, (lmeGradientGamma_ok'.1 h2).2]
        unfold nllGradient
        congr 1
        · exact add_zero _
        · exact add_zero _
      rw [e] at hpx
      refine ⟨t, chooseStep_pos _ _ _ _ _ _ _ _ hs hst, fun hne => ?_, (lmeGradientBeta_ok.1 h1).1, hpx⟩
      unfold chooseStep at hst
      rw [if_neg (show M.solver.stepping ≠ "line-search" from hne)] at hst
      exact (pure_ok.1 hst).1.symm) _ _ _ _ hrun
  rw [(Logger.add_get hit).2 _ (by decide), (Logger.add_get hcv).1] at hconv
  have hlt : (k : ℤ) < M.solver.maxIter := by simpa using hconv
  cases k with
  | zero => exact absurd ⟨Or.inl hn, by simpa using hlt⟩ hend
  | succ j =>
    have hfar : ¬ farApart M.solver.tol (some (X j)) (X (j + 1)) := fun hf => hend ⟨hf, by simpa using hlt⟩
    simp only [farApart, not_or, not_lt] at hfar
    obtain ⟨t, h0, h1, h2, h3⟩ := hsteps j (by omega)
    rw [hk] at h3 hfar
    exact ⟨m, w, base, x, X j, t, coef, hm, hw, hbase, hc.symm, by rw [hcoef], by rw [hcoef], h0, h1, hfar.1, hfar.2, h2, h3⟩

section Coord

/-- A coordinate `x (1 + t eps) + t l = xp - t G` moved by at most `δ`. -/
theorem step_coord {x xp t eps G l δ : ℝ} (ht : 0 < t) (hd : |x - xp| ≤ δ) (h : x * (1 + t * eps) + t * l = xp - t * G) : |G + eps * x + l| ≤ δ / t := by
  have h0 : t * (G + eps * x + l) = -(x - xp) := by linarith
  rw [le_div_iff₀ ht, ← abs_of_pos ht, ← abs_mul, mul_comm, h0, abs_neg]
  exact hd

/-- A coordinate at zero whose step was at most `s` long. -/
theorem step_zero {xp t G s δ : ℝ} (ht : 0 < t) (hd : |0 - xp| ≤ δ) (h : |xp - t * G| ≤ t * s) : |G| ≤ s + δ / t := by
  rw [zero_sub, abs_neg] at hd
  have h1 := abs_le.1 hd
  have h2 := abs_le.1 h
  have h3 : δ = δ / t * t := (div_mul_cancel₀ _ ht.ne').symm
  refine abs_le.2 ⟨?_, ?_⟩
  · by_contra hc
    push Not at hc
    nlinarith
  · by_contra hc
    push Not at hc
    nlinarith

/-- A coordinate at zero whose step up was at most `s` long. -/
theorem step_zero_up {xp t G s δ : ℝ} (ht : 0 < t) (hd : |0 - xp| ≤ δ) (h : xp - t * G ≤ t * s) : -s - δ / t ≤ G := by
  rw [zero_sub, abs_neg] at hd
  have h1 := abs_le.1 hd
  have h3 : δ = δ / t * t := (div_mul_cancel₀ _ ht.ne').symm
  by_contra hc
  push Not at hc
  nlinarith

end Coord

/-- The prox of the wrappers around a base regularizer. -/
theorem wrapReg_prox_eq (p q : ℕ) (eps : ℝ) (base : Regularizer ℝ (p + q)) (y : Vec ℝ (p + q)) (t : ℝ) :
    (wrapReg p q eps base).prox y t = base.prox (joinX (fun i => xBeta y i / (1 + t * eps)) fun j => max (xGamma y j) 0 / (1 + t * eps)) (t / (1 + t * eps)) := by
  unfold wrapReg positiveQuadrant elastic
  simp only
  congr 1
  funext i
  refine Fin.addCases (fun i => ?_) (fun j => ?_) i
  · rw [joinX, Fin.append_left, if_neg (by simp [positiveMask])]
    rfl
  · rw [joinX, Fin.append_right, if_pos (by simp [positiveMask])]
    rfl

/-- The two parts of the mixed-model L0 prox. -/
theorem l0Lme_prox_parts {p q : ℕ} {kb kg : ℤ} {b2g : Fin p → Option (Fin q)} {ws : L0LmeWeights ℝ p q} {asAll : ArgSort (Fin p) ℝ} {yb : Vec ℝ p} {yg : Vec ℝ q} {alpha : ℝ} {x : Vec ℝ (p + q)}
    (h : (l0LmeRegularizer ⟨some kb, some kg, false⟩ b2g (some ws) asAll).prox (joinX yb yg) alpha = .ok x) :
    xBeta x = maskedKMax (participation ws.wb) ws.asB yb kb ∧
      xGamma x = maskedKMax (participation ws.wg) ws.asG (fun i => if (∃ j, xBeta x j = 0 ∧ b2g j = some i) ∧ participation ws.wg i = true then 0 else yg i) kg := by
  have e1 : xBeta (joinX yb yg) = yb := xBeta_join _ _
  have e2 : xGamma (joinX yb yg) = yg := xGamma_join _ _
  change Except.ok (joinX (maskedKMax (participation ws.wb) ws.asB (xBeta (joinX yb yg)) kb) (maskedKMax (participation ws.wg) ws.asG
    (fun i => if (∃ j, maskedKMax (participation ws.wb) ws.asB (xBeta (joinX yb yg)) kb j = 0 ∧ b2g j = some i) ∧ participation ws.wg i = true then 0 else xGamma (joinX yb yg) i) kg)) = _ at h
  rw [e1, e2] at h
  have hb : xBeta x = maskedKMax (participation ws.wb) ws.asB yb kb := by rw [← Except.ok.inj h, xBeta_join]
  refine ⟨hb, ?_⟩
  rw [hb, ← Except.ok.inj h, xGamma_join]

/-- **C167** (L0): let a plain L0 mixed-effects model without prior be fitted (any table, any start), and let the fit log `converged = True`. Then some coefficients `b', g'` at Euclidean distance at most
`tol` from the result have these derivatives `G` of the negative log-likelihood, with `t` the last step (the step length of the model unless it is searched):
fixed effects — `|G + eps v| ≤ tol / t` for every nonzero effect `v` and every effect with weight zero, and for all of them if the budget is not used up; for every zero effect `|G| ≤ (1/t + eps) |v| + tol / t`
for all penalised nonzero effects `v`;
variances — `|G + eps v| ≤ tol / t` for every positive one; `G ≥ -tol / t` for those with weight zero; and for zero variances all of whose fixed effects are nonzero `G ≥ -(1/t + eps) v - tol / t`
for all penalised positive variances `v`, and `G ≥ -tol / t` if the budget is not used up. -/
theorem C167_l0 (M : LmeModelCfg) (nb ng : Option ℤ) (sort : NpSort) (hreg : M.reg = .l0 nb ng sort) (heps : 0 ≤ M.elasticEps) (hs : 0 < M.step) (hsr : M.sr3 = none) (hpr : M.prior = none)
    (st : LmeState) (P : LmeProblem ℝ) (a : LmeFitArgs) (D : List (LmeGroup P.numFixed P.numRandom)) (hD : lmeGroups P = .ok D) (hn : 0 < P.numFixed + P.numRandom)
    (m : List ℤ) (hm : betaToGammaMap P = .ok m)
    (wb : Vec ℝ P.numFixed) (wg : Vec ℝ P.numRandom) (hwb : List.ofFn wb = a.feWeights.getD P.feWeights) (hwg : List.ofFn wg = a.reWeights.getD P.reWeights)
    (Lf : Logger (PyVal ℝ (P.numFixed + P.numRandom))) (c : LmeState) (h : lmeFitProblem M st P a = (.ok Lf, c)) (hconv : Lf.get "converged" = .ok (.atom (.bool true))) :
    ∃ coef b g b' g' t, c = some coef ∧ coef.beta = List.ofFn b ∧ coef.gamma = List.ofFn g ∧ 0 < t ∧ (M.stepping ≠ "line-search" → t = M.step) ∧
      ∑ i, (b i - b' i) ^ 2 + ∑ j, (g j - g' j) ^ 2 ≤ M.tol ^ 2 ∧ (∀ j, 0 ≤ g j) ∧
      (∀ i : Fin P.numFixed, ∃ G : ℝ, HasDerivAt (fun t => marginalNLL D (b' + Pi.single i t) g') G 0 ∧
        (b i ≠ 0 ∨ wb i = 0 → |G + M.elasticEps * b i| ≤ M.tol / t) ∧
        (b i = 0 → ∀ k, wb k ≠ 0 → b k ≠ 0 → |G| ≤ (1 / t + M.elasticEps) * |b k| + M.tol / t) ∧
        ((∀ n, nb = some n → (Set.ncard {k | wb k ≠ 0 ∧ b k ≠ 0} : ℤ) + Set.ncard {k | wb k = 0} < n) → |G + M.elasticEps * b i| ≤ M.tol / t)) ∧
      (∀ j : Fin P.numRandom, ∃ G : ℝ, HasDerivAt (fun t => marginalNLL D b' (g' + Pi.single j t)) G 0 ∧
        (0 < g j → |G + M.elasticEps * g j| ≤ M.tol / t) ∧ (wg j = 0 → -(M.tol / t) ≤ G + M.elasticEps * g j) ∧
        (g j = 0 → (∀ i : Fin P.numFixed, m[(i : ℕ)]? = some ((j : ℕ) : ℤ) → b i ≠ 0) →
          (∀ k, wg k ≠ 0 → 0 < g k → -((1 / t + M.elasticEps) * g k) - M.tol / t ≤ G) ∧
          ((∀ n, ng = some n → (Set.ncard {k | wg k ≠ 0 ∧ g k ≠ 0} : ℤ) + Set.ncard {k | wg k = 0} < n) → -(M.tol / t) ≤ G))) := by
  obtain ⟨m', w, base, x, xp, t, coef, hm', hw, hbase, hc, hcb, hcg, ht, hts, htol, hsq, hdom, hpx⟩ := lmeFit_last hs hsr hpr hD hn h hconv
  obtain rfl : m = m' := Except.ok.inj (hm.symm.trans hm')
  obtain rfl : w = joinX wb wg := by
    rcases LmeReg.weights_mem hw with ⟨h0, -⟩ | ⟨hlen, hw'⟩
    · rw [hreg] at h0
      cases h0
    · refine List.ofFn_injective (hw'.trans ?_)
      unfold joinX
      rw [List.ofFn_fin_append, ← hwb, ← hwg, List.take_of_length_le (by simp)]
  rw [hreg] at hbase
  cases hbase
  rw [wrapReg_prox_eq] at hpx
  set q1 : ℝ := 1 + t * M.elasticEps with hq
  have hq1 : 0 < q1 := by positivity
  set yb : Vec ℝ P.numFixed := fun i => xBeta (fun i => xp i - t * nllGradient D xp i) i / q1 with hyb
  set yg : Vec ℝ P.numRandom := fun j => max (xGamma (fun i => xp i - t * nllGradient D xp i) j) 0 / q1 with hyg
  set asB := sort.sub P.numFixed (xBeta (joinX wb wg)) with hasB
  set asG := sort.sub P.numRandom (xGamma (joinX wb wg)) with hasG
  have hpartb : ∀ i, participation (xBeta (joinX wb wg)) i = decide (wb i ≠ 0) := fun i => by rw [xBeta_join]; rfl
  have hpartg : ∀ i, participation (xGamma (joinX wb wg)) i = decide (wg i ≠ 0) := fun i => by rw [xGamma_join]; rfl
  obtain ⟨hbx, hgx⟩ := l0Lme_prox_parts (kb := nb.getD P.numFixed) (kg := ng.getD P.numRandom) hpx
  simp only at hbx hgx
  have hd : ∀ i, |x i - xp i| ≤ M.tol := by
    intro i
    refine abs_le_of_sq_le_sq ?_ htol
    exact (Finset.single_le_sum (f := fun i => (x i - xp i) ^ 2) (fun i _ => sq_nonneg _) (Finset.mem_univ i)).trans hsq
  have eb : ∀ i, nllGradient D xp (Fin.castAdd _ i) = (D.map fun g => -(g.xᵀ *ᵥ ((margCov g (xGamma xp))⁻¹ *ᵥ residual g (xBeta xp)))).sum i := fun i => Fin.append_left _ _ _
  have eg : ∀ j, nllGradient D xp (Fin.natAdd _ j) = (D.map fun g => nllGradGamma g (xBeta xp) (xGamma xp) j).sum := fun j => by
    rw [← list_sum_apply]
    exact Fin.append_right _ _ _
  have hyb' : ∀ i, yb i * q1 = xp (Fin.castAdd _ i) - t * nllGradient D xp (Fin.castAdd _ i) := fun i => div_mul_cancel₀ _ hq1.ne'
  have hyg' : ∀ j, yg j * q1 = max (xp (Fin.natAdd _ j) - t * nllGradient D xp (Fin.natAdd _ j)) 0 := fun j => div_mul_cancel₀ _ hq1.ne'
  have hyg0 : ∀ j, 0 ≤ yg j := fun j => div_nonneg (le_max_right _ _) hq1.le
  -- kept entries
  have hkb : ∀ i, xBeta x i = yb i → |nllGradient D xp (Fin.castAdd _ i) + M.elasticEps * xBeta x i| ≤ M.tol / t := by
    intro i hi
    have := step_coord (l := 0) (eps := M.elasticEps) (G := nllGradient D xp (Fin.castAdd _ i)) ht (hd (Fin.castAdd _ i)) (by
      rw [mul_zero, add_zero, ← hyb', ← hi]
      rfl)
    rwa [add_zero] at this
  have hkg : ∀ j, xGamma x j = yg j → (0 < xGamma x j → |nllGradient D xp (Fin.natAdd _ j) + M.elasticEps * xGamma x j| ≤ M.tol / t) ∧
      -(M.tol / t) ≤ nllGradient D xp (Fin.natAdd _ j) + M.elasticEps * xGamma x j := by
    intro j hj
    have hpos : 0 < xGamma x j → |nllGradient D xp (Fin.natAdd _ j) + M.elasticEps * xGamma x j| ≤ M.tol / t := by
      intro hj0
      have h1 : 0 < yg j * q1 := mul_pos (hj ▸ hj0) hq1
      have h2 := hyg' j
      rw [h2] at h1
      have h3 : max (xp (Fin.natAdd _ j) - t * nllGradient D xp (Fin.natAdd _ j)) 0 = xp (Fin.natAdd _ j) - t * nllGradient D xp (Fin.natAdd _ j) := by
        refine max_eq_left ?_
        by_contra hc
        rw [max_eq_right (not_le.1 hc).le] at h1
        exact lt_irrefl _ h1
      have := step_coord (l := 0) (eps := M.elasticEps) (G := nllGradient D xp (Fin.natAdd _ j)) ht (hd (Fin.natAdd _ j)) (by
        rw [mul_zero, add_zero, ← h3, ← h2, ← hj]
        rfl)
      rwa [add_zero] at this
    refine ⟨hpos, ?_⟩
    rcases (hj ▸ hyg0 j : 0 ≤ xGamma x j).lt_or_eq with hlt | h0
    · exact (abs_le.1 (hpos hlt)).1
    · have h2 := hyg' j
      rw [← hj, ← h0, zero_mul] at h2
      have h3 : xp (Fin.natAdd _ j) - t * nllGradient D xp (Fin.natAdd _ j) ≤ t * 0 := by
        rw [mul_zero, h2]
        exact le_max_left _ _
      have := step_zero_up (δ := M.tol) ht (by
        have := hd (Fin.natAdd P.numFixed j)
        rwa [show x (Fin.natAdd P.numFixed j) = 0 from h0.symm] at this) h3
      rw [← h0]
      linarith
  have hset : ∀ {n : ℕ} (w u : Vec ℝ n), {i | participation w i = true ∧ u i ≠ 0} = {i | w i ≠ 0 ∧ u i ≠ 0} := by
    intro n w u; ext i; simp [participation]
  have hset0 : ∀ {n : ℕ} (w : Vec ℝ n), {i | participation w i = false} = {i | w i = 0} := by
    intro n w; ext i; simp [participation]
  -- slack budgets
  have hslack : ∀ {n : ℕ} (w y : Vec ℝ n) (as : ArgSort {i // participation w i = true} ℝ) (nk : Option ℤ),
      (∀ k, nk = some k → (Set.ncard {i | w i ≠ 0 ∧ maskedKMax (participation w) as y (nk.getD n) i ≠ 0} : ℤ) + Set.ncard {i | w i = 0} < k) →
      ∀ i, maskedKMax (participation w) as y (nk.getD n) i = y i := by
    intro n w y as nk hk i
    cases nk with
    | none => rw [Option.getD_none, maskedKMax_full]
    | some k =>
      refine maskedKMax_slack _ as y _ ?_ i
      rw [hset, hset0]
      exact hk k rfl
  have ewb : xBeta (joinX wb wg) = wb := xBeta_join _ _
  have ewg : xGamma (joinX wb wg) = wg := xGamma_join _ _
  have hcases : ∀ {n : ℕ} (w y : Vec ℝ n) (as : ArgSort {i // participation w i = true} ℝ) (k : ℤ) (i : Fin n), maskedKMax (participation w) as y k i ≠ 0 ∨ w i = 0 →
      maskedKMax (participation w) as y k i = y i := by
    intro n w y as k i hi
    rcases hi with hi | hi
    · exact (maskedKMax_cases _ as y k i).resolve_right hi
    · exact maskedKMax_off _ as y k i (by simp [participation, hi])
  have hg0 : ∀ j, 0 ≤ xGamma x j := by
    intro j
    rw [hgx]
    rcases maskedKMax_cases (participation (xGamma (joinX wb wg))) asG
      (fun i => if (∃ j, xBeta x j = 0 ∧ mapEntry P.numRandom m j = some i) ∧ participation (xGamma (joinX wb wg)) i = true then 0 else yg i) (ng.getD P.numRandom) j with h1 | h1
    · rw [h1]
      split_ifs
      · exact le_rfl
      · exact hyg0 j
    · rw [h1]
  refine ⟨coef, xBeta x, xGamma x, xBeta xp, xGamma xp, t, hc, hcb, hcg, ht, hts, ?_, hg0, fun i => ⟨_, (marginalNLL_expansion D (xGamma xp)).hasDerivAt (xBeta xp) i, ?_⟩,
    fun j => ⟨_, marginalNLL_deriv hdom (xBeta xp) j, ?_⟩⟩
  · rw [Fin.sum_univ_add] at hsq
    exact hsq
  · rw [← eb]
    have e := congrFun hbx i
    refine ⟨fun hi => hkb i ?_, fun hi k hk hk0 => ?_, fun hb => hkb i ?_⟩
    · rw [e] at hi ⊢
      exact hcases _ yb asB _ i (hi.imp_right fun h => (congrFun ewb i).trans h)
    · have e2 := congrFun hbx k
      rw [e] at hi
      rw [e2] at hk0
      have h1 := maskedKMax_dom _ asB yb _ (by simp [hpartb, hk]) hk0 hi
      have h2 := hcases _ yb asB _ k (.inl hk0)
      rw [← e2] at h2
      rw [← e] at hi
      have h3 : |xp (Fin.castAdd _ i) - t * nllGradient D xp (Fin.castAdd _ i)| ≤ t * ((1 / t + M.elasticEps) * |xBeta x k|) := by
        rw [← hyb', abs_mul, abs_of_pos hq1, h2]
        have : t * ((1 / t + M.elasticEps) * |yb k|) = |yb k| * q1 := by
          rw [hq]
          field_simp
        rw [this]
        exact mul_le_mul_of_nonneg_right h1 hq1.le
      exact step_zero ht (by
        have := hd (Fin.castAdd P.numRandom i)
        rwa [show x (Fin.castAdd P.numRandom i) = 0 from hi] at this) h3
    · rw [hbx]
      refine hslack _ yb asB nb (fun n hn => ?_) i
      rw [← hbx, ewb]
      exact hb n hn
  · rw [← eg]
    set pre : Vec ℝ P.numRandom := fun i => if (∃ j, xBeta x j = 0 ∧ mapEntry P.numRandom m j = some i) ∧ participation (xGamma (joinX wb wg)) i = true then 0 else yg i with hpre
    have e := congrFun hgx j
    have hpn : ∀ k, pre k ≠ 0 → pre k = yg k := by
      intro k hk
      rw [hpre] at hk ⊢
      simp only at hk ⊢
      split_ifs at hk ⊢ with h1
      · exact absurd rfl hk
      · rfl
    refine ⟨fun hj => (hkg j ?_).1 hj, fun hj => (hkg j ?_).2, fun hj hl => ⟨fun k hk hk0 => ?_, fun hb => ?_⟩⟩
    · have h1 := hcases _ pre asG _ j (.inl (by rw [← e]; exact hj.ne'))
      rw [e, h1]
      refine hpn j ?_
      rw [← h1, ← e]
      exact hj.ne'
    · have h1 := hcases _ pre asG (ng.getD P.numRandom) j (.inr (by rw [ewg]; exact hj))
      rw [e, h1]
      refine if_neg fun h2 => ?_
      have := h2.2
      rw [hpartg, hj] at this
      simp at this
    all_goals
      have hl' : pre j = yg j := by
        refine if_neg fun h2 => ?_
        obtain ⟨⟨i, hi0, hi⟩, -⟩ := h2
        refine hl i ?_ hi0
        unfold mapEntry at hi
        split at hi
        · cases hi
        · rename_i z hz
          split_ifs at hi with h3
          rw [hz]
          have h4 := congrArg Fin.val (Option.some.inj hi)
          simp only at h4
          rw [← h4, Int.toNat_of_nonneg h3.1]
    · have e2 := congrFun hgx k
      have hk1 : xGamma x k ≠ 0 := hk0.ne'
      rw [e] at hj
      rw [e2] at hk1
      have h1 := maskedKMax_dom _ asG pre _ (by simp [hpartg, hk]) hk1 hj
      have h2 := hcases _ pre asG _ k (.inl hk1)
      rw [← e2] at h2
      rw [← e] at hj
      rw [hl', ← h2, abs_of_pos hk0, abs_of_nonneg (hyg0 j)] at h1
      have h3 : xp (Fin.natAdd _ j) - t * nllGradient D xp (Fin.natAdd _ j) ≤ t * ((1 / t + M.elasticEps) * xGamma x k) := by
        have h4 := mul_le_mul_of_nonneg_right h1 hq1.le
        rw [hyg'] at h4
        have : t * ((1 / t + M.elasticEps) * xGamma x k) = xGamma x k * q1 := by
          rw [hq]
          field_simp
        rw [this]
        exact (le_max_left _ _).trans h4
      exact step_zero_up ht (by
        have := hd (Fin.natAdd P.numFixed j)
        rwa [show x (Fin.natAdd P.numFixed j) = 0 from hj] at this) h3
    · have h1 : xGamma x j = yg j := by
        rw [e, hslack _ pre asG ng (fun n hn => ?_) j, hl']
        rw [← hgx, ewg]
        exact hb n hn
      have := (hkg j h1).2
      rwa [hj, mul_zero, add_zero] at this

/-- **C167** (CAD): let a plain CAD mixed-effects model without prior be fitted (any table, any start), and let the fit log `converged = True`. Then some coefficients `b', g'` at Euclidean distance at most
`tol` from the result have these derivatives `G` of the negative log-likelihood, with `t` the last step (the step length of the model unless it is searched): for every coefficient `v` beyond `rho`
`|G + eps v| ≤ tol / t` (no shrinkage); for the other nonzero coefficients `G + eps v` is within `tol / t` of `-lam w sign(v)`; for every zero fixed effect `|G| ≤ lam w + tol / t`; for every zero
variance `G ≥ -lam w - tol / t`. -/
theorem C167_cad (M : LmeModelCfg) (rho lam : ℝ) (hreg : M.reg = .cad rho lam) (hlam : 0 ≤ lam) (heps : 0 ≤ M.elasticEps) (hs : 0 < M.step) (hsr : M.sr3 = none) (hpr : M.prior = none)
    (st : LmeState) (P : LmeProblem ℝ) (a : LmeFitArgs) (D : List (LmeGroup P.numFixed P.numRandom)) (hD : lmeGroups P = .ok D) (hn : 0 < P.numFixed + P.numRandom)
    (wb : Vec ℝ P.numFixed) (wg : Vec ℝ P.numRandom) (hwb : List.ofFn wb = a.feWeights.getD P.feWeights) (hwg : List.ofFn wg = a.reWeights.getD P.reWeights)
    (hwb0 : ∀ i, 0 ≤ wb i) (hwg0 : ∀ j, 0 ≤ wg j)
    (Lf : Logger (PyVal ℝ (P.numFixed + P.numRandom))) (c : LmeState) (h : lmeFitProblem M st P a = (.ok Lf, c)) (hconv : Lf.get "converged" = .ok (.atom (.bool true))) :
    ∃ coef b g b' g' t, c = some coef ∧ coef.beta = List.ofFn b ∧ coef.gamma = List.ofFn g ∧ 0 < t ∧ (M.stepping ≠ "line-search" → t = M.step) ∧
      ∑ i, (b i - b' i) ^ 2 + ∑ j, (g j - g' j) ^ 2 ≤ M.tol ^ 2 ∧ (∀ j, 0 ≤ g j) ∧
      (∀ i : Fin P.numFixed, ∃ G : ℝ, HasDerivAt (fun t => marginalNLL D (b' + Pi.single i t) g') G 0 ∧
        (rho < |b i| → |G + M.elasticEps * b i| ≤ M.tol / t) ∧ (0 < b i → b i ≤ rho → |G + M.elasticEps * b i + lam * wb i| ≤ M.tol / t) ∧
        (b i < 0 → -rho ≤ b i → |G + M.elasticEps * b i - lam * wb i| ≤ M.tol / t) ∧ (b i = 0 → |G| ≤ lam * wb i + M.tol / t)) ∧
      (∀ j : Fin P.numRandom, ∃ G : ℝ, HasDerivAt (fun t => marginalNLL D b' (g' + Pi.single j t)) G 0 ∧
        (0 < g j → rho < g j → |G + M.elasticEps * g j| ≤ M.tol / t) ∧ (0 < g j → g j ≤ rho → |G + M.elasticEps * g j + lam * wg j| ≤ M.tol / t) ∧
        (g j = 0 → -(lam * wg j) - M.tol / t ≤ G)) := by
  obtain ⟨m', w, base, x, xp, t, coef, -, hw, hbase, hc, hcb, hcg, ht, hts, htol, hsq, hdom, hpx⟩ := lmeFit_last hs hsr hpr hD hn h hconv
  obtain rfl : w = joinX wb wg := by
    rcases LmeReg.weights_mem hw with ⟨h0, -⟩ | ⟨hlen, hw'⟩
    · rw [hreg] at h0
      cases h0
    · refine List.ofFn_injective (hw'.trans ?_)
      unfold joinX
      rw [List.ofFn_fin_append, ← hwb, ← hwg, List.take_of_length_le (by simp)]
  rw [hreg] at hbase
  cases hbase
  rw [wrapReg_prox_eq] at hpx
  set q1 : ℝ := 1 + t * M.elasticEps with hq
  have hq1 : 0 < q1 := by positivity
  have hd : ∀ i, |x i - xp i| ≤ M.tol := by
    intro i
    refine abs_le_of_sq_le_sq ?_ htol
    exact (Finset.single_le_sum (f := fun i => (x i - xp i) ^ 2) (fun i _ => sq_nonneg _) (Finset.mem_univ i)).trans hsq
  have eb : ∀ i, nllGradient D xp (Fin.castAdd _ i) = (D.map fun g => -(g.xᵀ *ᵥ ((margCov g (xGamma xp))⁻¹ *ᵥ residual g (xBeta xp)))).sum i := fun i => Fin.append_left _ _ _
  have eg : ∀ j, nllGradient D xp (Fin.natAdd _ j) = (D.map fun g => nllGradGamma g (xBeta xp) (xGamma xp) j).sum := fun j => by
    rw [← list_sum_apply]
    exact Fin.append_right _ _ _
  -- one coordinate of the prox
  have hx := Except.ok.inj hpx
  have hxb : ∀ i, xBeta x i = if |(xp (Fin.castAdd _ i) - t * nllGradient D xp (Fin.castAdd _ i)) / q1| ≤ rho ∧ 0 < wb i
      then soft (wb i * (t / q1) * lam) ((xp (Fin.castAdd _ i) - t * nllGradient D xp (Fin.castAdd _ i)) / q1) else (xp (Fin.castAdd _ i) - t * nllGradient D xp (Fin.castAdd _ i)) / q1 := by
    intro i
    have := congrFun hx (Fin.castAdd _ i)
    simp only [joinX, Fin.append_left] at this
    exact this.symm
  have hxg : ∀ j, xGamma x j = if |max (xp (Fin.natAdd _ j) - t * nllGradient D xp (Fin.natAdd _ j)) 0 / q1| ≤ rho ∧ 0 < wg j
      then soft (wg j * (t / q1) * lam) (max (xp (Fin.natAdd _ j) - t * nllGradient D xp (Fin.natAdd _ j)) 0 / q1) else max (xp (Fin.natAdd _ j) - t * nllGradient D xp (Fin.natAdd _ j)) 0 / q1 := by
    intro i
    have := congrFun hx (Fin.natAdd _ i)
    simp only [joinX, Fin.append_right] at this
    exact this.symm
  -- what the prox does to a number
  have hprox : ∀ {v z u : ℝ}, 0 ≤ u → z = (if |v / q1| ≤ rho ∧ 0 < u then soft (u * (t / q1) * lam) (v / q1) else v / q1) →
      (rho < |z| → z * q1 = v) ∧ (0 < z → z ≤ rho → z * q1 + t * (lam * u) = v) ∧ (z < 0 → -rho ≤ z → z * q1 - t * (lam * u) = v) ∧ (z = 0 → |v| ≤ t * (lam * u)) ∧ (0 ≤ v → 0 ≤ z) := by
    intro v z u hu hz
    have hτ : 0 ≤ u * (t / q1) * lam := by positivity
    have e1 : v / q1 * q1 = v := div_mul_cancel₀ _ hq1.ne'
    have e2 : u * (t / q1) * lam * q1 = t * (lam * u) := by field_simp
    have htu : 0 ≤ t * (lam * u) := by positivity
    split_ifs at hz with hif
    · rcases soft_cases (v / q1) hτ with ⟨h1, h2⟩ | ⟨h1, h2⟩ | ⟨h1, h2⟩
      · have hz' : z = v / q1 - u * (t / q1) * lam := hz.trans h2
        have hz0 : 0 < z := by linarith
        have hv0 : 0 < v / q1 := by linarith
        have hle := hif.1
        rw [abs_of_pos hv0] at hle
        refine ⟨fun h3 => ?_, fun _ _ => ?_, fun h3 => absurd h3 (by linarith), fun h3 => absurd h3 hz0.ne', fun _ => hz0.le⟩
        · rw [abs_of_pos hz0] at h3
          linarith
        · rw [hz', sub_mul, e1, e2]
          ring
      · have hz' : z = v / q1 + u * (t / q1) * lam := hz.trans h2
        have hz0 : z < 0 := by linarith
        have hv0 : v / q1 < 0 := by linarith
        have hle := hif.1
        rw [abs_of_neg hv0] at hle
        refine ⟨fun h3 => ?_, fun h3 => absurd h3 (by linarith), fun _ _ => ?_, fun h3 => absurd h3 hz0.ne, fun hv => absurd (div_nonneg hv hq1.le) (by linarith)⟩
        · rw [abs_of_neg hz0] at h3
          linarith
        · rw [hz', add_mul, e1, e2]
          ring
      · have hz' : z = 0 := hz.trans h2
        refine ⟨fun h3 => ?_, fun h3 => absurd h3 (by linarith), fun h3 => absurd h3 (by linarith), fun _ => ?_, fun _ => hz'.ge⟩
        · rw [hz', abs_zero] at h3
          linarith [abs_nonneg (v / q1), hif.1]
        · rw [← e1, abs_mul, abs_of_pos hq1, ← e2]
          exact mul_le_mul_of_nonneg_right h1 hq1.le
    · have hzv : z * q1 = v := by rw [hz, e1]
      have hu0 : |z| ≤ rho → t * (lam * u) = 0 := by
        intro h3
        have : u = 0 := by
          by_contra hne
          exact hif ⟨by rw [← hz]; exact h3, lt_of_le_of_ne hu (Ne.symm hne)⟩
        rw [this, mul_zero, mul_zero]
      refine ⟨fun _ => hzv, fun h3 h4 => ?_, fun h3 h4 => ?_, fun h3 => ?_, fun hv => by rw [hz]; exact div_nonneg hv hq1.le⟩
      · rw [hzv, hu0 (by rwa [abs_of_pos h3]), add_zero]
      · rw [hzv, hu0 (by rw [abs_of_neg h3]; linarith), sub_zero]
      · rw [← hzv, h3, zero_mul, abs_zero]
        exact htu
  have hg0 : ∀ j, 0 ≤ xGamma x j := fun j => (hprox (hwg0 j) (hxg j)).2.2.2.2 (le_max_right _ _)
  refine ⟨coef, xBeta x, xGamma x, xBeta xp, xGamma xp, t, hc, hcb, hcg, ht, hts, ?_, hg0, fun i => ⟨_, (marginalNLL_expansion D (xGamma xp)).hasDerivAt (xBeta xp) i, ?_⟩,
    fun j => ⟨_, marginalNLL_deriv hdom (xBeta xp) j, ?_⟩⟩
  · rw [Fin.sum_univ_add] at hsq
    exact hsq
  · rw [← eb]
    obtain ⟨h1, h2, h3, h4, -⟩ := hprox (hwb0 i) (hxb i)
    have hdi : |xBeta x i - xp (Fin.castAdd _ i)| ≤ M.tol := hd (Fin.castAdd _ i)
    refine ⟨fun hi => ?_, fun hi hi' => ?_, fun hi hi' => ?_, fun hi => ?_⟩
    · have := step_coord (l := 0) (eps := M.elasticEps) (G := nllGradient D xp (Fin.castAdd _ i)) ht hdi (by rw [mul_zero, add_zero]; exact h1 hi)
      rwa [add_zero] at this
    · exact step_coord ht hdi (h2 hi hi')
    · have := step_coord (l := -(lam * wb i)) (eps := M.elasticEps) (G := nllGradient D xp (Fin.castAdd _ i)) ht hdi (by rw [mul_neg, ← sub_eq_add_neg]; exact h3 hi hi')
      rwa [← sub_eq_add_neg] at this
    · rw [hi] at hdi
      exact step_zero ht hdi (h4 hi)
  · rw [← eg]
    obtain ⟨h1, h2, -, h4, -⟩ := hprox (hwg0 j) (hxg j)
    have hdj : |xGamma x j - xp (Fin.natAdd _ j)| ≤ M.tol := hd (Fin.natAdd _ j)
    have hmax : ∀ {r : ℝ}, 0 < r → max (xp (Fin.natAdd _ j) - t * nllGradient D xp (Fin.natAdd _ j)) 0 = r → xp (Fin.natAdd _ j) - t * nllGradient D xp (Fin.natAdd _ j) = r := by
      intro r hr he
      rcases max_choice (xp (Fin.natAdd _ j) - t * nllGradient D xp (Fin.natAdd _ j)) 0 with h5 | h5
      · rw [← h5, he]
      · rw [h5] at he
        exact absurd he hr.ne
    refine ⟨fun hj hj' => ?_, fun hj hj' => ?_, fun hj => ?_⟩
    · have := step_coord (l := 0) (eps := M.elasticEps) (G := nllGradient D xp (Fin.natAdd _ j)) ht hdj (by
        rw [mul_zero, add_zero]
        exact (hmax (mul_pos hj hq1) (h1 (by rwa [abs_of_pos hj])).symm).symm)
      rwa [add_zero] at this
    · exact step_coord ht hdj (hmax (add_pos_of_pos_of_nonneg (mul_pos hj hq1) (mul_nonneg ht.le (mul_nonneg hlam (hwg0 j)))) (h2 hj hj').symm).symm
    · rw [hj] at hdj
      have h5 := h4 hj
      rw [abs_of_nonneg (le_max_right _ _)] at h5
      exact step_zero_up ht hdj ((le_max_left _ _).trans h5)

end Verif
