import Verif.Props.LmeConverge

/-!
# C160: converged L1 mixed-effects fits satisfy the optimality conditions, and drop effects with a large penalty
-/

open Matrix

namespace Verif

section Coord

variable {n : ℕ}

theorem sum_update_coord (φ : Fin n → ℝ → ℝ) (x : Vec ℝ n) (i : Fin n) (v : ℝ) :
    ∑ k, φ k (Function.update x i v k) = ∑ k, φ k (x k) + (φ i v - φ i (x i)) := by
  rw [← Finset.add_sum_erase _ _ (Finset.mem_univ i), ← Finset.add_sum_erase (a := i) Finset.univ (fun k => φ k (x k)) (Finset.mem_univ i), Function.update_self]
  have : ∑ k ∈ Finset.univ.erase i, φ k (Function.update x i v k) = ∑ k ∈ Finset.univ.erase i, φ k (x k) :=
    Finset.sum_congr rfl fun k hk => by rw [Function.update_of_ne (Finset.ne_of_mem_erase hk)]
  rw [this]
  ring

/-- A function `a s + b s²` that is nonnegative for small `s` of both signs has `a = 0`; of one sign, `a ≥ 0`. -/
theorem slope_nonneg {a b δ : ℝ} (hδ : 0 < δ) (h : ∀ s, 0 ≤ s → s ≤ δ → 0 ≤ a * s + b * s ^ 2) : 0 ≤ a := by
  by_contra hn
  push Not at hn
  have hb : 0 < |b| + 1 := by positivity
  have hs : 0 < min δ (-a / (2 * (|b| + 1))) := lt_min hδ (div_pos (by linarith) (by linarith))
  have h1 := h _ hs.le (min_le_left _ _)
  set s := min δ (-a / (2 * (|b| + 1))) with hsd
  have h2 : s ≤ -a / (2 * (|b| + 1)) := min_le_right _ _
  rw [le_div_iff₀ (by linarith)] at h2
  have h3 : 0 ≤ s * (a + b * s) := by nlinarith
  have h4 := nonneg_of_mul_nonneg_right h3 hs
  have h5 : b * s ≤ |b| * s := mul_le_mul_of_nonneg_right (le_abs_self b) hs.le
  nlinarith

/-- The condition of one coordinate, from the inequality of the last proximal step. -/
theorem coord_ineq {x xp gr w : Vec ℝ n} {t eps lam : ℝ} (i : Fin n) (s : ℝ)
    (h : 0 ≤ t * ((eps / 2 * ∑ k, Function.update x i (x i + s) k ^ 2 + ∑ k, (LmeReg.l1 lam).penalty w k (Function.update x i (x i + s) k))
        - (eps / 2 * ∑ k, x k ^ 2 + ∑ k, (LmeReg.l1 lam).penalty w k (x k)))
      + (∑ k, (x k - (xp k - t * gr k)) * (Function.update x i (x i + s) k - x k)) + t * 0 / 2 * ∑ k, (Function.update x i (x i + s) k - x k) ^ 2) :
    0 ≤ t * (eps / 2 * ((x i + s) ^ 2 - x i ^ 2) + lam * w i * (|x i + s| - |x i|)) + (x i - xp i + t * gr i) * s := by
  rw [sum_update_coord (fun _ v => v ^ 2), sum_update_coord (fun k v => (LmeReg.l1 lam).penalty w k v), sum_update_coord (fun k v => (x k - (xp k - t * gr k)) * (v - x k))] at h
  simp only [LmeReg.penalty, sub_self, mul_zero, Finset.sum_const_zero, zero_div, zero_mul, add_zero] at h
  convert h using 1
  ring

/-- A coordinate that may move both ways. -/
theorem coord_free {xi xpi gi wi t eps lam δ σ : ℝ} (ht : 0 < t) (hd : |xi - xpi| ≤ δ) (hx : 0 < xi ∧ σ = 1 ∨ xi < 0 ∧ σ = -1)
    (h : ∀ s, |s| ≤ |xi| → 0 ≤ t * (eps / 2 * ((xi + s) ^ 2 - xi ^ 2) + lam * wi * (|xi + s| - |xi|)) + (xi - xpi + t * gi) * s) :
    |gi + eps * xi + lam * wi * σ| ≤ δ / t := by
  have hab : ∀ s, |s| ≤ |xi| → |xi + s| - |xi| = σ * s := by
    intro s hs
    rcases hx with ⟨hpos, rfl⟩ | ⟨hneg, rfl⟩
    · rw [abs_of_pos hpos] at hs ⊢
      rw [abs_of_nonneg (by linarith [(abs_le.1 hs).1])]
      ring
    · rw [abs_of_neg hneg] at hs ⊢
      rw [abs_of_nonpos (by linarith [(abs_le.1 hs).2])]
      ring
  have hx0 : xi ≠ 0 := by
    rcases hx with ⟨h, -⟩ | ⟨h, -⟩
    · exact h.ne'
    · exact h.ne
  set a := t * (gi + eps * xi + lam * wi * σ) + (xi - xpi) with ha
  have hq : ∀ s, |s| ≤ |xi| → 0 ≤ a * s + t * eps / 2 * s ^ 2 := by
    intro s hs
    have := h s hs
    rw [hab s hs] at this
    rw [ha]
    convert this using 1
    ring
  have h1 : 0 ≤ a := slope_nonneg (b := t * eps / 2) (abs_pos.2 hx0) fun s hs0 hs => hq s (by rwa [abs_of_nonneg hs0])
  have h2 : 0 ≤ -a := slope_nonneg (b := t * eps / 2) (abs_pos.2 hx0) fun s hs0 hs => by
    have := hq (-s) (by rwa [abs_neg, abs_of_nonneg hs0])
    rw [neg_sq] at this
    linarith
  have h0 : t * (gi + eps * xi + lam * wi * σ) = -(xi - xpi) := by linarith
  rw [le_div_iff₀ ht, ← abs_of_pos ht, ← abs_mul, mul_comm, h0, abs_neg]
  exact hd

/-- A coordinate at zero, from above. -/
theorem coord_up {xpi gi wi t eps lam δ : ℝ} (ht : 0 < t) (hd : |0 - xpi| ≤ δ)
    (h : ∀ s, 0 ≤ s → s ≤ 1 → 0 ≤ t * (eps / 2 * ((0 + s) ^ 2 - 0 ^ 2) + lam * wi * (|0 + s| - |0|)) + (0 - xpi + t * gi) * s) :
    -(lam * wi) - δ / t ≤ gi := by
  have h1 : 0 ≤ t * (lam * wi) + (-xpi + t * gi) := slope_nonneg (b := t * eps / 2) one_pos fun s hs0 hs => by
    have := h s hs0 hs
    rw [zero_add, abs_of_nonneg hs0, abs_zero] at this
    convert this using 1
    ring
  have h2 : -xpi ≤ δ := by
    rw [zero_sub] at hd
    exact (abs_le.1 hd).2
  have h3 : -(lam * wi) - gi ≤ δ / t := by
    rw [le_div_iff₀ ht]
    linarith
  linarith

end Coord

section Bounds

variable {p q : ℕ}

theorem list_sum_neg' {ι : Type*} (l : List ι) (f : ι → ℝ) : (l.map fun a => -f a).sum = -(l.map f).sum := by
  induction l with
  | nil => simp
  | cons a l ih =>
    simp only [List.map_cons, List.sum_cons, ih]
    ring

/-- Cauchy–Schwarz for sums of forms of inverse covariances. -/
theorem inv_forms_cs {D : List (LmeGroup p q)} {gamma : Vec ℝ q} (hD : PosVar D) (hg : ∀ j, 0 ≤ gamma j) (u v : ∀ g : LmeGroup p q, Fin g.n → ℝ) :
    (D.map fun g => u g ⬝ᵥ ((margCov g gamma)⁻¹ *ᵥ v g)).sum ^ 2 ≤
      (D.map fun g => u g ⬝ᵥ ((margCov g gamma)⁻¹ *ᵥ u g)).sum * (D.map fun g => v g ⬝ᵥ ((margCov g gamma)⁻¹ *ᵥ v g)).sum := by
  have h : ∀ s : ℝ, 0 ≤ (D.map fun g => u g ⬝ᵥ ((margCov g gamma)⁻¹ *ᵥ u g)).sum * (s * s) + 2 * (D.map fun g => u g ⬝ᵥ ((margCov g gamma)⁻¹ *ᵥ v g)).sum * s
      + (D.map fun g => v g ⬝ᵥ ((margCov g gamma)⁻¹ *ᵥ v g)).sum := by
    intro s
    induction D with
    | nil => simp
    | cons g D ih =>
      have h1 := ih fun g' h' => hD g' (List.mem_cons_of_mem _ h')
      have hp := margCov_posDef g gamma (hD g List.mem_cons_self) hg
      have h2 := posDef_inv_nonneg hp (s • u g + v g)
      rw [Matrix.mulVec_add, Matrix.mulVec_smul, add_dotProduct, dotProduct_add, dotProduct_add, smul_dotProduct, smul_dotProduct, dotProduct_smul, dotProduct_smul,
        posDef_inv_symm_dot hp (v g) (u g)] at h2
      simp only [smul_eq_mul] at h2
      simp only [List.map_cons, List.sum_cons]
      linarith
  have := discrim_le_zero h
  unfold discrim at this
  linarith

/-- The derivative of the likelihood in a fixed effect is bounded by its excess over the noise level. -/
theorem nll_beta_bound {D : List (LmeGroup p q)} (hD : PosVar D) {gamma : Vec ℝ q} (hg : ∀ j, 0 ≤ gamma j) (beta : Vec ℝ p) (k : Fin p) {v : ℝ} (hv : marginalNLL D beta gamma ≤ v) :
    |(D.map fun g => -(g.xᵀ *ᵥ ((margCov g gamma)⁻¹ *ᵥ residual g beta))).sum k| ≤ √(2 * (v - noiseFloor D) * (D.map fun g => ∑ i, g.x i k ^ 2 / g.l i).sum) := by
  have hR := residual_forms hD hg beta
  have hX : (D.map fun g => g.xcol k ⬝ᵥ ((margCov g gamma)⁻¹ *ᵥ g.xcol k)).sum ≤ (D.map fun g => ∑ i, g.x i k ^ 2 / g.l i).sum :=
    List.sum_le_sum fun g hgD => margCov_inv_form_le (hD g hgD) hg (g.xcol k)
  have hX0 : 0 ≤ (D.map fun g => g.xcol k ⬝ᵥ ((margCov g gamma)⁻¹ *ᵥ g.xcol k)).sum := List.sum_nonneg fun a ha => by
    obtain ⟨g, hgD, rfl⟩ := List.mem_map.1 ha
    exact posDef_inv_nonneg (margCov_posDef g gamma (hD g hgD) hg) _
  have hcs := inv_forms_cs hD hg (fun g => g.xcol k) fun g => residual g beta
  have e : (D.map fun g => -(g.xᵀ *ᵥ ((margCov g gamma)⁻¹ *ᵥ residual g beta))).sum k = -(D.map fun g => g.xcol k ⬝ᵥ ((margCov g gamma)⁻¹ *ᵥ residual g beta)).sum := by
    rw [list_sum_apply, ← list_sum_neg']
    rfl
  rw [e, abs_neg]
  refine Real.abs_le_sqrt (hcs.trans ?_)
  have hV0 : 0 ≤ 2 * (v - noiseFloor D) := by
    have := noiseFloor_le hD hg beta
    linarith
  calc _ ≤ (D.map fun g => g.xcol k ⬝ᵥ ((margCov g gamma)⁻¹ *ᵥ g.xcol k)).sum * (2 * (v - noiseFloor D)) := mul_le_mul_of_nonneg_left (by linarith) hX0
    _ ≤ (D.map fun g => ∑ i, g.x i k ^ 2 / g.l i).sum * (2 * (v - noiseFloor D)) := mul_le_mul_of_nonneg_right hX hV0
    _ = _ := mul_comm _ _

/-- The derivative of the likelihood in a variance is not much below zero. -/
theorem nll_gamma_bound {D : List (LmeGroup p q)} (hD : PosVar D) {gamma : Vec ℝ q} (hg : ∀ j, 0 ≤ gamma j) (beta : Vec ℝ p) (j : Fin q) {v : ℝ} (hv : marginalNLL D beta gamma ≤ v) :
    -((v - noiseFloor D) * (D.map fun g => ∑ i, g.z i j ^ 2 / g.l i).sum) ≤ (D.map fun g => nllGradGamma g beta gamma).sum j := by
  have hR := residual_forms hD hg beta
  have hN := noiseFloor_le hD hg beta
  rw [list_sum_apply]
  have h1 : (D.map fun g => -(1 / 2 * ((∑ i, g.z i j ^ 2 / g.l i) * (residual g beta ⬝ᵥ ((margCov g gamma)⁻¹ *ᵥ residual g beta))))).sum ≤ (D.map fun g => nllGradGamma g beta gamma j).sum := by
    refine List.sum_le_sum fun g hgD => ?_
    have hp := margCov_posDef g gamma (hD g hgD) hg
    have hcs := inv_forms_cs (D := [g]) (fun g' h' => by rw [List.mem_singleton.1 h']; exact hD g hgD) hg (fun g => g.zcol j) fun g => residual g beta
    simp only [List.map_cons, List.map_nil, List.sum_cons, List.sum_nil, add_zero] at hcs
    have hz := mul_le_mul_of_nonneg_right (margCov_inv_form_le (hD g hgD) hg (g.zcol j)) (posDef_inv_nonneg hp (residual g beta))
    have hz0 := posDef_inv_nonneg hp (g.zcol j)
    have ez : ∑ i, g.zcol j i ^ 2 / g.l i = ∑ i, g.z i j ^ 2 / g.l i := rfl
    rw [ez] at hz
    unfold nllGradGamma
    rw [zT_form, zT_vec]
    linarith
  have h2 := sum_mul_le_mul_sum D (fun g => ∑ i, g.z i j ^ 2 / g.l i) (fun g => residual g beta ⬝ᵥ ((margCov g gamma)⁻¹ *ᵥ residual g beta))
    (fun g hgD => noiseNorm_nonneg (hD g hgD) j) fun g hgD => residual_form_nonneg hD hg beta hgD
  have hz0 : 0 ≤ (D.map fun g => ∑ i, g.z i j ^ 2 / g.l i).sum := List.sum_nonneg fun a ha => by
    obtain ⟨g, hgD, rfl⟩ := List.mem_map.1 ha
    exact noiseNorm_nonneg (hD g hgD) j
  have h3 : (D.map fun g => ∑ i, g.z i j ^ 2 / g.l i).sum * (D.map fun g => residual g beta ⬝ᵥ ((margCov g gamma)⁻¹ *ᵥ residual g beta)).sum
      ≤ (D.map fun g => ∑ i, g.z i j ^ 2 / g.l i).sum * (2 * (v - noiseFloor D)) := mul_le_mul_of_nonneg_left (by linarith) hz0
  have e : (D.map fun g => -(1 / 2 * ((∑ i, g.z i j ^ 2 / g.l i) * (residual g beta ⬝ᵥ ((margCov g gamma)⁻¹ *ᵥ residual g beta))))).sum
      = -(1 / 2 * (D.map fun g => (∑ i, g.z i j ^ 2 / g.l i) * (residual g beta ⬝ᵥ ((margCov g gamma)⁻¹ *ᵥ residual g beta))).sum) := by
    rw [list_sum_neg', List.sum_map_mul_left]
  rw [e] at h1
  linarith

end Bounds

/-- What the two theorems share. -/
theorem lmeFit_kkt {M : LmeModelCfg} (hM : M.Admissible) {lam : ℝ} (hreg : M.reg = .l1 lam) (hsr : M.sr3 = none) (hpr : M.prior = none) (hinit : M.initializer ≠ some "EM") {st : LmeState}
    {P : LmeProblem ℝ} {a : LmeFitArgs} {D : List (LmeGroup P.numFixed P.numRandom)} (hD : lmeGroups P = .ok D) (hDp : PosVar D) (hn : 0 < P.numFixed + P.numRandom) {b0 : Vec ℝ P.numFixed}
    {g0 : Vec ℝ P.numRandom} (hb : List.ofFn b0 = a.beta.getD (List.replicate P.numFixed 1)) (hg : List.ofFn g0 = a.gamma.getD (List.replicate P.numRandom 1)) (hg0 : ∀ j, 0 ≤ g0 j)
    {w : Vec ℝ (P.numFixed + P.numRandom)} (hw : List.ofFn w = a.feWeights.getD P.feWeights ++ a.reWeights.getD P.reWeights) (hw0 : ∀ i, 0 ≤ w i)
    {L : ℝ} (hrule : StepRule M.solver L)
    (hL : fixedCurvature D + 2 * (lmeObjective D M.elasticEps (fun i v => lam * (w i * |v|)) b0 g0 - noiseFloor D) * relaxationNeeded D ≤ L)
    {Lf : Logger (PyVal ℝ (P.numFixed + P.numRandom))} {c : LmeState} (h : lmeFitProblem M st P a = (.ok Lf, c)) (hconv : Lf.get "converged" = .ok (.atom (.bool true))) :
    ∃ (x xp : Vec ℝ (P.numFixed + P.numRandom)) (coef : LmeCoef), c = some coef ∧ coef.beta = List.ofFn (xBeta x) ∧ coef.gamma = List.ofFn (xGamma x) ∧ (∀ j, 0 ≤ xGamma x j) ∧
      (∀ j, 0 ≤ xGamma xp j) ∧ marginalNLL D (xBeta xp) (xGamma xp) ≤ lmeObjective D M.elasticEps (fun i v => lam * (w i * |v|)) b0 g0 ∧ ∑ i, (x i - xp i) ^ 2 ≤ M.tol ^ 2 ∧
      (∀ i, 0 < x i → |nllGradient D xp i + M.elasticEps * x i + lam * w i| ≤ M.tol / stepFloor M.solver L) ∧
      (∀ i, x i < 0 → |nllGradient D xp i + M.elasticEps * x i - lam * w i| ≤ M.tol / stepFloor M.solver L) ∧
      (∀ i, x i = 0 → -(lam * w i) - M.tol / stepFloor M.solver L ≤ nllGradient D xp i) ∧
      (∀ i : Fin P.numFixed, xBeta x i = 0 → nllGradient D xp (Fin.castAdd _ i) ≤ lam * w (Fin.castAdd _ i) + M.tol / stepFloor M.solver L) := by
  have hlam : 0 ≤ lam := by
    have := hM.reg
    rw [hreg] at this
    exact this
  have epen : M.reg.penalty w = fun i v => lam * (w i * |v|) := by rw [hreg]; rfl
  rw [← epen] at hL
  obtain ⟨k, x, coef, hc, hcb, hcg, hcv, hnn, -, -, -, hlast⟩ := lmeFit_converge hM hsr hpr hinit hD hDp hb hg hg0 hw hw0 (κ := 0) (by rw [hreg]; exact le_rfl)
    (by rw [mul_zero]; exact one_pos) hrule hL h
  rw [hconv] at hcv
  have hk : (k : ℤ) < M.maxIter := by simpa using hcv
  obtain ⟨xp, t, hxp, hF, htol, hsq, hlo, htp, hvi⟩ := hlast hk hn
  have hfl := stepFloor_pos hrule
  have hle : M.tol / t ≤ M.tol / stepFloor M.solver L := div_le_div_of_nonneg_left htol hfl hlo
  have hd : ∀ i, |x i - xp i| ≤ M.tol := by
    intro i
    refine abs_le_of_sq_le_sq ?_ htol
    exact (Finset.single_le_sum (f := fun i => (x i - xp i) ^ 2) (fun i _ => sq_nonneg _) (Finset.mem_univ i)).trans hsq
  -- moves of one coordinate
  have hmove : ∀ i s, (∀ j, 0 ≤ xGamma (Function.update x i (x i + s)) j) →
      0 ≤ t * (M.elasticEps / 2 * ((x i + s) ^ 2 - x i ^ 2) + lam * w i * (|x i + s| - |x i|)) + (x i - xp i + t * nllGradient D xp i) * s := by
    intro i s hu
    refine coord_ineq i s ?_
    have := hvi _ hu
    rw [hreg] at this
    exact this
  have hup : ∀ i s, 0 ≤ x i + s → ∀ j, 0 ≤ xGamma (Function.update x i (x i + s)) j := by
    intro i s hs j
    unfold xGamma
    by_cases hij : Fin.natAdd P.numFixed j = i
    · rw [hij, Function.update_self]
      exact hs
    · rw [Function.update_of_ne hij]
      exact hnn j
  have hbeta : ∀ (i : Fin P.numFixed) s, ∀ j, 0 ≤ xGamma (Function.update x (Fin.castAdd _ i) (x (Fin.castAdd _ i) + s)) j := by
    intro i s j
    unfold xGamma
    rw [Function.update_of_ne (by
      intro h
      have := congrArg Fin.val h
      simp only [Fin.val_natAdd, Fin.val_castAdd] at this
      omega)]
    exact hnn j
  have hneg : ∀ i, x i < 0 → ∃ i', i = Fin.castAdd _ i' := by
    intro i hi
    refine Fin.addCases (fun i' _ => ⟨i', rfl⟩) (fun j hj => ?_) i hi
    exact absurd (hnn j) (not_le.2 hj)
  have hobj : marginalNLL D (xBeta xp) (xGamma xp) ≤ lmeObjective D M.elasticEps (M.reg.penalty w) (xBeta xp) (xGamma xp) := by
    rw [lmeObjective_join]
    have h1 : 0 ≤ M.elasticEps / 2 * ∑ i, xp i ^ 2 := mul_nonneg (by linarith [hM.eps]) (Finset.sum_nonneg fun _ _ => sq_nonneg _)
    have h2 : 0 ≤ ∑ i, M.reg.penalty w i (xp i) := Finset.sum_nonneg fun i _ => LmeReg.penalty_nonneg hM.reg hw0 i _
    linarith
  refine ⟨x, xp, coef, hc, hcb, hcg, hnn, hxp, ?_, hsq, fun i hi => ?_, fun i hi => ?_, fun i hi => ?_, fun i hi => ?_⟩
  · rw [← epen]
    exact hobj.trans hF
  · have := coord_free htp (hd i) (.inl ⟨hi, rfl⟩) fun s hs => hmove i s (hup i s (by
      rw [abs_of_pos hi] at hs
      linarith [(abs_le.1 hs).1]))
    rw [mul_one] at this
    exact this.trans hle
  · obtain ⟨i', rfl⟩ := hneg i hi
    have := coord_free htp (hd _) (.inr ⟨hi, rfl⟩) fun s _ => hmove _ s (hbeta i' s)
    rw [mul_neg_one, ← sub_eq_add_neg] at this
    exact this.trans hle
  · have := coord_up (xpi := xp i) (gi := nllGradient D xp i) (wi := w i) (eps := M.elasticEps) (lam := lam) (δ := M.tol) htp (by
        have := hd i
        rwa [hi] at this) fun s hs _ => by
      have := hmove i s (hup i s (by rw [hi]; linarith))
      rwa [hi] at this
    linarith
  · have hi' : x (Fin.castAdd _ i) = 0 := hi
    have := coord_up (xpi := -xp (Fin.castAdd _ i)) (gi := -nllGradient D xp (Fin.castAdd _ i)) (wi := w (Fin.castAdd _ i)) (eps := M.elasticEps) (lam := lam) (δ := M.tol) htp (by
        have := hd (Fin.castAdd _ i)
        rw [hi', zero_sub, abs_neg] at this
        rwa [zero_sub, neg_neg]) fun s hs _ => by
      have := hmove _ (-s) (hbeta i (-s))
      rw [hi', zero_add, abs_neg, neg_sq] at this
      rw [zero_add]
      convert this using 1
      ring
    linarith

/-- **C160** (optimality conditions): let a plain L1 mixed-effects model without prior be fitted to a table with positive observation variances, with a step as in C124. If the fit logs
`converged = True`, then some coefficients `b', g'` (nonnegative variances, at Euclidean distance at most `tol` from the result) have these derivatives `G` of the negative log-likelihood:
for every nonzero coefficient `v` of the result, `G + eps v` is within `tol / t₀` of `-lam w sign(v)`; for every zero fixed effect `|G| ≤ lam w + tol / t₀`; for every zero variance
`G ≥ -lam w - tol / t₀`. Here `t₀` is the smallest step the solver may take. -/
theorem C160_optimality (M : LmeModelCfg) (hM : M.Admissible) (lam : ℝ) (hreg : M.reg = .l1 lam) (hsr : M.sr3 = none) (hpr : M.prior = none) (hinit : M.initializer ≠ some "EM") (st : LmeState)
    (P : LmeProblem ℝ) (a : LmeFitArgs) (D : List (LmeGroup P.numFixed P.numRandom)) (hD : lmeGroups P = .ok D) (hDp : PosVar D) (hn : 0 < P.numFixed + P.numRandom) (b0 : Vec ℝ P.numFixed)
    (g0 : Vec ℝ P.numRandom) (hb : List.ofFn b0 = a.beta.getD (List.replicate P.numFixed 1)) (hg : List.ofFn g0 = a.gamma.getD (List.replicate P.numRandom 1)) (hg0 : ∀ j, 0 ≤ g0 j)
    (wb : Vec ℝ P.numFixed) (wg : Vec ℝ P.numRandom) (hwb : List.ofFn wb = a.feWeights.getD P.feWeights) (hwg : List.ofFn wg = a.reWeights.getD P.reWeights)
    (hwb0 : ∀ i, 0 ≤ wb i) (hwg0 : ∀ j, 0 ≤ wg j) (L : ℝ) (hL0 : 0 < L) (hrule : if M.stepping = "line-search" then L ≤ 10 ^ 14 else M.step ≤ 1 / L)
    (hL : (D.map fun g => ∑ i, (∑ k, g.x i k ^ 2) / g.l i).sum
      + 2 * (marginalNLL D b0 g0 + M.elasticEps / 2 * (∑ i, b0 i ^ 2 + ∑ j, g0 j ^ 2) + lam * (∑ i, wb i * |b0 i| + ∑ j, wg j * |g0 j|) - 1 / 2 * (D.map fun g => ∑ i, Real.log (g.l i)).sum)
        * (D.map fun g => ∑ j, (∑ i, g.z i j ^ 2 / g.l i) ^ 2).sum ≤ L)
    (t₀ : ℝ) (ht₀ : t₀ = if M.stepping = "line-search" then min M.step (1 / (2 * L)) else M.step)
    (Lf : Logger (PyVal ℝ (P.numFixed + P.numRandom))) (c : LmeState) (h : lmeFitProblem M st P a = (.ok Lf, c)) (hconv : Lf.get "converged" = .ok (.atom (.bool true))) :
    ∃ coef b g b' g', c = some coef ∧ coef.beta = List.ofFn b ∧ coef.gamma = List.ofFn g ∧ (∀ j, 0 ≤ g j) ∧ (∀ j, 0 ≤ g' j) ∧
      ∑ i, (b i - b' i) ^ 2 + ∑ j, (g j - g' j) ^ 2 ≤ M.tol ^ 2 ∧
      (∀ i : Fin P.numFixed, ∃ G : ℝ, HasDerivAt (fun t => marginalNLL D (b' + Pi.single i t) g') G 0 ∧
        (0 < b i → |G + M.elasticEps * b i + lam * wb i| ≤ M.tol / t₀) ∧ (b i < 0 → |G + M.elasticEps * b i - lam * wb i| ≤ M.tol / t₀) ∧
        (b i = 0 → |G| ≤ lam * wb i + M.tol / t₀)) ∧
      (∀ j : Fin P.numRandom, ∃ G : ℝ, HasDerivAt (fun t => marginalNLL D b' (g' + Pi.single j t)) G 0 ∧
        (0 < g j → |G + M.elasticEps * g j + lam * wg j| ≤ M.tol / t₀) ∧ (g j = 0 → -(lam * wg j) - M.tol / t₀ ≤ G)) := by
  have eobj : lmeObjective D M.elasticEps (fun i v => lam * (joinX wb wg i * |v|)) b0 g0
      = marginalNLL D b0 g0 + M.elasticEps / 2 * (∑ i, b0 i ^ 2 + ∑ j, g0 j ^ 2) + lam * (∑ i, wb i * |b0 i| + ∑ j, wg j * |g0 j|) := by
    unfold lmeObjective
    rw [← Finset.mul_sum, Fin.sum_univ_add]
    simp only [joinX, Fin.append_left, Fin.append_right]
  obtain ⟨x, xp, coef, hc, hcb, hcg, hnn, hxp, -, hsq, h1, h2, h3, h4⟩ := lmeFit_kkt hM hreg hsr hpr hinit hD hDp hn hb hg hg0 (w := joinX wb wg) (by
      unfold joinX
      rw [List.ofFn_fin_append, hwb, hwg]) (by
      intro i
      refine Fin.addCases (fun i => ?_) (fun j => ?_) i
      · simpa only [joinX, Fin.append_left] using hwb0 i
      · simpa only [joinX, Fin.append_right] using hwg0 j) (L := L) ⟨hM.step_pos, hL0, hrule⟩ (by rw [eobj]; exact hL) h hconv
  have hst : stepFloor M.solver L = t₀ := ht₀.symm
  rw [hst] at h1 h2 h3 h4
  have eb : ∀ i, nllGradient D xp (Fin.castAdd _ i) = (D.map fun g => -(g.xᵀ *ᵥ ((margCov g (xGamma xp))⁻¹ *ᵥ residual g (xBeta xp)))).sum i := fun i => Fin.append_left _ _ _
  have eg : ∀ j, nllGradient D xp (Fin.natAdd _ j) = (D.map fun g => nllGradGamma g (xBeta xp) (xGamma xp)).sum j := fun j => Fin.append_right _ _ _
  have wbe : ∀ i, joinX wb wg (Fin.castAdd _ i) = wb i := fun i => Fin.append_left _ _ _
  have wge : ∀ j, joinX wb wg (Fin.natAdd _ j) = wg j := fun j => Fin.append_right _ _ _
  refine ⟨coef, xBeta x, xGamma x, xBeta xp, xGamma xp, hc, hcb, hcg, hnn, hxp, ?_, fun i => ⟨_, (marginalNLL_expansion D (xGamma xp)).hasDerivAt (xBeta xp) i, ?_, ?_, ?_⟩,
    fun j => ⟨_, marginalNLL_deriv (inDomain_of_nonneg hDp hxp) (xBeta xp) j, ?_, ?_⟩⟩
  · rw [Fin.sum_univ_add] at hsq
    exact hsq
  · intro hi
    have := h1 (Fin.castAdd _ i) hi
    rw [eb, wbe] at this
    exact this
  · intro hi
    have := h2 (Fin.castAdd _ i) hi
    rw [eb, wbe] at this
    exact this
  · intro hi
    have h5 := h3 (Fin.castAdd _ i) hi
    have h6 := h4 i hi
    rw [eb, wbe] at h5 h6
    exact abs_le.2 ⟨by linarith, h6⟩
  · intro hj
    have := h1 (Fin.natAdd _ j) hj
    rw [eg, wge, list_sum_apply] at this
    exact this
  · intro hj
    have := h3 (Fin.natAdd _ j) hj
    rw [eg, wge, list_sum_apply] at this
    exact this

/-- **C160** (dropped effects): let `F₀` be the objective at the start and `N = 1/2 Σ log l`. A converged fit as above returns exactly zero for every fixed effect whose penalty `lam w` exceeds
`√(2 (F₀ - N) Σ x²/l) + tol / t₀` (`x` its column) and for every variance whose penalty exceeds `(F₀ - N) Σ z²/l + tol / t₀` (`z` its column). -/
theorem C160_dropped (M : LmeModelCfg) (hM : M.Admissible) (lam : ℝ) (hreg : M.reg = .l1 lam) (hsr : M.sr3 = none) (hpr : M.prior = none) (hinit : M.initializer ≠ some "EM") (st : LmeState)
    (P : LmeProblem ℝ) (a : LmeFitArgs) (D : List (LmeGroup P.numFixed P.numRandom)) (hD : lmeGroups P = .ok D) (hDp : PosVar D) (b0 : Vec ℝ P.numFixed)
    (g0 : Vec ℝ P.numRandom) (hb : List.ofFn b0 = a.beta.getD (List.replicate P.numFixed 1)) (hg : List.ofFn g0 = a.gamma.getD (List.replicate P.numRandom 1)) (hg0 : ∀ j, 0 ≤ g0 j)
    (wb : Vec ℝ P.numFixed) (wg : Vec ℝ P.numRandom) (hwb : List.ofFn wb = a.feWeights.getD P.feWeights) (hwg : List.ofFn wg = a.reWeights.getD P.reWeights)
    (hwb0 : ∀ i, 0 ≤ wb i) (hwg0 : ∀ j, 0 ≤ wg j) (E : ℝ)
    (hE : E = marginalNLL D b0 g0 + M.elasticEps / 2 * (∑ i, b0 i ^ 2 + ∑ j, g0 j ^ 2) + lam * (∑ i, wb i * |b0 i| + ∑ j, wg j * |g0 j|) - 1 / 2 * (D.map fun g => ∑ i, Real.log (g.l i)).sum)
    (L : ℝ) (hL0 : 0 < L) (hrule : if M.stepping = "line-search" then L ≤ 10 ^ 14 else M.step ≤ 1 / L)
    (hL : (D.map fun g => ∑ i, (∑ k, g.x i k ^ 2) / g.l i).sum + 2 * E * (D.map fun g => ∑ j, (∑ i, g.z i j ^ 2 / g.l i) ^ 2).sum ≤ L)
    (t₀ : ℝ) (ht₀ : t₀ = if M.stepping = "line-search" then min M.step (1 / (2 * L)) else M.step)
    (Lf : Logger (PyVal ℝ (P.numFixed + P.numRandom))) (c : LmeState) (h : lmeFitProblem M st P a = (.ok Lf, c)) (hconv : Lf.get "converged" = .ok (.atom (.bool true))) :
    ∃ coef b g, c = some coef ∧ coef.beta = List.ofFn b ∧ coef.gamma = List.ofFn g ∧
      (∀ i : Fin P.numFixed, √(2 * E * (D.map fun g => ∑ r, g.x r i ^ 2 / g.l r).sum) + M.tol / t₀ < lam * wb i → b i = 0) ∧
      (∀ j : Fin P.numRandom, E * (D.map fun g => ∑ r, g.z r j ^ 2 / g.l r).sum + M.tol / t₀ < lam * wg j → g j = 0) := by
  have eobj : lmeObjective D M.elasticEps (fun i v => lam * (joinX wb wg i * |v|)) b0 g0 - noiseFloor D = E := by
    unfold lmeObjective
    rw [← Finset.mul_sum, Fin.sum_univ_add, hE]
    simp only [joinX, Fin.append_left, Fin.append_right]
    rfl
  rcases Nat.eq_zero_or_pos (P.numFixed + P.numRandom) with hz | hn
  · have hF : P.numFixed = 0 := by omega
    have hR : P.numRandom = 0 := by omega
    unfold lmeFitProblem at h
    split at h
    · cases h
    rename_i r hr
    obtain ⟨coef, x, L0⟩ := r
    simp only [Prod.mk.injEq] at h
    obtain ⟨m, Pr', w', base, D', b0', g0', us, per, -, -, -, -, -, -, -, -, -, -, hcoef⟩ := lmeFitCore_ok hr
    exact ⟨coef, xBeta x, xGamma x, h.2.symm, by rw [hcoef], by rw [hcoef], fun i => absurd i.2 (by omega), fun j => absurd j.2 (by omega)⟩
  obtain ⟨x, xp, coef, hc, hcb, hcg, hnn, hxp, hF, hsq, h1, h2, -, -⟩ := lmeFit_kkt hM hreg hsr hpr hinit hD hDp hn hb hg hg0 (w := joinX wb wg) (by
      unfold joinX
      rw [List.ofFn_fin_append, hwb, hwg]) (by
      intro i
      refine Fin.addCases (fun i => ?_) (fun j => ?_) i
      · simpa only [joinX, Fin.append_left] using hwb0 i
      · simpa only [joinX, Fin.append_right] using hwg0 j) (L := L) ⟨hM.step_pos, hL0, hrule⟩ (by rw [eobj]; exact hL) h hconv
  have hst : stepFloor M.solver L = t₀ := ht₀.symm
  rw [hst] at h1 h2
  have eb : ∀ i, nllGradient D xp (Fin.castAdd _ i) = (D.map fun g => -(g.xᵀ *ᵥ ((margCov g (xGamma xp))⁻¹ *ᵥ residual g (xBeta xp)))).sum i := fun i => Fin.append_left _ _ _
  have eg : ∀ j, nllGradient D xp (Fin.natAdd _ j) = (D.map fun g => nllGradGamma g (xBeta xp) (xGamma xp)).sum j := fun j => Fin.append_right _ _ _
  have wbe : ∀ i, joinX wb wg (Fin.castAdd _ i) = wb i := fun i => Fin.append_left _ _ _
  have wge : ∀ j, joinX wb wg (Fin.natAdd _ j) = wg j := fun j => Fin.append_right _ _ _
  refine ⟨coef, xBeta x, xGamma x, hc, hcb, hcg, fun i hi => ?_, fun j hj => ?_⟩
  · have hG := nll_beta_bound hDp hxp (xBeta xp) i hF
    rw [eobj, ← eb] at hG
    have hG' := abs_le.1 hG
    by_contra hne
    rcases lt_or_gt_of_ne hne with hlt | hgt
    · have h3 := abs_le.1 (h2 (Fin.castAdd _ i) hlt)
      rw [wbe] at h3
      have : M.elasticEps * x (Fin.castAdd _ i) ≤ 0 := mul_nonpos_of_nonneg_of_nonpos hM.eps (le_of_lt hlt)
      linarith
    · have h3 := abs_le.1 (h1 (Fin.castAdd _ i) hgt)
      rw [wbe] at h3
      have : 0 ≤ M.elasticEps * x (Fin.castAdd _ i) := mul_nonneg hM.eps (le_of_lt hgt)
      linarith
  · have hG := nll_gamma_bound hDp hxp (xBeta xp) j hF
    rw [eobj, ← eg] at hG
    by_contra hne
    have hgt : 0 < x (Fin.natAdd _ j) := lt_of_le_of_ne (hnn j) (Ne.symm hne)
    have h3 := abs_le.1 (h1 (Fin.natAdd _ j) hgt)
    rw [wge] at h3
    have : 0 ≤ M.elasticEps * x (Fin.natAdd _ j) := mul_nonneg hM.eps hgt.le
    linarith

/-- An L1 model of any strength with fixed steps. -/
noncomputable def kktModel (lam step : ℝ) (maxIter : ℤ) : LmeModelCfg :=
  { exModel none maxIter (.l1 lam) with stepping := "fixed", fixedStepLen := some step }

theorem kktModel_step {step : ℝ} (lam : ℝ) (h : step ≠ 0) (maxIter : ℤ) : (kktModel lam step maxIter).step = step := if_neg h

theorem kktModel_robust {lam step : ℝ} (hl : 0 ≤ lam) (h : 0 < step) (maxIter : ℤ) : (kktModel lam step maxIter).Robust where
  adm := ⟨hl, by norm_num [kktModel, exModel], (fun s hs => by cases hs; exact h.le), fun s h => by cases h⟩
  init := by simp [kktModel, exModel]
  kind := rfl
  keys := by change ["converged", "loss", "jones_bic", "muller_ic"].Nodup; decide
  vaida := by change _ ∉ ["converged", "loss", "jones_bic", "muller_ic"]; decide
  flip := fun h => absurd h (by change _ ∉ ["converged", "loss", "jones_bic", "muller_ic"]; decide)
  sr3 := fun s h => by cases h
  scad := fun _ _ => trivial

/-- Non-vacuity of both parts of C160: the example table is fitted from a zero start with a strong penalty; the fit converges, its result is near a point meeting the optimality conditions,
and both fixed effects and both variances of the result are exactly zero. -/
example : ∃ (P : LmeProblem ℝ) (D : List (LmeGroup P.numFixed P.numRandom)) (lam step : ℝ) (maxIter : ℤ) (a : LmeFitArgs) (Lf : Logger (PyVal ℝ (P.numFixed + P.numRandom))) (c : LmeCoef)
    (b b' : Vec ℝ P.numFixed) (g' : Vec ℝ P.numRandom), lmeFromXY exTab (some ![26, 20]) none exTabLabels true true none none = .ok P ∧ lmeGroups P = .ok D ∧
    lmeFitProblem (kktModel lam step maxIter) none P a = (.ok Lf, some c) ∧ Lf.get "converged" = .ok (.atom (.bool true)) ∧
    c.beta = [0, 0] ∧ c.gamma = [0, 0] ∧ c.beta = List.ofFn b ∧
    ∀ i : Fin P.numFixed, ∃ G : ℝ, HasDerivAt (fun t => marginalNLL D (b' + Pi.single i t) g') G 0 ∧ (b i = 0 → |G| ≤ lam * 1 + 1e-5 / step) := by
  obtain ⟨P, hP⟩ := exTab_ok' true true ![26, 20]
  obtain ⟨_, _, feW, reW, -, -, hlen, -, -, -, -, -, hf, hr', hPe⟩ := lmeFromXY_ok exTab (some ![26, 20]) none exTabLabels
    true true none none P hP
  have e1 : P.feWeights = [1, 1] := by rw [hPe]; cases hf; rfl
  have e2 : P.reWeights = [1, 1] := by rw [hPe]; cases hr'; rfl
  have hF : P.numFixed = 2 := (numFixed_eq P true true (by rw [hPe])).trans (by rw [show P.columnLabels = exTabLabels by rw [hPe]]; decide)
  have hR : P.numRandom = 2 := (numRandom_eq P true true (by rw [hPe])).trans (by rw [show P.columnLabels = exTabLabels by rw [hPe]]; decide)
  obtain ⟨gr, v, -, hv, -, hD⟩ := lmeGroups_table hP
  obtain ⟨D, hDe⟩ : ∃ D, D = (uniqueLabels fun r => exTab r gr).map (tableGroup exTab ![26, 20] exTabLabels true true gr v P.numFixed P.numRandom) := ⟨_, rfl⟩
  rw [← hDe] at hD
  have hDp : PosVar D := by
    have hvl : v = 3 := by
      have h3 : labelIdx (p := 4) exTabLabels (· = VARIANCE) = [3] := by decide
      rw [h3] at hv
      exact (List.singleton_injective hv).symm
    intro g hg i
    rw [hDe] at hg
    obtain ⟨l, -, rfl⟩ := List.mem_map.1 hg
    exact exTab_positive v (by rw [hvl]; rfl) _
  obtain ⟨E, hE⟩ : ∃ E, E = marginalNLL D 0 0 - 1 / 2 * (D.map fun g => ∑ i, Real.log (g.l i)).sum := ⟨_, rfl⟩
  obtain ⟨L, hL⟩ : ∃ L, L = max 1 ((D.map fun g => ∑ i, (∑ k, g.x i k ^ 2) / g.l i).sum + 2 * E * (D.map fun g => ∑ j, (∑ i, g.z i j ^ 2 / g.l i) ^ 2).sum) := ⟨_, rfl⟩
  have hL0 : 0 < L := by rw [hL]; exact lt_of_lt_of_le one_pos (le_max_left _ _)
  have hs0 : 0 < 1 / L := one_div_pos.2 hL0
  -- a penalty above all the thresholds
  obtain ⟨lam, hlam⟩ : ∃ lam : ℝ, lam = 1 + ∑ i, |√(2 * E * (D.map fun g => ∑ r, g.x r i ^ 2 / g.l r).sum) + 1e-5 / (1 / L)| + ∑ j, |E * (D.map fun g => ∑ r, g.z r j ^ 2 / g.l r).sum + 1e-5 / (1 / L)| := ⟨_, rfl⟩
  have hS1 : 0 ≤ ∑ i, |√(2 * E * (D.map fun g => ∑ r, g.x r i ^ 2 / g.l r).sum) + 1e-5 / (1 / L)| := Finset.sum_nonneg fun _ _ => abs_nonneg _
  have hS2 : 0 ≤ ∑ j, |E * (D.map fun g => ∑ r, g.z r j ^ 2 / g.l r).sum + 1e-5 / (1 / L)| := Finset.sum_nonneg fun _ _ => abs_nonneg _
  have hlam0 : 0 ≤ lam := by rw [hlam]; linarith
  have hbig1 : ∀ i, √(2 * E * (D.map fun g => ∑ r, g.x r i ^ 2 / g.l r).sum) + 1e-5 / (1 / L) < lam * 1 := by
    intro i
    have h1 := Finset.single_le_sum (f := fun i => |√(2 * E * (D.map fun g => ∑ r, g.x r i ^ 2 / g.l r).sum) + 1e-5 / (1 / L)|) (fun i _ => abs_nonneg _) (Finset.mem_univ i)
    have h2 := le_abs_self (√(2 * E * (D.map fun g => ∑ r, g.x r i ^ 2 / g.l r).sum) + 1e-5 / (1 / L))
    rw [hlam]
    linarith
  have hbig2 : ∀ j, E * (D.map fun g => ∑ r, g.z r j ^ 2 / g.l r).sum + 1e-5 / (1 / L) < lam * 1 := by
    intro j
    have h1 := Finset.single_le_sum (f := fun j => |E * (D.map fun g => ∑ r, g.z r j ^ 2 / g.l r).sum + 1e-5 / (1 / L)|) (fun i _ => abs_nonneg _) (Finset.mem_univ j)
    have h2 := le_abs_self (E * (D.map fun g => ∑ r, g.z r j ^ 2 / g.l r).sum + 1e-5 / (1 / L))
    rw [hlam]
    linarith
  obtain ⟨m, hm⟩ := exists_nat_gt (1 + 2 * (1 / L) * E / ((1e-5 : ℝ) ^ 2 * (1 - 1 / L * 0)))
  have hstep := kktModel_step lam hs0.ne' (m : ℤ)
  have hrob := kktModel_robust hlam0 hs0 (m : ℤ)
  have hone : ∀ n : ℕ, List.ofFn (fun _ : Fin n => (1 : ℝ)) = List.replicate n 1 := fun n => List.ofFn_const n 1
  have hwb : List.ofFn (fun _ : Fin P.numFixed => (1 : ℝ)) = P.feWeights := by rw [e1, hF, hone]; rfl
  have hwg : List.ofFn (fun _ : Fin P.numRandom => (1 : ℝ)) = P.reWeights := by rw [e2, hR, hone]; rfl
  have hw : List.ofFn (fun _ : Fin (P.numFixed + P.numRandom) => (1 : ℝ)) = P.feWeights ++ P.reWeights := by
    rw [e1, e2, hF, hR, hone]
    rfl
  let a : LmeFitArgs := { beta := some (List.ofFn (0 : Vec ℝ P.numFixed)), gamma := some (List.ofFn (0 : Vec ℝ P.numRandom)) }
  have eF : lmeObjective D 1e-4 ((LmeReg.l1 lam).penalty fun _ => 1) 0 0 - 1 / 2 * (D.map fun g => ∑ i, Real.log (g.l i)).sum = E := by
    unfold lmeObjective
    have e0 : ∀ i, joinX (0 : Vec ℝ P.numFixed) (0 : Vec ℝ P.numRandom) i = 0 := by
      intro i
      refine Fin.addCases (fun i => ?_) (fun j => ?_) i
      · simp only [joinX, Fin.append_left, Pi.zero_apply]
      · simp only [joinX, Fin.append_right, Pi.zero_apply]
    simp [LmeReg.penalty, e0, hE]
  have hLe : (D.map fun g => ∑ i, (∑ k, g.x i k ^ 2) / g.l i).sum + 2 * E * (D.map fun g => ∑ j, (∑ i, g.z i j ^ 2 / g.l i) ^ 2).sum ≤ L := by
    rw [hL]
    exact le_max_right _ _
  have hrule : if (kktModel lam (1 / L) m).stepping = "line-search" then L ≤ 10 ^ 14 else (kktModel lam (1 / L) m).step ≤ 1 / L := by
    rw [if_neg (by simp [kktModel])]
    exact hstep.le
  obtain ⟨Lf, c, b, g, hfit, hconv, hb, hg, -⟩ := C124_stops (kktModel lam (1 / L) m) hrob rfl rfl (by norm_num [kktModel, exModel]) none exTab ![26, 20] none exTabLabels true true none none P hP
    exTab_positive a (by rintro w rfl; simp only [a, Option.getD_none, e1]; exact ⟨rfl, by simp⟩) (by rintro w rfl; simp only [a, Option.getD_none, e2]; exact ⟨rfl, by simp⟩)
    D hD 0 0 rfl rfl (fun _ => le_rfl) (fun _ => 1) hw 0 le_rfl (by rw [mul_zero]; exact one_pos) L hL0 hrule (by
      change _ + 2 * (lmeObjective D 1e-4 ((LmeReg.l1 lam).penalty fun _ => 1) 0 0 - _) * _ ≤ L
      rw [eF]
      exact hLe) (by
      rw [hstep]
      change 1 + 2 * (1 / L) * (lmeObjective D 1e-4 ((LmeReg.l1 lam).penalty fun _ => 1) 0 0 - _) / _ < ((m : ℤ) : ℝ)
      rw [eF, Int.cast_natCast]
      exact hm)
  have hEs : E = marginalNLL D 0 0 + (kktModel lam (1 / L) m).elasticEps / 2 * (∑ i : Fin P.numFixed, (0 : Vec ℝ P.numFixed) i ^ 2 + ∑ j : Fin P.numRandom, (0 : Vec ℝ P.numRandom) j ^ 2)
      + lam * (∑ i : Fin P.numFixed, 1 * |(0 : Vec ℝ P.numFixed) i| + ∑ j : Fin P.numRandom, 1 * |(0 : Vec ℝ P.numRandom) j|) - 1 / 2 * (D.map fun g => ∑ i, Real.log (g.l i)).sum := by
    simp [hE]
  have ht : 1 / L = if (kktModel lam (1 / L) m).stepping = "line-search" then min (kktModel lam (1 / L) m).step (1 / (2 * L)) else (kktModel lam (1 / L) m).step := by
    rw [if_neg (by simp [kktModel])]
    exact hstep.symm
  obtain ⟨coef, bd, gd, hc, hbd, hgd, hz1, hz2⟩ := C160_dropped (kktModel lam (1 / L) m) hrob.adm lam rfl rfl rfl (by simp [kktModel, exModel]) none P a D hD hDp 0 0 rfl rfl (fun _ => le_rfl)
    (fun _ => 1) (fun _ => 1) hwb hwg (fun _ => zero_le_one) (fun _ => zero_le_one) E hEs L hL0 hrule hLe (1 / L) ht Lf (some c) hfit hconv
  obtain ⟨coef', b1, g1, b', g', hc', hb1, hg1, -, -, -, hopt, -⟩ := C160_optimality (kktModel lam (1 / L) m) hrob.adm lam rfl rfl rfl (by simp [kktModel, exModel]) none P a D hD hDp (by omega) 0 0
    rfl rfl (fun _ => le_rfl) (fun _ => 1) (fun _ => 1) hwb hwg (fun _ => zero_le_one) (fun _ => zero_le_one) L hL0 hrule (by rw [← hEs]; exact hLe) (1 / L) ht Lf (some c) hfit hconv
  cases hc
  cases hc'
  refine ⟨P, D, lam, 1 / L, m, a, Lf, c, b1, b', g', hP, hD, hfit, hconv, ?_, ?_, hb1, fun i => ?_⟩
  · have : bd = fun _ => 0 := funext fun i => hz1 i (hbig1 i)
    rw [hbd, this, List.ofFn_const, hF]
    rfl
  · have : gd = fun _ => 0 := funext fun i => hz2 i (hbig2 i)
    rw [hgd, this, List.ofFn_const, hR]
    rfl
  · obtain ⟨G, hG, -, -, h0⟩ := hopt i
    exact ⟨G, hG, h0⟩

end Verif
