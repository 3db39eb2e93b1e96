import Verif.Props.LmePgd

/-!
# C165: where `optimal_gamma_ip` stops
-/

open Matrix

namespace Verif

variable {p q : ℕ}

theorem ipGammaLoop_stop (grad : Vec ℝ q → Except PyErr (Vec ℝ q)) (hess : Vec ℝ q → Except PyErr (Matrix (Fin q) (Fin q) ℝ)) (loss : Vec ℝ q → Except PyErr ℝ) (ls : LineSearch) (nIter : ℤ) (tol : ℝ) :
    ∀ (n : ℕ) (s r : IpGammaState q), (nIter - s.iteration).toNat = n → ipGammaLoop grad hess loss ls nIter tol s = .ok r →
      r.stepLen = 0 ∨ nIter ≤ r.iteration ∨ ∃ F, ipGammaF grad r.v r.gamma r.mu = .ok F ∧ npNorm F ≤ tol := by
  intro n
  induction n using Nat.strong_induction_on with
  | _ n ih =>
    intro s r hn h
    unfold ipGammaLoop at h
    split_ifs at h with h1
    · cases hF : ipGammaF grad s.v s.gamma s.mu with
      | error e => rw [hF] at h; cases h
      | ok F =>
        rw [hF] at h
        simp only at h
        split_ifs at h with h2
        · cases hs' : ipGammaStep grad hess loss ls s F with
          | error e => rw [hs'] at h; cases h
          | ok s' =>
            rw [hs'] at h
            simp only at h
            refine ih _ ?_ _ r rfl h
            rw [← hn]
            simp only
            have := h1.2
            push_cast
            omega
        · cases h
          exact Or.inr (Or.inr ⟨F, hF, not_lt.1 h2⟩)
    · cases h
      by_cases h0 : s.stepLen = 0
      · exact Or.inl h0
      · right; left
        by_contra hc
        exact h1 ⟨h0, not_le.1 hc⟩

/-- **C165, partial**: a run of `optimal_gamma_ip` from nonnegative variances that makes at least one iteration and ends before the limit, not because of a zero step, ends at nearly stationary variances: with `G` the gradient
there, `G_j ≥ -tol_inner` and `gamma_j G_j ≤ (10/9 + gamma_j) tol_inner` for every `j`. Missing: runs without iterations, see `C165_ip_violated`. -/
theorem C165_ip_partial (grad : Vec ℝ q → Except PyErr (Vec ℝ q)) (hess : Vec ℝ q → Except PyErr (Matrix (Fin q) (Fin q) ℝ)) (loss : Vec ℝ q → Except PyErr ℝ) (ls : LineSearch) (nIter : ℤ) (tol : ℝ)
    (gamma : Vec ℝ q) (hg : ∀ j, 0 ≤ gamma j) (r : IpGammaState q) (h : lmeOptimalGammaIp grad hess loss ls nIter tol gamma = .ok r) (h1 : 1 ≤ r.iteration) (h2 : (r.iteration : ℤ) < nIter)
    (h3 : r.stepLen ≠ 0) : ∃ G, grad r.gamma = .ok G ∧ ∀ j, 0 ≤ r.gamma j ∧ -tol ≤ G j ∧ r.gamma j * G j ≤ (10 / 9 + r.gamma j) * tol := by
  obtain ⟨hgn, hvn, -⟩ := C63_ip_nonneg_partial grad hess loss ls nIter tol gamma hg r h
  have hmu : r.iteration = 0 ∨ r.mu = 0.1 * (r.v ⬝ᵥ r.gamma) / q := by
    refine ipGammaLoop_inv grad hess loss ls nIter tol (fun r => r.iteration = 0 ∨ r.mu = 0.1 * (r.v ⬝ᵥ r.gamma) / q) ?_ _ _ r rfl (Or.inl rfl) h
    intro s F s' _ _ _ hs'
    unfold ipGammaStep at hs'
    obtain ⟨dF, -, hs'⟩ := ebind_ok.1 hs'
    obtain ⟨d, -, hs'⟩ := ebind_ok.1 hs'
    obtain ⟨step, -, hs'⟩ := ebind_ok.1 hs'
    obtain ⟨_, -, hs'⟩ := ebind_ok.1 hs'
    obtain ⟨_, -, hs'⟩ := ebind_ok.1 hs'
    cases hs'
    exact Or.inr rfl
  have hmu' := hmu.resolve_left (by omega)
  rcases ipGammaLoop_stop grad hess loss ls nIter tol _ _ r rfl h with hs | hs | ⟨F, hF, hn⟩
  · exact absurd hs h3
  · exact absurd h2 (not_lt.2 hs)
  · unfold ipGammaF at hF
    obtain ⟨G, hG, hF⟩ := ebind_ok.1 hF
    cases hF
    have hb : ∀ i : Fin q ⊕ Fin q, |(Sum.elim (fun j => r.v j * r.gamma j - r.mu) (G - r.v) : Fin q ⊕ Fin q → ℝ) i| ≤ tol := fun i =>
      le_trans (Real.abs_le_sqrt (Finset.single_le_sum (f := fun i => (Sum.elim (fun j => r.v j * r.gamma j - r.mu) (G - r.v) : Fin q ⊕ Fin q → ℝ) i ^ 2) (fun i _ => sq_nonneg _) (Finset.mem_univ i))) hn
    refine ⟨G, hG, fun j => ?_⟩
    have hq : 0 < (q : ℝ) := by exact_mod_cast Fin.pos j
    have hsum : ∑ j, (r.v j * r.gamma j - r.mu) ≤ ∑ _j : Fin q, tol := Finset.sum_le_sum fun j _ => (le_abs_self _).trans (hb (Sum.inl j))
    have hdot : r.v ⬝ᵥ r.gamma = 10 * q * r.mu := by
      rw [hmu']
      field_simp
      norm_num
      ring
    have hsum' : ∑ j, r.v j * r.gamma j = 10 * q * r.mu := hdot
    rw [Finset.sum_sub_distrib, hsum'] at hsum
    simp only [Finset.sum_const, Finset.card_univ, Fintype.card_fin, nsmul_eq_mul] at hsum
    have hm : 9 * r.mu ≤ tol := by
      by_contra hc
      nlinarith
    have hvg := (le_abs_self _).trans (hb (Sum.inl j))
    have hGv := hb (Sum.inr j)
    simp only [Sum.elim_inl] at hvg
    simp only [Sum.elim_inr, Pi.sub_apply, abs_le] at hGv
    refine ⟨hgn j, by linarith [hvn j], ?_⟩
    nlinarith [mul_le_mul_of_nonneg_left hGv.2 (hgn j)]

/-- **C165 is violated** when the loop is not entered: the multipliers start at `1` and the complementarity target starts at the mean of `gamma`, so with equal variances and a gradient of `1` the system is already solved.
Here, for every tolerance, limit and line search, the start `2/5` is returned after no iteration although the loss has the derivative `1` there. -/
theorem C165_ip_violated : ∃ (D : List (LmeGroup 0 1)) (beta : Vec ℝ 0) (gamma : Vec ℝ 1), PosVar D ∧ (∀ j, 0 < gamma j) ∧ lmeGradientGamma D .nonInformative beta gamma = .ok ![1] ∧
    ∀ (ls : LineSearch) (nIter : ℤ) (tol : ℝ), 0 ≤ tol → ∃ r, lmeOptimalGammaIp (lmeGradientGamma D .nonInformative beta) (lmeHessianGamma D .nonInformative .positivePart beta)
      (lmeLoss D .nonInformative beta) ls nIter tol gamma = .ok r ∧ r.gamma = gamma ∧ r.stepLen ≠ 0 ∧ r.iteration = 0 := by
  have hG : lmeGradientGamma [flatGroup] .nonInformative ![] ![2 / 5] = .ok ![1] := by
    rw [flat_grad (2 / 5) (by norm_num)]
    norm_num
  refine ⟨[flatGroup], ![], ![2 / 5], flatGroup_posVar, ?_, hG, fun ls nIter tol htol => ⟨⟨fun _ => 1, ![2 / 5], 2 / 5, 1, 0⟩, ?_, rfl, one_ne_zero, rfl⟩⟩
  · intro j
    fin_cases j
    change (0 : ℝ) < 2 / 5
    norm_num
  · have hmu : (∑ j, (![2 / 5] : Vec ℝ 1) j) / (1 : ℕ) = 2 / 5 := by simp
    unfold lmeOptimalGammaIp
    rw [hmu]
    unfold ipGammaLoop
    split_ifs with h1
    · have hF : ipGammaF (lmeGradientGamma [flatGroup] .nonInformative ![]) (fun _ => 1) ![2 / 5] (2 / 5) = .ok 0 := by
        unfold ipGammaF
        rw [hG]
        change Except.ok _ = Except.ok _
        congr 1
        funext i
        rcases i with i | i
        · fin_cases i; simp
        · fin_cases i; simp
      simp only [hF]
      rw [if_neg]
      unfold npNorm
      simpa using htol
    · rfl

/-- The hypotheses of the partial theorem: from the variance `1/90` of the same group, with the tolerance `3` and a line search that takes the whole interval, one iteration is made, to the variance `0`, where the derivative
is `5` and the multiplier `2`. -/
example : ∃ r, lmeOptimalGammaIp (lmeGradientGamma [flatGroup] .nonInformative ![]) (lmeHessianGamma [flatGroup] .nonInformative .positivePart ![]) (lmeLoss [flatGroup] .nonInformative ![])
    (fun _ m => .ok m) 7 3 ![1 / 90] = .ok r ∧ 1 ≤ r.iteration ∧ (r.iteration : ℤ) < 7 ∧ r.stepLen ≠ 0 := by
  have hF : ipGammaF (lmeGradientGamma [flatGroup] .nonInformative ![]) (fun _ => 1) ![1 / 90] (1 / 90) = .ok (Sum.elim (fun _ => 0) fun _ => 7 / 2) := by
    unfold ipGammaF
    rw [flat_grad (1 / 90) (by norm_num)]
    change Except.ok _ = Except.ok _
    congr 1
    funext i
    rcases i with i | i
    · fin_cases i; simp
    · fin_cases i
      simp
      norm_num
  have hJ : ipGammaJac (lmeHessianGamma [flatGroup] .nonInformative .positivePart ![]) (fun _ => 1) ![1 / 90] = .ok (fromBlocks (diagonal ![1 / 90]) (diagonal fun _ => 1) (-1) 0) := by
    unfold ipGammaJac
    rw [flat_hess (1 / 90) (by norm_num)]
    rfl
  have hn : (3 : ℝ) < npNorm (Sum.elim (fun _ : Fin 1 => (0 : ℝ)) fun _ : Fin 1 => 7 / 2) := by
    unfold npNorm
    have : ∑ i, (Sum.elim (fun _ : Fin 1 => (0 : ℝ)) fun _ : Fin 1 => 7 / 2) i ^ 2 = (7 / 2) ^ 2 := by simp
    rw [this, Real.sqrt_sq (by norm_num)]
    norm_num
  have hsolve : npSolve (fromBlocks (diagonal ![1 / 90]) (diagonal fun _ => 1) (-1) 0 : Matrix (Fin 1 ⊕ Fin 1) (Fin 1 ⊕ Fin 1) ℝ) (-(Sum.elim (fun _ => 0) fun _ => 7 / 2))
      = .ok (Sum.elim (fun _ => 7 / 2) fun _ => -7 / 180) := by
    rw [npSolve_ok]
    constructor
    · refine Matrix.isUnit_det_of_right_inverse (B := fromBlocks 0 (-1) 1 (diagonal fun _ => 1 / 90)) ?_
      rw [Matrix.fromBlocks_multiply, ← Matrix.fromBlocks_one]
      congr 1 <;> ext i j <;> fin_cases i <;> fin_cases j <;> simp
    · funext i
      rw [Matrix.fromBlocks_mulVec]
      rcases i with i | i
      · fin_cases i
        simp [Matrix.mulVec_diagonal]
        norm_num
      · fin_cases i
        simp [Matrix.neg_mulVec]
  have hproj : projectDirection (Sum.elim (fun _ => 1) ![1 / 90] : Fin 1 ⊕ Fin 1 → ℝ) (Sum.elim (fun _ => 7 / 2) fun _ => -7 / 180) = Sum.elim (fun _ => 7 / 2) fun _ => -7 / 180 := by
    funext i
    unfold projectDirection
    rw [if_neg]
    rcases i with i | i <;> fin_cases i <;> simp
  have hmax : maxStepLen (stepPairs (fun _ : Fin 1 => (1 : ℝ)) ((Sum.elim (fun _ : Fin 1 => (7 / 2 : ℝ)) fun _ : Fin 1 => -7 / 180) ∘ Sum.inl)
      ++ stepPairs (![1 / 90] : Vec ℝ 1) ((Sum.elim (fun _ : Fin 1 => (7 / 2 : ℝ)) fun _ : Fin 1 => -7 / 180) ∘ Sum.inr)) = 2 / 7 := by
    have e : stepPairs (fun _ : Fin 1 => (1 : ℝ)) ((Sum.elim (fun _ : Fin 1 => (7 / 2 : ℝ)) fun _ : Fin 1 => -7 / 180) ∘ Sum.inl)
      ++ stepPairs (![1 / 90] : Vec ℝ 1) ((Sum.elim (fun _ : Fin 1 => (7 / 2 : ℝ)) fun _ : Fin 1 => -7 / 180) ∘ Sum.inr) = [(1, 7 / 2), (1 / 90, -7 / 180)] := by
      simp [stepPairs]
    rw [e]
    unfold maxStepLen
    rw [List.filter_cons_of_neg (by norm_num), List.filter_cons_of_pos (by norm_num)]
    simp
    norm_num
  have hv1 : killZeros ((fun _ => 1) + (2 / 7 : ℝ) • ((Sum.elim (fun _ : Fin 1 => (7 / 2 : ℝ)) fun _ : Fin 1 => -7 / 180) ∘ Sum.inl)) = ![2] := by
    funext i
    fin_cases i
    unfold killZeros
    rw [if_neg]
    · simp
      norm_num
    · simp
      norm_num
  have hg1 : killZeros ((![1 / 90] : Vec ℝ 1) + (2 / 7 : ℝ) • ((Sum.elim (fun _ : Fin 1 => (7 / 2 : ℝ)) fun _ : Fin 1 => -7 / 180) ∘ Sum.inr)) = ![0] := by
    funext i
    fin_cases i
    unfold killZeros
    rw [if_pos]
    · rfl
    · simp
      norm_num
  obtain ⟨L, hL⟩ : ∃ L, lmeLoss [flatGroup] .nonInformative ![] ![0] = .ok L :=
    ⟨_, lmeLoss_ok.2 ⟨inDomain_of_nonneg flatGroup_posVar (by intro j; fin_cases j; exact le_refl _), rfl⟩⟩
  have hmu1 : (0.1 * ((![2] : Vec ℝ 1) ⬝ᵥ ![0]) / (1 : ℕ) : ℝ) = 0 := by simp
  have hF' : ipGammaF (lmeGradientGamma [flatGroup] .nonInformative ![]) ![2] ![0] 0 = .ok (Sum.elim (fun _ => 0) fun _ => 3) := by
    unfold ipGammaF
    rw [flat_grad 0 (le_refl _)]
    change Except.ok _ = Except.ok _
    congr 1
    funext i
    rcases i with i | i
    · fin_cases i; simp
    · fin_cases i
      simp
      norm_num
  have bind_ok : ∀ {α β : Type} (a : α) (f : α → Except PyErr β), (Except.ok a >>= f) = f a := fun _ _ => rfl
  have hstep : ipGammaStep (lmeGradientGamma [flatGroup] .nonInformative ![]) (lmeHessianGamma [flatGroup] .nonInformative .positivePart ![]) (lmeLoss [flatGroup] .nonInformative ![])
      (fun _ m => .ok m) ⟨fun _ => 1, ![1 / 90], 1 / 90, 1, 0⟩ (Sum.elim (fun _ => 0) fun _ => 7 / 2) = .ok ⟨![2], ![0], 0, 2 / 7, 1⟩ := by
    unfold ipGammaStep
    simp only [hJ, bind_ok, hsolve, hproj, hmax, hg1, hv1, hL, hmu1, hF']
    rfl
  refine ⟨⟨![2], ![0], 0, 2 / 7, 1⟩, ?_, le_rfl, by norm_num, by norm_num⟩
  unfold lmeOptimalGammaIp
  have hmu : (∑ j, (![1 / 90] : Vec ℝ 1) j) / (1 : ℕ) = 1 / 90 := by simp
  rw [hmu]
  unfold ipGammaLoop
  rw [dif_pos ⟨one_ne_zero, by norm_num⟩, hF]
  simp only
  rw [if_pos hn, hstep]
  simp only
  unfold ipGammaLoop
  rw [dif_pos ⟨by norm_num, by norm_num⟩, hF']
  simp only
  rw [if_neg]
  unfold npNorm
  have : ∑ i, (Sum.elim (fun _ : Fin 1 => (0 : ℝ)) fun _ : Fin 1 => 3) i ^ 2 = 3 ^ 2 := by simp
  rw [this, Real.sqrt_sq (by norm_num)]
  exact lt_irrefl _

end Verif
