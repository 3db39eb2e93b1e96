import Verif.Props.LmeDescent
import Verif.Props.L0Lme

/-!
# C100 for the L0 penalty
-/

open Matrix

namespace Verif

variable {p q : ℕ}

/-- Nonnegative variances, budgets and hierarchy respected. -/
structure LmeSparse (kb kg : ℤ) (b2g : Fin p → Option (Fin q)) (wb : Vec ℝ p) (wg : Vec ℝ q) (u : Vec ℝ (p + q)) : Prop where
  nonneg : ∀ j, 0 ≤ xGamma u j
  adm : L0LmeAdmissible kb kg false b2g wb wg u u

/-- The wrapped L0 prox against a sparse competitor that keeps none of the fixed effects with a selectable variance which were dropped. -/
theorem l0_wrap_min {eps t : ℝ} (heps : 0 ≤ eps) (ht : 0 < t) (kb kg : ℤ) (b2g : Fin p → Option (Fin q)) (ws : L0LmeWeights ℝ p q)
    (asAll : ArgSort (Fin p) ℝ) {y z : Vec ℝ (p + q)}
    (hz : (wrapReg p q eps (l0LmeRegularizer ⟨some kb, some kg, false⟩ b2g (some ws) asAll)).prox y t = .ok z) :
    LmeSparse kb kg b2g ws.wb ws.wg z ∧ ∀ u, LmeSparse kb kg b2g ws.wb ws.wg u →
      (∀ (j : Fin p) (i : Fin q), b2g j = some i → ws.wg i ≠ 0 → z (Fin.castAdd q j) = 0 → u (Fin.castAdd q j) = 0) →
      t * (eps / 2 * normSq z) + normSq (z - y) / 2 ≤ t * (eps / 2 * normSq u) + normSq (u - y) / 2 := by
  classical
  have hc : 0 < 1 + t * eps := by positivity
  -- the clipped point
  obtain ⟨yp, hyp⟩ : ∃ yp : Vec ℝ (p + q), yp = fun i => if positiveMask p q i = true then clip0 (y i) else y i := ⟨_, rfl⟩
  obtain ⟨x, hx⟩ : ∃ x : Vec ℝ (p + q), x = fun i => yp i / (1 + t * eps) := ⟨_, rfl⟩
  have hz' : (l0LmeRegularizer ⟨some kb, some kg, false⟩ b2g (some ws) asAll).prox x (t / (1 + t * eps)) = .ok z := by
    rw [hx, hyp]; exact hz
  obtain ⟨z1, hz1, hadm, hbest⟩ := C156_prox_partial kb kg false b2g ws asAll x (t / (1 + t * eps))
  cases hz'.symm.trans hz1
  obtain ⟨z1, hz1, -, -, -, -, hcases, -⟩ := C14_l0lme_budget_hierarchy kb kg false b2g ws asAll x (t / (1 + t * eps))
  cases hz'.symm.trans hz1
  have hxg : ∀ j, 0 ≤ x (Fin.natAdd p j) := by
    intro j
    rw [hx, hyp]
    have : positiveMask p q (Fin.natAdd p j) = true := by simp [positiveMask]
    simp only [this, if_true]
    exact div_nonneg (le_max_right _ _) hc.le
  have hzg : ∀ j, 0 ≤ xGamma z j := by
    intro j
    rcases hcases (Fin.natAdd p j) with h | h
    · exact (hxg j).trans_eq h.symm
    · exact h.ge
  refine ⟨⟨hzg, fun _ _ => rfl, fun _ _ => rfl, hadm.budgetB, hadm.budgetG, hadm.hier⟩, fun u hu hsub => ?_⟩
  -- the competitor with the must-include coefficients of `x`
  obtain ⟨u', hu'⟩ : ∃ u' : Vec ℝ (p + q), u' = joinX (fun i => if ws.wb i = 0 then x (Fin.castAdd q i) else u (Fin.castAdd q i))
      (fun i => if ws.wg i = 0 then x (Fin.natAdd p i) else u (Fin.natAdd p i)) := ⟨_, rfl⟩
  have uL : ∀ i : Fin p, u' (Fin.castAdd q i) = if ws.wb i = 0 then x (Fin.castAdd q i) else u (Fin.castAdd q i) := by
    intro i; rw [hu']; simp [joinX]
  have uR : ∀ i : Fin q, u' (Fin.natAdd p i) = if ws.wg i = 0 then x (Fin.natAdd p i) else u (Fin.natAdd p i) := by
    intro i; rw [hu']; simp [joinX]
  have hzero : ∀ (j : Fin p) (i : Fin q), b2g j = some i → ws.wg i ≠ 0 → u' (Fin.castAdd q j) = 0 → u (Fin.castAdd q j) = 0 := by
    intro j i hji hw h0
    rw [uL] at h0
    by_cases hj : ws.wb j = 0
    · rw [if_pos hj] at h0
      exact hsub j i hji hw ((hadm.keepB j hj).trans h0)
    · rwa [if_neg hj] at h0
  have hadm' : L0LmeAdmissible kb kg false b2g ws.wb ws.wg x u' := by
    refine ⟨fun i hi => by rw [uL, if_pos hi], fun i hi => by rw [uR, if_pos hi], ?_, ?_, ?_⟩
    · refine le_trans (le_of_eq ?_) hu.adm.budgetB
      congr 2
      ext i
      simp only [Set.mem_ofPred_eq, uL]
      constructor
      · rintro ⟨h1, h2⟩; rw [if_neg h1] at h2; exact ⟨h1, h2⟩
      · rintro ⟨h1, h2⟩; rw [if_neg h1]; exact ⟨h1, h2⟩
    · refine le_trans (le_of_eq ?_) hu.adm.budgetG
      congr 2
      ext i
      simp only [Set.mem_ofPred_eq, uR]
      constructor
      · rintro ⟨h1, h2⟩; rw [if_neg h1] at h2; exact ⟨h1, h2⟩
      · rintro ⟨h1, h2⟩; rw [if_neg h1]; exact ⟨h1, h2⟩
    · intro _ j i hji hw h0
      rw [uR, if_neg hw]
      exact hu.adm.hier rfl j i hji hw (hzero j i hji hw h0)
  have h1 := (hbest u' hadm').2.1 (by
    intro j i hji hw h0
    rw [uL]
    by_cases hj : ws.wb j = 0
    · rw [if_pos hj, ← hadm.keepB j hj, h0]
    · rw [if_neg hj]; exact hsub j i hji hw h0)
  have h2 : ∑ i, (u' i - x i) ^ 2 ≤ ∑ i, (u i - x i) ^ 2 := by
    refine Finset.sum_le_sum fun i _ => ?_
    induction i using Fin.addCases with
    | left i => rw [uL]; split_ifs <;> simp [sq_nonneg]
    | right i => rw [uR]; split_ifs <;> simp [sq_nonneg]
  have h3 : normSq (z - x) ≤ normSq (u - x) := h1.trans h2
  -- from the clipped point to the original one
  have hsplit : ∀ v : Vec ℝ (p + q), (∀ j, 0 ≤ xGamma v j) → normSq (v - yp) + normSq (yp - y) ≤ normSq (v - y) := by
    intro v hv
    unfold normSq
    rw [← Finset.sum_add_distrib]
    refine Finset.sum_le_sum fun i _ => ?_
    simp only [Pi.sub_apply]
    rw [hyp]
    induction i using Fin.addCases with
    | left i =>
      have : positiveMask p q (Fin.castAdd q i) = false := by simp [positiveMask]
      simp [this]
    | right i =>
      have : positiveMask p q (Fin.natAdd p i) = true := by simp [positiveMask]
      simp only [this, if_true]
      have hvi : 0 ≤ v (Fin.natAdd p i) := hv i
      unfold clip0
      rcases le_total (y (Fin.natAdd p i)) 0 with h | h
      · rw [max_eq_right h]
        nlinarith [mul_nonneg hvi (neg_nonneg.2 h)]
      · rw [max_eq_left h]; simp
  have hsplitz : normSq (z - yp) + normSq (yp - y) = normSq (z - y) := by
    unfold normSq
    rw [← Finset.sum_add_distrib]
    refine Finset.sum_congr rfl fun i _ => ?_
    simp only [Pi.sub_apply]
    have hcz := hcases i
    rw [hx] at hcz
    rw [hyp] at hcz ⊢
    induction i using Fin.addCases with
    | left i =>
      have : positiveMask p q (Fin.castAdd q i) = false := by simp [positiveMask]
      simp [this]
    | right i =>
      have : positiveMask p q (Fin.natAdd p i) = true := by simp [positiveMask]
      simp only [this, if_true] at hcz ⊢
      unfold clip0 at hcz ⊢
      rcases le_total (y (Fin.natAdd p i)) 0 with h | h
      · rw [max_eq_right h] at hcz ⊢
        have : z (Fin.natAdd p i) = 0 := by rcases hcz with h | h <;> simp [h]
        rw [this]; ring
      · rw [max_eq_left h]; simp
  have hid := fun v => elastic_identity t eps 0 yp v hc.ne'
  have e1 := hid z
  have e2 := hid u
  rw [← hx] at e1 e2
  have h4 := mul_le_mul_of_nonneg_left h3 hc.le
  have h5 := hsplit u hu.nonneg
  simp only [mul_zero, add_zero, zero_add] at e1 e2
  rw [← hsplitz]
  nlinarith

/-- The objective does not increase at a step longer than `1e-14` of the L0 penalty that drops no fixed effect with a selectable variance. -/
theorem l0_step {f : Vec ℝ (p + q) → ℝ} {eps t : ℝ} (heps : 0 ≤ eps) (ht : 0 < t) (kb kg : ℤ) (b2g : Fin p → Option (Fin q))
    (ws : L0LmeWeights ℝ p q) (asAll : ArgSort (Fin p) ℝ) {x gr z : Vec ℝ (p + q)}
    (hz : (wrapReg p q eps (l0LmeRegularizer ⟨some kb, some kg, false⟩ b2g (some ws) asAll)).prox (fun j => x j - t * gr j) t = .ok z)
    (hx : LmeSparse kb kg b2g ws.wb ws.wg x)
    (hsub : ∀ (j : Fin p) (i : Fin q), b2g j = some i → ws.wg i ≠ 0 → z (Fin.castAdd q j) = 0 → x (Fin.castAdd q j) = 0)
    (h : SufficientDecrease f (-gr) t x z ∨ t ≤ 1 / 10 ^ 14) :
    f z + eps / 2 * ∑ i, z i ^ 2 ≤ f x + eps / 2 * ∑ i, x i ^ 2 ∨ t ≤ 1 / 10 ^ 14 := by
  classical
  obtain ⟨-, hmin⟩ := l0_wrap_min heps ht kb kg b2g ws asAll hz
  have hle := hmin x hx hsub
  obtain ⟨G, hG⟩ : ∃ G : Vec ℝ (p + q) → WithTop ℝ, G = fun v => if v = z ∨ v = x then ((eps / 2 * normSq v : ℝ) : WithTop ℝ) else ⊤ := ⟨_, rfl⟩
  have Gz : G z = ((eps / 2 * normSq z : ℝ) : WithTop ℝ) := by rw [hG]; exact if_pos (.inl rfl)
  have Gx : G x = ((eps / 2 * normSq x : ℝ) : WithTop ℝ) := by rw [hG]; exact if_pos (.inr rfl)
  have hp : IsProxOf G t (fun i => x i - t * gr i) z := by
    refine ⟨_, Gz, fun u gu hu => ?_⟩
    by_cases h1 : u = z ∨ u = x
    · rcases h1 with rfl | rfl
      · rw [Gz] at hu
        rw [WithTop.coe_inj.1 hu]
      · rw [Gx] at hu
        rw [← WithTop.coe_inj.1 hu]
        exact hle
    · rw [hG] at hu
      simp [h1] at hu
  have := step_descent ht hp h
  rw [Gz, Gx] at this
  refine this.imp_left fun h => ?_
  exact_mod_cast h

/-- **C100**, the L0 penalty: every point reached by an iteration of a successful fit respects the budgets and the hierarchy, and an iteration from such a point that
increases the negative log-likelihood plus prior plus `eps/2 |x|^2` either has a step of at most `1e-14` or drops a fixed effect with a selectable variance. -/
theorem C100_l0_partial (M : LmeModelCfg) (nb ng : Option ℤ) (sort : NpSort) (hreg : M.reg = .l0 nb ng sort) (hM : M.Admissible)
    (hsr : M.sr3 = none) (hls : M.stepping = "line-search") (hkind : M.loggerKind = .tuple) (hk : M.loggerKeys.Nodup)
    (hloss : "loss" ∈ M.loggerKeys) (hsl : "step_len" ∈ M.loggerKeys) (st : LmeState) (P : LmeProblem ℝ) (a : LmeFitArgs)
    (hw : ∀ v ∈ a.feWeights.getD P.feWeights ++ a.reWeights.getD P.reWeights, 0 ≤ v)
    (c : LmeState) (L : Logger (PyVal ℝ (P.numFixed + P.numRandom))) (h : lmeFitProblem M st P a = (.ok L, c)) :
    ∃ (coef : LmeCoef) (D : List (LmeGroup P.numFixed P.numRandom)) (Pr : LmeInstPrior ℝ P.numFixed P.numRandom)
      (w : Vec ℝ (P.numFixed + P.numRandom)) (m : List ℤ) (k : ℕ) (X : ℕ → Vec ℝ (P.numFixed + P.numRandom)) (v : ℕ → ℝ)
      (steps : List ℝ) (losses : List (WithTop ℝ)),
      c = some coef ∧ coef.beta = List.ofFn (xBeta (X k)) ∧ coef.gamma = List.ofFn (xGamma (X k)) ∧
      lmeGroups P = .ok D ∧ lmePriorFor M.prior P = .ok Pr ∧ betaToGammaMap P = .ok m ∧
      (∀ i, (a.feWeights.getD P.feWeights ++ a.reWeights.getD P.reWeights)[i.1]? = some (w i)) ∧
      (∀ i ≤ k, lmeLoss D Pr (xBeta (X i)) (xGamma (X i)) = .ok (v i)) ∧
      L.get "step_len" = .ok (.list (steps.map fun t : ℝ => PyVal.num (t : WithTop ℝ))) ∧ steps.length = k ∧
      L.get "loss" = .ok (.list (losses.map PyVal.num)) ∧ losses.length = k + 1 ∧
      (∀ i (hi : i < losses.length), (∀ j, 0 ≤ xGamma (X i) j) →
        (numNonzero (X i) : ℤ) ≤ nb.getD P.numFixed + ng.getD P.numRandom → losses[i] = ((v i + M.elasticEps / 2 * ∑ j, X i j ^ 2 : ℝ) : WithTop ℝ)) ∧
      (∀ i < k, LmeSparse (nb.getD P.numFixed) (ng.getD P.numRandom) (fun j => mapEntry P.numRandom m j) (xBeta w) (xGamma w) (X (i + 1))) ∧
      ∀ i (hi : i < steps.length),
        LmeSparse (nb.getD P.numFixed) (ng.getD P.numRandom) (fun j => mapEntry P.numRandom m j) (xBeta w) (xGamma w) (X i) →
        v (i + 1) + M.elasticEps / 2 * ∑ j, X (i + 1) j ^ 2 ≤ v i + M.elasticEps / 2 * ∑ j, X i j ^ 2 ∨ steps[i] ≤ 1 / 10 ^ 14 ∨
          ∃ (j : Fin P.numFixed) (r : Fin P.numRandom), mapEntry P.numRandom m j = some r ∧ xGamma w r ≠ 0 ∧
            xBeta (X i) j ≠ 0 ∧ xBeta (X (i + 1)) j = 0 := by
  obtain ⟨coef, D, Pr, w, m, base, k, X, v, g, t, hc, hm, hwn, hb, hg, hD, hPr, hww, hbase, hv, hl, hs, hnn, h0, hst, hk0⟩ :=
    lme_ls hM hsr hls hkind hk hloss hw h
  rw [hreg] at hbase hww
  cases hbase
  refine ⟨coef, D, Pr, w, m, k, X, v, (List.range k).map t, (List.range (k + 1)).map fun i => (v i : WithTop ℝ) + g i,
    hc, hb, hg, hD, hPr, hm, ?_, fun i hi => (hv i hi).1,
    by rw [hs hsl]; simp [Function.comp_def], by simp, by rw [hl]; simp [Function.comp_def], by simp, fun i hi hn hcnt => ?_, fun i hi => ?_,
    fun i hi hsp => ?_⟩
  · intro i
    unfold LmeReg.weights at hww
    simp only at hww
    split at hww
    · rename_i hle
      cases hww
      exact List.getElem?_eq_getElem _
    · cases hww
  · simp only [List.length_map, List.length_range] at hi
    simp only [List.getElem_map, List.getElem_range]
    have hgi := (hv i (by omega)).2.2
    unfold wrapReg positiveQuadrant elastic at hgi
    have hval := (C14_l0lme_value (nb.getD P.numFixed) (ng.getD P.numRandom) false (fun j => mapEntry P.numRandom m j)
      (some ⟨xBeta w, xGamma w, sort.sub P.numFixed (xBeta w), sort.sub P.numRandom (xGamma w)⟩) (sort.all P.numFixed) (X i)).1 hcnt
    simp only [L0LmeCfg.instantiate, hval, bind, Except.bind, pure, Except.pure, Except.ok.injEq] at hgi
    rw [if_neg fun hneg => by
      obtain ⟨j, hj⟩ := (mask_iff (X i)).1 hneg
      exact absurd (hn j) (not_le.2 hj)] at hgi
    rw [← hgi]
    simp [normSq]
  · obtain ⟨gb, gg, -, ht, -, hp, -⟩ := hst i hi
    exact (l0_wrap_min hM.eps ht _ _ _ _ _ hp).1
  · simp only [List.length_map, List.length_range] at hi
    simp only [List.getElem_map, List.getElem_range]
    obtain ⟨gb, gg, -, ht, -, hp, hsd, -⟩ := hst i hi
    by_cases hdrop : ∃ (j : Fin P.numFixed) (r : Fin P.numRandom), mapEntry P.numRandom m j = some r ∧ xGamma w r ≠ 0 ∧
            xBeta (X i) j ≠ 0 ∧ xBeta (X (i + 1)) j = 0
    · exact .inr (.inr hdrop)
    · rw [(hv i hi.le).2.1, (hv (i + 1) hi).2.1]
      refine (l0_step hM.eps ht _ _ _ _ _ hp hsp ?_ hsd).imp_right .inl
      intro j r hj hr h1
      by_contra h2
      exact hdrop ⟨j, r, hj, hr, h2, h1⟩

/-- **C100**, the L0 penalty when no fixed effect has a variance of its own (all entries of `beta_to_gamma_map` are `-1`) and the budgets cover the must-include
effects: from the second entry on, an entry of the loss log exceeds the previous one only if the step of that iteration is at most `1e-14`. -/
theorem C100_l0_log_partial (M : LmeModelCfg) (nb ng : Option ℤ) (sort : NpSort) (hreg : M.reg = .l0 nb ng sort) (hM : M.Admissible)
    (hsr : M.sr3 = none) (hls : M.stepping = "line-search") (hkind : M.loggerKind = .tuple) (hk : M.loggerKeys.Nodup)
    (hloss : "loss" ∈ M.loggerKeys) (hsl : "step_len" ∈ M.loggerKeys) (st : LmeState) (P : LmeProblem ℝ) (a : LmeFitArgs)
    (hw : ∀ v ∈ a.feWeights.getD P.feWeights ++ a.reWeights.getD P.reWeights, 0 ≤ v)
    (hmap : ∀ m, betaToGammaMap P = .ok m → ∀ e ∈ m, e < 0)
    (hbud : ∀ w : Vec ℝ (P.numFixed + P.numRandom),
      (∀ i, (a.feWeights.getD P.feWeights ++ a.reWeights.getD P.reWeights)[i.1]? = some (w i)) →
      (Set.ncard {i | xBeta w i = 0} : ℤ) ≤ nb.getD P.numFixed ∧ (Set.ncard {i | xGamma w i = 0} : ℤ) ≤ ng.getD P.numRandom)
    (c : LmeState) (L : Logger (PyVal ℝ (P.numFixed + P.numRandom))) (h : lmeFitProblem M st P a = (.ok L, c)) :
    ∃ (losses : List (WithTop ℝ)) (steps : List ℝ), L.get "loss" = .ok (.list (losses.map PyVal.num)) ∧
      L.get "step_len" = .ok (.list (steps.map fun t : ℝ => PyVal.num (t : WithTop ℝ))) ∧ losses.length = steps.length + 1 ∧
      ∀ i (hi : i < steps.length) (h0 : i < losses.length) (h1 : i + 1 < losses.length), 0 < i →
        losses[i + 1] ≤ losses[i] ∨ steps[i] ≤ 1 / 10 ^ 14 := by
  obtain ⟨coef, D, Pr, w, m, k, X, v, steps, losses, -, -, -, -, -, hm, hww, -, hs, hsk, hl, hlk, hval, hsp, hdec⟩ :=
    C100_l0_partial M nb ng sort hreg hM hsr hls hkind hk hloss hsl st P a hw c L h
  obtain ⟨hbb, hbg⟩ := hbud w hww
  have hcount : ∀ u : Vec ℝ (P.numFixed + P.numRandom), LmeSparse (nb.getD P.numFixed) (ng.getD P.numRandom)
      (fun j => mapEntry P.numRandom m j) (xBeta w) (xGamma w) u → (numNonzero u : ℤ) ≤ nb.getD P.numFixed + ng.getD P.numRandom := by
    intro u hu
    have h1 := hu.adm.budgetB
    have h2 := hu.adm.budgetG
    rw [max_eq_left (by omega)] at h1 h2
    have hsub : {i | u i ≠ 0} ⊆ Fin.castAdd P.numRandom '' ({i | xBeta w i ≠ 0 ∧ u (Fin.castAdd P.numRandom i) ≠ 0} ∪ {i | xBeta w i = 0}) ∪
        Fin.natAdd P.numFixed '' ({i | xGamma w i ≠ 0 ∧ u (Fin.natAdd P.numFixed i) ≠ 0} ∪ {i | xGamma w i = 0}) := by
      intro i hi
      induction i using Fin.addCases with
      | left i =>
        refine .inl ⟨i, ?_, rfl⟩
        by_cases hz : xBeta w i = 0
        · exact .inr hz
        · exact .inl ⟨hz, hi⟩
      | right i =>
        refine .inr ⟨i, ?_, rfl⟩
        by_cases hz : xGamma w i = 0
        · exact .inr hz
        · exact .inl ⟨hz, hi⟩
    have h3 := (Set.ncard_le_ncard hsub (Set.toFinite _)).trans (Set.ncard_union_le _ _)
    have h4 := Set.ncard_image_le (f := Fin.castAdd P.numRandom) (Set.toFinite ({i | xBeta w i ≠ 0 ∧ u (Fin.castAdd P.numRandom i) ≠ 0} ∪ {i | xBeta w i = 0}))
    have h5 := Set.ncard_image_le (f := Fin.natAdd P.numFixed) (Set.toFinite ({i | xGamma w i ≠ 0 ∧ u (Fin.natAdd P.numFixed i) ≠ 0} ∪ {i | xGamma w i = 0}))
    have h6 := Set.ncard_union_le {i | xBeta w i ≠ 0 ∧ u (Fin.castAdd P.numRandom i) ≠ 0} {i | xBeta w i = 0}
    have h7 := Set.ncard_union_le {i | xGamma w i ≠ 0 ∧ u (Fin.natAdd P.numFixed i) ≠ 0} {i | xGamma w i = 0}
    unfold numNonzero
    omega
  refine ⟨losses, steps, hl, hs, by omega, fun i hi h0 h1 hpos => ?_⟩
  obtain ⟨i, rfl⟩ : ∃ i', i = i' + 1 := ⟨i - 1, by omega⟩
  have s0 := hsp i (by omega)
  have s1 := hsp (i + 1) (by omega)
  rw [hval (i + 1) h0 s0.nonneg (hcount _ s0), hval (i + 1 + 1) h1 s1.nonneg (hcount _ s1)]
  rcases hdec (i + 1) hi s0 with h | h | ⟨j, r, hjr, -⟩
  · left; exact_mod_cast h
  · exact .inr h
  · exfalso
    unfold mapEntry at hjr
    split at hjr
    · cases hjr
    · rename_i e he
      have := hmap m hm e (List.mem_of_getElem? he)
      rw [dif_neg (by omega)] at hjr
      cases hjr

/-- The hypothesis on the map in terms of the labels: no column is both fixed and random, and at most one of the intercepts is added. -/
theorem map_neg_of_labels {N n : ℕ} {x : Matrix (Fin N) (Fin n) ℝ} {y : Option (Vec ℝ N)} {columns : Option (List String)}
    {labels : List String} {ffi fri : Bool} {mustFe mustRe : Option (List String)} {P : LmeProblem ℝ}
    (h : lmeFromXY x y columns labels ffi fri mustFe mustRe = .ok P) (hlab : FIXED_RANDOM ∉ labels) (hint : ¬ (ffi = true ∧ fri = true)) :
    ∀ m, betaToGammaMap P = .ok m → ∀ e ∈ m, e < 0 := by
  intro m hm e he
  obtain ⟨F, R, m', -, -, -, -, hF0, hR0, hF, hR, hm', hml, hFl, -, hent⟩ := C62_beta_to_gamma_map x y columns labels ffi fri mustFe mustRe P h
  cases hm.symm.trans hm'
  obtain ⟨a, ha, rfl⟩ := List.getElem_of_mem he
  have haF : a < F.length := by omega
  have hs := List.getElem?_eq_getElem haF
  have hno : ∀ c : Fin n, labels[c.1]? ≠ some FIXED_RANDOM := fun c hc => hlab (List.mem_of_getElem? hc)
  have hnot : F[a] ∉ R := by
    have hmem : F[a] ∈ F := List.getElem_mem haF
    cases hFa : F[a] with
    | none =>
      rw [hFa] at hmem
      exact fun hr => hint ⟨hF0.1 hmem, hR0.1 hr⟩
    | some c =>
      rw [hFa] at hmem
      intro hr
      rcases (hF c).1 hmem with h1 | h1
      · rcases (hR c).1 hr with h2 | h2
        · rw [h1] at h2; exact absurd h2 (by decide)
        · exact hno c h2
      · exact hno c h1
  have := (hent a _ hs).2.2 hnot
  rw [List.getElem?_eq_getElem ha] at this
  have := Option.some.inj this
  omega

theorem one_increase_l0 {eps y : ℝ} (heps : 0 ≤ eps) (hy : y = 2 + eps) {F R : ℕ} (hF : F = 1) (hR : R = 0)
    {X0 X1 : Vec ℝ (F + R)} {b0 : Vec ℝ F} {g0 : Vec ℝ R} (hb0 : List.ofFn b0 = List.replicate F 1) (hX0 : X0 = joinX b0 g0)
    (hX1 : ∀ j, xBeta X1 j = 0) {v0 v1 : ℝ} {l0 l1 : WithTop ℝ}
    (hv0 : lmeLoss [oneGroup y F R] .nonInformative (xBeta X0) (xGamma X0) = .ok v0)
    (hv1 : lmeLoss [oneGroup y F R] .nonInformative (xBeta X1) (xGamma X1) = .ok v1)
    (h0 : (numNonzero X0 : ℤ) ≤ 1 → l0 = ((v0 + eps / 2 * ∑ j, X0 j ^ 2 : ℝ) : WithTop ℝ))
    (h1 : (numNonzero X1 : ℤ) ≤ 1 → l1 = ((v1 + eps / 2 * ∑ j, X1 j ^ 2 : ℝ) : WithTop ℝ)) : l0 < l1 := by
  subst hF hR hy
  obtain ⟨-, rfl⟩ := lmeLoss_ok.1 hv0
  obtain ⟨-, rfl⟩ := lmeLoss_ok.1 hv1
  have hb : b0 0 = 1 := by simpa using hb0
  have hX : X0 0 = 1 := by rw [hX0, ← hb]; rfl
  have hxb : ∀ X : Vec ℝ (1 + 0), xBeta X 0 = X 0 := fun X => rfl
  have hX1' : X1 0 = 0 := (hxb X1).symm.trans (hX1 0)
  have hcard : ∀ X : Vec ℝ (1 + 0), (numNonzero X : ℤ) ≤ 1 := by
    intro X
    have : numNonzero X ≤ Set.ncard (Set.univ : Set (Fin (1 + 0))) := Set.ncard_le_ncard (Set.subset_univ _) (Set.toFinite _)
    rw [Set.ncard_univ] at this
    simp at this
    exact_mod_cast this
  have hsum : ∀ X : Vec ℝ (1 + 0), ∑ j, X j ^ 2 = X 0 ^ 2 := fun X => by
    change ∑ j : Fin 1, X j ^ 2 = _
    simp
  rw [h0 (hcard _), h1 (hcard _), marginalNLL_one, marginalNLL_one, hxb, hxb, hX, hX1', hsum, hsum, hX, hX1', WithTop.coe_lt_coe]
  simp only [LmeInstPrior.loss]
  nlinarith

/-- **C100** fails for the L0 penalty as well: with a budget of no fixed effect and at least one non-zero overall, for every plain model with line search there is a problem
whose fit logs, right at the first iteration, a loss larger than the initial one (`L0RegularizerLME.value` only counts the non-zeros, `regularizers.py:358-376`,
so the starting point is free of charge, whereas prox enforces both budgets). -/
theorem C100_l0_violated (M : LmeModelCfg) (kb kg : ℤ) (sort : NpSort) (hkb : kb ≤ 0) (hkg : 1 ≤ kb + kg)
    (hreg : M.reg = .l0 (some kb) (some kg) sort) (hM : M.Robust)
    (hsr : M.sr3 = none) (hls : M.stepping = "line-search") (hpr : M.prior = none) (hit : 0 < M.maxIter)
    (hloss : "loss" ∈ M.loggerKeys) (hsl : "step_len" ∈ M.loggerKeys) :
    ∃ (x : Matrix (Fin 1) (Fin 3) ℝ) (y : Vec ℝ 1) (P : LmeProblem ℝ) (L : Logger (PyVal ℝ (P.numFixed + P.numRandom))) (c : LmeCoef)
      (losses : List (WithTop ℝ)) (h1 : 1 < losses.length),
      lmeFromXY x (some y) none ["group", "fixed", "variance"] false false none none = .ok P ∧
      lmeFitProblem M none P {} = (.ok L, some c) ∧ L.get "loss" = .ok (.list (losses.map PyVal.num)) ∧
      losses[0] < losses[1] := by
  have heps := hM.adm.eps
  obtain ⟨x, hx⟩ : ∃ x : Matrix (Fin 1) (Fin 3) ℝ, x = !![0, 1, 1] := ⟨_, rfl⟩
  obtain ⟨y, hy⟩ : ∃ y : Vec ℝ 1, y = fun _ => 2 + M.elasticEps := ⟨_, rfl⟩
  obtain ⟨P, hP⟩ : ∃ P, lmeFromXY x (some y) none ["group", "fixed", "variance"] false false none none = .ok P :=
    lmeFromXY_succeeds x (some y) none _ false false none none 0 2 (by decide) (by decide) rfl (by decide)
      (by simp) (by intro r; fin_cases r; simp [hx]) (by intro r; fin_cases r; exact ⟨0, by simp [hx]⟩) (.inl rfl) (by simp) _ _ rfl rfl
  obtain ⟨_, _, feW, reW, -, -, hlen, -, -, -, -, -, hf, hr, hPe⟩ := lmeFromXY_ok x (some y) none _
    false false none none P hP
  have e1 : P.feWeights = [1] := by rw [hPe]; cases hf; rfl
  have e2 : P.reWeights = [] := by rw [hPe]; cases hr; rfl
  obtain ⟨L, c, hfit, -, -⟩ := C83_fit_problem_returns M hM none x y none _ false false none none P hP
    (by
      intro v hv r
      fin_cases v
      · exact absurd hv (by decide)
      · exact absurd hv (by decide)
      · fin_cases r; simp [hx]) ⟨.nonInformative, by rw [hpr]; rfl⟩ {} (by simp) (by simp)
    (by rintro w rfl; simp only [Option.getD_none, e1]; exact ⟨rfl, by simp⟩)
    (by rintro w rfl; simp only [Option.getD_none, e2]; exact ⟨rfl, by simp⟩)
  have hF := numFixed_eq P false false (by rw [hPe])
  have hR := numRandom_eq P false false (by rw [hPe])
  have hcl : P.columnLabels = ["group", "fixed", "variance"] := by rw [hPe]
  rw [hcl] at hF hR
  have hF : P.numFixed = 1 := hF.trans (by decide)
  have hR : P.numRandom = 0 := hR.trans (by decide)
  obtain ⟨coef, D, Pr, w, m, base, k, X, v, g, t, -, -, -, -, -, hD, hPr, hww, hbase, hv, hl, hs, hnn, h0, hst, hk⟩ :=
    lme_ls hM.adm hsr hls hM.kind hM.keys hloss (by simp [e1, e2]) hfit
  obtain ⟨b0, g0, hb0, -, hX0⟩ := h0 fun h => hM.init h hsr
  have hk0 := hk (by omega) hit
  obtain ⟨gr, vr, hgr, hvr, hgl, hD'⟩ := lmeGroups_table hP
  have hD' := hD.symm.trans hD'
  cases hPr.symm.trans (show lmePriorFor M.prior P = .ok .nonInformative by rw [hpr]; rfl)
  rw [hreg] at hbase hww
  cases hbase
  have hb0 := asVec_ok.1 hb0
  obtain ⟨gb, gg, hgb, ht, -, hprox, -⟩ := hst 0 hk0
  have hv0 := hv 0 (by omega)
  have hv1 := hv 1 (by omega)
  have hgr : gr = 0 := by
    have : labelIdx (p := 3) ["group", "fixed", "variance"] (· = GROUP) = [0] := by decide
    rw [this] at hgr
    simpa using hgr.symm
  have hvr : vr = 2 := by
    have : labelIdx (p := 3) ["group", "fixed", "variance"] (· = VARIANCE) = [2] := by decide
    rw [this] at hvr
    simpa using hvr.symm
  subst hgr hvr hx hy
  rw [one_table hF hR] at hD'
  cases hD'
  have hw1 : ∀ i, w i = 1 := by
    intro i
    unfold LmeReg.weights at hww
    simp only at hww
    split at hww
    · cases hww
      have : i.1 = 0 := by omega
      simp [e1, e2, this]
    · cases hww
  have hsp := (l0_wrap_min heps ht _ _ _ _ _ hprox).1
  have hX1 : ∀ j, xBeta (X 1) j = 0 := by
    intro j
    by_contra hne
    have h1 := hsp.adm.budgetB
    have h2 : 0 < Set.ncard {i : Fin P.numFixed | xBeta w i ≠ 0 ∧ X 1 (Fin.castAdd P.numRandom i) ≠ 0} :=
      (Set.ncard_pos (Set.toFinite _)).2 ⟨j, by simp [xBeta, hw1], hne⟩
    have h3 : (0 : ℤ) ≤ (Set.ncard {i : Fin P.numFixed | xBeta w i = 0} : ℤ) := by positivity
    have h1' : (Set.ncard {i : Fin P.numFixed | xBeta w i ≠ 0 ∧ X 1 (Fin.castAdd P.numRandom i) ≠ 0} : ℤ)
        ≤ max (kb - (Set.ncard {i : Fin P.numFixed | xBeta w i = 0} : ℤ)) 0 := h1
    omega
  have hval : ∀ i ≤ k, (numNonzero (X i) : ℤ) ≤ 1 →
      (v i : WithTop ℝ) + g i = ((v i + M.elasticEps / 2 * ∑ j, X i j ^ 2 : ℝ) : WithTop ℝ) := by
    intro i hi hcnt
    have hgi := (hv i hi).2.2
    unfold wrapReg positiveQuadrant elastic at hgi
    have hval := (C14_l0lme_value kb kg false (fun j => mapEntry P.numRandom m j)
      (some ⟨xBeta w, xGamma w, sort.sub P.numFixed (xBeta w), sort.sub P.numRandom (xGamma w)⟩) (sort.all P.numFixed) (X i)).1 (by omega)
    simp only [L0LmeCfg.instantiate, Option.getD_some, hval, bind, Except.bind, pure, Except.pure, Except.ok.injEq] at hgi
    rw [if_neg fun hneg => by
      obtain ⟨j, -⟩ := (mask_iff (X i)).1 hneg
      have := j.2
      omega] at hgi
    rw [← hgi]
    simp [normSq]
  refine ⟨_, _, P, L, c, (List.range (k + 1)).map fun i => (v i : WithTop ℝ) + g i, by simpa using hk0, hP, hfit,
    by rw [hl]; simp [Function.comp_def], ?_⟩
  simp only [List.getElem_map, List.getElem_range]
  exact one_increase_l0 heps rfl hF hR hb0 hX0 hX1 hv0.1 hv1.1 (hval 0 (by omega)) (hval 1 (by omega))

private noncomputable def someSort : NpSort :=
  ⟨fun _ => Classical.choice (argSort_nonempty _ _), fun _ _ => Classical.choice (argSort_nonempty _ _)⟩

/-- Non-vacuity of the violation. -/
example : ∃ (x : Matrix (Fin 1) (Fin 3) ℝ) (y : Vec ℝ 1) (P : LmeProblem ℝ) (L : Logger (PyVal ℝ (P.numFixed + P.numRandom)))
    (c : LmeCoef) (losses : List (WithTop ℝ)) (h1 : 1 < losses.length),
    lmeFromXY x (some y) none ["group", "fixed", "variance"] false false none none = .ok P ∧
    lmeFitProblem (stepModel (.l0 (some 0) (some 1) someSort)) none P {} = (.ok L, some c) ∧
    L.get "loss" = .ok (.list (losses.map PyVal.num)) ∧ losses[0] < losses[1] :=
  C100_l0_violated _ 0 1 someSort le_rfl (by norm_num) rfl (stepModel_robust _ trivial (by simp)) rfl rfl rfl (by norm_num [stepModel, exModel])
    (by change _ ∈ ["converged", "loss", "step_len"]; decide) (by change _ ∈ ["converged", "loss", "step_len"]; decide)

/-- Non-vacuity of C100 with the L0 penalty: the example problem, whose intercept and whose column are both fixed and random, is fitted with one
fixed and one random effect. -/
example : ∃ (P : LmeProblem ℝ) (L : Logger (PyVal ℝ (P.numFixed + P.numRandom))) (c : LmeCoef) (steps : List ℝ),
    lmeFitProblem (stepModel (.l0 (some 1) (some 1) someSort)) none P {} = (.ok L, some c) ∧
    L.get "step_len" = .ok (.list (steps.map fun t : ℝ => PyVal.num (t : WithTop ℝ))) := by
  have hr : (LmeReg.l0 (some 1) (some 1) someSort).Admissible := trivial
  have hs : ∀ rho sigma lam, LmeReg.l0 (some 1) (some 1) someSort ≠ .scad rho sigma lam := by simp
  have hR := stepModel_robust _ hr hs
  obtain ⟨P, L, c, hP, e1, e2, h⟩ := stepModel_fit _ hr hs
  obtain ⟨coef, D, Pr, w, m, k, X, v, steps, losses, -, -, -, -, -, -, -, -, h1, -⟩ := C100_l0_partial _ (some 1) (some 1) someSort rfl hR.adm rfl rfl rfl hR.keys
    (by change _ ∈ ["converged", "loss", "step_len"]; decide) (by change _ ∈ ["converged", "loss", "step_len"]; decide)
    none P {} (by simp [e1, e2]) _ L h
  exact ⟨P, L, c, steps, h, h1⟩

/-- Non-vacuity of the second theorem: one fixed and another random column, one effect of each kind kept. -/
example : ∃ (P : LmeProblem ℝ) (L : Logger (PyVal ℝ (P.numFixed + P.numRandom))) (c : LmeCoef) (losses : List (WithTop ℝ)) (steps : List ℝ),
    lmeFromXY (!![0, 1, 2, 1] : Matrix (Fin 1) (Fin 4) ℝ) (some ![3]) none ["group", "fixed", "random", "variance"] true false none none = .ok P ∧
    lmeFitProblem (stepModel (.l0 (some 1) (some 1) someSort)) none P {} = (.ok L, some c) ∧
    L.get "loss" = .ok (.list (losses.map PyVal.num)) ∧
    ∀ i (_ : i < steps.length) (h0 : i < losses.length) (h1 : i + 1 < losses.length), 0 < i →
      losses[i + 1] ≤ losses[i] ∨ steps[i] ≤ 1 / 10 ^ 14 := by
  have hr : (LmeReg.l0 (some 1) (some 1) someSort).Admissible := trivial
  have hs : ∀ rho sigma lam, LmeReg.l0 (some 1) (some 1) someSort ≠ .scad rho sigma lam := by simp
  have hM := stepModel_robust _ hr hs
  obtain ⟨x, hx⟩ : ∃ x : Matrix (Fin 1) (Fin 4) ℝ, x = !![0, 1, 2, 1] := ⟨_, rfl⟩
  obtain ⟨P, hP⟩ : ∃ P, lmeFromXY x (some ![3]) none ["group", "fixed", "random", "variance"] true false none none = .ok P :=
    lmeFromXY_succeeds x (some ![3]) none _ true false none none 0 3 (by decide) (by decide) rfl (by decide)
      (by simp) (by intro r; fin_cases r; simp [hx]) (by intro r; fin_cases r; exact ⟨0, by simp [hx]⟩) (.inl rfl) (by simp) _ _ rfl rfl
  obtain ⟨_, _, feW, reW, -, -, hlen, -, -, -, -, -, hf, hr', hPe⟩ := lmeFromXY_ok x (some ![3]) none _
    true false none none P hP
  have e1 : P.feWeights = [1, 1] := by rw [hPe]; cases hf; rfl
  have e2 : P.reWeights = [1] := by rw [hPe]; cases hr'; rfl
  obtain ⟨L, c, hfit, -, -⟩ := C83_fit_problem_returns _ hM none x ![3] none _ true false none none P hP
    (by
      intro v hv r
      fin_cases v
      · exact absurd hv (by decide)
      · exact absurd hv (by decide)
      · exact absurd hv (by decide)
      · fin_cases r; simp [hx]) ⟨.nonInformative, rfl⟩ {} (by simp) (by simp)
    (by rintro w rfl; simp only [Option.getD_none, e1]; exact ⟨rfl, by simp⟩)
    (by rintro w rfl; simp only [Option.getD_none, e2]; exact ⟨rfl, by simp⟩)
  obtain ⟨losses, steps, h1, -, -, h2⟩ := C100_l0_log_partial _ (some 1) (some 1) someSort rfl hM.adm rfl rfl rfl hM.keys
    (by change _ ∈ ["converged", "loss", "step_len"]; decide) (by change _ ∈ ["converged", "loss", "step_len"]; decide)
    none P {} (by simp [e1, e2]) (map_neg_of_labels hP (by decide) (by simp)) (by
      intro w hw
      have h1 : ∀ i, w i = 1 := by
        intro i
        have := hw i
        have hm := List.mem_of_getElem? this
        simpa [e1, e2] using hm
      simp [xBeta, xGamma, h1]) _ L hfit
  subst hx
  exact ⟨P, L, c, losses, steps, hP, hfit, h1, h2⟩

end Verif
