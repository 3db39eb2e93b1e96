import Verif.Props.LmeIp

/-!
# C80, C81: the Newton systems of the SR3 inner solver

The matrix of the Newton step is never singular with the default (positive-part) Hessian, so that the inner solver
never fails; started at zero variances it returns zero variances.
-/

open Matrix

namespace Verif

variable {p q : ℕ}

theorem conj_bilin {n m k : ℕ} (A : Matrix (Fin n) (Fin m) ℝ) (M : Matrix (Fin n) (Fin n) ℝ)
    (B : Matrix (Fin n) (Fin k) ℝ) (u : Fin m → ℝ) (v : Fin k → ℝ) :
    u ⬝ᵥ ((Aᵀ * M * B) *ᵥ v) = (A *ᵥ u) ⬝ᵥ (M *ᵥ (B *ᵥ v)) := by
  rw [Matrix.mul_assoc, ← Matrix.mulVec_mulVec, ← Matrix.mulVec_mulVec, Matrix.dotProduct_mulVec u,
    Matrix.vecMul_transpose]

/-- The joint quadratic form of a group, with the positive part of the Hessian in the variances, is a square. -/
theorem group_joint {g : LmeGroup p q} {gamma : Vec ℝ q} (h : (margCov g gamma).PosDef) (beta b : Vec ℝ p)
    (d : Vec ℝ q) :
    0 ≤ b ⬝ᵥ ((g.xᵀ * (margCov g gamma)⁻¹ * g.x) *ᵥ b) + 2 * (d ⬝ᵥ (hessBGSpec g beta gamma *ᵥ b))
      + 1 / 2 * (d ⬝ᵥ (hessGammaSpec .positivePart g beta gamma *ᵥ d)) := by
  obtain ⟨e, he⟩ : ∃ e : Vec ℝ q, e = fun j => zInvR g beta gamma j * d j := ⟨_, rfl⟩
  have h1 : d ⬝ᵥ (hessBGSpec g beta gamma *ᵥ b) = e ⬝ᵥ ((g.zᵀ * (margCov g gamma)⁻¹ * g.x) *ᵥ b) := by
    simp only [dotProduct, Matrix.mulVec, hessBGSpec, Matrix.of_apply, he, Finset.mul_sum]
    refine Finset.sum_congr rfl fun j _ => Finset.sum_congr rfl fun i _ => ?_
    ring
  have h2 : 1 / 2 * (d ⬝ᵥ (hessGammaSpec .positivePart g beta gamma *ᵥ d))
      = e ⬝ᵥ ((g.zᵀ * (margCov g gamma)⁻¹ * g.z) *ᵥ e) := by
    change _ = e ⬝ᵥ (zInvZ g gamma *ᵥ e)
    simp only [dotProduct, Matrix.mulVec, hessGammaSpec, Matrix.of_apply, he, Finset.mul_sum]
    refine Finset.sum_congr rfl fun j _ => Finset.sum_congr rfl fun i _ => ?_
    ring
  rw [h1, h2, conj_bilin, conj_bilin, conj_bilin]
  have h3 := inv_quad_nonneg h (g.x *ᵥ b + g.z *ᵥ e)
  rw [Matrix.mulVec_add, add_dotProduct, dotProduct_add, dotProduct_add,
    posDef_inv_symm_dot h (g.x *ᵥ b) (g.z *ᵥ e)] at h3
  linarith

theorem list_joint {D : List (LmeGroup p q)} {gamma : Vec ℝ q} (hd : InDomain D gamma) (beta b : Vec ℝ p)
    (d : Vec ℝ q) :
    0 ≤ b ⬝ᵥ ((D.map fun g => g.xᵀ * (margCov g gamma)⁻¹ * g.x).sum *ᵥ b)
      + 2 * (d ⬝ᵥ ((D.map fun g => hessBGSpec g beta gamma).sum *ᵥ b))
      + d ⬝ᵥ (((1 / 2 : ℝ) • (D.map fun g => hessGammaSpec .positivePart g beta gamma).sum) *ᵥ d) := by
  induction D with
  | nil => simp
  | cons g D ih =>
    have h1 := group_joint (hd g List.mem_cons_self) beta b d
    have h2 := ih fun g' hg' => hd g' (List.mem_cons_of_mem _ hg')
    simp only [List.map_cons, List.sum_cons, Matrix.add_mulVec, dotProduct_add, Matrix.smul_mulVec,
      dotProduct_smul, smul_eq_mul] at h2 ⊢
    linarith

theorem transpose_dot {m n : ℕ} (B : Matrix (Fin m) (Fin n) ℝ) (u : Fin m → ℝ) (v : Fin n → ℝ) :
    v ⬝ᵥ (Bᵀ *ᵥ u) = u ⬝ᵥ (B *ᵥ v) := by
  rw [Matrix.dotProduct_mulVec u, Matrix.mulVec_transpose, dotProduct_comm]

theorem ipJac_rows {hb : Matrix (Fin p) (Fin p) ℝ} {hbg : Matrix (Fin p) (Fin q) ℝ} {hg : Matrix (Fin q) (Fin q) ℝ}
    (v gamma : Vec ℝ q) (d : Fin q ⊕ (Fin p ⊕ Fin q) → ℝ) :
    (fromBlocks (diagonal gamma) (fromCols 0 (diagonal v)) (fromRows 0 (-1)) (fromBlocks hb hbg hbgᵀ hg)) *ᵥ d
      = Sum.elim (fun j => gamma j * d (.inl j) + v j * d (.inr (.inr j)))
        (Sum.elim (hb *ᵥ (fun i => d (.inr (.inl i))) + hbg *ᵥ (fun j => d (.inr (.inr j))))
          (fun j => -d (.inl j) + (hbgᵀ *ᵥ (fun i => d (.inr (.inl i))) + hg *ᵥ (fun j => d (.inr (.inr j)))) j)) := by
  funext a
  rw [Matrix.mulVec, dotProduct, Fintype.sum_sum_type, Fintype.sum_sum_type]
  rcases a with j | i | j
  · simp only [Matrix.fromBlocks_apply₁₁, Matrix.fromBlocks_apply₁₂, Matrix.fromCols_apply_inl,
      Matrix.fromCols_apply_inr, Matrix.zero_apply, zero_mul, Finset.sum_const_zero, zero_add, Matrix.diagonal_apply,
      ite_mul, Finset.sum_ite_eq, Finset.mem_univ, if_true, Sum.elim_inl]
  · simp only [Matrix.fromBlocks_apply₁₁, Matrix.fromBlocks_apply₁₂, Matrix.fromBlocks_apply₂₁,
      Matrix.fromBlocks_apply₂₂, Matrix.fromRows_apply_inl, Matrix.zero_apply, zero_mul, Finset.sum_const_zero,
      zero_add, Sum.elim_inl, Sum.elim_inr, Pi.add_apply, Matrix.mulVec, dotProduct]
  · simp only [Matrix.fromBlocks_apply₂₁, Matrix.fromBlocks_apply₂₂, Matrix.fromRows_apply_inr, Sum.elim_inr,
      Pi.add_apply, Matrix.mulVec, dotProduct, Matrix.neg_apply, Matrix.one_apply, neg_mul, ite_mul, one_mul,
      zero_mul, Finset.sum_neg_distrib, Finset.sum_ite_eq, Finset.mem_univ, if_true]

/-- A block matrix of the Newton step with positive multipliers, nonnegative variances and a joint Hessian that is
positive definite in `beta` is nonsingular. -/
theorem newton_nonsingular {hb : Matrix (Fin p) (Fin p) ℝ} {hbg : Matrix (Fin p) (Fin q) ℝ}
    {hg : Matrix (Fin q) (Fin q) ℝ} {v gamma : Vec ℝ q} (hv : ∀ j, 0 < v j) (hgam : ∀ j, 0 ≤ gamma j) {lb : ℝ}
    (hlb : 0 < lb)
    (hQ : ∀ (b : Vec ℝ p) (d : Vec ℝ q),
      lb * (b ⬝ᵥ b) ≤ b ⬝ᵥ (hb *ᵥ b) + 2 * (b ⬝ᵥ (hbg *ᵥ d)) + d ⬝ᵥ (hg *ᵥ d)) :
    IsUnit (fromBlocks (diagonal gamma) (fromCols 0 (diagonal v)) (fromRows 0 (-1))
      (fromBlocks hb hbg hbgᵀ hg)).det := by
  rw [← Matrix.isUnit_iff_isUnit_det, ← Matrix.mulVec_injective_iff_isUnit]
  refine (injective_iff_map_eq_zero (Matrix.mulVecLin _)).2 fun d hd => ?_
  rw [Matrix.mulVecLin_apply, ipJac_rows] at hd
  obtain ⟨dv, hdv⟩ : ∃ dv : Vec ℝ q, dv = fun j => d (.inl j) := ⟨_, rfl⟩
  obtain ⟨db, hdb⟩ : ∃ db : Vec ℝ p, db = fun i => d (.inr (.inl i)) := ⟨_, rfl⟩
  obtain ⟨dg, hdg⟩ : ∃ dg : Vec ℝ q, dg = fun j => d (.inr (.inr j)) := ⟨_, rfl⟩
  rw [← hdb, ← hdg] at hd
  have r1 : ∀ j, gamma j * dv j + v j * dg j = 0 := fun j => by
    have := congrFun hd (.inl j)
    simpa [hdv, hdg] using this
  have r2 : hb *ᵥ db + hbg *ᵥ dg = 0 := by
    funext i
    exact congrFun hd (.inr (.inl i))
  have r3 : dv = hbgᵀ *ᵥ db + hg *ᵥ dg := by
    funext j
    have : -d (.inl j) + (hbgᵀ *ᵥ db + hg *ᵥ dg) j = 0 := congrFun hd (.inr (.inr j))
    rw [hdv]
    linarith
  have hprod : ∀ j, dg j * dv j ≤ 0 := by
    intro j
    rcases (hgam j).eq_or_lt with h0 | h0
    · have := r1 j
      rw [← h0, zero_mul, zero_add, mul_eq_zero] at this
      rw [this.resolve_left (hv j).ne', zero_mul]
    · have h1 : gamma j * (dg j * dv j) = -(v j * dg j ^ 2) := by
        have := r1 j
        linear_combination dg j * this
      by_contra hc
      push Not at hc
      have := mul_pos h0 hc
      nlinarith [mul_nonneg (hv j).le (sq_nonneg (dg j))]
  have hsum : dg ⬝ᵥ dv = db ⬝ᵥ (hb *ᵥ db) + 2 * (db ⬝ᵥ (hbg *ᵥ dg)) + dg ⬝ᵥ (hg *ᵥ dg) := by
    have e1 : db ⬝ᵥ (hb *ᵥ db) + db ⬝ᵥ (hbg *ᵥ dg) = 0 := by
      rw [← dotProduct_add, r2, dotProduct_zero]
    rw [r3, dotProduct_add, transpose_dot]
    linarith
  have hle : dg ⬝ᵥ dv ≤ 0 := Finset.sum_nonpos fun j _ => hprod j
  have hq := hQ db dg
  rw [← hsum] at hq
  have hbb : 0 ≤ db ⬝ᵥ db := Finset.sum_nonneg fun i _ => mul_self_nonneg _
  have hb0 : db ⬝ᵥ db = 0 := by
    by_contra hne
    have : 0 < db ⬝ᵥ db := lt_of_le_of_ne hbb (Ne.symm hne)
    have := mul_pos hlb this
    linarith
  have hdb0 : db = 0 := dotProduct_self_eq_zero.1 hb0
  have hz : dg ⬝ᵥ dv = 0 := by
    rw [hb0, mul_zero] at hq
    exact le_antisymm hle hq
  have hdg0 : dg = 0 := by
    funext j
    have hj : dg j * dv j = 0 := (Finset.sum_eq_zero_iff_of_nonpos fun j _ => hprod j).1 hz j (Finset.mem_univ j)
    have := r1 j
    have h2 : v j * dg j ^ 2 = 0 := by linear_combination dg j * this - gamma j * hj
    have h3 : dg j ^ 2 = 0 := (mul_eq_zero.1 h2).resolve_left (hv j).ne'
    exact pow_eq_zero_iff two_ne_zero |>.1 h3
  have hdv0 : dv = 0 := by rw [r3, hdb0, hdg0]; simp
  funext a
  rcases a with j | i | j
  · exact (congrFun hdv j).symm.trans (congrFun hdv0 j)
  · exact (congrFun hdb i).symm.trans (congrFun hdb0 i)
  · exact (congrFun hdg j).symm.trans (congrFun hdg0 j)

theorem ipF_total {D : List (LmeGroup p q)} (hD : PosVar D) {P : LmeInstPrior ℝ p q} (hP : P.Reachable)
    {s : IpState p q} (hg : ∀ j, 0 ≤ s.gamma j) : ∃ F, ipF D P s = .ok F := by
  have hd := inDomain_of_nonneg hD hg
  obtain ⟨-, f, G, H, -, h2, -⟩ := C55_beta_derivatives D P hP s.S s.gamma hd s.tbeta s.tgamma
  obtain ⟨-, G', h3, -⟩ := C56_gradient_gamma D P hP s.S s.beta s.tbeta s.gamma s.tgamma (Or.inl hd)
  unfold ipF
  rw [h2, h3]
  exact ⟨_, rfl⟩

theorem ipJac_total {D : List (LmeGroup p q)} (hD : PosVar D) {P : LmeInstPrior ℝ p q} (hP : P.Reachable)
    {s : IpState p q} (hv : ∀ j, 0 < s.v j) (hg : ∀ j, 0 ≤ s.gamma j) (hlb : 0 < s.S.lb) (hlg : 0 ≤ s.S.lg) :
    ∃ dF, ipJac D P .positivePart s = .ok dF ∧ IsUnit dF.det := by
  have hd := inDomain_of_nonneg hD hg
  have h1 : lmeHessianBeta D P s.gamma = .ok _ := lmeHessianBeta_ok.2 ⟨hd, rfl⟩
  have h2 : lmeHessianBetaGamma D P s.beta s.gamma = .ok _ := lmeHessianBetaGamma_ok.2 ⟨hd, rfl⟩
  have h3 : lmeHessianGamma D P .positivePart s.beta s.gamma = .ok _ := lmeHessianGamma_ok.2 ⟨hd, rfl⟩
  have hz : P.hessianBetaGamma = 0 := by cases P <;> rfl
  rw [hz, add_zero] at h2
  unfold ipJac lmeSr3HessianBeta lmeSr3HessianGamma
  rw [h1, h2, h3]
  refine ⟨_, rfl, newton_nonsingular hv hg hlb fun b d => ?_⟩
  have key := list_joint hd s.beta b d
  have kb := (P.expansion_beta hP s.gamma).2 b
  have kg := (P.expansion_gamma hP s.beta).2 d
  rw [quadSum_eq] at kb kg
  have hdd : 0 ≤ d ⬝ᵥ d := Finset.sum_nonneg fun i _ => mul_self_nonneg _
  rw [transpose_dot]
  simp only [Matrix.add_mulVec, dotProduct_add, Matrix.smul_mulVec, Matrix.one_mulVec, dotProduct_smul, smul_eq_mul]
  simp only [Matrix.smul_mulVec, dotProduct_smul, smul_eq_mul] at key
  nlinarith [mul_nonneg hlg hdd]

theorem ipLoop_total (D : List (LmeGroup p q)) (P : LmeInstPrior ℝ p q) (c : IpCfg p q) (I : IpState p q → Prop)
    (hF : ∀ s, I s → ∃ F, ipF D P s = .ok F)
    (hstep : ∀ s F, I s → (s.iteration : ℤ) < c.nIter → ipF D P s = .ok F →
      ∃ s', ipStep D P c s F = .ok s' ∧ I { s' with iteration := s.iteration + 1 }) :
    ∀ (n : ℕ) (s : IpState p q), (c.nIter - s.iteration).toNat = n → I s → ∃ r, ipLoop D P c s = .ok r := by
  intro n
  induction n using Nat.strong_induction_on with
  | _ n ih =>
    intro s hn hs
    unfold ipLoop
    split_ifs with h1
    · obtain ⟨F, hF⟩ := hF s hs
      rw [hF]
      simp only
      split_ifs with h2
      · obtain ⟨s', hs', hI⟩ := hstep s F hs h1.2 hF
        rw [hs']
        refine ih _ ?_ _ rfl hI
        rw [← hn]
        simp only
        have := h1.2
        push_cast
        omega
      · exact ⟨s, rfl⟩
    · exact ⟨s, rfl⟩

/-- The configurations of C81: the default Hessian, no line search, a regularizer that does not raise. -/
def IpCfg.Default (c : IpCfg p q) : Prop :=
  c.kind = .positivePart ∧ c.lineSearch = none ∧
    ∀ prox, c.reg = some prox → ∀ x, ∃ t, prox c.proxStepLen x = .ok t

theorem ipStep_total {D : List (LmeGroup p q)} (hD : PosVar D) {P : LmeInstPrior ℝ p q} (hP : P.Reachable)
    {c : IpCfg p q} (hc : c.Default) {s : IpState p q} {F : Fin q ⊕ (Fin p ⊕ Fin q) → ℝ} (hv : ∀ j, 0 < s.v j)
    (hg : ∀ j, 0 ≤ s.gamma j) (hlb : 0 < s.S.lb) (hlg : 0 ≤ s.S.lg) :
    ∃ s', ipStep D P c s F = .ok s' ∧ (∀ j, 0 < s'.v j) ∧ (∀ j, 0 ≤ s'.gamma j) ∧ 0 < s'.S.lb ∧ 0 ≤ s'.S.lg := by
  obtain ⟨dF, h1, h2⟩ := ipJac_total hD hP hv hg hlb hlg
  obtain ⟨hk, hl, hr⟩ := hc
  have h3 : npSolve dF (-F) = .ok (dF⁻¹ *ᵥ (-F)) := by
    unfold npSolve
    rw [if_pos h2]
  obtain ⟨d, hd⟩ : ∃ d, d = dF⁻¹ *ᵥ (-F) := ⟨_, rfl⟩
  rw [← hd] at h3
  obtain ⟨L, hL⟩ : ∃ L, L = stepPairs s.v (fun j => d (.inl j)) ++ stepPairs s.gamma (fun j => d (.inr (.inr j))) :=
    ⟨_, rfl⟩
  have hm : 0 ≤ maxStepLen L := by
    refine maxStepLen_nonneg fun e he => ?_
    rw [hL, List.mem_append] at he
    exact he.elim (stepPairs_forall (Q := (0 ≤ ·)) (fun j => (hv j).le) e) (stepPairs_forall (Q := (0 ≤ ·)) hg e)
  have h4 : ipStepLen c s.iteration (maxStepLen L) = .ok (0.99 * maxStepLen L) := by
    unfold ipStepLen
    rw [hl]
  have hp : ∀ it b g old, ∃ t, ipProx c it b g old = .ok t := by
    intro it b g old
    unfold ipProx
    cases hreg : c.reg with
    | none => exact ⟨_, rfl⟩
    | some prox =>
      simp only
      split_ifs
      · exact hr prox hreg _
      · exact ⟨_, rfl⟩
  have ht : ∀ j, 0 < (s.v + (0.99 * maxStepLen L) • fun j => d (.inl j)) j := by
    intro j
    have hmem : (s.v j, d (.inl j)) ∈ L := hL ▸ List.mem_append_left _ (mem_stepPairs s.v (fun j => d (.inl j)) j)
    change 0 < s.v j + 0.99 * maxStepLen L * d (.inl j)
    rcases lt_or_ge (d (.inl j)) 0 with hn | hn
    · have := maxStepLen_le hmem hn
      have hvj := hv j
      nlinarith
    · have := hv j
      have h0 : 0 ≤ 0.99 * maxStepLen L * d (.inl j) := by positivity
      linarith
  have hg' : ∀ j, 0 ≤ (s.gamma + (0.99 * maxStepLen L) • fun j => d (.inr (.inr j))) j := by
    intro j
    have hmem : (s.gamma j, d (.inr (.inr j))) ∈ L :=
      hL ▸ List.mem_append_right _ (mem_stepPairs s.gamma (fun j => d (.inr (.inr j))) j)
    exact step_nonneg hmem (hg j) (by positivity) (by linarith)
  have hex : ∃ s', ipStep D P c s F = .ok s' ∧ (s'.S = s.S ∨ s'.S = ⟨1.2 * (1 + s.S.lb), 1.2 * (1 + s.S.lg)⟩) := by
    unfold ipStep
    rw [hk, h1]
    change ∃ s', (npSolve dF (-F) >>= _) = _ ∧ _
    rw [h3]
    change ∃ s', (ipStepLen c s.iteration (maxStepLen (_ ++ _)) >>= _) = _ ∧ _
    rw [← hL, h4]
    have bind_ok : ∀ {α β : Type} (a : α) (f : α → Except PyErr β), (Except.ok a >>= f) = f a := fun _ _ => rfl
    simp only [bind_ok]
    split_ifs with h5 h6
    · exact ⟨_, rfl, Or.inl rfl⟩
    all_goals
      obtain ⟨t, ht⟩ := hp (s.iteration + 1) (s.beta + (0.99 * maxStepLen L) • fun i => d (.inr (.inl i)))
        (s.gamma + (0.99 * maxStepLen L) • fun j => d (.inr (.inr j))) (s.tbeta, s.tgamma)
      rw [ht]
    · exact ⟨_, rfl, Or.inr rfl⟩
    · exact ⟨_, rfl, Or.inl rfl⟩
  obtain ⟨s', hs', hS⟩ := hex
  obtain ⟨dF', d', step, e1, e2, e3, e4, -, e5, -⟩ := ipStep_ok hs'
  rw [hk, h1] at e1
  cases e1
  rw [h3] at e2
  cases e2
  rw [← hL, h4] at e3
  cases e3
  refine ⟨s', hs', ?_, ?_, ?_, ?_⟩
  · rw [e4]; exact ht
  · rw [e5]; exact hg'
  · rcases hS with hS | hS <;> rw [hS]
    · exact hlb
    · change 0 < 1.2 * (1 + s.S.lb); positivity
  · rcases hS with hS | hS <;> rw [hS]
    · exact hlg
    · change 0 ≤ 1.2 * (1 + s.S.lg); positivity

/-- **C81**: with positive noise, a Gaussian or non-informative prior, `lb > 0`, `lg ≥ 0`, the default (positive-part)
Hessian, no line search and a regularizer that does not raise, the inner solver of the SR3 oracle never fails: from every
starting point with nonnegative variances (the arguments or the warm start) it returns, with nonnegative variances.
So every Newton system it meets is nonsingular. The relaxation constants stay positive, and the warm start saved for the
next call has nonnegative variances again. -/
theorem C81_inner_solver_total (D : List (LmeGroup p q)) (hD : PosVar D) (P : LmeInstPrior ℝ p q) (hP : P.Reachable)
    (c : IpCfg p q) (hc : c.Default) (o : IpOracle p q) (hlb : 0 < o.S.lb) (hlg : 0 ≤ o.S.lg) (beta tbeta : Vec ℝ p)
    (gamma tgamma : Vec ℝ q) (hg : ∀ j, 0 ≤ (ipStart c o beta gamma).2 j) :
    ∃ r o', lmeFindIp D P c o beta gamma tbeta tgamma = .ok (r, o') ∧ (∀ j, 0 ≤ r.gamma j) ∧ 0 < o'.S.lb ∧
      0 ≤ o'.S.lg ∧ (c.warmStart = true → q ≠ 0 → o'.warm = some (r.beta, r.gamma)) := by
  by_cases hq : q = 0
  · subst hq
    unfold lmeFindIp
    rw [if_pos rfl]
    have hd : InDomain D tgamma := inDomain_of_nonneg hD fun j => j.elim0
    have hk : lmeKernelTail D tgamma = .ok _ := lmeKernelTail_ok.2 ⟨hd, rfl⟩
    unfold lmeSr3OptimalBeta
    rw [hk]
    have hu : IsUnit (o.S.lb • (1 : Matrix (Fin p) (Fin p) ℝ)
        + (D.map fun g => g.xᵀ * (margCov g tgamma)⁻¹ * g.x).sum).det := by
      rw [← Matrix.isUnit_iff_isUnit_det, ← Matrix.mulVec_injective_iff_isUnit]
      refine (injective_iff_map_eq_zero (Matrix.mulVecLin _)).2 fun b hb => ?_
      rw [Matrix.mulVecLin_apply, Matrix.add_mulVec, Matrix.smul_mulVec, Matrix.one_mulVec] at hb
      have h1 := congrArg (b ⬝ᵥ ·) hb
      simp only [dotProduct_add, dotProduct_smul, smul_eq_mul, dotProduct_zero] at h1
      have h2 := kernel_nonneg hd b
      rw [quadSum_eq] at h2
      have h3 : 0 ≤ b ⬝ᵥ b := Finset.sum_nonneg fun i _ => mul_self_nonneg _
      have h4 : b ⬝ᵥ b = 0 := by
        by_contra hne
        have : 0 < b ⬝ᵥ b := lt_of_le_of_ne h3 (Ne.symm hne)
        have := mul_pos hlb this
        linarith
      exact dotProduct_self_eq_zero.1 h4
    have hs : ∀ t, npSolve (o.S.lb • (1 : Matrix (Fin p) (Fin p) ℝ)
        + (D.map fun g => g.xᵀ * (margCov g tgamma)⁻¹ * g.x).sum) t = .ok _ := fun t => by
      unfold npSolve; rw [if_pos hu]
    change ∃ r o', ((npSolve (_ + _) (o.S.lb • tbeta + _)) >>= _) = _ ∧ _
    simp only
    rw [hs]
    exact ⟨_, _, rfl, fun j => j.elim0, hlb, hlg, fun _ h => absurd rfl h⟩
  · obtain ⟨I, hI⟩ : ∃ I : IpState p q → Prop, I = fun s => (∀ j, 0 < s.v j) ∧ (∀ j, 0 ≤ s.gamma j) ∧ 0 < s.S.lb ∧
        0 ≤ s.S.lg := ⟨_, rfl⟩
    have h0 : I (ipInit c o beta gamma tbeta tgamma) := by
      rw [hI]
      exact ⟨fun j => one_pos, hg, hlb, hlg⟩
    have hst : ∀ s F, I s → ∃ s', ipStep D P c s F = .ok s' ∧ I { s' with iteration := s.iteration + 1 } := by
      intro s F hs
      rw [hI] at hs
      obtain ⟨h1, h2, h3, h4⟩ := hs
      obtain ⟨s', hs', k⟩ := ipStep_total (F := F) hD hP hc h1 h2 h3 h4
      exact ⟨s', hs', by rw [hI]; exact k⟩
    obtain ⟨r, hr⟩ := ipLoop_total D P c I (fun s hs => by
        rw [hI] at hs
        exact ipF_total hD hP hs.2.1) (fun s F hs _ _ => hst s F hs) _ _ rfl h0
    have hIr : I r := by
      refine ipLoop_inv D P c I (fun s F s' hs _ _ hs' => ?_) _ _ r rfl h0 hr
      obtain ⟨s'', h1, h2⟩ := hst s F hs
      rw [hs'] at h1
      cases h1
      exact h2
    rw [hI] at hIr
    unfold lmeFindIp
    rw [if_neg hq, hr]
    refine ⟨_, _, rfl, hIr.2.1, hIr.2.2.1, hIr.2.2.2, fun hw _ => ?_⟩
    simp only [hw, if_true]

/-- The default settings of the oracle (`lme/oracles.py:46-48, 1079-1080, 1385-1388`). -/
noncomputable def defaultCfg (p q : ℕ) : IpCfg p q :=
  { nIter := 200, tol := 1e-6, warmStart := true, kind := .ofFlags true false, target := 0.5, muDecay := 0.5,
    lineSearch := none, reg := none, increaseLambdas := false, proxStepLen := 1, updateProxEvery := 1 }

theorem defaultCfg_default (p q : ℕ) : (defaultCfg p q).Default :=
  ⟨rfl, rfl, fun _ h => by cases h⟩

/-- C81 on a concrete problem with the default settings. -/
example : ∃ r o', lmeFindIp [exGroup] .nonInformative (defaultCfg 1 1) ⟨⟨0.1, 0.1⟩, none⟩ ![2] ![2] ![1] ![1]
    = .ok (r, o') ∧ (∀ j, 0 ≤ r.gamma j) ∧ 0 < r.gamma 0 := by
  obtain ⟨r, o', h, h1, -⟩ := C81_inner_solver_total [exGroup] exGroup_posVar .nonInformative trivial (defaultCfg 1 1)
    (defaultCfg_default 1 1) ⟨⟨0.1, 0.1⟩, none⟩ (by norm_num) (by norm_num) ![2] ![1] ![2] ![1]
    (by intro j; fin_cases j; simp [ipStart, defaultCfg])
  refine ⟨r, o', h, h1, ?_⟩
  refine ((C63_sr3_positive [exGroup] .nonInformative (defaultCfg 1 1) ?_ ⟨⟨0.1, 0.1⟩, none⟩ ![2] ![1] ![2] ![1] ?_).2
    one_ne_zero r o' h).1 0
  · intro ls hls
    cases hls
  · intro j; fin_cases j; simp [ipStart, defaultCfg]

/-- A problem with one observation `y = 2`, no fixed effects and one random effect. -/
noncomputable def trapGroup : LmeGroup 0 1 := ⟨1, 0, ![2], !![1], ![1]⟩

/-- Without regularizer and without increasing the constants, the relaxed variables and the constants stay. -/
theorem ipLoop_relaxed {D : List (LmeGroup p q)} {P : LmeInstPrior ℝ p q} {c : IpCfg p q} (h1 : c.reg = none)
    (h2 : c.increaseLambdas = false) {s r : IpState p q} (h : ipLoop D P c s = .ok r) :
    r.tbeta = s.tbeta ∧ r.tgamma = s.tgamma ∧ r.S = s.S := by
  refine ipLoop_inv D P c (fun r => r.tbeta = s.tbeta ∧ r.tgamma = s.tgamma ∧ r.S = s.S) ?_ _ _ r rfl
    ⟨rfl, rfl, rfl⟩ h
  rintro a F a' ⟨e1, e2, e3⟩ - - ha
  obtain ⟨dF, d, step, -, -, -, -, -, -, -, -, k⟩ := ipStep_ok ha
  change a'.tbeta = _ ∧ a'.tgamma = _ ∧ a'.S = _
  rcases k with ⟨-, k1, k2, k3, -⟩ | ⟨-, k1, k2⟩
  · rw [k1, k2, k3]; exact ⟨e1, e2, e3⟩
  · unfold ipProx at k1
    rw [h1] at k1
    simp only [Except.ok.injEq, Prod.mk.injEq] at k1
    rw [k2, h2, ← k1.1, ← k1.2]
    exact ⟨e1, e2, e3⟩

theorem trapGroup_posVar : PosVar [trapGroup] := by
  intro g hg i
  rw [List.mem_singleton] at hg
  subst hg
  change Fin 1 at i
  fin_cases i
  exact one_pos

theorem trapGroup_nll (t : ℝ) (ht : 0 ≤ t) :
    marginalNLL [trapGroup] ![] ![t] = 2 / (t + 1) + 1 / 2 * Real.log (t + 1) := by
  have e : margCov trapGroup ![t] = (diagonal fun _ => t + 1 : Matrix (Fin 1) (Fin 1) ℝ) := by
    have key : (!![1] * diagonal ![t] * !![1]ᵀ + diagonal ![1] : Matrix (Fin 1) (Fin 1) ℝ)
        = diagonal fun _ => t + 1 := by
      ext i j
      fin_cases i; fin_cases j
      rw [Matrix.add_apply, Matrix.mul_apply]
      simp [Matrix.mul_apply]
    exact key
  have hne : t + 1 ≠ 0 := by linarith
  have hinv : ((diagonal fun _ => t + 1 : Matrix (Fin 1) (Fin 1) ℝ))⁻¹ = diagonal fun _ => (t + 1)⁻¹ := by
    refine Matrix.inv_eq_right_inv ?_
    rw [Matrix.diagonal_mul_diagonal]
    simp [hne]
  have r : residual trapGroup ![] = (![2] : Vec ℝ 1) := by
    have key : (![2] : Vec ℝ 1) - (0 : Matrix (Fin 1) (Fin 0) ℝ) *ᵥ ![] = ![2] := by simp
    exact key
  unfold marginalNLL
  simp only [List.map_cons, List.map_nil, List.sum_cons, List.sum_nil, add_zero]
  unfold groupNLL
  rw [e, r]
  have key : 1 / 2 * ((![2] : Vec ℝ 1) ⬝ᵥ ((diagonal fun _ => t + 1 : Matrix (Fin 1) (Fin 1) ℝ)⁻¹ *ᵥ ![2]))
      + 1 / 2 * Real.log (diagonal fun _ => t + 1 : Matrix (Fin 1) (Fin 1) ℝ).det
      = 2 / (t + 1) + 1 / 2 * Real.log (t + 1) := by
    rw [hinv, Matrix.det_diagonal]
    simp [Matrix.mulVec_diagonal, dotProduct]
    field_simp
  exact key

/-- **C80 is violated**: one observation `y = 2` with unit noise and one random effect. With the default settings
`value_function` at the relaxed point 0 returns normally, having left the variance at 0, but the variance 1 has a
smaller relaxed loss: the value function is not the minimum it stands for. -/
theorem C80_violated : ∃ (v v' : ℝ) (o' : IpOracle 0 1),
    lmeSr3ValueFunction [trapGroup] .nonInformative (defaultCfg 0 1) ⟨⟨0.1, 0.1⟩, none⟩ ![] ![0] = .ok (v, o') ∧
    lmeSr3Loss [trapGroup] .nonInformative ⟨0.1, 0.1⟩ ![] ![1] ![] ![0] = .ok v' ∧ v' < v := by
  have start : (ipStart (defaultCfg 0 1) (⟨⟨0.1, 0.1⟩, none⟩ : IpOracle 0 1) ((2 : ℝ) • ![]) ((2 : ℝ) • ![0])).2 = 0 := by
    funext j
    fin_cases j
    simp [ipStart, defaultCfg]
  obtain ⟨r, o', h, -⟩ := C81_inner_solver_total [trapGroup] trapGroup_posVar .nonInformative trivial (defaultCfg 0 1)
    (defaultCfg_default 0 1) ⟨⟨0.1, 0.1⟩, none⟩ (by norm_num) (by norm_num) ((2 : ℝ) • ![]) ![] ((2 : ℝ) • ![0]) ![0]
    (by rw [start]; intro j; simp)
  have h0 := (C80_zero_trap [trapGroup] .nonInformative (defaultCfg 0 1) ⟨⟨0.1, 0.1⟩, none⟩ ((2 : ℝ) • ![]) ![]
    ((2 : ℝ) • ![0]) ![0] start r o' one_ne_zero h).1
  have hrel : r.tgamma = ![0] ∧ o'.S = ⟨0.1, 0.1⟩ := by
    have h' := h
    unfold lmeFindIp at h'
    rw [if_neg one_ne_zero] at h'
    obtain ⟨s, hs, h'⟩ := ebind_ok.1 h'
    cases h'
    obtain ⟨-, k1, k2⟩ := ipLoop_relaxed (c := defaultCfg 0 1) rfl rfl hs
    exact ⟨k1, k2⟩
  have hd : ∀ t : ℝ, 0 ≤ t → InDomain [trapGroup] ![t] := fun t ht =>
    inDomain_of_nonneg trapGroup_posVar (by intro j; fin_cases j; exact ht)
  have hl : ∀ t : ℝ, 0 ≤ t → lmeSr3Loss [trapGroup] .nonInformative ⟨0.1, 0.1⟩ ![] ![t] ![] ![0]
      = .ok (2 / (t + 1) + 1 / 2 * Real.log (t + 1) + 0.1 / 2 * t ^ 2) := by
    intro t ht
    have h1 : lmeLoss [trapGroup] .nonInformative ![] ![t] = .ok _ := lmeLoss_ok.2 ⟨hd t ht, rfl⟩
    unfold lmeSr3Loss
    rw [h1, trapGroup_nll t ht]
    change Except.ok _ = _
    congr 1
    simp [LmeInstPrior.loss]
  have hz : (![0] : Vec ℝ 1) = 0 := by funext j; fin_cases j; rfl
  refine ⟨2 / (0 + 1) + 1 / 2 * Real.log (0 + 1) + 0.1 / 2 * 0 ^ 2,
    2 / (1 + 1) + 1 / 2 * Real.log (1 + 1) + 0.1 / 2 * 1 ^ 2, o', ?_, hl 1 zero_le_one, ?_⟩
  · unfold lmeSr3ValueFunction
    rw [h]
    change (lmeSr3Loss [trapGroup] .nonInformative o'.S r.beta r.gamma r.tbeta r.tgamma >>= _) = _
    rw [hrel.1, hrel.2, h0, ← hz, Subsingleton.elim r.beta ![], Subsingleton.elim r.tbeta ![], hl 0 le_rfl]
    rfl
  · have : Real.log (1 + 1) < 1 := by
      have := Real.log_lt_sub_one_of_pos (x := 1 + 1) (by norm_num) (by norm_num)
      linarith
    norm_num at this ⊢
    linarith


end Verif
