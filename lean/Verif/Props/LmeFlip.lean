import Verif.Model.LmeExtra
import Verif.Props.LmeCov

/-!
# C93: probabilities of a sign flip (`flip_probabilities_beta`)
-/

open Matrix MeasureTheory ProbabilityTheory

namespace Verif

variable {p q : ℕ}

/-! ## The normal distribution function -/

/-- The distribution function of the standard normal law. -/
noncomputable def stdNormalCdf (t : ℝ) : ℝ := (gaussianReal 0 1).real (Set.Iic t)

theorem stdNormalCdf_strictMono : StrictMono stdNormalCdf := by
  intro a b hab
  have h : Set.Iic b = Set.Iic a ∪ Set.Ioc a b := (Set.Iic_union_Ioc_eq_Iic hab.le).symm
  have hd : Disjoint (Set.Iic a) (Set.Ioc a b) := by
    rw [Set.disjoint_left]
    exact fun t h1 h2 => absurd h2.1 (not_lt.2 h1)
  unfold stdNormalCdf
  rw [h, measureReal_union hd measurableSet_Ioc]
  have hpos : 0 < (gaussianReal 0 1).real (Set.Ioc a b) := by
    rw [measureReal_def, ENNReal.toReal_pos_iff]
    refine ⟨pos_iff_ne_zero.2 fun h0 => ?_, measure_lt_top _ _⟩
    have := gaussianReal_absolutelyContinuous' 0 (one_ne_zero : (1 : NNReal) ≠ 0) h0
    rw [Real.volume_Ioc, ENNReal.ofReal_eq_zero] at this
    linarith
  linarith

theorem gauss_Iio (m : ℝ) {v : NNReal} (hv : v ≠ 0) (t : ℝ) :
    (gaussianReal m v).real (Set.Iio t) = (gaussianReal m v).real (Set.Iic t) := by
  have := nullSingletonClass_gaussianReal (μ := m) hv
  exact measureReal_congr Iio_ae_eq_Iic

theorem stdNormalCdf_neg (t : ℝ) : stdNormalCdf (-t) = 1 - stdNormalCdf t := by
  have h : (gaussianReal 0 1).map (fun x => -x) = gaussianReal 0 1 := by
    rw [gaussianReal_map_neg, neg_zero]
  have h1 : stdNormalCdf (-t) = (gaussianReal 0 1).real (Set.Ici t) := by
    unfold stdNormalCdf
    conv_lhs => rw [← h]
    rw [map_measureReal_apply measurable_neg measurableSet_Iic]
    congr 1
    ext x
    simp
  have h2 : Set.Ici t = (Set.Iio t)ᶜ := by ext; simp
  rw [h1, h2, probReal_compl_eq_one_sub measurableSet_Iio, gauss_Iio 0 one_ne_zero]
  rfl

theorem stdNormalCdf_zero : stdNormalCdf 0 = 1 / 2 := by
  have := stdNormalCdf_neg 0
  rw [neg_zero] at this
  linarith

theorem stdNormalCdf_pos (t : ℝ) : 0 < stdNormalCdf t :=
  lt_of_le_of_lt measureReal_nonneg (stdNormalCdf_strictMono (sub_one_lt t))

/-- `P(X ≤ 0)` for `X ~ N(m, v)`. -/
theorem gauss_Iic_zero (m v : ℝ) (hv : 0 < v) :
    (gaussianReal m v.toNNReal).real (Set.Iic 0) = stdNormalCdf (-m / Real.sqrt v) := by
  have hs : 0 < Real.sqrt v := Real.sqrt_pos.2 hv
  have h : gaussianReal m v.toNNReal = ((gaussianReal 0 1).map (Real.sqrt v * ·)).map (m + ·) := by
    rw [gaussianReal_map_const_mul, gaussianReal_map_const_add]
    congr 1
    · simp
    · ext
      simp [Real.sq_sqrt hv.le, hv.le]
  rw [h, map_measureReal_apply (measurable_const_add m) measurableSet_Iic,
    map_measureReal_apply (measurable_const_mul _) (measurable_const_add m measurableSet_Iic)]
  unfold stdNormalCdf
  congr 1
  ext x
  simp only [Set.mem_preimage, Set.mem_Iic]
  rw [le_div_iff₀ hs]
  constructor <;> intro h <;> linarith

/-! ## One coefficient -/

/-- The probability computed for one coefficient. -/
theorem flipProbability_eq (mean var : ℝ) (hv : 0 < var) :
    flipProbability mean var = .ok (stdNormalCdf (-|mean| / Real.sqrt var)) := by
  unfold flipProbability normCdfZero
  rw [if_pos hv, cdf_eq_real, gauss_Iic_zero _ _ hv]
  split_ifs with h1 h2
  · rw [abs_of_pos h1]
  · rw [abs_of_neg h2, neg_neg, Except.map, ← stdNormalCdf_neg]
    congr 2
    ring
  · have : mean = 0 := le_antisymm (not_lt.1 h1) (not_lt.1 h2)
    rw [this, abs_zero, neg_zero, zero_div, stdNormalCdf_zero]
    norm_num

/-- The mass of the half-line of the opposite sign. -/
theorem flip_mass (mean var : ℝ) (hv : 0 < var) (hm : mean ≠ 0) :
    (gaussianReal mean var.toNNReal).real {t | t * mean < 0} = stdNormalCdf (-|mean| / Real.sqrt var) := by
  have hn : var.toNNReal ≠ 0 := by simpa using hv
  rcases lt_or_gt_of_ne hm with h | h
  · have e : {t : ℝ | t * mean < 0} = (Set.Iic 0)ᶜ := by
      ext t
      simp only [Set.mem_setOf_eq, Set.mem_compl_iff, Set.mem_Iic, not_le]
      exact ⟨fun ht => by by_contra hc; nlinarith, fun ht => by nlinarith⟩
    rw [e, probReal_compl_eq_one_sub measurableSet_Iic, gauss_Iic_zero _ _ hv, ← stdNormalCdf_neg, abs_of_neg h]
    congr 1
    ring
  · have e : {t : ℝ | t * mean < 0} = Set.Iio 0 := by
      ext t
      simp only [Set.mem_setOf_eq, Set.mem_Iio]
      exact ⟨fun ht => by by_contra hc; nlinarith, fun ht => by nlinarith⟩
    rw [e, gauss_Iio _ hn, gauss_Iic_zero _ _ hv, abs_of_pos h]

/-! ## The oracle -/

theorem flip_ok {H : Matrix (Fin p) (Fin p) ℝ} (hH : H.PosDef) (beta : Vec ℝ p) :
    lmeFlipProbabilities (.ok H) beta = .ok fun i => stdNormalCdf (-|beta i| / Real.sqrt (H⁻¹ i i)) := by
  unfold lmeFlipProbabilities
  refine ebind_ok.2 ⟨H, rfl, ebind_ok.2 ⟨H⁻¹, npInv_ok.2 ⟨(Matrix.isUnit_iff_isUnit_det _).1 hH.isUnit, rfl⟩, ?_⟩⟩
  exact (collect_ok_iff _ _).2 fun i => flipProbability_eq _ _ hH.inv.diag_pos

theorem posDef_of_nonneg_of_det {H : Matrix (Fin p) (Fin p) ℝ} (hs : Hᵀ = H) (hn : NonnegForm H) (hd : H.det ≠ 0) : H.PosDef := by
  have hps : H.PosSemidef := by
    refine PosSemidef.of_dotProduct_mulVec_nonneg (by rwa [IsHermitian, conjTranspose_eq_transpose_of_trivial]) fun v => ?_
    rw [star_trivial, ← quadSum_eq]
    exact hn v
  exact hps.posDef_iff_isUnit.2 ((Matrix.isUnit_iff_isUnit_det _).2 (isUnit_iff_ne_zero.2 hd))

/-- The part of **C93** that holds (the plain oracle; missing: the SR3 oracle, see `C93_sr3_violated`): for every dataset, reachable prior and `gamma` in the domain, the call raises `LinAlgError` if the Hessian in
the fixed effects is singular. Otherwise it returns for every nonzero coefficient the mass that the normal law with the
coefficient as its mean and the corresponding diagonal entry of the inverse Hessian as its variance gives to the numbers of
the opposite sign, which is in `(0, 1/2)`; `1/2` for a zero coefficient; the same for `-beta`; and less for
coefficients which are larger in absolute value. -/
theorem C93_flip_partial (D : List (LmeGroup p q)) (P : LmeInstPrior ℝ p q) (hP : P.Reachable) (gamma : Vec ℝ q) (hd : InDomain D gamma) :
    ∃ H, lmeHessianBeta D P gamma = .ok H ∧
      (H.det = 0 → ∀ beta, lmeFlipProbabilities (lmeHessianBeta D P gamma) beta = .error .linAlgError) ∧
      (H.det ≠ 0 → ∃ f : Vec ℝ p → Vec ℝ p, (∀ beta, lmeFlipProbabilities (lmeHessianBeta D P gamma) beta = .ok (f beta)) ∧
        (∀ beta i, beta i ≠ 0 → f beta i = (gaussianReal (beta i) (H⁻¹ i i).toNNReal).real {t | t * beta i < 0} ∧
          0 < H⁻¹ i i ∧ 0 < f beta i ∧ f beta i < 1 / 2) ∧
        (∀ beta i, beta i = 0 → f beta i = 1 / 2) ∧
        (∀ beta, f (-beta) = f beta) ∧
        ∀ beta beta' i, |beta i| < |beta' i| → f beta' i < f beta i) := by
  obtain ⟨⟨-, -, H, -, -, hH, -, hsy, hnn⟩, -⟩ := C55_beta_derivatives D P hP ⟨0, 0⟩ gamma hd 0 0
  refine ⟨H, hH, fun h0 beta => ?_, fun h0 => ?_⟩
  · rw [hH]
    unfold lmeFlipProbabilities npInv
    simp [bind, Except.bind, h0]
  have hpd := posDef_of_nonneg_of_det hsy hnn h0
  have hv : ∀ i, 0 < H⁻¹ i i := fun i => hpd.inv.diag_pos
  have hs : ∀ i, 0 < Real.sqrt (H⁻¹ i i) := fun i => Real.sqrt_pos.2 (hv i)
  refine ⟨fun beta i => stdNormalCdf (-|beta i| / Real.sqrt (H⁻¹ i i)), fun beta => by rw [hH]; exact flip_ok hpd beta,
    fun beta i hb => ⟨(flip_mass _ _ (hv i) hb).symm, hv i, stdNormalCdf_pos _, ?_⟩, fun beta i hb => ?_, fun beta => ?_,
    fun beta beta' i hb => ?_⟩
  · rw [← stdNormalCdf_zero]
    exact stdNormalCdf_strictMono (div_neg_of_neg_of_pos (neg_neg_of_pos (abs_pos.2 hb)) (hs i))
  · simp only [hb, abs_zero, neg_zero, zero_div]
    exact stdNormalCdf_zero
  · simp
  · exact stdNormalCdf_strictMono (div_lt_div_of_pos_right (by linarith) (hs i))

/-- The Hessian of the example problem is not singular. -/
theorem exGroup_hessian : ∃ H, lmeHessianBeta [exGroup] .nonInformative ![1] = .ok H ∧ H.det ≠ 0 := by
  have hg : ∀ j, 0 ≤ (![1] : Vec ℝ 1) j := by intro j; fin_cases j; simp
  have hd : InDomain [exGroup] ![1] := inDomain_of_nonneg exGroup_posVar hg
  have hh : lmeHessianBeta [exGroup] .nonInformative ![1]
      = .ok ((([exGroup].map (lmeFact ![1])).map hessBetaTerm).sum + 0) := recalc_bind_ok.2 ⟨hd, rfl⟩
  refine ⟨_, hh, ?_⟩
  rw [add_zero]
  exact (exGroup_kernel _ hg).ne_zero

/-- C93 on the example: a probability strictly between `0` and `1/2`. -/
example : ∃ f : Vec ℝ 1, lmeFlipProbabilities (lmeHessianBeta [exGroup] .nonInformative ![1]) ![3] = .ok f ∧ 0 < f 0 ∧ f 0 < 1 / 2 := by
  have hd : InDomain [exGroup] ![1] := inDomain_of_nonneg exGroup_posVar (by intro j; fin_cases j; simp)
  obtain ⟨H, hH, hne⟩ := exGroup_hessian
  obtain ⟨H', hH', -, h⟩ := C93_flip_partial [exGroup] .nonInformative trivial ![1] hd
  cases hH.symm.trans hH'
  obtain ⟨f, hf, h1, -⟩ := h hne
  obtain ⟨-, -, h2, h3⟩ := h1 ![3] 0 (by simp)
  exact ⟨f ![3], hf _, h2, h3⟩

/-! ## The SR3 oracle -/

/-- Adding `lam > 0` to the diagonal makes every diagonal entry of the inverse smaller. -/
theorem inv_diag_lt {H : Matrix (Fin p) (Fin p) ℝ} (hH : H.PosDef) {lam : ℝ} (hl : 0 < lam) (i : Fin p) :
    (H + lam • (1 : Matrix (Fin p) (Fin p) ℝ))⁻¹ i i < H⁻¹ i i := by
  set G := H + lam • (1 : Matrix (Fin p) (Fin p) ℝ) with hG
  have hGp : G.PosDef := hH.add (PosDef.one.smul hl)
  have hGu := (Matrix.isUnit_iff_isUnit_det _).1 hGp.isUnit
  have hHu := (Matrix.isUnit_iff_isUnit_det _).1 hH.isUnit
  -- `H⁻¹ - G⁻¹ = lam • (G⁻¹ H⁻¹)`, and with `w = G⁻¹ eᵢ`: `(H⁻¹)ᵢᵢ - (G⁻¹)ᵢᵢ = lam ‖w‖² + lam² wᵀH⁻¹w`
  set e : Vec ℝ p := Pi.single i 1 with he
  set w := G⁻¹ *ᵥ e with hw
  have hGw : G *ᵥ w = e := by rw [hw, mulVec_mulVec, mul_nonsing_inv _ hGu, one_mulVec]
  have hee : e = H *ᵥ w + lam • w := by rw [← hGw, hG, add_mulVec, smul_mulVec, one_mulVec]
  have hHe : H⁻¹ *ᵥ e = w + lam • (H⁻¹ *ᵥ w) := by
    rw [hee, mulVec_add, mulVec_mulVec, nonsing_inv_mul _ hHu, one_mulVec, mulVec_smul]
  have hHs : (H⁻¹)ᵀ = H⁻¹ := by
    have := hH.inv.isHermitian
    rwa [IsHermitian, conjTranspose_eq_transpose_of_trivial] at this
  have e1 : H⁻¹ i i = w i + lam * (H⁻¹ *ᵥ w) i := by
    have := congrFun hHe i
    simpa [he] using this
  have e2 : G⁻¹ i i = w i := by simp [hw, he]
  have e3 : (H⁻¹ *ᵥ w) i = w ⬝ᵥ w + lam * (w ⬝ᵥ (H⁻¹ *ᵥ w)) := by
    have h1 : (H⁻¹ *ᵥ w) i = e ⬝ᵥ (H⁻¹ *ᵥ w) := by simp [he]
    rw [h1, dotProduct_mulVec, ← mulVec_transpose, hHs, hHe, add_dotProduct, smul_dotProduct, smul_eq_mul, dotProduct_comm (H⁻¹ *ᵥ w)]
  have hw0 : w ≠ 0 := by
    intro h
    have : e = 0 := by rw [← hGw, h, mulVec_zero]
    have := congrFun this i
    simp [he] at this
  have h1 : 0 < w ⬝ᵥ w := by
    rw [← star_trivial w]
    exact dotProduct_star_self_pos_iff.2 hw0
  have h2 := posDef_inv_nonneg hH w
  rw [e1, e2, e3]
  have := mul_pos hl h1
  have : 0 ≤ lam * (lam * (w ⬝ᵥ (H⁻¹ *ᵥ w))) := by positivity
  linarith

/-- **C93** is violated by the SR3 oracle: it adds the relaxation `lb` to the Hessian, so the reported probability of
every nonzero coefficient is smaller than the posterior probability of the model (the one the plain oracle reports). -/
theorem C93_sr3_violated (D : List (LmeGroup p q)) (P : LmeInstPrior ℝ p q) (hP : P.Reachable) (gamma : Vec ℝ q) (hd : InDomain D gamma)
    (S : Sr3Params) (hlb : 0 < S.lb) (H : Matrix (Fin p) (Fin p) ℝ) (hH : lmeHessianBeta D P gamma = .ok H) (h0 : H.det ≠ 0)
    (beta : Vec ℝ p) :
    ∃ f f' : Vec ℝ p, lmeFlipProbabilities (lmeHessianBeta D P gamma) beta = .ok f ∧
      lmeFlipProbabilities (lmeSr3HessianBeta D P S gamma) beta = .ok f' ∧ ∀ i, beta i ≠ 0 → f' i < f i := by
  obtain ⟨⟨-, -, H', -, -, hH', -, hsy, hnn⟩, -⟩ := C55_beta_derivatives D P hP ⟨0, 0⟩ gamma hd 0 0
  cases hH.symm.trans hH'
  have hpd := posDef_of_nonneg_of_det hsy hnn h0
  have hpd' : (H + S.lb • (1 : Matrix (Fin p) (Fin p) ℝ)).PosDef := hpd.add (PosDef.one.smul hlb)
  have h3 : lmeSr3HessianBeta D P S gamma = .ok (H + S.lb • (1 : Matrix (Fin p) (Fin p) ℝ)) := by
    unfold lmeSr3HessianBeta
    rw [hH]
    rfl
  rw [hH, h3]
  refine ⟨_, _, flip_ok hpd beta, flip_ok hpd' beta, fun i hb => stdNormalCdf_strictMono ?_⟩
  have hlt := Real.sqrt_lt_sqrt hpd'.inv.diag_pos.le (inv_diag_lt hpd hlb i)
  have hpos := Real.sqrt_pos.2 (hpd'.inv.diag_pos (i := i))
  rw [neg_div, neg_div, neg_lt_neg_iff]
  exact div_lt_div_of_pos_left (abs_pos.2 hb) hpos hlt

/-- The probabilities of the SR3 oracle are always available. -/
theorem sr3_flip_ok {D : List (LmeGroup p q)} {P : LmeInstPrior ℝ p q} (hP : P.Reachable) {gamma : Vec ℝ q} (hd : InDomain D gamma)
    {S : Sr3Params} (hlb : 0 < S.lb) (beta : Vec ℝ p) :
    lmeFlipProbabilities (lmeSr3HessianBeta D P S gamma) beta = .ok fun i => stdNormalCdf (-|beta i| /
      Real.sqrt ((((D.map (fun g => g.xᵀ * (margCov g gamma)⁻¹ * g.x)).sum + P.hessianBeta + S.lb • 1)⁻¹ i i))) := by
  obtain ⟨⟨-, -, H, -, -, hH, -, hsy, hnn⟩, -⟩ := C55_beta_derivatives D P hP ⟨0, 0⟩ gamma hd 0 0
  have hps : H.PosSemidef := by
    refine PosSemidef.of_dotProduct_mulVec_nonneg (by rwa [IsHermitian, conjTranspose_eq_transpose_of_trivial]) fun v => ?_
    rw [star_trivial, ← quadSum_eq]
    exact hnn v
  have h3 : lmeSr3HessianBeta D P S gamma = .ok (H + S.lb • (1 : Matrix (Fin p) (Fin p) ℝ)) := by
    unfold lmeSr3HessianBeta
    rw [hH]
    rfl
  rw [h3, flip_ok (PosDef.posSemidef_add hps (PosDef.one.smul hlb)), (lmeHessianBeta_ok.1 hH).2]

/-- The default relaxation on the example. -/
example : ∃ f f' : Vec ℝ 1, lmeFlipProbabilities (lmeHessianBeta [exGroup] .nonInformative ![1]) ![3] = .ok f ∧
    lmeFlipProbabilities (lmeSr3HessianBeta [exGroup] .nonInformative ⟨0.1, 0.1⟩ ![1]) ![3] = .ok f' ∧ f' 0 < f 0 := by
  have hd : InDomain [exGroup] ![1] := inDomain_of_nonneg exGroup_posVar (by intro j; fin_cases j; simp)
  obtain ⟨H, hH, hne⟩ := exGroup_hessian
  obtain ⟨f, f', h1, h2, h3⟩ := C93_sr3_violated [exGroup] .nonInformative trivial ![1] hd ⟨0.1, 0.1⟩ (by norm_num) H hH hne ![3]
  exact ⟨f, f', h1, h2, h3 0 (by simp)⟩

end Verif
