import Verif.Lemmas.GaussInt
import Mathlib.MeasureTheory.Group.LIntegral

/-!
# Marginals of Gaussian densities on `ℝᵖ`
-/

open Matrix MeasureTheory ProbabilityTheory
open scoped NNReal ENNReal

namespace Verif

noncomputable section

/-- The unnormalised density of `N(0, H⁻¹)`. -/
def gdens {p : ℕ} (H : Matrix (Fin p) (Fin p) ℝ) (v : Fin p → ℝ) : ℝ≥0∞ := ENNReal.ofReal (Real.exp (-(1 / 2 * (v ⬝ᵥ (H *ᵥ v)))))

theorem measurable_gdens {p : ℕ} (H : Matrix (Fin p) (Fin p) ℝ) : Measurable (gdens H) := by
  unfold gdens
  refine ENNReal.measurable_ofReal.comp (Continuous.measurable ?_)
  fun_prop

/-- The line on which the other coordinates are at their conditional optimum. -/
theorem gdens_split {p : ℕ} {H : Matrix (Fin (p + 1)) (Fin (p + 1)) ℝ} (hH : H.PosDef) (j : Fin (p + 1)) (t : ℝ) (w : Fin p → ℝ) :
    gdens H (j.insertNth t (w + t • fun k => H⁻¹ (j.succAbove k) j / H⁻¹ j j)) =
      ENNReal.ofReal (Real.exp (-(t - 0) ^ 2 / (2 * (H⁻¹ j j)))) * gdens (H.submatrix j.succAbove j.succAbove) w := by
  have hs : 0 < H⁻¹ j j := hH.inv.diag_pos
  have hu := posDef_det_unit hH
  set h : Fin (p + 1) → ℝ := fun k => H⁻¹ k j / H⁻¹ j j with hh
  set w0 : Fin (p + 1) → ℝ := j.insertNth 0 w with hw0
  have e1 : (j.insertNth t (w + t • fun k => H⁻¹ (j.succAbove k) j / H⁻¹ j j) : Fin (p + 1) → ℝ) = w0 + t • h := by
    funext k
    refine Fin.succAboveCases j ?_ (fun k => ?_) k
    · simp [hw0, hh, hs.ne']
    · simp [hw0, hh]
  have e2 : H *ᵥ h = fun k => (if k = j then 1 else 0) / H⁻¹ j j := by
    have : h = (H⁻¹ j j)⁻¹ • (H⁻¹ *ᵥ Pi.single j 1) := by
      funext k
      simp [hh, div_eq_inv_mul]
    rw [this, Matrix.mulVec_smul, Matrix.mulVec_mulVec, Matrix.mul_nonsing_inv _ hu, Matrix.one_mulVec]
    funext k
    simp [Pi.single_apply, div_eq_inv_mul]
  have e3 : ∀ a : Fin (p + 1) → ℝ, a ⬝ᵥ (H *ᵥ h) = a j / H⁻¹ j j := fun a => by
    rw [e2]
    simp [dotProduct, div_eq_mul_inv]
  have e4 : h ⬝ᵥ (H *ᵥ w0) = 0 := by
    have : h ⬝ᵥ (H *ᵥ w0) = w0 ⬝ᵥ (H *ᵥ h) := by
      rw [Matrix.dotProduct_mulVec, ← Matrix.mulVec_transpose, posDef_transpose_eq hH, dotProduct_comm]
    rw [this, e3]
    simp [hw0]
  have e5 : w0 ⬝ᵥ (H *ᵥ w0) = w ⬝ᵥ (H.submatrix j.succAbove j.succAbove *ᵥ w) := by
    simp only [dotProduct, Matrix.mulVec, hw0, Fin.sum_univ_succAbove _ j, Fin.insertNth_apply_same, Fin.insertNth_apply_succAbove, zero_mul, mul_zero, zero_add, Matrix.submatrix_apply]
  have e6 : h j = 1 := by simp [hh, hs.ne']
  have e7 : w0 j = 0 := by simp [hw0]
  rw [e1]
  unfold gdens
  rw [← ENNReal.ofReal_mul (Real.exp_nonneg _), ← Real.exp_add]
  congr 2
  simp only [Matrix.mulVec_add, Matrix.mulVec_smul, add_dotProduct, dotProduct_add, smul_dotProduct, dotProduct_smul, smul_eq_mul, e3, e4, e5]
  rw [Pi.add_apply, Pi.smul_apply, e6, e7, smul_eq_mul]
  field_simp
  ring

theorem lintegral_gdens_succ {p : ℕ} {H : Matrix (Fin (p + 1)) (Fin (p + 1)) ℝ} (hH : H.PosDef) (j : Fin (p + 1)) {ψ : ℝ → ℝ≥0∞} (hψ : Measurable ψ) :
    ∫⁻ v, ψ (v j) * gdens H v = (∫⁻ t, ψ t * ENNReal.ofReal (Real.exp (-(t - 0) ^ 2 / (2 * (H⁻¹ j j))))) * ∫⁻ w, gdens (H.submatrix j.succAbove j.succAbove) w := by
  have hm : Measurable fun x : ℝ × (Fin p → ℝ) => ψ x.1 * gdens H (j.insertNth x.1 x.2) := by
    refine (hψ.comp measurable_fst).mul ((measurable_gdens H).comp ?_)
    exact (MeasurableEquiv.piFinSuccAbove (fun _ : Fin (p + 1) => ℝ) j).symm.measurable
  calc ∫⁻ v, ψ (v j) * gdens H v
      = ∫⁻ x : ℝ × (Fin p → ℝ), ψ x.1 * gdens H (j.insertNth x.1 x.2) := by
        rw [← ((volume_preserving_piFinSuccAbove (fun _ : Fin (p + 1) => ℝ) j).symm).lintegral_comp_emb (MeasurableEquiv.measurableEmbedding _)]
        refine lintegral_congr fun x => ?_
        simp only [MeasurableEquiv.piFinSuccAbove_symm_apply, Fin.insertNthEquiv, Equiv.coe_fn_mk, Fin.insertNth_apply_same]
    _ = ∫⁻ t, ∫⁻ w, ψ t * gdens H (j.insertNth t w) := by
        exact lintegral_prod _ hm.aemeasurable
    _ = ∫⁻ t, ψ t * ENNReal.ofReal (Real.exp (-(t - 0) ^ 2 / (2 * (H⁻¹ j j)))) * ∫⁻ w, gdens (H.submatrix j.succAbove j.succAbove) w := by
        refine lintegral_congr fun t => ?_
        rw [← lintegral_add_right_eq_self (fun w => ψ t * gdens H (j.insertNth t w)) (t • fun k => H⁻¹ (j.succAbove k) j / H⁻¹ j j)]
        simp_rw [gdens_split hH, ← mul_assoc]
        rw [lintegral_const_mul _ (measurable_gdens _)]
    _ = _ := by
        rw [lintegral_mul_const]
        refine hψ.mul (ENNReal.measurable_ofReal.comp (Continuous.measurable ?_))
        fun_prop

/-- The one-dimensional integral in terms of Mathlib's normal distribution. -/
theorem lintegral_exp_gaussianReal {s : ℝ} (hs : 0 < s) {ψ : ℝ → ℝ≥0∞} (hψ : Measurable ψ) :
    ∫⁻ t, ψ t * ENNReal.ofReal (Real.exp (-(t - 0) ^ 2 / (2 * s))) = ENNReal.ofReal √(2 * Real.pi * s) * ∫⁻ t, ψ t ∂gaussianReal 0 s.toNNReal := by
  have hv : s.toNNReal ≠ 0 := (Real.toNNReal_pos.2 hs).ne'
  have h2 : √(2 * Real.pi * s) ≠ 0 := by positivity
  rw [gaussianReal_of_var_ne_zero _ hv, lintegral_withDensity_eq_lintegral_mul _ (measurable_gaussianPDF _ _) hψ, ← lintegral_const_mul _ ((measurable_gaussianPDF _ _).mul hψ)]
  refine lintegral_congr fun t => ?_
  rw [Pi.mul_apply, gaussianPDF, gaussianPDFReal, Real.coe_toNNReal _ hs.le, ← mul_assoc, ← ENNReal.ofReal_mul (Real.sqrt_nonneg _), ← mul_assoc, mul_inv_cancel₀ h2, one_mul, mul_comm]

theorem posDef_minor {p : ℕ} {H : Matrix (Fin (p + 1)) (Fin (p + 1)) ℝ} (hH : H.PosDef) (j : Fin (p + 1)) : (H.submatrix j.succAbove j.succAbove).PosDef :=
  hH.submatrix Fin.succAbove_right_injective

theorem lintegral_gdens_pos {p : ℕ} {H : Matrix (Fin p) (Fin p) ℝ} (hH : H.PosDef) : ∫⁻ v, gdens H v ≠ 0 ∧ ∫⁻ v, gdens H v ≠ ⊤ := by
  induction p with
  | zero =>
    have e : ∀ v : Fin 0 → ℝ, gdens H v = 1 := fun v => by simp [gdens]
    simp_rw [e]
    rw [lintegral_const, one_mul, volume_pi, Measure.pi_of_empty, Measure.dirac_apply_of_mem (Set.mem_univ _)]
    exact ⟨one_ne_zero, ENNReal.one_ne_top⟩
  | succ p ih =>
    have hs : 0 < H⁻¹ 0 0 := hH.inv.diag_pos
    have h := lintegral_gdens_succ hH 0 (ψ := fun _ => 1) measurable_const
    rw [lintegral_exp_gaussianReal hs measurable_const] at h
    simp only [one_mul, lintegral_const, measure_univ, mul_one] at h
    obtain ⟨h1, h2⟩ := ih (posDef_minor hH 0)
    rw [h]
    have : (0 : ℝ) < √(2 * Real.pi * H⁻¹ 0 0) := by positivity
    exact ⟨mul_ne_zero (ENNReal.ofReal_pos.2 this).ne' h1, ENNReal.mul_ne_top ENNReal.ofReal_ne_top h2⟩

/-- One coordinate of `N(0, H⁻¹)` has the law `N(0, (H⁻¹)ⱼⱼ)`. -/
theorem lintegral_gdens_marginal {p : ℕ} {H : Matrix (Fin p) (Fin p) ℝ} (hH : H.PosDef) (j : Fin p) {ψ : ℝ → ℝ≥0∞} (hψ : Measurable ψ) :
    ∫⁻ v, ψ (v j) * gdens H v = (∫⁻ t, ψ t ∂gaussianReal 0 (H⁻¹ j j).toNNReal) * ∫⁻ v, gdens H v := by
  cases p with
  | zero => exact j.elim0
  | succ p =>
    have hs : 0 < H⁻¹ j j := hH.inv.diag_pos
    have h := lintegral_gdens_succ hH j (ψ := fun _ => 1) measurable_const
    rw [lintegral_exp_gaussianReal hs measurable_const] at h
    simp only [one_mul, lintegral_const, measure_univ, mul_one] at h
    rw [lintegral_gdens_succ hH j hψ, lintegral_exp_gaussianReal hs hψ, h]
    ring

/-- A density `exp(-f)` with quadratic `f` and minimum `m` has the marginals `N(mⱼ, (H⁻¹)ⱼⱼ)`. -/
theorem lintegral_quadratic_marginal {p : ℕ} {H : Matrix (Fin p) (Fin p) ℝ} (hH : H.PosDef) (f : (Fin p → ℝ) → ℝ) (m : Fin p → ℝ) (hf : ∀ v, f (m + v) = f m + 1 / 2 * (v ⬝ᵥ (H *ᵥ v))) :
    (∫⁻ b, ENNReal.ofReal (Real.exp (-f b)) ≠ 0 ∧ ∫⁻ b, ENNReal.ofReal (Real.exp (-f b)) ≠ ⊤) ∧
      ∀ (j : Fin p) (ψ : ℝ → ℝ≥0∞), Measurable ψ →
        ∫⁻ b, ψ (b j) * ENNReal.ofReal (Real.exp (-f b)) = (∫⁻ t, ψ t ∂gaussianReal (m j) (H⁻¹ j j).toNNReal) * ∫⁻ b, ENNReal.ofReal (Real.exp (-f b)) := by
  have e : ∀ v, ENNReal.ofReal (Real.exp (-f (m + v))) = ENNReal.ofReal (Real.exp (-f m)) * gdens H v := fun v => by
    rw [hf, gdens, ← ENNReal.ofReal_mul (Real.exp_nonneg _), ← Real.exp_add]
    congr 2
    ring
  have htot : ∫⁻ b, ENNReal.ofReal (Real.exp (-f b)) = ENNReal.ofReal (Real.exp (-f m)) * ∫⁻ v, gdens H v := by
    rw [← lintegral_add_left_eq_self (fun b => ENNReal.ofReal (Real.exp (-f b))) m]
    simp_rw [e]
    rw [lintegral_const_mul _ (measurable_gdens H)]
  obtain ⟨h1, h2⟩ := lintegral_gdens_pos hH
  refine ⟨by rw [htot]; exact ⟨mul_ne_zero (ENNReal.ofReal_pos.2 (Real.exp_pos _)).ne' h1, ENNReal.mul_ne_top ENNReal.ofReal_ne_top h2⟩, fun j ψ hψ => ?_⟩
  have hψ' : Measurable fun t => ψ (m j + t) := hψ.comp (measurable_const_add _)
  rw [htot, ← lintegral_add_left_eq_self (fun b => ψ (b j) * ENNReal.ofReal (Real.exp (-f b))) m]
  simp_rw [e, Pi.add_apply, mul_left_comm (ψ _)]
  have hmm : Measurable fun v : Fin p → ℝ => ψ (m j + v j) * gdens H v := (hψ'.comp (measurable_pi_apply j)).mul (measurable_gdens H)
  rw [lintegral_const_mul _ hmm, lintegral_gdens_marginal hH j hψ']
  have : ∫⁻ t, ψ (m j + t) ∂gaussianReal 0 (H⁻¹ j j).toNNReal = ∫⁻ t, ψ t ∂gaussianReal (m j) (H⁻¹ j j).toNNReal := by
    rw [← lintegral_map (f := ψ) hψ (measurable_const_add (m j)), gaussianReal_map_const_add, zero_add]
  rw [this]
  ring

end

end Verif
