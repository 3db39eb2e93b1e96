import Verif.Props.LmeGenLaw
import Verif.Lemmas.GaussPost

/-!
# The law of generated observations (C144)
-/

open Matrix MeasureTheory ProbabilityTheory
open scoped NNReal ENNReal

namespace Verif

noncomputable section

theorem lintegral_fin_prod : ∀ {n : ℕ} (f : Fin n → ℝ → ℝ≥0∞), (∀ i, Measurable (f i)) → ∫⁻ y : Fin n → ℝ, ∏ i, f i (y i) = ∏ i, ∫⁻ t, f i t
  | 0, f, hf => by
    simp [volume_pi, Measure.pi_of_empty]
  | n + 1, f, hf => by
    have hmp := volume_preserving_piFinSuccAbove (fun _ : Fin (n + 1) => ℝ) 0
    rw [← hmp.symm.lintegral_comp_emb (MeasurableEquiv.measurableEmbedding _)]
    change ∫⁻ a, _ ∂(volume : Measure (ℝ × (Fin n → ℝ))) = _
    have e : ∀ a : ℝ × (Fin n → ℝ), ∏ i, f i ((MeasurableEquiv.piFinSuccAbove (fun _ : Fin (n + 1) => ℝ) 0).symm a i) = f 0 a.1 * ∏ i : Fin n, f i.succ (a.2 i) := by
      intro a
      rw [Fin.prod_univ_succ]
      rfl
    simp_rw [e]
    have hm : Measurable fun y : Fin n → ℝ => ∏ i : Fin n, f i.succ (y i) := Finset.measurable_prod _ fun i _ => (hf i.succ).comp (measurable_pi_apply i)
    rw [show (volume : Measure (ℝ × (Fin n → ℝ))) = Measure.prod volume volume from rfl, lintegral_prod_mul (hf 0).aemeasurable hm.aemeasurable,
      lintegral_fin_prod (fun i : Fin n => f i.succ) fun i => hf i.succ, Fin.prod_univ_succ]

/-- Independent normal variables have the product density. -/
theorem pi_gaussianReal {n : ℕ} (m : Fin n → ℝ) {l : Fin n → ℝ≥0} (hl : ∀ i, l i ≠ 0) :
    Measure.pi (fun i => gaussianReal (m i) (l i)) = volume.withDensity fun y : Fin n → ℝ => ∏ i, gaussianPDF (m i) (l i) (y i) := by
  refine (Measure.pi_eq fun s hs => ?_)
  rw [withDensity_apply _ (MeasurableSet.univ_pi hs), ← lintegral_indicator (MeasurableSet.univ_pi hs)]
  have e : ∀ y : Fin n → ℝ, (Set.univ.pi s).indicator (fun y => ∏ i, gaussianPDF (m i) (l i) (y i)) y = ∏ i, (s i).indicator (gaussianPDF (m i) (l i)) (y i) := by
    intro y
    by_cases hy : y ∈ Set.univ.pi s
    · rw [Set.indicator_of_mem hy]
      exact Finset.prod_congr rfl fun i _ => (Set.indicator_of_mem (hy i trivial) _).symm
    · rw [Set.indicator_of_notMem hy]
      obtain ⟨i, hi⟩ : ∃ i, y i ∉ s i := by
        by_contra h
        push Not at h
        exact hy fun i _ => h i
      exact (Finset.prod_eq_zero (Finset.mem_univ i) (Set.indicator_of_notMem hi _)).symm
  simp_rw [e]
  rw [lintegral_fin_prod _ fun i => (measurable_gaussianPDF _ _).indicator (hs i)]
  refine Finset.prod_congr rfl fun i _ => ?_
  rw [lintegral_indicator (hs i), gaussianReal_of_var_ne_zero _ (hl i), withDensity_apply _ (hs i)]

variable {p q : ℕ}

/-- The group with other observations. -/
def LmeGroup.withY (g : LmeGroup p q) (y : Fin g.n → ℝ) : LmeGroup p q := { g with y := y }

theorem measurable_groupDensity (g : LmeGroup p q) (hl : ∀ i, 0 < g.l i) (beta : Vec ℝ p) :
    Measurable fun uy : (Fin q → ℝ) × (Fin g.n → ℝ) => groupDensity (g.withY uy.2) beta uy.1 := by
  have h1 : (fun uy : (Fin q → ℝ) × (Fin g.n → ℝ) => groupDensity (g.withY uy.2) beta uy.1) =
      fun uy => (√(2 * Real.pi) ^ g.n)⁻¹ * dens (diagonal g.l) (fun i => uy.2 i - ∑ k, g.x i k * beta k - ∑ j, g.z i j * uy.1 j) :=
    funext fun uy => groupDensity_eq (g.withY uy.2) hl beta uy.1
  rw [h1]
  refine Measurable.const_mul ((continuous_dens (diagonal g.l)).measurable.comp ?_) _
  fun_prop

theorem lintegral_groupDensity (g : LmeGroup p q) (hl : ∀ i, 0 < g.l i) (beta : Vec ℝ p) (gamma : Fin q → ℝ≥0) (y : Fin g.n → ℝ) :
    ∫⁻ u, ENNReal.ofReal (groupDensity (g.withY y) beta u) ∂effectLaw gamma = ENNReal.ofReal (Real.exp (-groupNLL (g.withY y) beta fun j => gamma j) / √(2 * Real.pi) ^ g.n) := by
  have hm : Measurable fun u => groupDensity (g.withY y) beta u :=
    (measurable_groupDensity g hl beta).comp (g := fun uy : (Fin q → ℝ) × (Fin g.n → ℝ) => groupDensity (g.withY uy.2) beta uy.1) (f := fun u => (u, y)) measurable_prodMk_right
  have hb : ∀ u, |groupDensity (g.withY y) beta u| ≤ (√(2 * Real.pi) ^ g.n)⁻¹ * (1 / √(diagonal g.l).det) := fun u => by
    have h1 := groupDensity_eq (g.withY y) hl beta u
    rw [h1, abs_of_nonneg (mul_nonneg (by positivity) (dens_nonneg _ _))]
    exact mul_le_mul_of_nonneg_left (dens_le (posDef_diag hl) _) (by positivity)
  have : IsProbabilityMeasure (effectLaw gamma) := by unfold effectLaw; infer_instance
  have hI : Integrable (fun u => groupDensity (g.withY y) beta u) (effectLaw gamma) := integrable_of_bounded hm _ hb
  have hn : ∀ u, 0 ≤ groupDensity (g.withY y) beta u := fun u => Finset.prod_nonneg fun i _ => gaussianPDFReal_nonneg _ _ _
  rw [← ofReal_integral_eq_lintegral_ofReal hI (.of_forall hn), integral_groupDensity (g.withY y) hl, dens_margCov (g.withY y) hl, div_eq_inv_mul]
  rfl

/-- **C144**: draw random effects `u ~ N(0, diag γ)` and errors `ε ~ N(0, diag l)` as `generate` does; the observations `X β + Z u + ε` of a group have a density, and it is the exponential of minus the
oracle's loss, divided by `(2π)^(n/2)`. Variances of random effects may be zero. -/
theorem C144_law (g : LmeGroup p q) (hl : ∀ i, 0 < g.l i) (beta : Vec ℝ p) (gamma : Fin q → ℝ≥0) :
    ∃ L : (Fin g.n → ℝ) → ℝ, (∀ y, lmeLoss [{ g with y := y }] .nonInformative beta (fun j => gamma j) = .ok (L y)) ∧
      ((Measure.pi fun j => gaussianReal 0 (gamma j)).prod (Measure.pi fun i => gaussianReal 0 (g.l i).toNNReal)).map
          (fun ue i => ∑ k, g.x i k * beta k + ∑ j, g.z i j * ue.1 j + ue.2 i) =
        volume.withDensity fun y => ENNReal.ofReal (Real.exp (-L y) / √(2 * Real.pi) ^ g.n) := by
  have hl' : ∀ i, (g.l i).toNNReal ≠ 0 := fun i => (Real.toNNReal_pos.2 (hl i)).ne'
  have hpos : ∀ y, ∀ i, 0 < (g.withY y).l i := fun y => hl
  refine ⟨fun y => groupNLL (g.withY y) beta fun j => gamma j, fun y => ?_, ?_⟩
  · have h := (C54_loss_is_marginal_likelihood [g.withY y] .nonInformative beta fun j => (gamma j : ℝ)).1
      (fun g' hg' => by rw [List.mem_singleton.1 hg']; exact hpos y) fun j => (gamma j).coe_nonneg
    refine h.trans ?_
    congr 1
    have : LmeInstPrior.loss (.nonInformative : LmeInstPrior ℝ p q) beta (fun j => (gamma j : ℝ)) = 0 := rfl
    rw [this, add_zero, List.map_cons, List.map_nil, List.sum_cons, List.sum_nil, add_zero]
    rfl
  have hmeas : Measurable fun (ue : (Fin q → ℝ) × (Fin g.n → ℝ)) (i : Fin g.n) => ∑ k, g.x i k * beta k + ∑ j, g.z i j * ue.1 j + ue.2 i := by fun_prop
  ext s hs
  rw [Measure.map_apply hmeas hs, Measure.prod_apply (hmeas hs), withDensity_apply _ hs]
  have hin : ∀ u : Fin q → ℝ, (Measure.pi fun i => gaussianReal 0 (g.l i).toNNReal)
      (Prod.mk u ⁻¹' ((fun (ue : (Fin q → ℝ) × (Fin g.n → ℝ)) (i : Fin g.n) => ∑ k, g.x i k * beta k + ∑ j, g.z i j * ue.1 j + ue.2 i) ⁻¹' s)) =
      ∫⁻ y in s, ENNReal.ofReal (groupDensity (g.withY y) beta u) := by
    intro u
    have h1 : (Measure.pi fun i => gaussianReal 0 (g.l i).toNNReal).map (fun (e : Fin g.n → ℝ) i => (∑ k, g.x i k * beta k + ∑ j, g.z i j * u j) + e i) =
        Measure.pi fun i => gaussianReal (∑ k, g.x i k * beta k + ∑ j, g.z i j * u j) (g.l i).toNNReal := by
      rw [Measure.pi_map_pi (f := fun i t => (∑ k, g.x i k * beta k + ∑ j, g.z i j * u j) + t) fun i => by fun_prop]
      congr 1
      funext i
      rw [gaussianReal_map_const_add, zero_add]
    have h2 := DFunLike.congr_fun (h1.trans (pi_gaussianReal (fun i => ∑ k, g.x i k * beta k + ∑ j, g.z i j * u j) hl')) s
    rw [Measure.map_apply (by fun_prop) hs, withDensity_apply _ hs] at h2
    refine Eq.trans (by rfl) (h2.trans ?_)
    refine lintegral_congr fun y => ?_
    unfold groupDensity gaussianPDF
    rw [ENNReal.ofReal_prod_of_nonneg fun i _ => gaussianPDFReal_nonneg _ _ _]
    rfl
  have hjoint := measurable_groupDensity g hl beta
  have hint := lintegral_groupDensity g hl beta gamma
  calc ∫⁻ u, (Measure.pi fun i => gaussianReal 0 (g.l i).toNNReal)
        (Prod.mk u ⁻¹' ((fun (ue : (Fin q → ℝ) × (Fin g.n → ℝ)) (i : Fin g.n) => ∑ k, g.x i k * beta k + ∑ j, g.z i j * ue.1 j + ue.2 i) ⁻¹' s)) ∂(Measure.pi fun j => gaussianReal 0 (gamma j))
      = ∫⁻ u, (∫⁻ y in s, ENNReal.ofReal (groupDensity (g.withY y) beta u)) ∂effectLaw gamma := lintegral_congr hin
    _ = ∫⁻ y in s, (∫⁻ u, ENNReal.ofReal (groupDensity (g.withY y) beta u) ∂effectLaw gamma) := by
        have : IsProbabilityMeasure (effectLaw gamma) := by unfold effectLaw; infer_instance
        exact lintegral_lintegral_swap (ENNReal.measurable_ofReal.comp hjoint).aemeasurable
    _ = _ := lintegral_congr hint

/-- Non-vacuity: a concrete group with two observations and one random effect. -/
example : ∃ L : (Fin 2 → ℝ) → ℝ, ∀ y, lmeLoss [{ exGroup with y := y }] .nonInformative ![1] (fun _ => ((3 : ℝ≥0) : ℝ)) = .ok (L y) :=
  (C144_law exGroup (exGroup_posVar _ (by simp)) ![1] (fun _ => 3)).imp fun _ h => h.1

/-! ## Normal draws satisfy the hypotheses of C143 -/

section Moments

variable {n : ℕ} (l : Fin n → ℝ≥0)

theorem memLp_coord (i : Fin n) : MemLp (fun x : Fin n → ℝ => x i) 2 (Measure.pi fun i => gaussianReal 0 (l i)) :=
  (memLp_id_gaussianReal 2).comp_measurePreserving (measurePreserving_eval (fun i => gaussianReal 0 (l i)) i)

theorem mean_coord (i : Fin n) : ∫ x : Fin n → ℝ, x i ∂(Measure.pi fun i => gaussianReal 0 (l i)) = 0 := by
  have h := integral_map (μ := Measure.pi fun i => gaussianReal 0 (l i)) (φ := fun x : Fin n → ℝ => x i) (measurable_pi_apply i).aemeasurable (f := fun t : ℝ => t)
    measurable_id.aestronglyMeasurable
  rw [← h, (measurePreserving_eval (fun i => gaussianReal 0 (l i)) i).map_eq, integral_id_gaussianReal]

theorem cov_coord (i j : Fin n) : cov[fun x : Fin n → ℝ => x i, fun x => x j; Measure.pi fun i => gaussianReal 0 (l i)] = if i = j then (l i : ℝ) else 0 := by
  by_cases h : i = j
  · subst h
    rw [if_pos rfl, covariance_self (measurable_pi_apply i).aemeasurable]
    have h1 := variance_map (μ := Measure.pi fun i => gaussianReal 0 (l i)) (Y := fun x : Fin n → ℝ => x i) (X := fun t : ℝ => t) measurable_id.aemeasurable (measurable_pi_apply i).aemeasurable
    rw [(measurePreserving_eval (fun i => gaussianReal 0 (l i)) i).map_eq, variance_fun_id_gaussianReal] at h1
    exact h1.symm
  · rw [if_neg h]
    have hi := iIndepFun_pi (μ := fun i => gaussianReal 0 (l i)) (X := fun (_ : Fin n) (t : ℝ) => t) fun i => measurable_id.aemeasurable
    exact (hi.indepFun h).covariance_eq_zero (memLp_coord l i) (memLp_coord l j)

end Moments

variable {Ω : Type*} [MeasurableSpace Ω]

/-- The draws of `generate` for a group: independent normal random effects and errors (`lme/problems.py:450, 470`). -/
structure RandDraw.Gaussian (d : RandDraw Ω) (μ : Measure Ω) (gamma v : List ℝ) : Prop where
  lenU : ∀ ω, (d.u ω).length = gamma.length
  lenE : ∀ ω, (d.errors ω).length = d.rows.length
  lenV : v.length = d.rows.length
  nonnegG : ∀ x ∈ gamma, 0 ≤ x
  posV : ∀ x ∈ v, 0 < x
  meas : Measurable fun ω => ((fun j : Fin gamma.length => (d.u ω).getD j 0), fun i : Fin d.rows.length => (d.errors ω).getD i 0)
  law : μ.map (fun ω => ((fun j : Fin gamma.length => (d.u ω).getD j 0), fun i : Fin d.rows.length => (d.errors ω).getD i 0)) =
    (Measure.pi fun j : Fin gamma.length => gaussianReal 0 (gamma.getD j 0).toNNReal).prod (Measure.pi fun i : Fin d.rows.length => gaussianReal 0 (v.getD i 0).toNNReal)

theorem getD_nonneg {l : List ℝ} (hl : ∀ x ∈ l, 0 ≤ x) (k : ℕ) : 0 ≤ l.getD k 0 := by
  rw [List.getD_eq_getElem?_getD]
  cases h : l[k]? with
  | none => simp
  | some x => exact hl x (List.mem_of_getElem? h)

theorem RandDraw.Gaussian.lawful {d : RandDraw Ω} {μ : Measure Ω} [IsProbabilityMeasure μ] {gamma v : List ℝ} (h : d.Gaussian μ gamma v) : d.Lawful μ gamma v := by
  obtain ⟨A, hA⟩ : ∃ A : Measure (Fin gamma.length → ℝ), A = Measure.pi fun j : Fin gamma.length => gaussianReal 0 (gamma.getD j 0).toNNReal := ⟨_, rfl⟩
  obtain ⟨B, hB⟩ : ∃ B : Measure (Fin d.rows.length → ℝ), B = Measure.pi fun i : Fin d.rows.length => gaussianReal 0 (v.getD i 0).toNNReal := ⟨_, rfl⟩
  have hpA : IsProbabilityMeasure A := by rw [hA]; infer_instance
  have hpB : IsProbabilityMeasure B := by rw [hB]; infer_instance
  have hmp : MeasurePreserving (fun ω => ((fun j : Fin gamma.length => (d.u ω).getD j 0), fun i : Fin d.rows.length => (d.errors ω).getD i 0)) μ (A.prod B) := ⟨h.meas, by rw [h.law, hA, hB]⟩
  have mU : MeasurePreserving (fun ω (j : Fin gamma.length) => (d.u ω).getD j 0) μ A := measurePreserving_fst.comp hmp
  have mE : MeasurePreserving (fun ω (i : Fin d.rows.length) => (d.errors ω).getD i 0) μ B := measurePreserving_snd.comp hmp
  have zU : ∀ k, ¬ k < gamma.length → (fun ω => (d.u ω).getD k 0) = fun _ => 0 := fun k hk => funext fun ω => by
    rw [List.getD_eq_getElem?_getD, List.getElem?_eq_none (by rw [h.lenU]; omega)]
    rfl
  have zE : ∀ k, ¬ k < d.rows.length → (fun ω => (d.errors ω).getD k 0) = fun _ => 0 := fun k hk => funext fun ω => by
    rw [List.getD_eq_getElem?_getD, List.getElem?_eq_none (by rw [h.lenE]; omega)]
    rfl
  have hmU : ∀ k, AEStronglyMeasurable (fun x : Fin gamma.length → ℝ => x k) A := fun k => (measurable_pi_apply k).aestronglyMeasurable
  have hmE : ∀ k, AEStronglyMeasurable (fun x : Fin d.rows.length → ℝ => x k) B := fun k => (measurable_pi_apply k).aestronglyMeasurable
  refine ⟨h.lenU, h.lenE, h.lenV, fun k => ?_, fun i => ?_, fun k => ?_, fun i => ?_, fun k k' hk hk' => ?_, fun i i' hi hi' => ?_, fun k i hk hi => ?_⟩
  · by_cases hk : k < gamma.length
    · have h1 : MemLp (fun x : Fin gamma.length → ℝ => x ⟨k, hk⟩) 2 A := by rw [hA]; exact memLp_coord _ _
      exact h1.comp_measurePreserving mU
    · rw [zU k hk]
      exact memLp_const _
  · by_cases hk : i < d.rows.length
    · have h1 : MemLp (fun x : Fin d.rows.length → ℝ => x ⟨i, hk⟩) 2 B := by rw [hB]; exact memLp_coord _ _
      exact h1.comp_measurePreserving mE
    · rw [zE i hk]
      exact memLp_const _
  · by_cases hk : k < gamma.length
    · have h1 := integral_map (μ := μ) mU.measurable.aemeasurable (f := fun x : Fin gamma.length → ℝ => x ⟨k, hk⟩) (by rw [mU.map_eq]; exact hmU _)
      rw [mU.map_eq, hA, mean_coord] at h1
      exact h1.symm
    · rw [zU k hk, integral_const, smul_zero]
  · by_cases hk : i < d.rows.length
    · have h1 := integral_map (μ := μ) mE.measurable.aemeasurable (f := fun x : Fin d.rows.length → ℝ => x ⟨i, hk⟩) (by rw [mE.map_eq]; exact hmE _)
      rw [mE.map_eq, hB, mean_coord] at h1
      exact h1.symm
    · rw [zE i hk, integral_const, smul_zero]
  · have h1 := covariance_map_fun (μ := μ) (X := fun x : Fin gamma.length → ℝ => x ⟨k, hk⟩) (Y := fun x => x ⟨k', hk'⟩) (by rw [mU.map_eq]; exact hmU _) (by rw [mU.map_eq]; exact hmU _)
      mU.measurable.aemeasurable
    rw [mU.map_eq, hA, cov_coord] at h1
    rw [← h1, Real.coe_toNNReal _ (getD_nonneg h.nonnegG _)]
    simp only [Fin.mk.injEq]
  · have hi0 := h.lenV ▸ hi
    have hi0' := h.lenV ▸ hi'
    have h1 := covariance_map_fun (μ := μ) (X := fun x : Fin d.rows.length → ℝ => x ⟨i, hi0⟩) (Y := fun x => x ⟨i', hi0'⟩) (by rw [mE.map_eq]; exact hmE _) (by rw [mE.map_eq]; exact hmE _)
      mE.measurable.aemeasurable
    rw [mE.map_eq, hB, cov_coord] at h1
    rw [← h1, Real.coe_toNNReal _ (getD_nonneg (fun x hx => (h.posV x hx).le) _)]
    simp only [Fin.mk.injEq]
  · have hi0 := h.lenV ▸ hi
    have h0 : cov[fun x : (Fin gamma.length → ℝ) × (Fin d.rows.length → ℝ) => x.1 ⟨k, hk⟩, fun x => x.2 ⟨i, hi0⟩; A.prod B] = 0 :=
      covariance_fst_snd_prod (X := fun x : Fin gamma.length → ℝ => x ⟨k, hk⟩) (Y := fun x : Fin d.rows.length → ℝ => x ⟨i, hi0⟩) (by rw [hA]; exact memLp_coord _ _) (by rw [hB]; exact memLp_coord _ _)
    have h1 := covariance_map_fun (μ := μ) (X := fun x : (Fin gamma.length → ℝ) × (Fin d.rows.length → ℝ) => x.1 ⟨k, hk⟩) (Y := fun x => x.2 ⟨i, hi0⟩)
      (by fun_prop) (by fun_prop) hmp.measurable.aemeasurable
    rw [hmp.map_eq, h0] at h1
    exact h1.symm

theorem RandDraw.Gaussian.group_law (c : GenCfg ℝ) (p q : ℕ) (d : RandDraw Ω) (μ : Measure Ω) {gamma v : List ℝ} (hq : gamma.length = q) (h : d.Gaussian μ gamma v) :
    ∃ L : (Fin d.rows.length → ℝ) → ℝ, (∀ y, lmeLoss [{ (d.group c p q v).g with y := y }] .nonInformative (fun k => c.beta.getD k 0) (fun k => gamma.getD k 0) = .ok (L y)) ∧
      μ.map (d.group c p q v).Y = volume.withDensity fun y => ENNReal.ofReal (Real.exp (-L y) / √(2 * Real.pi) ^ d.rows.length) := by
  subst hq
  have hl : ∀ i, 0 < (d.group c p gamma.length v).g.l i := by
    intro i
    change 0 < v.getD i.1 0
    rw [List.getD_eq_getElem?_getD, List.getElem?_eq_getElem (lt_of_lt_of_eq i.2 h.lenV.symm)]
    exact h.posV _ (List.getElem_mem _)
  obtain ⟨L, h1, h2⟩ := C144_law (d.group c p gamma.length v).g hl (fun k => c.beta.getD k 0) fun j => (gamma.getD j 0).toNNReal
  have hg : (fun j : Fin gamma.length => (((gamma.getD j 0).toNNReal : ℝ≥0) : ℝ)) = fun j : Fin gamma.length => gamma.getD j 0 := funext fun j => Real.coe_toNNReal _ (getD_nonneg h.nonnegG _)
  refine ⟨L, fun y => ?_, Eq.trans ?_ h2⟩
  · rw [← hg]
    exact h1 y
  · have h3 : μ.map (fun ω => ((fun j : Fin gamma.length => (d.u ω).getD j 0), fun i : Fin (d.group c p gamma.length v).g.n => (d.errors ω).getD i 0)) =
        (Measure.pi fun j : Fin gamma.length => gaussianReal 0 (gamma.getD j 0).toNNReal).prod (Measure.pi fun i => gaussianReal 0 ((d.group c p gamma.length v).g.l i).toNNReal) := h.law
    have hm : Measurable fun (ue : (Fin gamma.length → ℝ) × (Fin (d.group c p gamma.length v).g.n → ℝ)) (i : Fin (d.group c p gamma.length v).g.n) =>
        ∑ k : Fin p, (d.group c p gamma.length v).g.x i k * c.beta.getD k 0 + ∑ j : Fin gamma.length, (d.group c p gamma.length v).g.z i j * ue.1 j + ue.2 i := by fun_prop
    exact (Measure.map_map hm h.meas).symm.trans (congrArg (Measure.map _) h3)

/-- **C144 for `generate`**: let `generate` be called with at least one random effect; given the drawn features, let the random effects and the errors be independent normal, with the variances `gamma` and
the variances which the problem reports. Then the observations of every group an oracle sees in the problem have, with respect to the Lebesgue measure, the density `exp (-loss)` up to the
power of `2π`, where `loss` is the oracle's loss of this group alone at the true coefficients. -/
theorem C144_generated (c : GenCfg ℝ) (ds : List (RandDraw Ω)) (μ : Measure Ω) [IsProbabilityMeasure μ] (gamma : List ℝ) (V : List (List ℝ))
    (hrand : c.fri = true ∨ "random" ∈ c.labels ∨ "fixed+random" ∈ c.labels) (hq : gamma.length = c.labels.countP (fun l => l = "random" ∨ l = "fixed+random") + if c.fri then 1 else 0)
    (hlaw : List.Forall₂ (fun d v => d.Gaussian μ gamma v) ds V) (P : Ω → LmeProblem ℝ) (cs : Ω → List (ℕ × List ℝ))
    (hgen : ∀ ω, lmeGenerate c (ds.map fun d => d.at ω) = .ok (P ω, cs ω)) (hV : ∀ ω, (P ω).obsVars = V) :
    ∃ (p q : ℕ) (R : List (RandGroup Ω p q)), c.beta.length = p ∧ gamma.length = q ∧ R.length = ds.length ∧
      (∀ ω, (P ω).numFixed = p ∧ (P ω).numRandom = q ∧ lmeGroupsAt p q (P ω) = .ok (R.map fun r => r.at ω)) ∧
      ∀ r ∈ R, ∃ L : (Fin r.g.n → ℝ) → ℝ, (∀ y, lmeLoss [{ r.g with y := y }] .nonInformative (fun k => c.beta.getD k 0) (fun k => gamma.getD k 0) = .ok (L y)) ∧
        μ.map r.Y = volume.withDensity fun y => ENNReal.ofReal (Real.exp (-L y) / √(2 * Real.pi) ^ r.g.n) := by
  obtain ⟨p, q, hb, hq', h1⟩ := generated_groups c ds gamma V hrand hq (hlaw.imp fun d v h => h.lawful) P cs hgen hV
  refine ⟨p, q, _, hb, hq', ?_, h1, fun r hr => ?_⟩
  · rw [List.length_map, List.length_zip, hlaw.length_eq, min_self]
  · obtain ⟨dv, hdv, rfl⟩ := List.mem_map.1 hr
    exact RandDraw.Gaussian.group_law c p q dv.1 μ hq' ((List.forall₂_iff_zip.1 hlaw).2 (show (dv.1, dv.2) ∈ ds.zip V from hdv))

/-! ### Normal draws exist -/

/-- The draws as functions on another space. -/
def RandDraw.comp {Ω' : Type*} (d : RandDraw Ω) (f : Ω' → Ω) : RandDraw Ω' := ⟨d.rows, fun ω => d.u (f ω), fun ω => d.errors (f ω)⟩

theorem RandDraw.Gaussian.comp {Ω' : Type*} [MeasurableSpace Ω'] {d : RandDraw Ω} {μ : Measure Ω} {ν : Measure Ω'} {f : Ω' → Ω} (hf : MeasurePreserving f ν μ) {gamma v : List ℝ} (h : d.Gaussian μ gamma v) :
    (d.comp f).Gaussian ν gamma v := by
  refine ⟨fun ω => h.lenU _, fun ω => h.lenE _, h.lenV, h.nonnegG, h.posV, h.meas.comp hf.measurable, ?_⟩
  have := Measure.map_map (μ := ν) h.meas hf.measurable
  rw [hf.map_eq] at this
  exact this.symm.trans h.law

/-- Draws on the product of the spaces of the effects and of the errors. -/
def canonicalDraw (rows : List (List ℝ)) (gamma : List ℝ) : RandDraw ((Fin gamma.length → ℝ) × (Fin rows.length → ℝ)) := ⟨rows, fun ω => List.ofFn ω.1, fun ω => List.ofFn ω.2⟩

/-- The law of such draws. -/
def canonicalLaw (rows : List (List ℝ)) (gamma v : List ℝ) : Measure ((Fin gamma.length → ℝ) × (Fin rows.length → ℝ)) :=
  (Measure.pi fun j : Fin gamma.length => gaussianReal 0 (gamma.getD j 0).toNNReal).prod (Measure.pi fun i : Fin rows.length => gaussianReal 0 (v.getD i 0).toNNReal)

instance (rows : List (List ℝ)) (gamma v : List ℝ) : IsProbabilityMeasure (canonicalLaw rows gamma v) := by unfold canonicalLaw; infer_instance

theorem canonicalDraw_gaussian (rows : List (List ℝ)) (gamma v : List ℝ) (hv : v.length = rows.length) (hg : ∀ x ∈ gamma, 0 ≤ x) (hp : ∀ x ∈ v, 0 < x) :
    (canonicalDraw rows gamma).Gaussian (canonicalLaw rows gamma v) gamma v := by
  have e : (fun ω : (Fin gamma.length → ℝ) × (Fin rows.length → ℝ) => ((fun j : Fin gamma.length => (List.ofFn ω.1).getD j 0), fun i : Fin rows.length => (List.ofFn ω.2).getD i 0)) = id := by
    funext ω
    refine Prod.ext (funext fun j => ?_) (funext fun i => ?_) <;> simp [List.getD]
  refine ⟨fun ω => List.length_ofFn, fun ω => List.length_ofFn, hv, hg, hp, ?_, ?_⟩
  · exact e ▸ measurable_id
  · exact (congrArg (fun f => Measure.map f (canonicalLaw rows gamma v)) e).trans Measure.map_id

/-- Non-vacuity of C142, C143 and C144: two groups with three observations, one feature which is a fixed and a random effect; a call of `generate` with normal draws. -/
example : ∃ (Ω : Type) (_ : MeasurableSpace Ω) (μ : Measure Ω) (_ : IsProbabilityMeasure μ) (ds : List (RandDraw Ω)) (P : Ω → LmeProblem ℝ) (cs : Ω → List (ℕ × List ℝ)),
    ds.length = 2 ∧ List.Forall₂ (fun d v => d.Gaussian μ [3] v) ds [[1, 1], [1]] ∧ List.Forall₂ (fun d v => d.Lawful μ [3] v) ds [[1, 1], [1]] ∧
    (∀ ω, lmeGenerate (⟨["fixed+random"], false, false, .scalar 1, [2]⟩ : GenCfg ℝ) (ds.map fun d => d.at ω) = .ok (P ω, cs ω)) ∧ (∀ ω, (P ω).obsVars = [[1, 1], [1]]) ∧
    ∃ L0 L : Ω → ℝ, (∀ ω, lmeProblemLoss (P ω) [2] [3] = .ok (L0 ω)) ∧ (∀ ω, lmeProblemLoss (P ω) [5] [0] = .ok (L ω)) ∧ ∫ ω, L0 ω ∂μ ≤ ∫ ω, L ω ∂μ := by
  obtain ⟨d1, hd1⟩ : ∃ d, d = canonicalDraw [[3], [4]] [3] := ⟨_, rfl⟩
  obtain ⟨d2, hd2⟩ : ∃ d, d = canonicalDraw [[7]] [3] := ⟨_, rfl⟩
  have g1 : d1.Gaussian (canonicalLaw [[3], [4]] [3] [1, 1]) [3] [1, 1] := hd1 ▸ canonicalDraw_gaussian _ _ _ rfl (by simp) (by simp)
  have g2 : d2.Gaussian (canonicalLaw [[7]] [3] [1]) [3] [1] := hd2 ▸ canonicalDraw_gaussian _ _ _ rfl (by simp) (by simp)
  have G : List.Forall₂ (fun d v => d.Gaussian ((canonicalLaw [[3], [4]] [3] [1, 1]).prod (canonicalLaw [[7]] [3] [1])) [3] v) [d1.comp Prod.fst, d2.comp Prod.snd] [[1, 1], [1]] :=
    .cons (g1.comp measurePreserving_fst) (.cons (g2.comp measurePreserving_snd) .nil)
  have hgen : ∀ ω, ∃ Pc : LmeProblem ℝ × List (ℕ × List ℝ), lmeGenerate (⟨["fixed+random"], false, false, .scalar 1, [2]⟩ : GenCfg ℝ) ([d1.comp Prod.fst, d2.comp Prod.snd].map fun d => d.at ω) = .ok Pc ∧
      Pc.1.obsVars = [[1, 1], [1]] := by
    intro ω
    obtain ⟨u1, e1, e2, hω1⟩ : ∃ u1 e1 e2, (d1.comp Prod.fst).at ω = (⟨[[3], [4]], [u1], [e1, e2]⟩ : GenDraw ℝ) := ⟨ω.1.1 0, ω.1.2 0, ω.1.2 1, by rw [hd1]; rfl⟩
    obtain ⟨u2, e3, hω2⟩ : ∃ u2 e3, (d2.comp Prod.snd).at ω = (⟨[[7]], [u2], [e3]⟩ : GenDraw ℝ) := ⟨ω.2.1 0, ω.2.2 0, by rw [hd2]; rfl⟩
    simp only [List.map_cons, List.map_nil, hω1, hω2]
    have hgs : genGroups (⟨["fixed+random"], false, false, .scalar 1, [2]⟩ : GenCfg ℝ) [2, 1] 0 0 [⟨[[3], [4]], [u1], [e1, e2]⟩, ⟨[[7]], [u2], [e3]⟩] =
        .ok [⟨[[3], [4]], .rows [[3], [4]], [3 * 2 + 3 * u1 + e1, 4 * 2 + 4 * u1 + e2], [1, 1]⟩, ⟨[[7]], .rows [[7]], [7 * 2 + 7 * u2 + e3], [1]⟩] := by
      have h3 : genNum ["fixed+random"] isRandom false = 1 := by decide
      have h1 : ∀ x : ℝ, genRow ["fixed+random"] isFixed false [x] = [x] := fun x => by simp [genRow, isFixed, FIXED_RANDOM, FIXED, List.range_succ]
      have h2 : ∀ x : ℝ, genRow ["fixed+random"] isRandom false [x] = [x] := fun x => by simp [genRow, isRandom, FIXED_RANDOM, RANDOM, List.range_succ]
      rw [genGroups_cons]
      refine ⟨_, [1, 1], [3 * 2 + 3 * u1 + e1, 4 * 2 + 4 * u1 + e2], [⟨[[7]], .rows [[7]], [7 * 2 + 7 * u2 + e3], [1]⟩], rfl, rfl, ?_, ?_, ?_⟩
      · simp only [List.zip_cons_cons, List.zip_nil_right, List.mapM_cons, List.mapM_nil, genAnswer, genRandomPart, h1, h2, h3, listDot]
        simp [bind, Except.bind, pure, Except.pure]
      · rw [genGroups_cons]
        refine ⟨_, [1], [7 * 2 + 7 * u2 + e3], [], rfl, rfl, ?_, rfl, ?_⟩
        · simp only [List.zip_cons_cons, List.zip_nil_right, List.mapM_cons, List.mapM_nil, genAnswer, genRandomPart, h1, h2, h3, listDot]
          simp [bind, Except.bind, pure, Except.pure]
        · simp [h1, h2, h3]
      · simp [h1, h2, h3]
    exact ⟨_, (lmeGenerate_ok _ _ _ _).2 ⟨by decide, by decide, _, hgs, rfl, rfl⟩, rfl⟩
  choose Pc h1 h2 using hgen
  have hL := G.imp fun d v h => h.lawful
  refine ⟨_, _, _, inferInstance, _, fun ω => (Pc ω).1, fun ω => (Pc ω).2, rfl, G, hL, fun ω => h1 ω, h2, ?_⟩
  obtain ⟨L0, L, a1, a2, -, -, a3⟩ := (C143_generated _ _ [3] [[1, 1], [1]] (.inr (.inr (by simp))) (by simp) hL (fun ω => (Pc ω).1) (fun ω => (Pc ω).2) (fun ω => h1 ω) h2).2 (by simp) (by simp) [5] [0] rfl rfl (by simp)
  exact ⟨L0, L, a1, a2, a3⟩

end

end Verif
