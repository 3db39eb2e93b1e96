import Verif.Props.LmeLoss

/-!
# C59: random effects are the best linear unbiased predictions
-/

open Matrix

namespace Verif

variable {p q : ℕ}

/-- `gamma` is treated without rounding by the mask `|gamma| > 1e-10`: every entry is zero or larger. -/
def MaskExact (gamma : Vec ℝ q) : Prop := ∀ j, gamma j = 0 ∨ 1e-10 < gamma j

theorem MaskExact.nonneg {gamma : Vec ℝ q} (h : MaskExact gamma) (j : Fin q) : 0 ≤ gamma j := by
  rcases h j with h | h
  · rw [h]
  · exact le_trans (by norm_num) h.le

theorem MaskExact.mem {gamma : Vec ℝ q} (h : MaskExact gamma) {j : Fin q} :
    1e-10 < |gamma j| ↔ gamma j ≠ 0 := by
  constructor
  · intro hj h0
    rw [h0, abs_zero] at hj
    norm_num at hj
  · intro h0
    rcases h j with h1 | h1
    · exact absurd h1 h0
    · rwa [abs_of_nonneg (h.nonneg j)]

/-- A sum over the mask of a function vanishing outside is a sum over everything. -/
theorem sum_mask {gamma : Vec ℝ q} (h : MaskExact gamma) [F : Fintype (LmeMask gamma)] (f : Fin q → ℝ)
    (hf : ∀ j, gamma j = 0 → f j = 0) : ∑ m : LmeMask gamma, f m.1 = ∑ j, f j := by
  classical
  rw [← Finset.sum_subtype (Finset.univ.filter fun j => 1e-10 < |gamma j|) (by simp) f]
  refine Finset.sum_subset (Finset.filter_subset _ _) fun j _ hj => hf j ?_
  by_contra h0
  exact hj (Finset.mem_filter.2 ⟨Finset.mem_univ _, h.mem.2 h0⟩)

/-- The best linear unbiased prediction `diag(γ) Zᵀ Ω⁻¹ (y - Xβ)`. -/
noncomputable def blup (g : LmeGroup p q) (beta : Vec ℝ p) (gamma : Vec ℝ q) : Vec ℝ q :=
  diagonal gamma *ᵥ (g.zᵀ *ᵥ ((margCov g gamma)⁻¹ *ᵥ residual g beta))

theorem blup_apply (g : LmeGroup p q) (beta : Vec ℝ p) (gamma : Vec ℝ q) (j : Fin q) :
    blup g beta gamma j = gamma j * (g.zᵀ *ᵥ ((margCov g gamma)⁻¹ *ᵥ residual g beta)) j := by
  unfold blup
  rw [Matrix.mulVec_diagonal]

/-- `Z u = ξ - Λ Ω⁻¹ ξ`. -/
theorem z_blup {g : LmeGroup p q} {gamma : Vec ℝ q} (h : (margCov g gamma).PosDef) (beta : Vec ℝ p)
    (i : Fin g.n) : (g.z *ᵥ blup g beta gamma) i =
      residual g beta i - g.l i * ((margCov g gamma)⁻¹ *ᵥ residual g beta) i := by
  have hu : IsUnit (margCov g gamma).det := (Matrix.isUnit_iff_isUnit_det _).1 h.isUnit
  have e1 : margCov g gamma *ᵥ ((margCov g gamma)⁻¹ *ᵥ residual g beta) = residual g beta := by
    rw [Matrix.mulVec_mulVec, Matrix.mul_nonsing_inv _ hu, Matrix.one_mulVec]
  have e2 := congrFun e1 i
  have e3 : (margCov g gamma *ᵥ ((margCov g gamma)⁻¹ *ᵥ residual g beta)) i =
      (g.z *ᵥ blup g beta gamma) i + g.l i * ((margCov g gamma)⁻¹ *ᵥ residual g beta) i := by
    generalize hw : (margCov g gamma)⁻¹ *ᵥ residual g beta = w
    unfold blup
    rw [hw]
    unfold margCov
    rw [Matrix.add_mulVec, Pi.add_apply, Matrix.mulVec_diagonal, ← Matrix.mulVec_mulVec,
      ← Matrix.mulVec_mulVec]
  rw [e3] at e2
  linarith

theorem reKernel_posDef (g : LmeGroup p q) (gamma : Vec ℝ q) (hl : ∀ i, 0 < g.l i) (hm : MaskExact gamma) :
    (reKernel g gamma).PosDef := by
  classical
  unfold reKernel
  refine Matrix.PosDef.add_posSemidef ?_ ?_
  · have : ∀ j : LmeMask gamma, 0 < 1 / gamma j.1 := fun j =>
      one_div_pos.2 (lt_of_le_of_ne (hm.nonneg j.1) (hm.mem.1 j.2).symm)
    convert! PosDef.diagonal this
  · have h1 := (PosSemidef.diagonal (n := Fin g.n) (d := fun i => 1 / g.l i)
      (fun i => (one_div_pos.2 (hl i)).le)).conjTranspose_mul_mul_same (g.zMasked gamma)
    simpa [conjTranspose_eq_transpose_of_trivial] using h1

theorem lmeRandomEffect_eq {g : LmeGroup p q} {gamma : Vec ℝ q} (hl : ∀ i, 0 < g.l i) (hm : MaskExact gamma)
    (beta : Vec ℝ p) : lmeRandomEffect g beta gamma = .ok (blup g beta gamma) := by
  classical
  have hpd := margCov_posDef g gamma hl hm.nonneg
  unfold lmeRandomEffect
  rw [ebind_ok]
  refine ⟨fun m => blup g beta gamma m.1, ?_, ?_⟩
  · rw [npSolve_ok]
    refine ⟨(Matrix.isUnit_iff_isUnit_det _).1 (reKernel_posDef g gamma hl hm).isUnit, ?_⟩
    have hz : g.zMasked gamma *ᵥ (fun m : LmeMask gamma => blup g beta gamma m.1)
        = g.z *ᵥ blup g beta gamma := by
      funext i
      simp only [Matrix.mulVec, dotProduct, LmeGroup.zMasked, Matrix.submatrix_apply, id]
      exact sum_mask hm (fun j => g.z i j * blup g beta gamma j) fun j hj => by
        rw [blup_apply, hj]; ring
    unfold reKernel
    rw [Matrix.add_mulVec, ← Matrix.mulVec_mulVec, hz, ← Matrix.mulVec_mulVec, ← Matrix.mulVec_mulVec]
    funext m
    have hgm : gamma m.1 ≠ 0 := hm.mem.1 m.2
    rw [Pi.add_apply, Matrix.mulVec_diagonal, blup_apply]
    have e1 : ∀ v : Fin g.n → ℝ, ((g.zMasked gamma)ᵀ *ᵥ v) m = (g.zᵀ *ᵥ v) m.1 := by
      intro v
      simp only [Matrix.mulVec, dotProduct, LmeGroup.zMasked, Matrix.transpose_apply,
        Matrix.submatrix_apply, id]
    have e2 : diagonal (fun i => 1 / g.l i) *ᵥ (g.z *ᵥ blup g beta gamma)
        = diagonal (fun i => 1 / g.l i) *ᵥ residual g beta - (margCov g gamma)⁻¹ *ᵥ residual g beta := by
      funext i
      rw [Pi.sub_apply, Matrix.mulVec_diagonal, Matrix.mulVec_diagonal, z_blup hpd]
      have := (hl i).ne'
      field_simp
    rw [e1, e1, e2, xi_eq_residual, Matrix.mulVec_sub, Pi.sub_apply]
    field_simp
    ring
  · change Except.ok _ = _
    congr 1
    funext j
    unfold scatterMask
    by_cases hj : 1e-10 < |gamma j|
    · rw [dif_pos hj]
    · rw [dif_neg hj, blup_apply]
      have : gamma j = 0 := by
        by_contra h0
        exact hj (hm.mem.2 h0)
      rw [this, zero_mul]

theorem mapM_ok_const {α β : Type*} {f : α → Except PyErr β} {h : α → β} (l : List α)
    (hf : ∀ a ∈ l, f a = .ok (h a)) : l.mapM f = .ok (l.map h) := by
  induction l with
  | nil => rfl
  | cons a l ih =>
    rw [List.mapM_cons, hf a List.mem_cons_self, ih fun b hb => hf b (List.mem_cons_of_mem _ hb)]
    rfl

theorem lmeRandomEffects_eq {D : List (LmeGroup p q)} {gamma : Vec ℝ q} (hD : PosVar D) (hm : MaskExact gamma)
    (beta : Vec ℝ p) : lmeRandomEffects D beta gamma = .ok (D.map fun g => blup g beta gamma) := by
  unfold lmeRandomEffects
  rw [ebind_ok]
  exact ⟨_, lmeRecalculate_ok.2 ⟨inDomain_of_nonneg hD hm.nonneg, rfl⟩,
    mapM_ok_const D fun g hg => lmeRandomEffect_eq (hD g hg) hm beta⟩

/-- The prediction strictly minimises the penalised criterion among vectors vanishing where the variance does. -/
theorem blup_minimises {g : LmeGroup p q} {gamma : Vec ℝ q} (hl : ∀ i, 0 < g.l i) (hg : ∀ j, 0 ≤ gamma j)
    (beta : Vec ℝ p) (u : Vec ℝ q) (hu : ∀ j, gamma j = 0 → u j = 0) (hne : u ≠ blup g beta gamma) :
    blupCriterion g beta gamma (blup g beta gamma) < blupCriterion g beta gamma u := by
  have hpd := margCov_posDef g gamma hl hg
  set b := blup g beta gamma with hb
  set w := (margCov g gamma)⁻¹ *ᵥ residual g beta with hw
  set d : Vec ℝ q := fun j => u j - b j with hd
  have hbz : ∀ i, ∑ j, g.z i j * b j = residual g beta i - g.l i * w i := fun i => z_blup hpd beta i
  have hdz : ∀ i, ∑ j, g.z i j * u j = residual g beta i - g.l i * w i + ∑ j, g.z i j * d j := by
    intro i
    rw [← hbz, ← Finset.sum_add_distrib]
    exact Finset.sum_congr rfl fun j _ => by simp only [hd]; ring
  have hbj : ∀ j, b j = gamma j * ∑ i, g.z i j * w i := by
    intro j
    rw [hb, blup_apply]
    rfl
  have key : blupCriterion g beta gamma u = blupCriterion g beta gamma b
      + 1 / 2 * ∑ i, (∑ j, g.z i j * d j) ^ 2 / g.l i
      + 1 / 2 * ∑ j, (if gamma j = 0 then 0 else d j ^ 2 / gamma j) := by
    have e1 : ∑ i, (residual g beta i - ∑ j, g.z i j * u j) ^ 2 / g.l i =
        ∑ i, (residual g beta i - ∑ j, g.z i j * b j) ^ 2 / g.l i
          + ∑ i, (∑ j, g.z i j * d j) ^ 2 / g.l i - 2 * ∑ i, w i * ∑ j, g.z i j * d j := by
      rw [Finset.mul_sum, ← Finset.sum_add_distrib, ← Finset.sum_sub_distrib]
      refine Finset.sum_congr rfl fun i _ => ?_
      rw [hdz, hbz]
      have := (hl i).ne'
      field_simp
      ring
    have e2 : ∑ j, (if gamma j = 0 then 0 else u j ^ 2 / gamma j) =
        ∑ j, (if gamma j = 0 then 0 else b j ^ 2 / gamma j)
          + ∑ j, (if gamma j = 0 then 0 else d j ^ 2 / gamma j)
          + 2 * ∑ j, d j * ∑ i, g.z i j * w i := by
      rw [Finset.mul_sum, ← Finset.sum_add_distrib, ← Finset.sum_add_distrib]
      refine Finset.sum_congr rfl fun j _ => ?_
      by_cases h0 : gamma j = 0
      · have h1 : b j = 0 := by rw [hbj, h0, zero_mul]
        have h2 : d j = 0 := by simp only [hd]; rw [hu j h0, h1, sub_zero]
        rw [if_pos h0, if_pos h0, if_pos h0, h2]
        ring
      · rw [if_neg h0, if_neg h0, if_neg h0]
        have h1 : u j = b j + d j := by simp only [hd]; ring
        have h2 := hbj j
        generalize (∑ i, g.z i j * w i) = s at *
        rw [h1, h2]
        field_simp
        ring
    have e3 : ∑ i, w i * ∑ j, g.z i j * d j = ∑ j, d j * ∑ i, g.z i j * w i := by
      simp only [Finset.mul_sum]
      rw [Finset.sum_comm]
      exact Finset.sum_congr rfl fun j _ => Finset.sum_congr rfl fun i _ => by ring
    unfold blupCriterion
    rw [e1, e2, e3]
    ring
  have p1 : 0 ≤ ∑ i, (∑ j, g.z i j * d j) ^ 2 / g.l i :=
    Finset.sum_nonneg fun i _ => div_nonneg (sq_nonneg _) (hl i).le
  have p2 : 0 < ∑ j, (if gamma j = 0 then 0 else d j ^ 2 / gamma j) := by
    obtain ⟨j, hj⟩ := Function.ne_iff.1 hne
    have h0 : gamma j ≠ 0 := by
      intro h0
      refine hj ?_
      rw [hu j h0, hbj, h0, zero_mul]
    have hdj : d j ≠ 0 := sub_ne_zero.2 hj
    refine Finset.sum_pos' (fun k _ => ?_) ⟨j, Finset.mem_univ _, ?_⟩
    · split_ifs
      · exact le_refl _
      · exact div_nonneg (sq_nonneg _) (hg k)
    · rw [if_neg h0]
      exact div_pos (by positivity) (lt_of_le_of_ne (hg j) (Ne.symm h0))
  rw [key]
  linarith

/-- **C59**: for every list of groups with positive observation variances, all fixed effects and every
`gamma` whose entries are zero or above the mask threshold, `optimal_random_effects` returns, one vector per
group in order; the vector of a group is `diag(γ) Zᵀ Ω⁻¹ (y - Xβ)`, it is exactly zero where the variance is
zero, and it is the unique minimiser of the group's penalised least-squares criterion. -/
theorem C59_random_effects (D : List (LmeGroup p q)) (hD : PosVar D) (beta : Vec ℝ p) (gamma : Vec ℝ q)
    (hm : MaskExact gamma) :
    ∃ us, lmeRandomEffects D beta gamma = .ok us ∧
      List.Forall₂ (fun g u =>
        u = diagonal gamma *ᵥ (g.zᵀ *ᵥ ((g.z * diagonal gamma * g.zᵀ + diagonal g.l)⁻¹ *ᵥ residual g beta)) ∧
        (∀ j, gamma j = 0 → u j = 0) ∧
        ∀ u', (∀ j, gamma j = 0 → u' j = 0) → u' ≠ u →
          blupCriterion g beta gamma u < blupCriterion g beta gamma u') D us := by
  refine ⟨_, lmeRandomEffects_eq hD hm beta, ?_⟩
  rw [List.forall₂_map_right_iff, List.forall₂_same]
  intro g hg
  refine ⟨rfl, fun j hj => ?_, fun u' hu' hne => blup_minimises (hD g hg) hm.nonneg beta u' hu' hne⟩
  rw [blup_apply, hj, zero_mul]

/-- C59 on a concrete problem (variance 1, mask satisfied). -/
example : ∃ us, lmeRandomEffects [exGroup] ![1] ![1] = .ok us ∧ us.length = 1 := by
  obtain ⟨us, h, h2⟩ := C59_random_effects [exGroup] exGroup_posVar ![1] ![1]
    (by intro j; fin_cases j; right; norm_num)
  exact ⟨us, h, h2.length_eq.symm⟩

end Verif
