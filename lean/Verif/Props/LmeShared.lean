import Verif.Props.LmeHenderson
import Verif.Props.LmePull

/-!
# C218: random effects of shared features sum to zero over the groups
-/

open Matrix

namespace Verif

variable {p q : ℕ}

/-- The sum over the groups of the effects of a shared feature is a combination of the scores of the fixed effects. -/
theorem sum_effects (beta : Vec ℝ p) (gamma : Vec ℝ q) (j : Fin q) (c : Vec ℝ p) (D : List (LmeGroup p q)) (hj : ∀ g ∈ D, ∀ r, g.z r j = ∑ k, g.x r k * c k) :
    ((D.map fun g => blup g beta gamma).map fun u => u j).sum
      = -(gamma j * (c ⬝ᵥ (D.map fun g => -(g.xᵀ *ᵥ ((margCov g gamma)⁻¹ *ᵥ residual g beta))).sum)) := by
  induction D with
  | nil => simp
  | cons g l ih =>
    simp only [List.map_cons, List.sum_cons]
    rw [ih fun g' hg' => hj g' (List.mem_cons_of_mem _ hg'), blup_apply, dotProduct_add, dotProduct_neg]
    have ez : (g.zᵀ *ᵥ ((margCov g gamma)⁻¹ *ᵥ residual g beta)) j = c ⬝ᵥ (g.xᵀ *ᵥ ((margCov g gamma)⁻¹ *ᵥ residual g beta)) := by
      generalize (margCov g gamma)⁻¹ *ᵥ residual g beta = w
      simp only [mulVec, dotProduct, transpose_apply]
      simp only [hj g List.mem_cons_self, Finset.sum_mul, Finset.mul_sum]
      rw [Finset.sum_comm]
      exact Finset.sum_congr rfl fun k _ => Finset.sum_congr rfl fun r _ => by ring
    rw [ez]
    ring

/-- **C218**: if a random feature is the same combination of the fixed features in every group (in particular if it is one of them, such as the intercept), its random effects predicted at the
result of `optimal_beta` sum to zero over the groups. -/
theorem C218_shared (D : List (LmeGroup p q)) (hD : PosVar D) (gamma : Vec ℝ q) (hm : MaskExact gamma) (beta : Vec ℝ p) (hb : lmeOptimalBeta D gamma = .ok beta)
    (j : Fin q) (c : Vec ℝ p) (hj : ∀ g ∈ D, ∀ r, g.z r j = ∑ k, g.x r k * c k) :
    ∃ us, lmeRandomEffects D beta gamma = .ok us ∧ (us.map fun u => u j).sum = 0 := by
  refine ⟨_, lmeRandomEffects_eq hD hm beta, ?_⟩
  have h0 : (D.map fun g => -(g.xᵀ *ᵥ ((margCov g gamma)⁻¹ *ᵥ residual g beta))).sum = 0 := by
    unfold lmeOptimalBeta at hb
    rw [ebind_ok] at hb
    obtain ⟨a, h1, h2⟩ := hb
    obtain ⟨hd, rfl⟩ := lmeKernelTail_ok.1 h1
    obtain ⟨hu, hs⟩ := npSolve_ok.1 h2
    simp only at hu hs
    rw [gradBeta_kernel_tail, hs, sub_self]
  rw [sum_effects beta gamma j c D hj, h0, dotProduct_zero, mul_zero, neg_zero]

/-- **C218** for SR3: at the result of the SR3 `optimal_beta` the random effects of such a feature sum to its variance times the relaxation constant times the same combination of the distances between the fixed
effects and the relaxed ones. -/
theorem C218_sr3 (D : List (LmeGroup p q)) (hD : PosVar D) (gamma : Vec ℝ q) (hm : MaskExact gamma) (S : Sr3Params) (tbeta beta : Vec ℝ p) (hb : lmeSr3OptimalBeta D S gamma tbeta = .ok beta)
    (j : Fin q) (c : Vec ℝ p) (hj : ∀ g ∈ D, ∀ r, g.z r j = ∑ k, g.x r k * c k) :
    ∃ us, lmeRandomEffects D beta gamma = .ok us ∧ (us.map fun u => u j).sum = gamma j * (S.lb * ∑ k, c k * (beta k - tbeta k)) := by
  refine ⟨_, lmeRandomEffects_eq hD hm beta, ?_⟩
  have h0 : (D.map fun g => -(g.xᵀ *ᵥ ((margCov g gamma)⁻¹ *ᵥ residual g beta))).sum = -(S.lb • (beta - tbeta)) := by
    have h1 := sr3Beta_normal hb
    rw [Matrix.add_mulVec, Matrix.smul_mulVec, Matrix.one_mulVec] at h1
    rw [gradBeta_kernel_tail, smul_sub, neg_sub, sub_eq_sub_iff_add_eq_add, add_comm, h1]
  rw [sum_effects beta gamma j c D hj, h0, dotProduct_neg, dotProduct_smul, smul_eq_mul, mul_neg, neg_neg]
  rfl

/-- Two observations `1, 3` and one observation `7` with a fixed and a random intercept. -/
def sharedGroups : List (LmeGroup 1 1) := [⟨2, Matrix.of fun _ _ => 1, ![1, 3], Matrix.of fun _ _ => 1, fun _ => 1⟩, ⟨1, Matrix.of fun _ _ => 1, ![7], Matrix.of fun _ _ => 1, fun _ => 1⟩]

theorem sharedGroups_pos : PosVar sharedGroups := by
  intro g hg
  rcases List.mem_cons.1 hg with rfl | hg
  · exact fun i => zero_lt_one
  · rw [List.mem_singleton.1 hg]
    exact fun i => zero_lt_one

/-- Non-vacuity of C218: the two random intercepts sum to zero. -/
example : ∃ (beta : Vec ℝ 1) (us : List (Vec ℝ 1)), lmeOptimalBeta sharedGroups (fun _ => 1) = .ok beta ∧ lmeRandomEffects sharedGroups beta (fun _ => 1) = .ok us ∧ (us.map fun u => u 0).sum = 0 := by
  have hm : MaskExact (fun _ : Fin 1 => (1 : ℝ)) := fun j => .inr (by norm_num)
  obtain ⟨beta, hb⟩ : ∃ beta, lmeOptimalBeta sharedGroups (fun _ : Fin 1 => (1 : ℝ)) = .ok beta := by
    refine ⟨_, lmeOptimalBeta_ok.2 ⟨inDomain_of_nonneg sharedGroups_pos hm.nonneg, (kernel_unit_iff sharedGroups_pos hm.nonneg).2 fun b hb => ?_, rfl⟩⟩
    have h1 := congrFun (hb _ List.mem_cons_self) (0 : Fin 2)
    change ∑ j : Fin 1, (1 : ℝ) * b j = 0 at h1
    funext j
    rw [Subsingleton.elim j 0]
    simpa using h1
  obtain ⟨us, h, h0⟩ := C218_shared _ sharedGroups_pos _ hm beta hb 0 (fun _ => 1) (by
    intro g hg
    rcases List.mem_cons.1 hg with rfl | hg
    · intro r; simp
    · rw [List.mem_singleton.1 hg]
      intro r; simp)
  exact ⟨beta, us, hb, h, h0⟩

/-- Non-vacuity of the SR3 version: relaxed intercept `5`, relaxation constant `3`. -/
example : ∃ (beta : Vec ℝ 1) (us : List (Vec ℝ 1)), lmeSr3OptimalBeta sharedGroups ⟨3, 1⟩ (fun _ => 1) ![5] = .ok beta ∧ lmeRandomEffects sharedGroups beta (fun _ => 1) = .ok us ∧
    (us.map fun u => u 0).sum = 1 * (3 * ∑ k, 1 * (beta k - (![5] : Vec ℝ 1) k)) := by
  have hm : MaskExact (fun _ : Fin 1 => (1 : ℝ)) := fun j => .inr (by norm_num)
  obtain ⟨beta, -, -, -, hb, -⟩ := C209_pull sharedGroups sharedGroups_pos (fun _ => 1) hm.nonneg ⟨3, 1⟩ ⟨3, 1⟩ (by norm_num) le_rfl ![5]
  obtain ⟨us, h, h0⟩ := C218_sr3 _ sharedGroups_pos _ hm _ _ beta hb 0 (fun _ => 1) (by
    intro g hg
    rcases List.mem_cons.1 hg with rfl | hg
    · intro r; simp
    · rw [List.mem_singleton.1 hg]
      intro r; simp)
  exact ⟨beta, us, hb, h, h0⟩

end Verif
