import Verif.Props.LmeShrink
import Verif.Props.LinPath

/-!
# C205: larger variances follow the data more closely
-/

open Matrix

namespace Verif

variable {p q : ℕ}

theorem MaskExact.scale {gamma : Vec ℝ q} (h : MaskExact gamma) {t : ℝ} (ht : 1 ≤ t) : MaskExact fun j => t * gamma j := by
  intro j
  rcases h j with h | h
  · left
    simp [h]
  · right
    have : 0 ≤ gamma j := le_trans (by norm_num) h.le
    nlinarith

theorem blup_le {g : LmeGroup p q} {gamma : Vec ℝ q} (hl : ∀ i, 0 < g.l i) (hg : ∀ j, 0 ≤ gamma j) (beta : Vec ℝ p) (u : Vec ℝ q) (hu : ∀ j, gamma j = 0 → u j = 0) :
    blupCriterion g beta gamma (blup g beta gamma) ≤ blupCriterion g beta gamma u := by
  by_cases h : u = blup g beta gamma
  · rw [h]
  · exact (blup_minimises hl hg beta u hu h).le

theorem blup_zero (g : LmeGroup p q) (beta : Vec ℝ p) {gamma : Vec ℝ q} {j : Fin q} (h : gamma j = 0) : blup g beta gamma j = 0 := by
  rw [blup_apply, h, zero_mul]

/-- Two random effects of different variances with the same ratios. -/
theorem blup_scale {g : LmeGroup p q} {gamma : Vec ℝ q} (hl : ∀ i, 0 < g.l i) (hg : ∀ j, 0 ≤ gamma j) (beta : Vec ℝ p) {t : ℝ} (ht : 1 ≤ t) (u u' : Vec ℝ q)
    (hu : u = blup g beta gamma) (hu' : u' = blup g beta fun j => t * gamma j) :
    ∑ i, (residual g beta i - ∑ j, g.z i j * u' j) ^ 2 / g.l i ≤ ∑ i, (residual g beta i - ∑ j, g.z i j * u j) ^ 2 / g.l i ∧
    ∑ j, u j ^ 2 / gamma j ≤ ∑ j, u' j ^ 2 / gamma j := by
  have ht0 : 0 < t := by linarith
  have hz : ∀ j, gamma j = 0 → u j = 0 := fun j h => by rw [hu]; exact blup_zero g beta h
  have hz' : ∀ j, gamma j = 0 → u' j = 0 := fun j h => by rw [hu']; exact blup_zero g beta (by simp [h])
  have hcost : ∀ w : Vec ℝ q, ∑ j, (if gamma j = 0 then 0 else w j ^ 2 / gamma j) = ∑ j, w j ^ 2 / gamma j := by
    intro w
    refine Finset.sum_congr rfl fun j _ => ?_
    split
    · rename_i h; rw [h, div_zero]
    · rfl
  have hcost' : ∀ w : Vec ℝ q, ∑ j, (if t * gamma j = 0 then 0 else w j ^ 2 / (t * gamma j)) = 1 / t * ∑ j, w j ^ 2 / gamma j := by
    intro w
    rw [Finset.mul_sum]
    refine Finset.sum_congr rfl fun j _ => ?_
    by_cases h : gamma j = 0
    · simp [h]
    · rw [if_neg (mul_ne_zero ht0.ne' h)]
      field_simp
  have H1 := blup_le hl hg beta u' hz'
  have H2 := blup_le (gamma := fun j => t * gamma j) hl (fun j => mul_nonneg ht0.le (hg j)) beta u
    (fun j h => hz j ((mul_eq_zero.1 h).resolve_left ht0.ne'))
  rw [← hu] at H1
  rw [← hu'] at H2
  unfold blupCriterion at H1 H2
  simp only [hcost, hcost'] at H1 H2
  rcases ht.eq_or_lt with rfl | ht1
  · have : u = u' := by rw [hu, hu']; simp
    rw [this]
    exact ⟨le_rfl, le_rfl⟩
  · have hlt : 1 / t < 1 := by rw [div_lt_one ht0]; exact ht1
    have := path_gap (f1 := ∑ i, (residual g beta i - ∑ j, g.z i j * u' j) ^ 2 / g.l i) (f2 := ∑ i, (residual g beta i - ∑ j, g.z i j * u j) ^ 2 / g.l i)
      (h1 := ∑ j, u' j ^ 2 / gamma j) (h2 := ∑ j, u j ^ 2 / gamma j) (e1 := 0) (e2 := 0) (one_div_pos.2 ht0).le hlt (by linarith) (by linarith)
    constructor
    · simpa using this.2
    · simpa using this.1

/-- **C205**: with positive observation variances and variances that are zero or above the threshold of the code, multiplying all variances
by `t ≥ 1` lets `optimal_random_effects` follow the data more closely: in every group the weighted squared
residuals do not increase, and the squares of the random effects, relative to the old variances, do not decrease. -/
theorem C205_scale (D : List (LmeGroup p q)) (hD : PosVar D) (beta : Vec ℝ p) (gamma : Vec ℝ q) (hm : MaskExact gamma) (t : ℝ) (ht : 1 ≤ t) :
    ∃ us us', lmeRandomEffects D beta gamma = .ok us ∧ lmeRandomEffects D beta (fun j => t * gamma j) = .ok us' ∧ us.length = D.length ∧ us'.length = D.length ∧
      ∀ (i : ℕ) (g : LmeGroup p q) (u u' : Vec ℝ q), D[i]? = some g → us[i]? = some u → us'[i]? = some u' →
        ∑ r, (g.y r - ∑ k, g.x r k * beta k - ∑ j, g.z r j * u' j) ^ 2 / g.l r ≤ ∑ r, (g.y r - ∑ k, g.x r k * beta k - ∑ j, g.z r j * u j) ^ 2 / g.l r ∧
        ∑ j, u j ^ 2 / gamma j ≤ ∑ j, u' j ^ 2 / gamma j := by
  refine ⟨_, _, lmeRandomEffects_eq hD hm beta, lmeRandomEffects_eq hD (hm.scale ht) beta, List.length_map _, List.length_map _, fun i g u u' hg hu hu' => ?_⟩
  rw [List.getElem?_map, hg] at hu hu'
  have hgD : g ∈ D := List.mem_of_getElem? hg
  exact blup_scale (hD g hgD) hm.nonneg beta ht u u' (Option.some.inj hu).symm (Option.some.inj hu').symm

/-- Non-vacuity of C205: one observation `2` of variance `1`; the variance of the random effect is multiplied by three. -/
example : ∃ us us', lmeRandomEffects [(⟨1, !![0], ![2], !![1], ![1]⟩ : LmeGroup 1 1)] 0 ![1] = .ok us ∧
    lmeRandomEffects [(⟨1, !![0], ![2], !![1], ![1]⟩ : LmeGroup 1 1)] 0 (fun j => 3 * (![1] : Vec ℝ 1) j) = .ok us' ∧
    ∀ u u' : Vec ℝ 1, us[0]? = some u → us'[0]? = some u' → (2 - u' 0) ^ 2 ≤ (2 - u 0) ^ 2 ∧ u 0 ^ 2 ≤ u' 0 ^ 2 := by
  have hD : PosVar [(⟨1, !![0], ![2], !![1], ![1]⟩ : LmeGroup 1 1)] := by
    intro g hg
    rw [List.mem_singleton.1 hg]
    intro i
    change 0 < (![1] : Vec ℝ 1) i
    fin_cases i
    simp
  obtain ⟨us, us', h, h', -, -, hall⟩ := C205_scale _ hD 0 ![1] (fun j => by fin_cases j; right; norm_num) 3 (by norm_num)
  refine ⟨us, us', h, h', fun u u' hu hu' => ?_⟩
  have := hall 0 _ u u' rfl hu hu'
  simpa using this

end Verif
