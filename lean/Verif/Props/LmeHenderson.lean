import Verif.Props.LmeScaleVar

/-!
# C206: optimal fixed effects and random effects solve Henderson's equations
-/

open Matrix

namespace Verif

variable {p q : ℕ}

/-- The remaining residuals over the observation variances are the whitened residuals. -/
theorem remaining_over_var {g : LmeGroup p q} {gamma : Vec ℝ q} (hl : ∀ i, 0 < g.l i) (hg : ∀ j, 0 ≤ gamma j) (beta : Vec ℝ p) (i : Fin g.n) :
    (residual g beta i - ∑ j, g.z i j * blup g beta gamma j) / g.l i = ((margCov g gamma)⁻¹ *ᵥ residual g beta) i := by
  have h := z_blup (margCov_posDef g gamma hl hg) beta i
  change ∑ j, g.z i j * blup g beta gamma j = _ at h
  rw [h, div_eq_iff (hl i).ne']
  ring

/-- The criterion at its minimiser. -/
theorem blupCriterion_blup {g : LmeGroup p q} {gamma : Vec ℝ q} (hl : ∀ i, 0 < g.l i) (hm : MaskExact gamma) (beta : Vec ℝ p) :
    blupCriterion g beta gamma (blup g beta gamma) = 1 / 2 * (residual g beta ⬝ᵥ ((margCov g gamma)⁻¹ *ᵥ residual g beta)) := by
  have hb := effects_balance (lmeRandomEffect_eq hl hm beta)
  have hcost : ∑ j, (if gamma j = 0 then 0 else blup g beta gamma j ^ 2 / gamma j) = ∑ j, blup g beta gamma j ^ 2 / gamma j := by
    refine Finset.sum_congr rfl fun j _ => ?_
    split
    · rename_i h; rw [h, div_zero]
    · rfl
  unfold blupCriterion
  rw [hcost, ← hb, ← mul_add, ← Finset.sum_add_distrib]
  congr 1
  unfold dotProduct
  refine Finset.sum_congr rfl fun i _ => ?_
  rw [← remaining_over_var hl hm.nonneg beta i]
  change (residual g beta i - ∑ j, g.z i j * blup g beta gamma j) ^ 2 / g.l i + (∑ j, g.z i j * blup g beta gamma j) * (residual g beta i - ∑ j, g.z i j * blup g beta gamma j) / g.l i = _
  ring

theorem sum_zip_le {α β : Type*} (l : List α) (us : List β) (f : α → ℝ) (h : α → β → ℝ) (hlen : us.length = l.length) (H : ∀ a ∈ l, ∀ b ∈ us, f a ≤ h a b) :
    (l.map f).sum ≤ ((l.zip us).map fun ab => h ab.1 ab.2).sum := by
  induction l generalizing us with
  | nil => simp
  | cons a l ih =>
    cases us with
    | nil => simp at hlen
    | cons b us =>
      rw [List.zip_cons_cons, List.map_cons, List.map_cons, List.sum_cons, List.sum_cons]
      exact add_le_add (H a List.mem_cons_self b List.mem_cons_self)
        (ih us (by simpa using hlen) fun a ha b hb => H a (List.mem_cons_of_mem _ ha) b (List.mem_cons_of_mem _ hb))

theorem sum_zip_lt {α β : Type*} (l : List α) (us : List β) (f : α → ℝ) (h : α → β → ℝ) (w : α → β) (hlen : us.length = l.length) (H : ∀ a ∈ l, ∀ b ∈ us, f a ≤ h a b)
    (H' : ∀ a ∈ l, ∀ b ∈ us, b ≠ w a → f a < h a b) (hne : us ≠ l.map w) : (l.map f).sum < ((l.zip us).map fun ab => h ab.1 ab.2).sum := by
  induction l generalizing us with
  | nil =>
    cases us with
    | nil => exact absurd rfl hne
    | cons b us => simp at hlen
  | cons a l ih =>
    cases us with
    | nil => simp at hlen
    | cons b us =>
      rw [List.zip_cons_cons, List.map_cons, List.map_cons, List.sum_cons, List.sum_cons]
      by_cases hb : b = w a
      · refine add_lt_add_of_le_of_lt (H a List.mem_cons_self b List.mem_cons_self)
          (ih us (by simpa using hlen) (fun a ha b hb => H a (List.mem_cons_of_mem _ ha) b (List.mem_cons_of_mem _ hb))
            (fun a ha b hb => H' a (List.mem_cons_of_mem _ ha) b (List.mem_cons_of_mem _ hb)) fun h => hne ?_)
        rw [hb, h]
        rfl
      · exact add_lt_add_of_lt_of_le (H' a List.mem_cons_self b List.mem_cons_self hb)
          (sum_zip_le l us f h (by simpa using hlen) fun a ha b hb => H a (List.mem_cons_of_mem _ ha) b (List.mem_cons_of_mem _ hb))

theorem zip_map_pair {α β : Type*} (l : List α) (w : α → β) : l.zip (l.map w) = l.map fun a => (a, w a) := by
  induction l with
  | nil => rfl
  | cons a l ih => rw [List.map_cons, List.zip_cons_cons, ih, List.map_cons]

/-- **C206**: for positive observation variances and variances that are zero or above the threshold of the code, the results of `optimal_beta` and
of `optimal_random_effects` for it solve Henderson's mixed model equations: the residuals that remain, over the observation
variances, are orthogonal to every fixed feature; and the pair is the only minimiser of the sum over the groups of the
penalised least-squares criteria in fixed and random effects together. -/
theorem C206_henderson (D : List (LmeGroup p q)) (hD : PosVar D) (gamma : Vec ℝ q) (hm : MaskExact gamma) (beta : Vec ℝ p) (hb : lmeOptimalBeta D gamma = .ok beta) :
    ∃ us, lmeRandomEffects D beta gamma = .ok us ∧ us.length = D.length ∧
      (∀ k, ((D.zip us).map fun gu => ∑ r, gu.1.x r k * ((gu.1.y r - ∑ k, gu.1.x r k * beta k - ∑ j, gu.1.z r j * gu.2 j) / gu.1.l r)).sum = 0) ∧
      ∀ (beta' : Vec ℝ p) (us' : List (Vec ℝ q)), us'.length = D.length → (∀ u ∈ us', ∀ j, gamma j = 0 → u j = 0) → (beta', us') ≠ (beta, us) →
        ((D.zip us).map fun gu => blupCriterion gu.1 beta gamma gu.2).sum < ((D.zip us').map fun gu => blupCriterion gu.1 beta' gamma gu.2).sum := by
  have hg := hm.nonneg
  refine ⟨_, lmeRandomEffects_eq hD hm beta, List.length_map _, fun k => ?_, fun beta' us' hlen hz hne => ?_⟩
  · have h0 : (D.map fun g => -(g.xᵀ *ᵥ ((margCov g gamma)⁻¹ *ᵥ residual g beta))).sum = 0 := by
      unfold lmeOptimalBeta at hb
      rw [ebind_ok] at hb
      obtain ⟨a, h1, h2⟩ := hb
      obtain ⟨hd, rfl⟩ := lmeKernelTail_ok.1 h1
      obtain ⟨hu, hs⟩ := npSolve_ok.1 h2
      simp only at hu hs
      rw [gradBeta_kernel_tail, hs, sub_self]
    have h1 := congrFun h0 k
    rw [zip_map_pair, List.map_map]
    have e : ∀ l : List (LmeGroup p q), (l.map fun g => -(g.xᵀ *ᵥ ((margCov g gamma)⁻¹ *ᵥ residual g beta))).sum k
        = -(l.map fun g => (g.xᵀ *ᵥ ((margCov g gamma)⁻¹ *ᵥ residual g beta)) k).sum := by
      intro l
      induction l with
      | nil => simp
      | cons a l ih =>
        rw [List.map_cons, List.map_cons, List.sum_cons, List.sum_cons, Pi.add_apply, ih, Pi.neg_apply, neg_add]
    rw [e, Pi.zero_apply, neg_eq_zero] at h1
    rw [← h1]
    congr 1
    refine List.map_congr_left fun g hgD => ?_
    change ∑ r, g.x r k * ((residual g beta r - ∑ j, g.z r j * blup g beta gamma j) / g.l r) = ∑ r, g.x r k * ((margCov g gamma)⁻¹ *ᵥ residual g beta) r
    exact Finset.sum_congr rfl fun r _ => by rw [remaining_over_var (hD g hgD) hg]
  · rw [zip_map_pair, List.map_map]
    have hq : ∀ b : Vec ℝ p, (D.map fun g => blupCriterion g b gamma (blup g b gamma)).sum
        = marginalNLL D b gamma - (D.map fun g => 1 / 2 * Real.log (margCov g gamma).det).sum := by
      intro b
      unfold marginalNLL
      have : ∀ l : List (LmeGroup p q), (∀ g ∈ l, ∀ i, 0 < g.l i) → (l.map fun g => blupCriterion g b gamma (blup g b gamma)).sum
          = (l.map fun g => groupNLL g b gamma).sum - (l.map fun g => 1 / 2 * Real.log (margCov g gamma).det).sum := by
        intro l hl
        induction l with
        | nil => simp
        | cons a l ih =>
          simp only [List.map_cons, List.sum_cons]
          rw [ih fun g hg => hl g (List.mem_cons_of_mem _ hg), blupCriterion_blup (hl a List.mem_cons_self) hm]
          unfold groupNLL
          ring
      exact this D hD
    have hU : ∀ g ∈ D, ∀ u ∈ us', blupCriterion g beta' gamma (blup g beta' gamma) ≤ blupCriterion g beta' gamma u := fun g hgD u hu =>
      blup_le (hD g hgD) hg beta' u (hz u hu)
    by_cases hbb : beta' = beta
    · subst hbb
      refine sum_zip_lt D us' (fun g => blupCriterion g beta' gamma (blup g beta' gamma)) (fun g u => blupCriterion g beta' gamma u) (fun g => blup g beta' gamma) hlen hU
        (fun g hgD u hu h => blup_minimises (hD g hgD) hg beta' u (hz u hu) h) fun h => hne ?_
      rw [h]
    · refine lt_of_lt_of_le ?_ (sum_zip_le D us' (fun g => blupCriterion g beta' gamma (blup g beta' gamma)) (fun g u => blupCriterion g beta' gamma u) hlen hU)
      obtain ⟨v, v', h1, h2, hlt⟩ := (C58_optimal_beta_partial D gamma (inDomain_of_nonneg hD hg)).1 beta hb beta' hbb
      obtain ⟨-, rfl⟩ := lmeLoss_ok.1 h1
      obtain ⟨-, rfl⟩ := lmeLoss_ok.1 h2
      have e : ∀ b : Vec ℝ p, (LmeInstPrior.nonInformative : LmeInstPrior ℝ p q).loss b gamma = 0 := fun _ => rfl
      rw [e, e, add_zero, add_zero] at hlt
      have := hq beta
      have := hq beta'
      change (D.map fun g => blupCriterion g beta gamma (blup g beta gamma)).sum < _
      linarith

/-- With an intercept the remaining residuals, over the observation variances, add up to zero. -/
theorem C206_intercept (D : List (LmeGroup p q)) (hD : PosVar D) (gamma : Vec ℝ q) (hm : MaskExact gamma) (beta : Vec ℝ p) (hb : lmeOptimalBeta D gamma = .ok beta)
    (k : Fin p) (hk : ∀ g ∈ D, ∀ r, g.x r k = 1) :
    ∃ us, lmeRandomEffects D beta gamma = .ok us ∧
      ((D.zip us).map fun gu => ∑ r, (gu.1.y r - ∑ k, gu.1.x r k * beta k - ∑ j, gu.1.z r j * gu.2 j) / gu.1.l r).sum = 0 := by
  obtain ⟨us, h, -, h1, -⟩ := C206_henderson D hD gamma hm beta hb
  refine ⟨us, h, ?_⟩
  rw [← h1 k]
  congr 1
  refine List.map_congr_left fun gu hgu => Finset.sum_congr rfl fun r _ => ?_
  rw [hk gu.1 (List.of_mem_zip hgu).1 r, one_mul]

/-- One group with observations `1` and `3` of variance one, an intercept and one random effect. -/
noncomputable def hendersonGroup : LmeGroup 1 1 := ⟨2, Matrix.of fun _ _ => 1, ![1, 3], Matrix.of fun i _ => (i : ℕ), fun _ => 1⟩

theorem hendersonGroup_pos : PosVar [hendersonGroup] := by
  intro g hg
  rw [List.mem_singleton.1 hg]
  exact fun i => zero_lt_one

/-- Non-vacuity of C206. -/
example : ∃ (gamma : Vec ℝ 1) (beta : Vec ℝ 1) (us : List (Vec ℝ 1)), gamma 0 = 1 ∧ lmeOptimalBeta [hendersonGroup] gamma = .ok beta ∧ lmeRandomEffects [hendersonGroup] beta gamma = .ok us ∧
    (([hendersonGroup].zip us).map fun gu => ∑ r, (gu.1.y r - ∑ k, gu.1.x r k * beta k - ∑ j, gu.1.z r j * gu.2 j) / gu.1.l r).sum = 0 := by
  have hm : MaskExact (fun _ : Fin 1 => (1 : ℝ)) := fun j => .inr (by norm_num)
  obtain ⟨beta, hb⟩ : ∃ beta, lmeOptimalBeta [hendersonGroup] (fun _ : Fin 1 => (1 : ℝ)) = .ok beta := by
    refine ⟨_, lmeOptimalBeta_ok.2 ⟨inDomain_of_nonneg hendersonGroup_pos hm.nonneg, (kernel_unit_iff hendersonGroup_pos hm.nonneg).2 fun b hb => ?_, rfl⟩⟩
    have h1 := congrFun (hb hendersonGroup List.mem_cons_self) (0 : Fin 2)
    change ∑ j : Fin 1, (1 : ℝ) * b j = 0 at h1
    funext j
    rw [Subsingleton.elim j 0]
    simpa using h1
  obtain ⟨us, h, h0⟩ := C206_intercept _ hendersonGroup_pos _ hm beta hb 0 (by
    intro g hg
    rw [List.mem_singleton.1 hg]
    exact fun r => rfl)
  exact ⟨_, beta, us, rfl, hb, h, h0⟩

end Verif
