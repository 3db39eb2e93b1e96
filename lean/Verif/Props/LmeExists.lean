import Verif.Props.LmeConsistent
import Mathlib.Topology.Semicontinuity.Basic

/-!
# The loss of a mixed model has a minimiser (C147)
-/

open Matrix Filter Topology

namespace Verif

noncomputable section

variable {p q : ℕ}

theorem loss_of_posVar {D : List (LmeGroup p q)} (hD : PosVar D) (P : LmeInstPrior ℝ p q) (beta : Vec ℝ p) {gamma : Vec ℝ q} (hg : ∀ j, 0 ≤ gamma j) :
    lmeLoss D P beta gamma = .ok ((∑ i : Fin D.length, groupNLL (D.get i) beta gamma) + P.loss beta gamma) := by
  refine ((C54_loss_is_marginal_likelihood D P beta gamma).1 hD hg).trans ?_
  have h : (D.map fun g => groupNLL g beta gamma).sum = ∑ i : Fin D.length, groupNLL (D.get i) beta gamma := by
    conv_lhs => rw [← List.ofFn_get D]
    rw [List.map_ofFn, List.sum_ofFn]
    rfl
  rw [← h]
  rfl

/-- Parameters with a bounded loss can be moved to a compact set. -/
theorem list_compact {D : List (LmeGroup p q)} (hD : PosVar D) (C : ℝ) :
    ∃ K : Set (Vec ℝ p × Vec ℝ q), IsCompact K ∧ (∀ w ∈ K, ∀ j, 0 ≤ w.2 j) ∧
      ∀ (beta : Vec ℝ p) (gamma : Vec ℝ q), (∀ j, 0 ≤ gamma j) → ∑ i : Fin D.length, groupNLL (D.get i) beta gamma ≤ C →
        ∃ beta', (∀ i : Fin D.length, (D.get i).x *ᵥ beta' = (D.get i).x *ᵥ beta) ∧ (beta', seen D.get gamma) ∈ K := by
  have hl : ∀ (i : Fin D.length) a, 0 < (D.get i).l a := fun i => hD _ (List.get_mem D i)
  obtain ⟨M, hM⟩ : ∃ M : ℝ, ∀ (i : Fin D.length) a, |(D.get i).y a| ≤ M :=
    ⟨∑ i : Fin D.length, ∑ a, |(D.get i).y a|, fun i a => (Finset.single_le_sum (f := fun a => |(D.get i).y a|) (fun a _ => abs_nonneg _) (Finset.mem_univ a)).trans
      (Finset.single_le_sum (f := fun i : Fin D.length => ∑ a, |(D.get i).y a|) (fun i _ => Finset.sum_nonneg fun a _ => abs_nonneg _) (Finset.mem_univ i))⟩
  obtain ⟨K, h1, h2, h3⟩ := block_compact (B := D.get) hl C M
  refine ⟨K, h1, h2, fun beta gamma hg h => ?_⟩
  exact h3 (fun _ i => (D.get i).y) 1 one_pos (fun i a => by simpa using hM i a) beta gamma hg (by simpa using h)

theorem sum_groupNLL_continuousOn {D : List (LmeGroup p q)} (hD : PosVar D) :
    ContinuousOn (fun w : Vec ℝ p × Vec ℝ q => ∑ i : Fin D.length, groupNLL (D.get i) w.1 w.2) {w | ∀ j, 0 ≤ w.2 j} := by
  refine continuousOn_finsetSum _ fun i _ w hw => ?_
  exact (groupNLL_diff (margCov_posDef _ w.2 (hD _ (List.get_mem D i)) hw)).continuousAt.continuousWithinAt

/-- **C147**: the loss of every data set with positive variances of the errors attains its minimum over all parameters with nonnegative variances of the effects: a maximum likelihood estimate exists,
whatever the design is. -/
theorem C147_mle_exists (D : List (LmeGroup p q)) (hD : PosVar D) :
    ∃ (b : Vec ℝ p) (c : Vec ℝ q) (L : ℝ), (∀ j, 0 ≤ c j) ∧ lmeLoss D .nonInformative b c = .ok L ∧
      ∀ (b' : Vec ℝ p) (c' : Vec ℝ q) (L' : ℝ), (∀ j, 0 ≤ c' j) → lmeLoss D .nonInformative b' c' = .ok L' → L ≤ L' := by
  obtain ⟨K, hK, hK0, hmem⟩ := list_compact hD (∑ i : Fin D.length, groupNLL (D.get i) 0 0)
  have hz : ∀ j : Fin q, 0 ≤ (0 : Vec ℝ q) j := fun j => le_rfl
  have hmove : ∀ (b : Vec ℝ p) (c : Vec ℝ q), (∀ j, 0 ≤ c j) → ∑ i : Fin D.length, groupNLL (D.get i) b c ≤ ∑ i : Fin D.length, groupNLL (D.get i) 0 0 →
      ∃ w ∈ K, ∑ i : Fin D.length, groupNLL (D.get i) w.1 w.2 = ∑ i : Fin D.length, groupNLL (D.get i) b c := fun b c hc h => by
    obtain ⟨b', hb', hm⟩ := hmem b c hc h
    exact ⟨_, hm, Finset.sum_congr rfl fun i _ => groupNLL_congr _ (hb' i) (seen_cov D.get c i)⟩
  obtain ⟨w0, hw0, hw0e⟩ := hmove 0 0 hz le_rfl
  obtain ⟨w, hw, hmin⟩ := hK.exists_isMinOn ⟨w0, hw0⟩ ((sum_groupNLL_continuousOn hD).mono fun w hw => hK0 w hw)
  have h0 : LmeInstPrior.loss (.nonInformative : LmeInstPrior ℝ p q) = fun _ _ => 0 := rfl
  refine ⟨w.1, w.2, _, hK0 w hw, loss_of_posVar hD _ _ (hK0 w hw), fun b' c' L' hc' hL' => ?_⟩
  rw [loss_of_posVar hD _ _ hc', h0] at hL'
  cases hL'
  rw [h0]
  refine add_le_add_left ?_ _
  rcases le_total (∑ i : Fin D.length, groupNLL (D.get i) b' c') (∑ i : Fin D.length, groupNLL (D.get i) 0 0) with h | h
  · obtain ⟨v, hv, hve⟩ := hmove b' c' hc' h
    rw [← hve]
    exact hmin hv
  · refine le_trans ?_ h
    rw [← hw0e]
    exact hmin hw0

theorem priorLoss_continuous (P : LmeInstPrior ℝ p q) : Continuous fun w : Vec ℝ p × Vec ℝ q => P.loss w.1 w.2 := by
  cases P with
  | nonInformative => exact continuous_const
  | gaussian b g =>
    simp only [LmeInstPrior.loss, GaussState.loss]
    fun_prop

/-- **C147** for penalised estimates: with a prior and a lower semicontinuous penalty (for instance an L1 penalty, or a bound on the number of nonzero coefficients given by the closed set `S`) whose sum
is bounded below, the penalised loss attains its minimum on `S` if the fixed effects are identified by the design and every random effect occurs in it. -/
theorem C147_penalised_exists (D : List (LmeGroup p q)) (hD : PosVar D) (P : LmeInstPrior ℝ p q) (R : Vec ℝ p × Vec ℝ q → ℝ) (S : Set (Vec ℝ p × Vec ℝ q)) (hS : IsClosed S)
    (hR : LowerSemicontinuousOn R S) (v : ℝ) (hv : ∀ w ∈ S, v ≤ P.loss w.1 w.2 + R w) (hX : ∀ b : Vec ℝ p, (∀ g ∈ D, g.x *ᵥ b = 0) → b = 0) (hZ : ∀ j : Fin q, ∃ g ∈ D, ∃ a, g.z a j ≠ 0)
    (hne : ∃ w ∈ S, ∀ j, 0 ≤ w.2 j) :
    ∃ w ∈ S, (∀ j, 0 ≤ w.2 j) ∧ ∃ L, lmeLoss D P w.1 w.2 = .ok L ∧
      ∀ w' ∈ S, ∀ L', (∀ j, 0 ≤ w'.2 j) → lmeLoss D P w'.1 w'.2 = .ok L' → L + R w ≤ L' + R w' := by
  obtain ⟨w0, hw0S, hw0⟩ := hne
  obtain ⟨K, hK, hK0, hmem⟩ := list_compact hD ((∑ i : Fin D.length, groupNLL (D.get i) w0.1 w0.2) + P.loss w0.1 w0.2 + R w0 - v)
  have hin : ∀ w ∈ S, (∀ j, 0 ≤ w.2 j) → (∑ i : Fin D.length, groupNLL (D.get i) w.1 w.2) + P.loss w.1 w.2 + R w ≤ (∑ i : Fin D.length, groupNLL (D.get i) w0.1 w0.2) + P.loss w0.1 w0.2 + R w0 →
      w ∈ K := fun w hwS hw h => by
    obtain ⟨b', hb', hm⟩ := hmem w.1 w.2 hw (by have := hv w hwS; linarith)
    have e1 : b' = w.1 := by
      refine sub_eq_zero.1 (hX _ fun g hg => ?_)
      obtain ⟨i, rfl⟩ := List.mem_iff_get.1 hg
      rw [mulVec_sub, hb', sub_self]
    have e2 : seen D.get w.2 = w.2 := by
      classical
      funext j
      obtain ⟨g, hg, a, ha⟩ := hZ j
      obtain ⟨i, rfl⟩ := List.mem_iff_get.1 hg
      rw [seen, if_pos ⟨i, a, ha⟩]
    rwa [e1, e2] at hm
  have hlsc : LowerSemicontinuousOn (fun w : Vec ℝ p × Vec ℝ q => (∑ i : Fin D.length, groupNLL (D.get i) w.1 w.2) + P.loss w.1 w.2 + R w) (K ∩ S) := by
    refine LowerSemicontinuousOn.add ?_ (hR.mono Set.inter_subset_right)
    exact (((sum_groupNLL_continuousOn hD).mono fun w hw => hK0 w hw.1).add (priorLoss_continuous P).continuousOn).lowerSemicontinuousOn
  have hneK : (K ∩ S).Nonempty := ⟨w0, hin w0 hw0S hw0 le_rfl, hw0S⟩
  obtain ⟨w, hw, hmin⟩ := LowerSemicontinuousOn.exists_isMinOn hneK (hK.inter_right hS) hlsc
  refine ⟨w, hw.2, hK0 w hw.1, _, loss_of_posVar hD P _ (hK0 w hw.1), fun w' hw'S L' hw' hL' => ?_⟩
  rw [loss_of_posVar hD P _ hw'] at hL'
  cases hL'
  rcases le_total ((∑ i : Fin D.length, groupNLL (D.get i) w'.1 w'.2) + P.loss w'.1 w'.2 + R w') ((∑ i : Fin D.length, groupNLL (D.get i) w0.1 w0.2) + P.loss w0.1 w0.2 + R w0) with h | h
  · exact hmin ⟨hin w' hw'S hw' h, hw'S⟩
  · exact (isMinOn_iff.1 hmin w0 ⟨hin w0 hw0S hw0 le_rfl, hw0S⟩).trans h

/-- The constraint is needed: with an observation that equals its mean, the loss is not bounded below on its domain. -/
theorem C147_unbounded_without_constraint : ∃ (D : List (LmeGroup 1 1)), PosVar D ∧ ∀ v : ℝ, ∃ (c : Vec ℝ 1) (L : ℝ), lmeLoss D .nonInformative 0 c = .ok L ∧ L < v := by
  refine ⟨[⟨1, 1, 0, 1, 1⟩], fun g hg => ?_, fun v => ?_⟩
  · rw [List.mem_singleton] at hg
    subst hg
    exact fun i => zero_lt_one
  · have hm : ∀ t : ℝ, margCov (⟨1, 1, 0, 1, 1⟩ : LmeGroup 1 1) (fun _ => t) = diagonal fun _ => t + 1 := fun t => by
      ext a b
      fin_cases a
      fin_cases b
      simp [margCov]
    have hpd : ∀ t : ℝ, 0 < t + 1 → (margCov (⟨1, 1, 0, 1, 1⟩ : LmeGroup 1 1) (fun _ => t)).PosDef := fun t ht => by
      rw [hm]
      exact PosDef.diagonal fun _ => ht
    obtain ⟨t, ht⟩ : ∃ t, t = Real.exp (2 * v - 1) - 1 := ⟨_, rfl⟩
    have ht1 : t + 1 = Real.exp (2 * v - 1) := by rw [ht]; ring
    refine ⟨fun _ => t, _, ((C54_loss_is_marginal_likelihood _ .nonInformative 0 (fun _ => t)).2.1 _).2 ⟨fun g hg => ?_, rfl⟩, ?_⟩
    · rw [List.mem_singleton] at hg
      subst hg
      exact hpd t (by rw [ht1]; exact Real.exp_pos _)
    · have e : marginalNLL [(⟨1, 1, 0, 1, 1⟩ : LmeGroup 1 1)] 0 (fun _ => t) = v - 1 / 2 := by
        simp only [marginalNLL, List.map_cons, List.map_nil, List.sum_cons, List.sum_nil, add_zero, groupNLL]
        have hr : residual (⟨1, 1, 0, 1, 1⟩ : LmeGroup 1 1) 0 = 0 := by
          funext i
          simp [residual]
        rw [hr, zero_dotProduct, hm, det_diagonal, ht1]
        simp
        ring
      rw [e]
      simp [LmeInstPrior.loss]

/-- Non-vacuity of C147: one group with two observations, an intercept as fixed and random effect, an L1 penalty and at most one nonzero parameter. -/
example : ∃ w : Vec ℝ 1 × Vec ℝ 1, (w.1 = 0 ∨ w.2 = 0) ∧ (∀ j, 0 ≤ w.2 j) ∧ ∃ L, lmeLoss [(⟨2, fun _ _ => 1, ![1, 3], fun _ _ => 1, 1⟩ : LmeGroup 1 1)] .nonInformative w.1 w.2 = .ok L ∧
    ∀ w' : Vec ℝ 1 × Vec ℝ 1, (w'.1 = 0 ∨ w'.2 = 0) → ∀ L', (∀ j, 0 ≤ w'.2 j) → lmeLoss [(⟨2, fun _ _ => 1, ![1, 3], fun _ _ => 1, 1⟩ : LmeGroup 1 1)] .nonInformative w'.1 w'.2 = .ok L' →
      L + |w.1 0| ≤ L' + |w'.1 0| := by
  have h := C147_penalised_exists [(⟨2, fun _ _ => 1, ![1, 3], fun _ _ => 1, 1⟩ : LmeGroup 1 1)] (fun g hg i => by
      rw [List.mem_singleton] at hg
      subst hg
      exact zero_lt_one) .nonInformative (fun w => |w.1 0|) {w | w.1 = 0 ∨ w.2 = 0}
    ((isClosed_eq continuous_fst continuous_const).union (isClosed_eq continuous_snd continuous_const))
    (by
      refine Continuous.continuousOn ?_ |>.lowerSemicontinuousOn
      fun_prop) 0 (fun w _ => by simp [LmeInstPrior.loss])
    (fun b hb => by
      have h1 := congrFun (hb _ (List.mem_singleton.2 rfl)) (0 : Fin 2)
      funext j
      fin_cases j
      simpa [mulVec, dotProduct] using h1)
    (fun j => ⟨_, List.mem_singleton.2 rfl, (0 : Fin 2), by simp⟩) ⟨(0, 0), Or.inl rfl, fun j => le_rfl⟩
  exact h

end

end Verif
