import Verif.Props.LmeFisher
import Verif.Props.LmeBarrier
import Verif.Props.LmeCurv
import Mathlib.Probability.StrongLaw
import Mathlib.Probability.ProductMeasure
import Mathlib.Probability.Independence.InfinitePi
import Mathlib.Probability.Distributions.Gaussian.Real

/-!
# Minimisers of the loss find the true parameters as the number of observed blocks grows (C146)
-/

open Matrix MeasureTheory ProbabilityTheory Filter Topology

namespace Verif

noncomputable section

variable {p q m : ℕ}

/-- The observations of one block: one vector for each group of the design `B`. -/
abbrev BlockObs (B : Fin m → LmeGroup p q) : Type := ∀ i : Fin m, Fin (B i).n → ℝ

/-- The groups of the design `B` with the observations `o`. -/
def blockData (B : Fin m → LmeGroup p q) (o : BlockObs B) : List (LmeGroup p q) := List.ofFn fun i => { B i with y := o i }

/-- The data after `N` repetitions of the design. -/
def firstBlocks (B : Fin m → LmeGroup p q) (o : ℕ → BlockObs B) (N : ℕ) : List (LmeGroup p q) := (List.range N).flatMap fun k => blockData B (o k)

/-- Independent repetitions of a design whose observations have the mean and the covariance of the mixed model with the parameters `beta0`, `gamma0`. -/
structure IidBlocks {Ω : Type*} [MeasurableSpace Ω] (μ : Measure Ω) (B : Fin m → LmeGroup p q) (Y : ℕ → Ω → BlockObs B) (beta0 : Vec ℝ p) (gamma0 : Vec ℝ q) : Prop where
  indep : Pairwise fun k k' => IndepFun (Y k) (Y k') μ
  ident : ∀ k, IdentDistrib (Y k) (Y 0) μ μ
  follows : ∀ i, (⟨B i, fun ω => Y 0 ω i⟩ : RandGroup Ω p q).Follows μ beta0 gamma0

/-- The loss of a group whose observations have the mean `a` and the second moments `S`. -/
def momentNLL (g : LmeGroup p q) (a : Fin g.n → ℝ) (S : Fin g.n → Fin g.n → ℝ) (beta : Vec ℝ p) (gamma : Vec ℝ q) : ℝ :=
  1 / 2 * (∑ i, ∑ j, (margCov g gamma)⁻¹ i j * (S i j - (∑ k, g.x i k * beta k) * a j - a i * (∑ k, g.x j k * beta k) + (∑ k, g.x i k * beta k) * (∑ k, g.x j k * beta k)))
    + 1 / 2 * Real.log (margCov g gamma).det

theorem sum_groupNLL_eq (g : LmeGroup p q) (y : ℕ → Fin g.n → ℝ) (N : ℕ) (beta : Vec ℝ p) (gamma : Vec ℝ q) :
    ∑ k ∈ Finset.range N, groupNLL { g with y := y k } beta gamma
      = N * momentNLL g (fun i => (∑ k ∈ Finset.range N, y k i) / N) (fun i j => (∑ k ∈ Finset.range N, y k i * y k j) / N) beta gamma := by
  rcases Nat.eq_zero_or_pos N with rfl | hN
  · simp
  have hN' : (N : ℝ) ≠ 0 := by exact_mod_cast hN.ne'
  obtain ⟨b, hb⟩ : ∃ b : Fin g.n → ℝ, b = fun i => ∑ k, g.x i k * beta k := ⟨_, rfl⟩
  have hb' : ∀ i, ∑ k, g.x i k * beta k = b i := fun i => by rw [hb]
  have h1 : ∀ k, groupNLL { g with y := y k } beta gamma = 1 / 2 * (∑ i, ∑ j, (margCov g gamma)⁻¹ i j * (y k i * y k j - b i * y k j - y k i * b j + b i * b j))
      + 1 / 2 * Real.log (margCov g gamma).det := fun k => by
    change 1 / 2 * ((fun i => y k i - ∑ k, g.x i k * beta k) ⬝ᵥ ((margCov g gamma)⁻¹ *ᵥ fun i => y k i - ∑ k, g.x i k * beta k)) + 1 / 2 * Real.log (margCov g gamma).det = _
    congr 2
    simp only [dotProduct, mulVec, Finset.mul_sum, hb']
    refine Finset.sum_congr rfl fun i _ => Finset.sum_congr rfl fun j _ => ?_
    ring
  simp only [h1, momentNLL, hb']
  rw [Finset.sum_add_distrib, ← Finset.mul_sum, Finset.sum_comm]
  simp only [Finset.sum_const, Finset.card_range, nsmul_eq_mul]
  have h2 : ∑ i, ∑ k ∈ Finset.range N, ∑ j, (margCov g gamma)⁻¹ i j * (y k i * y k j - b i * y k j - y k i * b j + b i * b j)
      = N * ∑ i, ∑ j, (margCov g gamma)⁻¹ i j * ((∑ k ∈ Finset.range N, y k i * y k j) / N - b i * ((∑ k ∈ Finset.range N, y k j) / N) - (∑ k ∈ Finset.range N, y k i) / N * b j + b i * b j) := by
    rw [Finset.mul_sum]
    refine Finset.sum_congr rfl fun i _ => ?_
    rw [Finset.sum_comm, Finset.mul_sum]
    refine Finset.sum_congr rfl fun j _ => ?_
    rw [← Finset.mul_sum, Finset.sum_add_distrib, Finset.sum_sub_distrib, Finset.sum_sub_distrib, ← Finset.mul_sum, ← Finset.sum_mul]
    simp only [Finset.sum_const, Finset.card_range, nsmul_eq_mul]
    field_simp
  rw [h2]
  ring

/-- The loss of a group is continuous in the parameters and the moments. -/
theorem momentNLL_tendsto {g : LmeGroup p q} {ι : Type*} {l : Filter ι} {a : ι → Fin g.n → ℝ} {S : ι → Fin g.n → Fin g.n → ℝ} {beta : ι → Vec ℝ p} {gamma : ι → Vec ℝ q}
    {a' : Fin g.n → ℝ} {S' : Fin g.n → Fin g.n → ℝ} {beta' : Vec ℝ p} {gamma' : Vec ℝ q}
    (ha : ∀ i, Tendsto (fun t => a t i) l (𝓝 (a' i))) (hS : ∀ i j, Tendsto (fun t => S t i j) l (𝓝 (S' i j))) (hb : Tendsto (fun t => (beta t, gamma t)) l (𝓝 (beta', gamma')))
    (hpd : (margCov g gamma').PosDef) : Tendsto (fun t => momentNLL g (a t) (S t) (beta t) (gamma t)) l (𝓝 (momentNLL g a' S' beta' gamma')) := by
  have hx : ∀ i, Tendsto (fun t => ∑ k, g.x i k * beta t k) l (𝓝 (∑ k, g.x i k * beta' k)) := fun i => by
    have hc : ContinuousAt (fun w : Vec ℝ p × Vec ℝ q => ∑ k, g.x i k * w.1 k) (beta', gamma') := by fun_prop
    exact Tendsto.comp (g := fun w : Vec ℝ p × Vec ℝ q => ∑ k, g.x i k * w.1 k) (f := fun t => (beta t, gamma t)) hc hb
  have hA : ∀ i j, Tendsto (fun t => (margCov g (gamma t))⁻¹ i j) l (𝓝 ((margCov g gamma')⁻¹ i j)) := fun i j => by
    have hc : ContinuousAt (fun w : Vec ℝ p × Vec ℝ q => (margCov g w.2)⁻¹ i j) (beta', gamma') := (margCov_inv_diff (w := (beta', gamma')) hpd i j).continuousAt
    exact Tendsto.comp (g := fun w : Vec ℝ p × Vec ℝ q => (margCov g w.2)⁻¹ i j) (f := fun t => (beta t, gamma t)) hc hb
  have hd : Tendsto (fun t => Real.log (margCov g (gamma t)).det) l (𝓝 (Real.log (margCov g gamma').det)) := by
    have hc : ContinuousAt (fun w : Vec ℝ p × Vec ℝ q => Real.log (margCov g w.2).det) (beta', gamma') :=
      ((differentiableAt_det (margCov_diff g (beta', gamma'))).log (posDef_det_unit hpd).ne_zero).continuousAt
    exact Tendsto.comp (g := fun w : Vec ℝ p × Vec ℝ q => Real.log (margCov g w.2).det) (f := fun t => (beta t, gamma t)) hc hb
  have hs : Tendsto (fun t => ∑ i, ∑ j, (margCov g (gamma t))⁻¹ i j * (S t i j - (∑ k, g.x i k * beta t k) * a t j - a t i * (∑ k, g.x j k * beta t k)
      + (∑ k, g.x i k * beta t k) * (∑ k, g.x j k * beta t k))) l (𝓝 (∑ i, ∑ j, (margCov g gamma')⁻¹ i j * (S' i j - (∑ k, g.x i k * beta' k) * a' j
      - a' i * (∑ k, g.x j k * beta' k) + (∑ k, g.x i k * beta' k) * (∑ k, g.x j k * beta' k)))) :=
    tendsto_finsetSum _ fun i _ => tendsto_finsetSum _ fun j _ => (hA i j).mul ((((hS i j).sub ((hx i).mul (ha j))).sub ((ha i).mul (hx j))).add ((hx i).mul (hx j)))
  exact (hs.const_mul (1 / 2)).add (hd.const_mul (1 / 2))

section random

variable {Ω : Type*} [MeasurableSpace Ω] {μ : Measure Ω} [IsProbabilityMeasure μ]

/-- The expected loss is the loss of the expected moments. -/
theorem momentNLL_expected (r : RandGroup Ω p q) {beta0 : Vec ℝ p} {gamma0 : Vec ℝ q} (h : r.Follows μ beta0 gamma0) (beta : Vec ℝ p) (gamma : Vec ℝ q) :
    momentNLL r.g (fun i => ∫ ω, r.Y ω i ∂μ) (fun i j => ∫ ω, r.Y ω i * r.Y ω j ∂μ) beta gamma = ∫ ω, groupNLL (r.at ω) beta gamma ∂μ := by
  rw [(expected_groupNLL r h beta gamma).2]
  obtain ⟨A, hA⟩ : ∃ A : Matrix (Fin r.g.n) (Fin r.g.n) ℝ, A = (margCov r.g gamma)⁻¹ := ⟨_, rfl⟩
  obtain ⟨d, hd⟩ : ∃ d : Fin r.g.n → ℝ, d = r.g.x *ᵥ (beta0 - beta) := ⟨_, rfl⟩
  have hdi : ∀ i, d i = (∑ k, r.g.x i k * beta0 k) - ∑ k, r.g.x i k * beta k := fun i => by
    rw [hd]
    simp [mulVec, dotProduct, mul_sub]
  have hS : ∀ i j, ∫ ω, r.Y ω i * r.Y ω j ∂μ = margCov r.g gamma0 i j + (∑ k, r.g.x i k * beta0 k) * ∑ k, r.g.x j k * beta0 k := fun i j => by
    have h1 := covariance_eq_sub (h.sq i) (h.sq j)
    rw [h.cov, ← fisher_margCov_apply, h.mean, h.mean] at h1
    have h2 : ∫ ω, r.Y ω i * r.Y ω j ∂μ = μ[(fun ω => r.Y ω i) * fun ω => r.Y ω j] := rfl
    rw [h2]
    linarith
  have hsym : ∀ i j, margCov r.g gamma0 i j = margCov r.g gamma0 j i := fun i j => by
    rw [fisher_margCov_apply, fisher_margCov_apply]
    congr 1
    · exact Finset.sum_congr rfl fun k _ => by ring
    · by_cases hij : i = j
      · subst hij; rfl
      · rw [if_neg hij, if_neg (Ne.symm hij)]
  unfold momentNLL
  rw [← hA, ← hd]
  simp only [hS, h.mean]
  congr 2
  obtain ⟨b0, hb0⟩ : ∃ b0 : Fin r.g.n → ℝ, b0 = fun i => ∑ k, r.g.x i k * beta0 k := ⟨_, rfl⟩
  obtain ⟨b, hb⟩ : ∃ b : Fin r.g.n → ℝ, b = fun i => ∑ k, r.g.x i k * beta k := ⟨_, rfl⟩
  have hb0' : ∀ i, ∑ k, r.g.x i k * beta0 k = b0 i := fun i => by rw [hb0]
  have hb' : ∀ i, ∑ k, r.g.x i k * beta k = b i := fun i => by rw [hb]
  simp only [hb0', hb'] at hdi ⊢
  simp only [Matrix.trace, Matrix.diag, Matrix.mul_apply, dotProduct, mulVec, Finset.mul_sum]
  rw [← Finset.sum_add_distrib]
  refine Finset.sum_congr rfl fun i _ => ?_
  rw [← Finset.sum_add_distrib]
  refine Finset.sum_congr rfl fun j _ => ?_
  rw [hsym j i, hdi, hdi]
  ring

variable {B : Fin m → LmeGroup p q} {Y : ℕ → Ω → BlockObs B} {beta0 : Vec ℝ p} {gamma0 : Vec ℝ q}

/-- Almost surely the averages of the observations and of their products converge to the expectations. -/
theorem IidBlocks.moments (h : IidBlocks μ B Y beta0 gamma0) :
    ∀ᵐ ω ∂μ, ∀ i, (∀ a, Tendsto (fun N : ℕ => (∑ k ∈ Finset.range N, Y k ω i a) / N) atTop (𝓝 (∫ ω, Y 0 ω i a ∂μ))) ∧
      ∀ a b, Tendsto (fun N : ℕ => (∑ k ∈ Finset.range N, Y k ω i a * Y k ω i b) / N) atTop (𝓝 (∫ ω, Y 0 ω i a * Y 0 ω i b ∂μ)) := by
  have key : ∀ f : BlockObs B → ℝ, Measurable f → Integrable (fun ω => f (Y 0 ω)) μ →
      ∀ᵐ ω ∂μ, Tendsto (fun N : ℕ => (∑ k ∈ Finset.range N, f (Y k ω)) / N) atTop (𝓝 (∫ ω, f (Y 0 ω) ∂μ)) := fun f hf hi =>
    strong_law_ae_real (fun k ω => f (Y k ω)) hi (fun k k' hk => (h.indep hk).comp hf hf) fun k => (h.ident k).comp hf
  rw [ae_all_iff]
  intro i
  have h1 : ∀ᵐ ω ∂μ, ∀ a, Tendsto (fun N : ℕ => (∑ k ∈ Finset.range N, Y k ω i a) / N) atTop (𝓝 (∫ ω, Y 0 ω i a ∂μ)) := by
    rw [ae_all_iff]
    intro a
    exact key (fun o => o i a) (by fun_prop) (((h.follows i).sq a).integrable (by norm_num))
  have h2 : ∀ᵐ ω ∂μ, ∀ a b, Tendsto (fun N : ℕ => (∑ k ∈ Finset.range N, Y k ω i a * Y k ω i b) / N) atTop (𝓝 (∫ ω, Y 0 ω i a * Y 0 ω i b ∂μ)) := by
    rw [ae_all_iff]
    intro a
    rw [ae_all_iff]
    intro b
    exact key (fun o => o i a * o i b) (by fun_prop) (((h.follows i).sq a).integrable_mul ((h.follows i).sq b))
  filter_upwards [h1, h2] with ω h1 h2 using ⟨h1, h2⟩

end random

theorem firstBlocks_sum (B : Fin m → LmeGroup p q) (o : ℕ → BlockObs B) (N : ℕ) (f : LmeGroup p q → ℝ) :
    ((firstBlocks B o N).map f).sum = ∑ i, ∑ k ∈ Finset.range N, f { B i with y := o k i } := by
  rw [Finset.sum_comm]
  induction N with
  | zero => simp [firstBlocks]
  | succ N ih =>
    rw [Finset.sum_range_succ, ← ih]
    simp only [firstBlocks, List.range_succ, List.flatMap_append, List.map_append, List.sum_append, List.flatMap_cons, List.flatMap_nil, List.append_nil]
    congr 1
    rw [blockData, List.map_ofFn, List.sum_ofFn]
    rfl

theorem firstBlocks_pos {B : Fin m → LmeGroup p q} (hl : ∀ i a, 0 < (B i).l a) (o : ℕ → BlockObs B) (N : ℕ) : PosVar (firstBlocks B o N) := by
  intro g hg
  obtain ⟨k, _, hk⟩ := List.mem_flatMap.1 hg
  obtain ⟨i, rfl⟩ := List.mem_ofFn.1 hk
  exact hl i

/-- The loss of the data is a sum over the groups of the design. -/
theorem firstBlocks_loss {B : Fin m → LmeGroup p q} (hl : ∀ i a, 0 < (B i).l a) (o : ℕ → BlockObs B) (N : ℕ) (beta : Vec ℝ p) {gamma : Vec ℝ q} (hg : ∀ j, 0 ≤ gamma j) :
    lmeLoss (firstBlocks B o N) .nonInformative beta gamma = .ok (∑ i, ∑ k ∈ Finset.range N, groupNLL { B i with y := o k i } beta gamma) := by
  have h1 := (C54_loss_is_marginal_likelihood (firstBlocks B o N) .nonInformative beta gamma).1 (firstBlocks_pos hl o N) hg
  have h0 : LmeInstPrior.loss (.nonInformative : LmeInstPrior ℝ p q) beta gamma = 0 := rfl
  rw [h1, h0, add_zero]
  exact congrArg _ (firstBlocks_sum B o N fun g => groupNLL g beta gamma)

/-! ## Boundedness -/

/-- The determinant grows with each variance. -/
theorem log_det_one {g : LmeGroup p q} (hl : ∀ i, 0 < g.l i) {gamma : Vec ℝ q} (hg : ∀ j, 0 ≤ gamma j) (j : Fin q) :
    ∑ i, Real.log (g.l i) + Real.log (1 + gamma j * ∑ i, g.z i j ^ 2 / g.l i) ≤ Real.log (margCov g gamma).det := by
  have h0 : ∀ k, 0 ≤ (Pi.single j (gamma j) : Vec ℝ q) k := fun k => by
    by_cases hk : k = j
    · subst hk; simpa using hg k
    · simp [hk]
  have h := log_det_le hl hg h0
  have h2 : ∑ k, ((Pi.single j (gamma j) : Vec ℝ q) k - gamma k) * (g.zcol k ⬝ᵥ ((margCov g gamma)⁻¹ *ᵥ g.zcol k)) ≤ 0 := by
    refine Finset.sum_nonpos fun k _ => mul_nonpos_of_nonpos_of_nonneg ?_ (posDef_inv_nonneg (margCov_posDef g gamma hl hg) _)
    by_cases hk : k = j
    · subst hk; simp
    · simpa [hk] using hg k
  have e : margCov g (Pi.single j (gamma j)) = rankOne (margCov g 0) (g.zcol j) (gamma j) := by
    rw [← margCov_add_single, zero_add]
  have e0 : margCov g 0 = diagonal g.l := by simp [margCov]
  have hB : (diagonal g.l).PosDef := PosDef.diagonal hl
  have ei : (diagonal g.l)⁻¹ = diagonal fun i => (g.l i)⁻¹ := by
    refine Matrix.inv_eq_right_inv ?_
    rw [Matrix.diagonal_mul_diagonal, ← Matrix.diagonal_one]
    congr 1
    funext i
    exact mul_inv_cancel₀ (hl i).ne'
  have es : g.zcol j ⬝ᵥ ((diagonal g.l)⁻¹ *ᵥ g.zcol j) = ∑ i, g.z i j ^ 2 / g.l i := by
    rw [ei]
    simp only [dotProduct, Matrix.mulVec_diagonal, LmeGroup.zcol]
    refine Finset.sum_congr rfl fun i _ => ?_
    rw [div_eq_mul_inv]
    ring
  have hs : 0 ≤ ∑ i, g.z i j ^ 2 / g.l i := Finset.sum_nonneg fun i _ => div_nonneg (sq_nonneg _) (hl i).le
  have hd : (margCov g (Pi.single j (gamma j))).det = (diagonal g.l).det * (1 + gamma j * ∑ i, g.z i j ^ 2 / g.l i) := by
    rw [e, e0, rankOne_det hB, es]
  have h1 : 0 < 1 + gamma j * ∑ i, g.z i j ^ 2 / g.l i := by
    have := mul_nonneg (hg j) hs
    linarith
  rw [hd, Real.log_mul (posDef_det_unit hB).ne_zero h1.ne', Matrix.det_diagonal, Real.log_prod fun i _ => (hl i).ne'] at h
  linarith

theorem groupNLL_noise {g : LmeGroup p q} (hl : ∀ i, 0 < g.l i) (beta : Vec ℝ p) {gamma : Vec ℝ q} (hg : ∀ j, 0 ≤ gamma j) : 1 / 2 * ∑ i, Real.log (g.l i) ≤ groupNLL g beta gamma := by
  have h1 := posDef_inv_nonneg (margCov_posDef g gamma hl hg) (residual g beta)
  have h2 := log_det_noise hl hg
  unfold groupNLL
  linarith

/-- The constant part of the loss of a block. -/
def noiseConst (B : Fin m → LmeGroup p q) : ℝ := ∑ i, 1 / 2 * ∑ a, Real.log ((B i).l a)

/-- What one group contributes to a bounded loss. -/
theorem one_group_le {B : Fin m → LmeGroup p q} (hl : ∀ i a, 0 < (B i).l a) (o : ℕ → BlockObs B) {N : ℕ} (beta : Vec ℝ p) {gamma : Vec ℝ q} (hg : ∀ j, 0 ≤ gamma j) {C : ℝ}
    (h : ∑ i, ∑ k ∈ Finset.range N, groupNLL { B i with y := o k i } beta gamma ≤ N * C) (i : Fin m) :
    ∑ k ∈ Finset.range N, (groupNLL { B i with y := o k i } beta gamma - 1 / 2 * ∑ a, Real.log ((B i).l a)) ≤ N * (C - noiseConst B) := by
  have hnn : ∀ i k, 0 ≤ groupNLL { B i with y := o k i } beta gamma - 1 / 2 * ∑ a, Real.log ((B i).l a) := fun i k =>
    sub_nonneg.2 (groupNLL_noise (g := { B i with y := o k i }) (hl i) beta hg)
  have h1 : ∑ k ∈ Finset.range N, (groupNLL { B i with y := o k i } beta gamma - 1 / 2 * ∑ a, Real.log ((B i).l a))
      ≤ ∑ i, ∑ k ∈ Finset.range N, (groupNLL { B i with y := o k i } beta gamma - 1 / 2 * ∑ a, Real.log ((B i).l a)) :=
    Finset.single_le_sum (f := fun i => ∑ k ∈ Finset.range N, (groupNLL { B i with y := o k i } beta gamma - 1 / 2 * ∑ a, Real.log ((B i).l a)))
      (fun i _ => Finset.sum_nonneg fun k _ => hnn i k) (Finset.mem_univ i)
  refine h1.trans ?_
  simp only [Finset.sum_sub_distrib, Finset.sum_const, Finset.card_range, nsmul_eq_mul]
  rw [← Finset.mul_sum, mul_sub]
  exact sub_le_sub_right h _

theorem gamma_le {B : Fin m → LmeGroup p q} (hl : ∀ i a, 0 < (B i).l a) (o : ℕ → BlockObs B) {N : ℕ} (hN : 0 < N) (beta : Vec ℝ p) {gamma : Vec ℝ q} (hg : ∀ j, 0 ≤ gamma j) {C : ℝ}
    (h : ∑ i, ∑ k ∈ Finset.range N, groupNLL { B i with y := o k i } beta gamma ≤ N * C) (i : Fin m) (j : Fin q) (hs : 0 < ∑ a, (B i).z a j ^ 2 / (B i).l a) :
    gamma j ≤ Real.exp (2 * (C - noiseConst B)) / ∑ a, (B i).z a j ^ 2 / (B i).l a := by
  have h1 := one_group_le hl o beta hg h i
  have hN' : (0 : ℝ) < N := by exact_mod_cast hN
  have h2 : ∀ k, 1 / 2 * Real.log (1 + gamma j * ∑ a, (B i).z a j ^ 2 / (B i).l a) ≤ groupNLL { B i with y := o k i } beta gamma - 1 / 2 * ∑ a, Real.log ((B i).l a) := fun k => by
    have h3 := log_det_one (g := { B i with y := o k i }) (hl i) hg j
    have h4 := posDef_inv_nonneg (margCov_posDef { B i with y := o k i } gamma (hl i) hg) (residual { B i with y := o k i } beta)
    unfold groupNLL
    linarith
  have h5 := (Finset.sum_le_sum fun k (_ : k ∈ Finset.range N) => h2 k).trans h1
  rw [Finset.sum_const, Finset.card_range, nsmul_eq_mul] at h5
  have h6 := le_of_mul_le_mul_left h5 hN'
  have hp : 0 < 1 + gamma j * ∑ a, (B i).z a j ^ 2 / (B i).l a := by
    have := mul_nonneg (hg j) hs.le
    linarith
  have h7 : 1 + gamma j * ∑ a, (B i).z a j ^ 2 / (B i).l a ≤ Real.exp (2 * (C - noiseConst B)) := by
    rw [← Real.log_le_iff_le_exp hp]
    linarith
  rw [le_div_iff₀ hs]
  linarith

theorem fitted_le {B : Fin m → LmeGroup p q} (hl : ∀ i a, 0 < (B i).l a) (o : ℕ → BlockObs B) {N : ℕ} (hN : 0 < N) (beta : Vec ℝ p) {gamma : Vec ℝ q} (hg : ∀ j, 0 ≤ gamma j) {C G M : ℝ}
    (h : ∑ i, ∑ k ∈ Finset.range N, groupNLL { B i with y := o k i } beta gamma ≤ N * C) (hG : ∀ j, gamma j ≤ G) (i : Fin m) (a : Fin (B i).n)
    (hM : |(∑ k ∈ Finset.range N, o k i a) / N| ≤ M) :
    |∑ k, (B i).x a k * beta k| ≤ M + (C - noiseConst B) + 1 / 2 * margCov (B i) (fun _ => G) a a := by
  have h1 := one_group_le hl o beta hg h i
  have hN' : (0 : ℝ) < N := by exact_mod_cast hN
  have hV : margCov (B i) gamma a a ≤ margCov (B i) (fun _ => G) a a := by
    rw [margCov_apply, margCov_apply]
    refine add_le_add_left (Finset.sum_le_sum fun k _ => ?_) _
    nlinarith [mul_nonneg (sub_nonneg.2 (hG k)) (sq_nonneg ((B i).z a k))]
  have key : ∀ t : ℝ, t ^ 2 = 1 → t * ((∑ k ∈ Finset.range N, o k i a) / N - ∑ k, (B i).x a k * beta k) - 1 / 2 * margCov (B i) (fun _ => G) a a ≤ C - noiseConst B := fun t ht => by
    have h2 : ∀ k, t * (o k i a - ∑ k, (B i).x a k * beta k) - 1 / 2 * margCov (B i) (fun _ => G) a a
        ≤ groupNLL { B i with y := o k i } beta gamma - 1 / 2 * ∑ a, Real.log ((B i).l a) := fun k => by
      have h3 := inv_form_ge (margCov_posDef (B i) gamma (hl i) hg) (residual { B i with y := o k i } beta) (Pi.single a t)
      have h4 := log_det_noise (g := B i) (hl i) hg
      have e1 : (Pi.single a t : Fin (B i).n → ℝ) ⬝ᵥ residual { B i with y := o k i } beta = t * (o k i a - ∑ k, (B i).x a k * beta k) := by
        rw [single_dotProduct]
        rfl
      have e2 : (Pi.single a t : Fin (B i).n → ℝ) ⬝ᵥ (margCov (B i) gamma *ᵥ (Pi.single a t : Fin (B i).n → ℝ)) = margCov (B i) gamma a a := by
        rw [single_dotProduct, mulVec_single]
        simp only [Pi.smul_apply, Matrix.col_apply, MulOpposite.smul_eq_mul_unop, MulOpposite.unop_op]
        linear_combination margCov (B i) gamma a a * ht
      rw [e1, e2] at h3
      have e3 : groupNLL { B i with y := o k i } beta gamma = 1 / 2 * (residual { B i with y := o k i } beta ⬝ᵥ ((margCov (B i) gamma)⁻¹ *ᵥ residual { B i with y := o k i } beta))
        + 1 / 2 * Real.log (margCov (B i) gamma).det := rfl
      rw [e3]
      linarith
    have h5 := (Finset.sum_le_sum fun k (_ : k ∈ Finset.range N) => h2 k).trans h1
    rw [Finset.sum_sub_distrib, ← Finset.mul_sum, Finset.sum_sub_distrib] at h5
    simp only [Finset.sum_const, Finset.card_range, nsmul_eq_mul] at h5
    refine le_of_mul_le_mul_left (le_trans (le_of_eq ?_) h5) hN'
    field_simp
  have k1 := key 1 (by norm_num)
  have k2 := key (-1) (by norm_num)
  have := abs_le.1 hM
  exact abs_le.2 ⟨by linarith, by linarith⟩

/-- The fixed effects enter the loss through the fitted values. -/
def fitMap (B : Fin m → LmeGroup p q) : Vec ℝ p →ₗ[ℝ] BlockObs B where
  toFun b i := (B i).x *ᵥ b
  map_add' b b' := by funext i; exact mulVec_add _ _ _
  map_smul' t b := by funext i; exact mulVec_smul _ _ _

open Classical in
/-- The variances of effects whose column vanishes in all groups are set to zero. -/
def seen (B : Fin m → LmeGroup p q) (gamma : Vec ℝ q) : Vec ℝ q := fun j => if ∃ i a, (B i).z a j ≠ 0 then gamma j else 0

theorem seen_nonneg (B : Fin m → LmeGroup p q) {gamma : Vec ℝ q} (hg : ∀ j, 0 ≤ gamma j) (j : Fin q) : 0 ≤ seen B gamma j := by
  classical
  unfold seen
  split_ifs
  · exact hg j
  · exact le_rfl

theorem seen_cov (B : Fin m → LmeGroup p q) (gamma : Vec ℝ q) (i : Fin m) : (B i).z * diagonal (seen B gamma) * (B i).zᵀ = (B i).z * diagonal gamma * (B i).zᵀ := by
  classical
  ext a a'
  rw [Matrix.mul_apply, Matrix.mul_apply]
  refine Finset.sum_congr rfl fun j _ => ?_
  rw [Matrix.mul_diagonal, Matrix.mul_diagonal]
  by_cases hj : ∃ i a, (B i).z a j ≠ 0
  · rw [seen, if_pos hj]
  · push Not at hj
    rw [hj i a]
    simp

theorem groupNLL_congr (g : LmeGroup p q) {beta beta' : Vec ℝ p} {gamma gamma' : Vec ℝ q} (h1 : g.x *ᵥ beta = g.x *ᵥ beta') (h2 : g.z * diagonal gamma * g.zᵀ = g.z * diagonal gamma' * g.zᵀ) :
    groupNLL g beta gamma = groupNLL g beta' gamma' := by
  have e1 : ∀ b : Vec ℝ p, residual g b = g.y - g.x *ᵥ b := fun b => rfl
  unfold groupNLL margCov
  rw [e1, e1, h1, h2]

/-- Parameters with a bounded loss can be moved to a compact set without changing what they mean for the groups. -/
theorem block_compact {B : Fin m → LmeGroup p q} (hl : ∀ i a, 0 < (B i).l a) (C M : ℝ) :
    ∃ K : Set (Vec ℝ p × Vec ℝ q), IsCompact K ∧ (∀ w ∈ K, ∀ j, 0 ≤ w.2 j) ∧
      ∀ (o : ℕ → BlockObs B) (N : ℕ), 0 < N → (∀ i a, |(∑ k ∈ Finset.range N, o k i a) / (N : ℝ)| ≤ M) → ∀ (beta : Vec ℝ p) (gamma : Vec ℝ q), (∀ j, 0 ≤ gamma j) →
        ∑ i, ∑ k ∈ Finset.range N, groupNLL { B i with y := o k i } beta gamma ≤ N * C →
        ∃ beta', (∀ i, (B i).x *ᵥ beta' = (B i).x *ᵥ beta) ∧ (beta', seen B gamma) ∈ K := by
  classical
  have hG : ∀ j, ∃ G : ℝ, 0 ≤ G ∧ ∀ (o : ℕ → BlockObs B) (N : ℕ), 0 < N → ∀ (beta : Vec ℝ p) (gamma : Vec ℝ q), (∀ j, 0 ≤ gamma j) →
      ∑ i, ∑ k ∈ Finset.range N, groupNLL { B i with y := o k i } beta gamma ≤ N * C → seen B gamma j ≤ G := fun j => by
    by_cases hj : ∃ i a, (B i).z a j ≠ 0
    · obtain ⟨i, a, hia⟩ := hj
      have hs : 0 < ∑ a, (B i).z a j ^ 2 / (B i).l a :=
        Finset.sum_pos' (fun a _ => div_nonneg (sq_nonneg _) (hl i a).le) ⟨a, Finset.mem_univ a, div_pos (by positivity) (hl i a)⟩
      refine ⟨_, div_nonneg (Real.exp_pos (2 * (C - noiseConst B))).le hs.le, fun o N hN beta gamma hg h => ?_⟩
      rw [seen, if_pos ⟨i, a, hia⟩]
      exact gamma_le hl o hN beta hg h i j hs
    · refine ⟨0, le_rfl, fun o N hN beta gamma hg h => ?_⟩
      rw [seen, if_neg hj]
  choose Gj hGj0 hGj using hG
  have hsum : ∀ j, Gj j ≤ ∑ j, Gj j := fun j => Finset.single_le_sum (f := Gj) (fun j _ => hGj0 j) (Finset.mem_univ j)
  generalize (∑ j, Gj j) = G at hsum
  obtain ⟨R, hR0, hR⟩ : ∃ R : ℝ, 0 ≤ R ∧ ∀ i a, M + (C - noiseConst B) + 1 / 2 * margCov (B i) (fun _ => G) a a ≤ R := by
    refine ⟨∑ i, ∑ a, |M + (C - noiseConst B) + 1 / 2 * margCov (B i) (fun _ => G) a a|, Finset.sum_nonneg fun i _ => Finset.sum_nonneg fun a _ => abs_nonneg _,
      fun i a => (le_abs_self _).trans ?_⟩
    refine (Finset.single_le_sum (f := fun a => |M + (C - noiseConst B) + 1 / 2 * margCov (B i) (fun _ => G) a a|) (fun a _ => abs_nonneg _) (Finset.mem_univ a)).trans ?_
    exact Finset.single_le_sum (f := fun i => ∑ a, |M + (C - noiseConst B) + 1 / 2 * margCov (B i) (fun _ => G) a a|) (fun i _ => Finset.sum_nonneg fun a _ => abs_nonneg _) (Finset.mem_univ i)
  obtain ⟨W, hW⟩ := Submodule.exists_isCompl (LinearMap.ker (fitMap B))
  have hker : LinearMap.ker ((fitMap B).domRestrict W) = ⊥ := by
    rw [LinearMap.ker_eq_bot']
    intro w hw
    have h1 : (w : Vec ℝ p) ∈ LinearMap.ker (fitMap B) := hw
    have h2 := hW.disjoint.le_bot (Submodule.mem_inf.2 ⟨h1, w.2⟩)
    exact Subtype.ext ((Submodule.mem_bot ℝ).1 h2)
  obtain ⟨Kc, _, hK⟩ := ((fitMap B).domRestrict W).exists_antilipschitzWith hker
  have hbd := hK.isBounded_preimage (Metric.isBounded_closedBall (x := (0 : BlockObs B)) (r := R))
  have hbd' : Bornology.IsBounded (Subtype.val '' (((fitMap B).domRestrict W) ⁻¹' Metric.closedBall (0 : BlockObs B) R) : Set (Vec ℝ p)) :=
    (isometry_subtype_coe.lipschitz : LipschitzWith 1 (Subtype.val : W → Vec ℝ p)).isBounded_image hbd
  refine ⟨closure (Subtype.val '' (((fitMap B).domRestrict W) ⁻¹' Metric.closedBall (0 : BlockObs B) R)) ×ˢ Set.Icc (0 : Vec ℝ q) fun _ => G, hbd'.isCompact_closure.prod isCompact_Icc,
    fun w hw j => hw.2.1 j, fun o N hN hM beta gamma hg h => ?_⟩
  obtain ⟨k, hk, w, hw, hkw⟩ := Submodule.mem_sup.1 (hW.sup_eq_top ▸ (Submodule.mem_top : beta ∈ ⊤))
  have hfit : ∀ i, (B i).x *ᵥ w = (B i).x *ᵥ beta := fun i => by
    have h1 : (B i).x *ᵥ k = 0 := congrFun (LinearMap.mem_ker.1 hk) i
    rw [← hkw, mulVec_add, h1, zero_add]
  have h' : ∑ i, ∑ k ∈ Finset.range N, groupNLL { B i with y := o k i } w (seen B gamma) ≤ N * C := by
    refine le_trans (le_of_eq ?_) h
    refine Finset.sum_congr rfl fun i _ => Finset.sum_congr rfl fun k _ => ?_
    exact groupNLL_congr { B i with y := o k i } (hfit i) (seen_cov B gamma i)
  have hle : ∀ j, seen B gamma j ≤ G := fun j => (hGj j o N hN beta gamma hg h).trans (hsum j)
  refine ⟨w, hfit, subset_closure ⟨⟨w, hw⟩, ?_, rfl⟩, fun j => seen_nonneg B hg j, hle⟩
  rw [Set.mem_preimage, mem_closedBall_zero_iff, pi_norm_le_iff_of_nonneg hR0]
  intro i
  rw [pi_norm_le_iff_of_nonneg hR0]
  intro a
  rw [Real.norm_eq_abs]
  exact (fitted_le hl o hN w (seen_nonneg B hg) h' hle i a (hM i a)).trans (hR i a)

section main

variable {Ω : Type*} [MeasurableSpace Ω] {μ : Measure Ω} [IsProbabilityMeasure μ]

/-- The average loss of a block after `N` repetitions. -/
def blockAvg (B : Fin m → LmeGroup p q) (o : ℕ → BlockObs B) (N : ℕ) (beta : Vec ℝ p) (gamma : Vec ℝ q) : ℝ :=
  ∑ i, momentNLL (B i) (fun a => (∑ k ∈ Finset.range N, o k i a) / N) (fun a b => (∑ k ∈ Finset.range N, o k i a * o k i b) / N) beta gamma

theorem blockAvg_eq (B : Fin m → LmeGroup p q) (o : ℕ → BlockObs B) (N : ℕ) (beta : Vec ℝ p) (gamma : Vec ℝ q) :
    ∑ i, ∑ k ∈ Finset.range N, groupNLL { B i with y := o k i } beta gamma = N * blockAvg B o N beta gamma := by
  rw [blockAvg, Finset.mul_sum]
  exact Finset.sum_congr rfl fun i _ => sum_groupNLL_eq (B i) (fun k => o k i) N beta gamma

/-- The parameters give every group of the design the same mean and the same covariance. -/
def SameLaw (B : Fin m → LmeGroup p q) (beta beta' : Vec ℝ p) (gamma gamma' : Vec ℝ q) : Prop :=
  ∀ i, (B i).x *ᵥ beta = (B i).x *ᵥ beta' ∧ (B i).z * diagonal gamma * (B i).zᵀ = (B i).z * diagonal gamma' * (B i).zᵀ

/-- **C146**: a design with known positive error variances is observed again and again, the repetitions being independent and identically distributed with the mean and the covariance of the mixed model
with the parameters `beta0`, `gamma0` (no normality is assumed). With probability one the following holds for every sequence of parameters with nonnegative variances whose loss after `N` repetitions
exceeds the loss of the true parameters by at most `N eps_N`, `eps_N → 0` (exact minimisers are the case `eps = 0`): every limit point of the sequence gives each group the true mean and the true
covariance; and if no other parameters do that, the sequence converges to the true parameters. -/
theorem C146_consistent (B : Fin m → LmeGroup p q) (hl : ∀ i a, 0 < (B i).l a) (Y : ℕ → Ω → BlockObs B) (beta0 : Vec ℝ p) (gamma0 : Vec ℝ q) (h0 : ∀ j, 0 ≤ gamma0 j)
    (h : IidBlocks μ B Y beta0 gamma0) :
    ∀ᵐ ω ∂μ, ∀ (beta : ℕ → Vec ℝ p) (gamma : ℕ → Vec ℝ q) (eps : ℕ → ℝ), (∀ N j, 0 ≤ gamma N j) → Tendsto eps atTop (𝓝 0) →
      (∀ N L L0, lmeLoss (firstBlocks B (fun k => Y k ω) N) .nonInformative (beta N) (gamma N) = .ok L →
        lmeLoss (firstBlocks B (fun k => Y k ω) N) .nonInformative beta0 gamma0 = .ok L0 → L ≤ L0 + N * eps N) →
      (∀ b c, MapClusterPt (b, c) atTop (fun N => (beta N, gamma N)) → SameLaw B b beta0 c gamma0) ∧
      ((∀ b c, (∀ j, 0 ≤ c j) → SameLaw B b beta0 c gamma0 → b = beta0 ∧ c = gamma0) → Tendsto beta atTop (𝓝 beta0) ∧ Tendsto gamma atTop (𝓝 gamma0)) := by
  filter_upwards [h.moments] with ω hω beta gamma eps hg heps hle
  have hle' : ∀ N, 0 < N → blockAvg B (fun k => Y k ω) N (beta N) (gamma N) ≤ blockAvg B (fun k => Y k ω) N beta0 gamma0 + eps N := fun N hN => by
    have h1 := hle N _ _ (firstBlocks_loss hl (fun k => Y k ω) N (beta N) (hg N)) (firstBlocks_loss hl (fun k => Y k ω) N beta0 h0)
    rw [blockAvg_eq, blockAvg_eq, ← mul_add] at h1
    exact le_of_mul_le_mul_left h1 (by exact_mod_cast hN)
  obtain ⟨F, hF⟩ : ∃ F : Fin m → Vec ℝ p → Vec ℝ q → ℝ, F = fun i b c => momentNLL (B i) (fun a => ∫ ω, Y 0 ω i a ∂μ) (fun a a' => ∫ ω, Y 0 ω i a * Y 0 ω i a' ∂μ) b c := ⟨_, rfl⟩
  have hlim : ∀ (ψ : ℕ → ℕ) (b : ℕ → Vec ℝ p) (c : ℕ → Vec ℝ q) (b' : Vec ℝ p) (c' : Vec ℝ q), Tendsto ψ atTop atTop → Tendsto (fun n => (b n, c n)) atTop (𝓝 (b', c')) → (∀ j, 0 ≤ c' j) →
      Tendsto (fun n => blockAvg B (fun k => Y k ω) (ψ n) (b n) (c n)) atTop (𝓝 (∑ i, F i b' c')) := fun ψ b c b' c' hψ hbc hc' => by
    rw [hF]
    refine tendsto_finsetSum _ fun i _ => ?_
    refine momentNLL_tendsto (a := fun n a => (∑ k ∈ Finset.range (ψ n), Y k ω i a) / (ψ n : ℝ)) (S := fun n a a' => (∑ k ∈ Finset.range (ψ n), Y k ω i a * Y k ω i a') / (ψ n : ℝ))
      (fun a => ?_) (fun a a' => ?_) hbc (margCov_posDef (B i) c' (hl i) hc')
    · exact ((hω i).1 a).comp hψ
    · exact ((hω i).2 a a').comp hψ
  have hmin : ∀ b c, (∀ j, 0 ≤ c j) → ∑ i, F i b c ≤ ∑ i, F i beta0 gamma0 → SameLaw B b beta0 c gamma0 := fun b c hc hbc i => by
    have he : ∀ i b c, F i b c = ∫ ω, groupNLL ((⟨B i, fun ω => Y 0 ω i⟩ : RandGroup Ω p q).at ω) b c ∂μ := fun i b c => by
      rw [hF]
      exact momentNLL_expected ⟨B i, fun ω => Y 0 ω i⟩ (h.follows i) b c
    have h1 : ∀ i, F i beta0 gamma0 ≤ F i b c := fun i => by
      rw [he, he]
      exact (expected_groupNLL_min _ (h.follows i) (hl i) h0 b hc).1
    have h2 : F i beta0 gamma0 = F i b c :=
      (Finset.sum_eq_sum_iff_of_le fun i _ => h1 i).1 (le_antisymm (Finset.sum_le_sum fun i _ => h1 i) hbc) i (Finset.mem_univ i)
    rw [he, he] at h2
    exact (expected_groupNLL_min _ (h.follows i) (hl i) h0 b hc).2 h2
  have hcl : ∀ b c, MapClusterPt (b, c) atTop (fun N => (beta N, gamma N)) → (∀ j, 0 ≤ c j) ∧ SameLaw B b beta0 c gamma0 := fun b c hbc => by
    obtain ⟨ψ, hψ, hψt⟩ := hbc.tendsto_subseq
    have hc : ∀ j, 0 ≤ c j := fun j => by
      have hcont : Continuous fun w : Vec ℝ p × Vec ℝ q => w.2 j := by fun_prop
      exact ge_of_tendsto' (Tendsto.comp (g := fun w : Vec ℝ p × Vec ℝ q => w.2 j) (f := fun n => (beta (ψ n), gamma (ψ n))) (hcont.tendsto (b, c)) hψt) fun n => hg (ψ n) j
    refine ⟨hc, hmin b c hc ?_⟩
    have t1 := hlim ψ (fun n => beta (ψ n)) (fun n => gamma (ψ n)) b c hψ.tendsto_atTop hψt hc
    have t2 := (hlim ψ (fun _ => beta0) (fun _ => gamma0) beta0 gamma0 hψ.tendsto_atTop tendsto_const_nhds h0).add (heps.comp hψ.tendsto_atTop)
    rw [add_zero] at t2
    refine le_of_tendsto_of_tendsto t1 t2 ?_
    filter_upwards [hψ.tendsto_atTop.eventually (eventually_gt_atTop 0)] with n hn using hle' (ψ n) hn
  refine ⟨fun b c hbc => (hcl b c hbc).2, fun hid => ?_⟩
  -- the sequence stays in a compact set
  obtain ⟨C, hC⟩ : ∃ C : ℝ, ∀ᶠ N in atTop, blockAvg B (fun k => Y k ω) N beta0 gamma0 + eps N ≤ C := by
    have t2 := (hlim id (fun _ => beta0) (fun _ => gamma0) beta0 gamma0 tendsto_id tendsto_const_nhds h0).add heps
    exact ⟨_, (t2.eventually_lt_const (lt_add_one _)).mono fun N hN => hN.le⟩
  obtain ⟨M, hM⟩ : ∃ M : ℝ, ∀ᶠ N : ℕ in atTop, ∀ i a, |(∑ k ∈ Finset.range N, Y k ω i a) / (N : ℝ)| ≤ M := by
    have hb : ∀ i a, ∃ M : ℝ, ∀ᶠ N : ℕ in atTop, |(∑ k ∈ Finset.range N, Y k ω i a) / (N : ℝ)| ≤ M := fun i a =>
      ⟨_, (((hω i).1 a).abs.eventually_lt_const (lt_add_one _)).mono fun N hN => hN.le⟩
    choose M hM using hb
    refine ⟨∑ i, ∑ a, |M i a|, ?_⟩
    rw [eventually_all]
    intro i
    rw [eventually_all]
    intro a
    filter_upwards [hM i a] with N hN
    refine hN.trans ((le_abs_self _).trans ?_)
    refine (Finset.single_le_sum (f := fun a => |M i a|) (fun a _ => abs_nonneg _) (Finset.mem_univ a)).trans ?_
    exact Finset.single_le_sum (f := fun i => ∑ a, |M i a|) (fun i _ => Finset.sum_nonneg fun a _ => abs_nonneg _) (Finset.mem_univ i)
  have hseen : ∀ c, seen B c = c := fun c => by
    classical
    funext j
    by_cases hj : ∃ i a, (B i).z a j ≠ 0
    · rw [seen, if_pos hj]
    · exfalso
      push Not at hj
      have h1 := (hid beta0 (gamma0 + Pi.single j 1) (fun k => ?_) fun i => ⟨rfl, ?_⟩).2
      · have := congrFun h1 j
        simp at this
      · by_cases hk : k = j
        · subst hk
          simpa using add_nonneg (h0 k) zero_le_one
        · simpa [hk] using h0 k
      · ext a a'
        rw [Matrix.mul_apply, Matrix.mul_apply]
        refine Finset.sum_congr rfl fun k _ => ?_
        rw [Matrix.mul_diagonal, Matrix.mul_diagonal]
        by_cases hk : k = j
        · subst hk
          rw [hj i a]
          simp
        · simp [hk]
  have hinj : ∀ b b' : Vec ℝ p, (∀ i, (B i).x *ᵥ b' = (B i).x *ᵥ b) → b' = b := fun b b' hb => by
    have h1 := (hid (beta0 + (b' - b)) gamma0 h0 fun i => ⟨?_, rfl⟩).1
    · exact sub_eq_zero.1 (by simpa using h1)
    · rw [mulVec_add, mulVec_sub, hb, sub_self, add_zero]
  obtain ⟨K, hcomp, -, hK⟩ := block_compact hl C M
  have hmem : ∀ᶠ N in atTop, (beta N, gamma N) ∈ K := by
    filter_upwards [hC, hM, eventually_gt_atTop 0] with N hCN hMN hN
    have h1 : ∑ i, ∑ k ∈ Finset.range N, groupNLL { B i with y := Y k ω i } (beta N) (gamma N) ≤ N * C := by
      rw [blockAvg_eq B (fun k => Y k ω)]
      exact mul_le_mul_of_nonneg_left ((hle' N hN).trans hCN) (Nat.cast_nonneg N)
    obtain ⟨b', hb', hm⟩ := hK (fun k => Y k ω) N hN hMN (beta N) (gamma N) (hg N) h1
    rwa [hinj _ _ hb', hseen] at hm
  have ht := hcomp.tendsto_nhds_of_unique_mapClusterPt (y := (beta0, gamma0)) hmem fun x _ hx => by
    obtain ⟨hc, hs⟩ := hcl x.1 x.2 hx
    obtain ⟨e1, e2⟩ := hid x.1 x.2 hc hs
    exact Prod.ext e1 e2
  exact ⟨ht.fst_nhds, ht.snd_nhds⟩

/-- **C146** for penalised estimates: the same holds for parameters that minimise the sum of the loss, of the negative log-density of a prior and of a penalty, all of fixed strength, or only reach a value
that is not larger than the value of the true parameters. -/
theorem C146_penalised (B : Fin m → LmeGroup p q) (hl : ∀ i a, 0 < (B i).l a) (Y : ℕ → Ω → BlockObs B) (beta0 : Vec ℝ p) (gamma0 : Vec ℝ q) (h0 : ∀ j, 0 ≤ gamma0 j)
    (h : IidBlocks μ B Y beta0 gamma0) (P : LmeInstPrior ℝ p q) (R : Vec ℝ p → Vec ℝ q → ℝ) (hPR : ∀ b c, 0 ≤ P.loss b c + R b c)
    (hid : ∀ b c, (∀ j, 0 ≤ c j) → SameLaw B b beta0 c gamma0 → b = beta0 ∧ c = gamma0) :
    ∀ᵐ ω ∂μ, ∀ (beta : ℕ → Vec ℝ p) (gamma : ℕ → Vec ℝ q), (∀ N j, 0 ≤ gamma N j) →
      (∀ N L L0, lmeLoss (firstBlocks B (fun k => Y k ω) N) P (beta N) (gamma N) = .ok L →
        lmeLoss (firstBlocks B (fun k => Y k ω) N) P beta0 gamma0 = .ok L0 → L + R (beta N) (gamma N) ≤ L0 + R beta0 gamma0) →
      Tendsto beta atTop (𝓝 beta0) ∧ Tendsto gamma atTop (𝓝 gamma0) := by
  filter_upwards [C146_consistent B hl Y beta0 gamma0 h0 h] with ω hω beta gamma hg hle
  refine (hω beta gamma (fun N => (P.loss beta0 gamma0 + R beta0 gamma0) / N) hg (tendsto_const_div_atTop_nhds_zero_nat _) fun N L L0 hL hL0 => ?_).2 hid
  have hp : ∀ b c v, lmeLoss (firstBlocks B (fun k => Y k ω) N) .nonInformative b c = .ok v → lmeLoss (firstBlocks B (fun k => Y k ω) N) P b c = .ok (v + P.loss b c) := fun b c v hv => by
    obtain ⟨h1, h2⟩ := ((C54_loss_is_marginal_likelihood _ .nonInformative b c).2.1 v).1 hv
    refine ((C54_loss_is_marginal_likelihood _ P b c).2.1 _).2 ⟨h1, ?_⟩
    have h3 : LmeInstPrior.loss (.nonInformative : LmeInstPrior ℝ p q) b c = 0 := rfl
    rw [h2, h3, add_zero]
  rcases Nat.eq_zero_or_pos N with rfl | hN
  · have e : ∀ b c v, lmeLoss (firstBlocks B (fun k => Y k ω) 0) .nonInformative b c = .ok v → v = 0 := fun b c v hv => by
      obtain ⟨-, h2⟩ := ((C54_loss_is_marginal_likelihood _ .nonInformative b c).2.1 v).1 hv
      have h3 : LmeInstPrior.loss (.nonInformative : LmeInstPrior ℝ p q) b c = 0 := rfl
      rw [h2, h3]
      simp [firstBlocks, marginalNLL]
    rw [e _ _ _ hL, e _ _ _ hL0]
    simp
  · have h1 := hle N _ _ (hp _ _ _ hL) (hp _ _ _ hL0)
    have h2 := hPR (beta N) (gamma N)
    have hN' : (N : ℝ) ≠ 0 := by exact_mod_cast hN.ne'
    rw [mul_div_cancel₀ _ hN']
    linarith

end main

/-- Non-vacuity of C146: groups with one observation `u + e` of variance `1 + 1`, observed again and again; the estimates of the mean and of the variance of the effect converge with probability one. -/
example : ∃ (Ω : Type) (_ : MeasurableSpace Ω) (μ : Measure Ω) (_ : IsProbabilityMeasure μ) (B : Fin 1 → LmeGroup 1 1) (Y : ℕ → Ω → BlockObs B),
    (∀ i a, 0 < (B i).l a) ∧ IidBlocks μ B Y 0 1 ∧ (∀ b c, (∀ j, 0 ≤ c j) → SameLaw B b 0 c 1 → b = 0 ∧ c = 1) ∧
    ∀ᵐ ω ∂μ, ∀ (beta gamma : ℕ → Vec ℝ 1), (∀ N j, 0 ≤ gamma N j) →
      (∀ N L L0, lmeLoss (firstBlocks B (fun k => Y k ω) N) .nonInformative (beta N) (gamma N) = .ok L →
        lmeLoss (firstBlocks B (fun k => Y k ω) N) .nonInformative 0 1 = .ok L0 → L ≤ L0) → Tendsto beta atTop (𝓝 0) ∧ Tendsto gamma atTop (𝓝 1) := by
  obtain ⟨μ, hμ⟩ : ∃ μ : Measure (ℕ → ℝ), μ = Measure.infinitePi fun _ => gaussianReal 0 2 := ⟨_, rfl⟩
  have hp : IsProbabilityMeasure μ := by rw [hμ]; infer_instance
  have hev : ∀ k, MeasurePreserving (fun ω : ℕ → ℝ => ω k) μ (gaussianReal 0 2) := fun k => by
    rw [hμ]
    exact measurePreserving_eval_infinitePi (fun _ => gaussianReal 0 2) k
  have hl : ∀ (i : Fin 1) (a : Fin 1), 0 < ((fun _ => ⟨1, 1, 0, 1, 1⟩ : Fin 1 → LmeGroup 1 1) i).l a := fun i a => zero_lt_one
  have h : IidBlocks μ (fun _ => ⟨1, 1, 0, 1, 1⟩ : Fin 1 → LmeGroup 1 1) (fun k ω _ _ => ω k) 0 1 := by
    refine ⟨fun k k' hk => ?_, fun k => ?_, fun i => ⟨fun a => ?_, fun a => ?_, fun a a' => ?_⟩⟩
    · have h1 : iIndepFun (fun k (ω : ℕ → ℝ) => ω k) μ := by
        rw [hμ]
        exact iIndepFun_infinitePi (X := fun _ x => x) fun _ => measurable_id
      exact (h1.indepFun hk).comp (φ := fun (x : ℝ) (_ : Fin 1) (_ : Fin 1) => x) (ψ := fun (x : ℝ) (_ : Fin 1) (_ : Fin 1) => x) (by fun_prop) (by fun_prop)
    · have h1 : IdentDistrib (fun ω : ℕ → ℝ => ω k) (fun ω => ω 0) μ μ := ⟨(hev k).measurable.aemeasurable, (hev 0).measurable.aemeasurable, by rw [(hev k).map_eq, (hev 0).map_eq]⟩
      exact h1.comp (u := fun (x : ℝ) (_ : Fin 1) (_ : Fin 1) => x) (by fun_prop)
    · exact (memLp_id_gaussianReal 2).comp_measurePreserving (hev 0)
    · have h1 : ∫ ω, ω 0 ∂μ = 0 := by
        have h2 := integral_map (μ := μ) (hev 0).measurable.aemeasurable (f := fun x : ℝ => x) (by fun_prop)
        rw [(hev 0).map_eq, integral_id_gaussianReal] at h2
        exact h2.symm
      exact h1.trans (by simp)
    · have ha : a = a' := Subsingleton.elim (α := Fin 1) _ _
      subst ha
      have h1 : cov[fun ω : ℕ → ℝ => ω 0, fun ω => ω 0; μ] = 2 := by
        rw [covariance_self (hev 0).measurable.aemeasurable]
        have h2 := variance_map (X := fun x : ℝ => x) (Y := fun ω : ℕ → ℝ => ω 0) (μ := μ) (by fun_prop) (hev 0).measurable.aemeasurable
        rw [(hev 0).map_eq, variance_fun_id_gaussianReal] at h2
        exact h2.symm
      refine h1.trans ?_
      have ha : a = (0 : Fin 1) := Subsingleton.elim (α := Fin 1) _ _
      subst ha
      simp
      norm_num
  have hid : ∀ b c, (∀ j, 0 ≤ c j) → SameLaw (fun _ => ⟨1, 1, 0, 1, 1⟩ : Fin 1 → LmeGroup 1 1) b 0 c 1 → b = 0 ∧ c = 1 := fun b c _ hs => by
    obtain ⟨h1, h2⟩ := hs 0
    refine ⟨?_, ?_⟩
    · have h3 : (1 : Matrix (Fin 1) (Fin 1) ℝ) *ᵥ b = (1 : Matrix (Fin 1) (Fin 1) ℝ) *ᵥ 0 := h1
      simpa using h3
    · have h3 : (1 : Matrix (Fin 1) (Fin 1) ℝ) * diagonal c * (1 : Matrix (Fin 1) (Fin 1) ℝ)ᵀ = (1 : Matrix (Fin 1) (Fin 1) ℝ) * diagonal 1 * (1 : Matrix (Fin 1) (Fin 1) ℝ)ᵀ := h2
      rw [transpose_one, Matrix.one_mul, Matrix.mul_one, Matrix.one_mul, Matrix.mul_one] at h3
      exact diagonal_injective h3
  refine ⟨ℕ → ℝ, inferInstance, μ, hp, _, _, hl, h, hid, ?_⟩
  filter_upwards [C146_penalised _ hl _ 0 1 (fun _ => zero_le_one) h .nonInformative (fun _ _ => 0) (fun _ _ => by simp [LmeInstPrior.loss]) hid] with ω hω beta gamma hg hle
  exact hω beta gamma hg fun N L L0 hL hL0 => by simpa using hle N L L0 hL hL0

end

end Verif
