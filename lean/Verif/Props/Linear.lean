import Verif.Lemmas.Linear
import Verif.Props.Priors
import Verif.Spec.Prox
import Mathlib.Data.Real.StarOrdered

/-!
# Properties of the linear oracles: C30–C33, C37, C38, C41
-/

namespace Verif

open Matrix

/-! ## Specification -/

/-- Residual sum of squares, halved. -/
def leastSquares {K : Type*} [Field K] {m n : ℕ} (A : Matrix (Fin m) (Fin n) K) (b : Vec K m) (x : Vec K n) : K :=
  (∑ i, ((∑ j, A i j * x j) - b i) ^ 2) / 2

/-- The SR3-relaxed least-squares objective `½‖Ax - b‖² + lam/2 ‖x - w‖²`. -/
def relaxedLoss {K : Type*} [Field K] {m n : ℕ} (A : Matrix (Fin m) (Fin n) K) (b : Vec K m) (lam : K) (x w : Vec K n) : K :=
  leastSquares A b x + lam * (∑ j, (x j - w j) ^ 2) / 2

/-- A prior attached to an oracle that some successful instantiation can have produced. -/
def InstPrior.Reachable {K : Type*} [Field K] [LinearOrder K] {n : ℕ} : InstPrior K n → Prop
  | .nonInformative => True
  | .gaussian st => ∃ (params : PriorParams K) (cols : List String) (h : cols.length = n),
      gaussInstantiate params cols = .ok (h ▸ st)

section
variable {K : Type*} [Field K] [LinearOrder K] [IsStrictOrderedRing K] {m n : ℕ}

omit [LinearOrder K] [IsStrictOrderedRing K] in
theorem half_normSq (A : Matrix (Fin m) (Fin n) K) (b : Vec K m) (x : Vec K n) :
    1 / 2 * normSq (A *ᵥ x - b) = leastSquares A b x := by
  unfold normSq leastSquares mulVec dotProduct
  simp only [Pi.sub_apply]
  ring

omit [LinearOrder K] [IsStrictOrderedRing K] in
theorem sr3Loss_eq_relaxed (A : Matrix (Fin m) (Fin n) K) (b : Vec K m) (lam : K) (x w : Vec K n) :
    sr3Loss A b 1 lam x w = relaxedLoss A b lam x w := by
  unfold sr3Loss relaxedLoss
  rw [half_normSq, one_mulVec]
  unfold normSq
  simp only [Pi.sub_apply]
  ring

/-! ## C30 -/

/-- **C30 is violated by the code**: no linear oracle with a Gaussian prior can be instantiated, on any problem (the prior receives the problem object instead of its column
names, and raises `TypeError`). -/
theorem C30_linear_prior_violated (params : PriorParams K) (P : LinProblem K) :
    linOracleInstantiate (.gaussian params) P = .error .typeError := rfl

/-- **C30**, what does hold: without a prior the oracle can be instantiated on every problem, and adds no penalty. Missing: Gaussian priors (false, see
`C30_linear_prior_violated`). -/
theorem C30_linear_prior_partial (P : LinProblem K) (b : Vec K P.m) (x : Vec K P.n) :
    ∃ prior, linOracleInstantiate .none P = .ok prior ∧ linLoss P.a b prior x = leastSquares P.a b x := by
  refine ⟨_, rfl, ?_⟩
  rw [linLoss, half_normSq]
  exact add_zero _

/-! ## C31 -/

theorem InstPrior.expansion (P : InstPrior K n) (hP : P.Reachable) :
    QuadraticExpansion P.loss P.gradient P.hessian ∧ NonnegForm P.hessian := by
  cases P with
  | nonInformative =>
    refine ⟨fun x h => ?_, fun h => ?_⟩
    · simp [InstPrior.loss, InstPrior.gradient, InstPrior.hessian]
    · simp [InstPrior.hessian]
  | gaussian st =>
    obtain ⟨params, cols, rfl, hi⟩ := hP
    exact ⟨(C27_prior_derivatives params cols st hi).1, (C27_prior_derivatives params cols st hi).2.1⟩

/-- **C31**: for every data set and every reachable prior, the linear oracle's gradient and Hessian are the exact derivatives of its loss, the Hessian is positive semidefinite (so the loss
is convex), the data part of the loss is half the residual sum of squares, and the value function and its gradient are the loss and its gradient. -/
theorem C31_linear_oracle (A : Matrix (Fin m) (Fin n) K) (b : Vec K m) (P : InstPrior K n) (hP : P.Reachable) :
    QuadraticExpansion (linLoss A b P) (linGradient A b P) (linHessian A P) ∧ NonnegForm (linHessian A P) ∧
      (∀ x, linLoss A b P x = leastSquares A b x + P.loss x) ∧
      (∀ x, linValueFunction A b P x = linLoss A b P x ∧ linGradientValueFunction A b P x = linGradient A b P x) ∧
      ∀ x y, linLoss A b P x + ∑ i, linGradient A b P x i * (y i - x i) ≤ linLoss A b P y := by
  obtain ⟨h1, h2⟩ := P.expansion hP
  have hexp : QuadraticExpansion (linLoss A b P) (linGradient A b P) (linHessian A P) := by
    intro x h
    have hp := h1 x h
    rw [form_eq_dot] at hp ⊢
    change P.loss (x + h) = P.loss x + P.gradient x ⬝ᵥ h + _ at hp
    change linLoss A b P (x + h) = linLoss A b P x + linGradient A b P x ⬝ᵥ h + _
    unfold linLoss linGradient linHessian
    rw [hp, mulVec_add, show A *ᵥ x + A *ᵥ h - b = (A *ᵥ x - b) + A *ᵥ h by abel, normSq_add, add_dotProduct, add_mulVec, dotProduct_add,
      ← mulVec_mulVec, ← mulVec_dot, ← normSq_eq_dot, dotProduct_comm (Aᵀ *ᵥ _) h, ← mulVec_dot, dotProduct_comm (A *ᵥ h)]
    ring
  have hpsd : NonnegForm (linHessian A P) := by
    intro h
    have := h2 h
    rw [form_eq_dot] at this ⊢
    unfold linHessian
    rw [add_mulVec, dotProduct_add, ← mulVec_mulVec, ← mulVec_dot, ← normSq_eq_dot]
    have := normSq_nonneg (A *ᵥ h)
    linarith
  refine ⟨hexp, hpsd, fun x => by rw [linLoss, half_normSq], fun x => ⟨rfl, rfl⟩, fun x y => ?_⟩
  have h3 := hexp x (y - x)
  rw [add_sub_cancel] at h3
  have h4 := hpsd (y - x)
  rw [h3]
  simp only [Pi.sub_apply] at h4 ⊢
  linarith

/-- Non-vacuity of C31: a reachable Gaussian prior on two columns. -/
example : ∃ st : GaussState ℚ 2, (InstPrior.gaussian st).Reachable := by
  obtain ⟨st, h⟩ := ((C26_instantiate_iff (K := ℚ) [("time", (1, 2))] ["intercept", "time"]).1).2
    ⟨by intro n ms h; simp at h; simp [h.1], by
      intro label hl mean std h
      simp at hl
      rcases hl with rfl | rfl <;> simp [List.lookup] at h
      rw [← h.2]; norm_num⟩
  exact ⟨st, _, _, rfl, h⟩

/-! ## C41 -/

/-- **C41 is violated by the code**: every custom relaxation matrix for two or more features is rejected with `ValueError`. -/
theorem C41_custom_c_violated (a : Matrix (Fin m) (Fin n) K) (b : Vec K m) (C : Matrix (Fin n) (Fin n) K) (w : Option (Vec K n)) (hn : 2 ≤ n) :
    linProblemInit a b (some C) w = .error .valueError := by
  have : arrayTruth C = .error .valueError := by
    unfold arrayTruth
    rw [dif_neg (by omega), if_neg (by omega)]
  simp only [linProblemInit, this]

/-- **C41**, what does hold: without a custom matrix the identity is stored, and a nonzero `1×1` matrix is stored as given. Missing: `p ≥ 2` (false, see
`C41_custom_c_violated`). -/
theorem C41_custom_c_partial (a : Matrix (Fin m) (Fin n) K) (b : Vec K m) (w : Option (Vec K n)) :
    linProblemInit a b none w = .ok ⟨m, n, a, b, 1, w, .none⟩ ∧
      ∀ (h : n = 1) (C : Matrix (Fin n) (Fin n) K), C ≠ 0 → linProblemInit a b (some C) w = .ok ⟨m, n, a, b, C, w, .none⟩ := by
  refine ⟨rfl, ?_⟩
  rintro rfl C hC
  have : C ⟨0, by omega⟩ ⟨0, by omega⟩ ≠ 0 := by
    intro h
    apply hC
    ext i j
    rw [Subsingleton.elim i ⟨0, by omega⟩, Subsingleton.elim j ⟨0, by omega⟩, h]
    rfl
  have ht : arrayTruth C = .ok true := by
    unfold arrayTruth
    rw [dif_pos rfl, decide_eq_true this]
  simp only [linProblemInit, ht, if_true]

/-- Non-vacuity of C41: even the identity, which is the default, is rejected when passed explicitly. -/
example (b : Vec ℚ 2) : linProblemInit (1 : Matrix (Fin 2) (Fin 2) ℚ) b (some 1) none = .error .valueError :=
  C41_custom_c_violated _ _ _ _ (by norm_num)

end

/-! ## C32, C33: the SR3 value function -/

section
variable {m n : ℕ}

/-- **C32**: the value function is the minimum over `x` of the relaxed loss, attained exactly at `(AᵀA + lam I)⁻¹ (Aᵀ b + lam w)`. No rank assumption on the data. -/
theorem C32_value_is_partial_min (A : Matrix (Fin m) (Fin n) ℝ) (b : Vec ℝ m) (lam : ℝ) (hlam : 0 < lam) (w : Vec ℝ n) :
    (∀ x, sr3Value A b 1 lam w ≤ relaxedLoss A b lam x w) ∧
      ∀ x, relaxedLoss A b lam x w = sr3Value A b 1 lam w ↔ x = (Aᵀ * A + lam • 1)⁻¹ *ᵥ (Aᵀ *ᵥ b + lam • w) := by
  have hy : sr3Inner A b 1 lam w = (Aᵀ * A + lam • 1)⁻¹ *ᵥ (Aᵀ *ᵥ b + lam • w) := by
    simp [sr3Inner, sr3HInv, sr3H]
  rw [← hy]
  have hs := fun x => sr3Loss_split A b lam hlam x w
  simp only [← sr3Loss_eq_relaxed]
  rw [sr3Value_eq_loss A b lam hlam w]
  refine ⟨fun x => ?_, fun x => ⟨fun h => ?_, fun h => by rw [h]⟩⟩
  · rw [hs x]
    have h1 := normSq_nonneg (A *ᵥ (x - sr3Inner A b 1 lam w))
    have h2 := mul_nonneg hlam.le (normSq_nonneg (x - sr3Inner A b 1 lam w))
    linarith
  · rw [hs x] at h
    have h1 := normSq_nonneg (A *ᵥ (x - sr3Inner A b 1 lam w))
    have h2 := mul_nonneg hlam.le (normSq_nonneg (x - sr3Inner A b 1 lam w))
    have h3 : lam * normSq (x - sr3Inner A b 1 lam w) = 0 := by linarith
    have h4 := (mul_eq_zero.1 h3).resolve_left hlam.ne'
    exact sub_eq_zero.1 (normSq_eq_zero_iff.1 h4)

/-- Non-vacuity of C32: rank-deficient data (a zero matrix); the value function is then the constant `½‖b‖²`. -/
example (w : Vec ℝ 2) : sr3Value (0 : Matrix (Fin 1) (Fin 2) ℝ) ![3] 1 2 w = 9 / 2 := by
  have h := (C32_value_is_partial_min (0 : Matrix (Fin 1) (Fin 2) ℝ) ![3] 2 (by norm_num) w).2 w
  rw [← h.2]
  · simp [relaxedLoss, leastSquares]; norm_num
  · have : ((2 : ℝ) • (1 : Matrix (Fin 2) (Fin 2) ℝ))⁻¹ = (1 / 2 : ℝ) • 1 := by
      apply Matrix.inv_eq_right_inv
      simp
    simp [this, smul_mulVec]

/-- **C33**: the gradient of the value function is exact, with a quadratic remainder between `0` and `lam/2 ‖h‖²`, and it equals `lam (w - x*(w))`. -/
theorem C33_gradient_exact_smooth (A : Matrix (Fin m) (Fin n) ℝ) (b : Vec ℝ m) (lam : ℝ) (hlam : 0 < lam) :
    (∃ q : Vec ℝ n → ℝ, (∀ t h, q (t • h) = t ^ 2 * q h) ∧ (∀ h, 0 ≤ q h ∧ q h ≤ lam / 2 * ∑ j, h j ^ 2) ∧
      ∀ w h, sr3Value A b 1 lam (w + h) = sr3Value A b 1 lam w + (∑ j, sr3Gradient A b 1 lam w j * h j) + q h) ∧
    ∀ w, sr3Gradient A b 1 lam w = lam • (w - (Aᵀ * A + lam • 1)⁻¹ *ᵥ (Aᵀ *ᵥ b + lam • w)) := by
  refine ⟨⟨fun h => 1 / 2 * normSq (sr3F A 1 lam *ᵥ h), fun t h => ?_, fun h => ⟨?_, ?_⟩, fun w h => ?_⟩, fun w => ?_⟩
  · simp only [mulVec_smul, normSq_smul]; ring
  · exact mul_nonneg (by norm_num) (normSq_nonneg _)
  · have h1 : 1 / 2 * normSq (sr3F A 1 lam *ᵥ h) = sr3Value A 0 1 lam h := by simp [sr3Value]
    have h2 := (C32_value_is_partial_min A 0 lam hlam h).1 0
    simp only [relaxedLoss, leastSquares, Pi.zero_apply, mul_zero, Finset.sum_const_zero, sub_zero, zero_sub, neg_sq] at h2
    change 1 / 2 * normSq (sr3F A 1 lam *ᵥ h) ≤ _
    rw [h1]
    simp only [zero_pow two_ne_zero, Finset.sum_const_zero, zero_div, zero_add] at h2
    linarith
  · change _ = _ + sr3Gradient A b 1 lam w ⬝ᵥ h + _
    unfold sr3Value sr3Gradient
    rw [mulVec_add, show sr3F A 1 lam *ᵥ w + sr3F A 1 lam *ᵥ h - sr3G A 1 lam *ᵥ b =
      (sr3F A 1 lam *ᵥ w - sr3G A 1 lam *ᵥ b) + sr3F A 1 lam *ᵥ h by abel, normSq_add, dotProduct_comm ((sr3F A 1 lam)ᵀ *ᵥ _) h,
      ← mulVec_dot, dotProduct_comm (sr3F A 1 lam *ᵥ h)]
    ring
  · rw [sr3Gradient_eq A b lam hlam w]
    simp [sr3Inner, sr3HInv, sr3H]

/-! ## C37, C38 -/

/-- **C37**: the relaxed value never exceeds the plain loss, and does not decrease when the relaxation constant grows. -/
theorem C37_lower_bound (A : Matrix (Fin m) (Fin n) ℝ) (b : Vec ℝ m) (w : Vec ℝ n) (lam lam' : ℝ) (h0 : 0 < lam) (h1 : lam ≤ lam') :
    sr3Value A b 1 lam w ≤ linLoss A b .nonInformative w ∧ sr3Value A b 1 lam w ≤ sr3Value A b 1 lam' w := by
  constructor
  · have h := (C32_value_is_partial_min A b lam h0 w).1 w
    rw [linLoss, half_normSq]
    simpa [relaxedLoss, InstPrior.loss] using h
  · have h := (C32_value_is_partial_min A b lam h0 w).1 (sr3Inner A b 1 lam' w)
    rw [sr3Value_eq_loss A b lam' (h0.trans_le h1), sr3Loss_eq_relaxed]
    refine h.trans ?_
    unfold relaxedLoss
    have : 0 ≤ ∑ j, (sr3Inner A b 1 lam' w j - w j) ^ 2 := Finset.sum_nonneg fun j _ => sq_nonneg _
    have := mul_le_mul_of_nonneg_right h1 this
    linarith

/-- Non-vacuity of C37: the two values are different in general (`A = (1)`, `b = 1`, `w = 0`: `lam/(2(1+lam))`). -/
example : sr3Value (1 : Matrix (Fin 1) (Fin 1) ℝ) ![1] 1 1 ![0] = 1 / 4 ∧ linLoss (1 : Matrix (Fin 1) (Fin 1) ℝ) ![1] .nonInformative ![0] = 1 / 2 := by
  constructor
  · have h := (C32_value_is_partial_min (1 : Matrix (Fin 1) (Fin 1) ℝ) ![1] 1 (by norm_num) ![0]).2 ![1 / 2]
    rw [← h.2]
    · simp [relaxedLoss, leastSquares]; norm_num
    · have : ((1 : Matrix (Fin 1) (Fin 1) ℝ)ᵀ * 1 + (1 : ℝ) • 1)⁻¹ = (1 / 2 : ℝ) • 1 := by
        apply Matrix.inv_eq_right_inv
        rw [transpose_one, one_mul, one_smul, ← two_smul ℝ (1 : Matrix (Fin 1) (Fin 1) ℝ), smul_mul_smul]
        norm_num
      rw [this]
      funext i; fin_cases i; simp [smul_mulVec]
  · simp [linLoss, InstPrior.loss, normSq]

/-- **C38**: the information criteria of both oracles are the least-squares loss plus `2k` resp. `log(n) k`, with `k` the number of nonzero coordinates; in particular the SR3 oracle agrees with the plain one
(and there is no dependence on its relaxation constant). -/
theorem C38_information_criteria (A : Matrix (Fin m) (Fin n) ℝ) (b : Vec ℝ m) (P : InstPrior ℝ n) (x : Vec ℝ n) :
    linAic A b P x = leastSquares A b x + P.loss x + 2 * numNonzero x ∧
    linBic A b P x = leastSquares A b x + P.loss x + Real.log m * numNonzero x ∧
    sr3Aic A b x = leastSquares A b x + 2 * numNonzero x ∧ sr3Bic A b x = leastSquares A b x + Real.log m * numNonzero x := by
  have hk : nnzCount x = numNonzero x := by
    unfold nnzCount numNonzero
    rw [← Nat.card_eq_fintype_card]
    exact rfl
  have hl : linLoss A b P x = leastSquares A b x + P.loss x := by rw [linLoss, half_normSq]
  have hl' : linLoss A b .nonInformative x = leastSquares A b x := by rw [linLoss, half_normSq]; exact add_zero _
  unfold linAic linBic sr3Aic sr3Bic
  rw [hk, hl, hl']
  exact ⟨rfl, rfl, rfl, rfl⟩

/-- Non-vacuity of C38: exact zeros are not counted. -/
example : numNonzero (![0, 3, 0] : Vec ℝ 3) = 1 := by
  unfold numNonzero
  have : {i | (![0, 3, 0] : Vec ℝ 3) i ≠ 0} = {1} := by
    ext i; fin_cases i <;> simp
  rw [this, Set.ncard_singleton]

end

end Verif
