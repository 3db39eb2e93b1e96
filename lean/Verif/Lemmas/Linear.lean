import Verif.Model.Linear
import Verif.Spec.Prior
import Verif.Spec.Solver
import Mathlib.LinearAlgebra.Matrix.ToLinearEquiv
import Mathlib.LinearAlgebra.Matrix.DotProduct
import Mathlib.Tactic.LinearCombination
import Mathlib.Algebra.Order.BigOperators.Ring.Finset

/-!
# Algebra of the linear oracles
-/

namespace Verif

open Matrix

section
variable {K : Type*} [Field K] {m n : ℕ}

theorem normSq_eq_dot {ι : Type*} [Fintype ι] (x : ι → K) : normSq x = x ⬝ᵥ x := by
  unfold normSq dotProduct
  exact Finset.sum_congr rfl fun i _ => by ring

theorem normSq_add {ι : Type*} [Fintype ι] (x y : ι → K) : normSq (x + y) = normSq x + 2 * (x ⬝ᵥ y) + normSq y := by
  simp only [normSq_eq_dot, add_dotProduct, dotProduct_add, dotProduct_comm y x]
  ring

theorem normSq_smul {ι : Type*} [Fintype ι] (a : K) (x : ι → K) : normSq (a • x) = a ^ 2 * normSq x := by
  simp only [normSq_eq_dot, smul_dotProduct, dotProduct_smul, smul_eq_mul]
  ring

theorem normSq_neg {ι : Type*} [Fintype ι] (x : ι → K) : normSq (-x) = normSq x := by
  simp [normSq]

theorem normSq_sub_comm {ι : Type*} [Fintype ι] (x y : ι → K) : normSq (x - y) = normSq (y - x) := by
  rw [← normSq_neg, neg_sub]

theorem mulVec_dot {ι κ : Type*} [Fintype ι] [Fintype κ] (A : Matrix ι κ K) (x : κ → K) (y : ι → K) :
    (A *ᵥ x) ⬝ᵥ y = x ⬝ᵥ (Aᵀ *ᵥ y) := by
  rw [dotProduct_comm, dotProduct_mulVec, dotProduct_comm, mulVec_transpose]

theorem form_eq_dot (H : Matrix (Fin n) (Fin n) K) (h : Vec K n) : ∑ i, ∑ j, h i * H i j * h j = h ⬝ᵥ (H *ᵥ h) := by
  unfold dotProduct mulVec dotProduct
  refine Finset.sum_congr rfl fun i _ => ?_
  rw [Finset.mul_sum]
  exact Finset.sum_congr rfl fun j _ => by ring
end

section
variable {K : Type*} [Field K] [LinearOrder K] [IsStrictOrderedRing K] {m n : ℕ}

theorem normSq_nonneg {ι : Type*} [Fintype ι] (x : ι → K) : 0 ≤ normSq x := Finset.sum_nonneg fun i _ => sq_nonneg _

theorem normSq_eq_zero_iff {ι : Type*} [Fintype ι] {x : ι → K} : normSq x = 0 ↔ x = 0 := by
  unfold normSq
  rw [Finset.sum_eq_zero_iff_of_nonneg fun i _ => sq_nonneg _]
  constructor
  · intro h; funext i; simpa using h i (Finset.mem_univ i)
  · rintro rfl i _; simp

/-- `H = AᵀA + lam I` as an operator. -/
theorem sr3H_one_mulVec (A : Matrix (Fin m) (Fin n) K) (lam : K) (u : Vec K n) :
    sr3H A 1 lam *ᵥ u = Aᵀ *ᵥ (A *ᵥ u) + lam • u := by
  simp [sr3H, add_mulVec, mulVec_mulVec, smul_mulVec]

theorem sr3H_one_form (A : Matrix (Fin m) (Fin n) K) (lam : K) (u : Vec K n) :
    u ⬝ᵥ (sr3H A 1 lam *ᵥ u) = normSq (A *ᵥ u) + lam * normSq u := by
  rw [sr3H_one_mulVec, dotProduct_add, ← mulVec_dot, dotProduct_smul, normSq_eq_dot, normSq_eq_dot, smul_eq_mul]

theorem sr3H_one_det (A : Matrix (Fin m) (Fin n) K) (lam : K) (hlam : 0 < lam) : (sr3H A 1 lam).det ≠ 0 := by
  intro h
  obtain ⟨v, hv, h0⟩ := (Matrix.exists_mulVec_eq_zero_iff).2 h
  have h1 := sr3H_one_form A lam v
  rw [h0, dotProduct_zero] at h1
  have h2 := normSq_nonneg (A *ᵥ v)
  have h3 := normSq_nonneg v
  have h4 : normSq v = 0 := by
    by_contra hne
    have : 0 < lam * normSq v := mul_pos hlam (lt_of_le_of_ne h3 (Ne.symm hne))
    linarith
  exact hv (normSq_eq_zero_iff.1 h4)

theorem sr3H_mulVec_inv (A : Matrix (Fin m) (Fin n) K) (lam : K) (hlam : 0 < lam) (v : Vec K n) :
    sr3H A 1 lam *ᵥ (sr3HInv A 1 lam *ᵥ v) = v := by
  have : IsUnit (sr3H A 1 lam).det := isUnit_iff_ne_zero.2 (sr3H_one_det A lam hlam)
  rw [mulVec_mulVec, sr3HInv, mul_nonsing_inv _ this, one_mulVec]

theorem sr3HInv_mulVec (A : Matrix (Fin m) (Fin n) K) (lam : K) (hlam : 0 < lam) (v : Vec K n) :
    sr3HInv A 1 lam *ᵥ (sr3H A 1 lam *ᵥ v) = v := by
  have : IsUnit (sr3H A 1 lam).det := isUnit_iff_ne_zero.2 (sr3H_one_det A lam hlam)
  rw [mulVec_mulVec, sr3HInv, nonsing_inv_mul _ this, one_mulVec]

theorem sr3HInv_transpose (A : Matrix (Fin m) (Fin n) K) (lam : K) : (sr3HInv A 1 lam)ᵀ = sr3HInv A 1 lam := by
  rw [sr3HInv, transpose_nonsing_inv]
  congr 1
  simp [sr3H, transpose_mul]

/-- Normal equations of the inner problem. -/
theorem sr3Inner_normal (A : Matrix (Fin m) (Fin n) K) (b : Vec K m) (lam : K) (hlam : 0 < lam) (w : Vec K n) :
    Aᵀ *ᵥ (A *ᵥ sr3Inner A b 1 lam w - b) = lam • (w - sr3Inner A b 1 lam w) := by
  have h := sr3H_mulVec_inv A lam hlam (Aᵀ *ᵥ b + lam • ((1 : Matrix (Fin n) (Fin n) K)ᵀ *ᵥ w))
  rw [sr3H_one_mulVec] at h
  change Aᵀ *ᵥ (A *ᵥ sr3Inner A b 1 lam w) + lam • sr3Inner A b 1 lam w = _ at h
  rw [transpose_one, one_mulVec] at h
  rw [mulVec_sub, smul_sub]
  linear_combination (exp := 1) h

/-- Completing the square in the inner problem. -/
theorem sr3Loss_split (A : Matrix (Fin m) (Fin n) K) (b : Vec K m) (lam : K) (hlam : 0 < lam) (x w : Vec K n) :
    sr3Loss A b 1 lam x w = sr3Loss A b 1 lam (sr3Inner A b 1 lam w) w +
      (1 / 2 * normSq (A *ᵥ (x - sr3Inner A b 1 lam w)) + lam / 2 * normSq (x - sr3Inner A b 1 lam w)) := by
  set y := sr3Inner A b 1 lam w with hy
  have hn := sr3Inner_normal A b lam hlam w
  rw [← hy] at hn
  unfold sr3Loss
  rw [one_mulVec, one_mulVec]
  have e1 : A *ᵥ x - b = (A *ᵥ y - b) + A *ᵥ (x - y) := by rw [mulVec_sub]; abel
  have e2 : x - w = (y - w) + (x - y) := by abel
  rw [e1, e2, normSq_add, normSq_add]
  have e3 : (A *ᵥ y - b) ⬝ᵥ (A *ᵥ (x - y)) = lam * ((w - y) ⬝ᵥ (x - y)) := by
    rw [dotProduct_comm, mulVec_dot, hn, dotProduct_smul, smul_eq_mul, dotProduct_comm]
  have e4 : (y - w) ⬝ᵥ (x - y) = - ((w - y) ⬝ᵥ (x - y)) := by rw [← neg_dotProduct, neg_sub]
  rw [e3, e4]
  have e5 : x - y = (y - w) + (x - y) - (y - w) := by abel
  ring

end

section
variable {m n : ℕ}

theorem normSq_sum {ι κ : Type*} [Fintype ι] [Fintype κ] (v : ι ⊕ κ → ℝ) :
    normSq v = normSq (fun i => v (Sum.inl i)) + normSq (fun i => v (Sum.inr i)) := by
  unfold normSq
  exact Fintype.sum_sum_type _

/-- The residual `F w - g` is the pair of residuals of the inner problem. -/
theorem sr3_residual (A : Matrix (Fin m) (Fin n) ℝ) (b : Vec ℝ m) (lam : ℝ) (w : Vec ℝ n) :
    sr3F A 1 lam *ᵥ w - sr3G A 1 lam *ᵥ b =
      Sum.elim (A *ᵥ sr3Inner A b 1 lam w - b) (Real.sqrt lam • (w - sr3Inner A b 1 lam w)) := by
  have hx : sr3Inner A b 1 lam w = sr3HInv A 1 lam *ᵥ (Aᵀ *ᵥ b) + lam • (sr3HInv A 1 lam *ᵥ w) := by
    simp [sr3Inner, mulVec_add, mulVec_smul]
  unfold sr3F sr3G
  rw [fromRows_mulVec, fromRows_mulVec]
  funext i
  cases i with
  | inl i =>
    simp only [Pi.sub_apply, Sum.elim_inl, hx, transpose_one, mul_one, smul_mulVec, mulVec_add, mulVec_smul, sub_mulVec, one_mulVec,
      ← mulVec_mulVec, Pi.add_apply, Pi.smul_apply, smul_eq_mul]
    ring
  | inr i =>
    simp only [Pi.sub_apply, Sum.elim_inr, hx, transpose_one, mul_one, one_mul, smul_mulVec, sub_mulVec, one_mulVec,
      ← mulVec_mulVec, Pi.add_apply, Pi.smul_apply, smul_eq_mul]
    ring

theorem sr3Value_eq_loss (A : Matrix (Fin m) (Fin n) ℝ) (b : Vec ℝ m) (lam : ℝ) (hlam : 0 < lam) (w : Vec ℝ n) :
    sr3Value A b 1 lam w = sr3Loss A b 1 lam (sr3Inner A b 1 lam w) w := by
  unfold sr3Value sr3Loss
  rw [sr3_residual, normSq_sum, one_mulVec]
  simp only [Sum.elim_inl, Sum.elim_inr]
  rw [show (fun i => (Real.sqrt lam • (w - sr3Inner A b 1 lam w)) i) = Real.sqrt lam • (w - sr3Inner A b 1 lam w) from rfl, normSq_smul,
    Real.sq_sqrt hlam.le, normSq_sub_comm w]
  ring

theorem sr3Gradient_eq (A : Matrix (Fin m) (Fin n) ℝ) (b : Vec ℝ m) (lam : ℝ) (hlam : 0 < lam) (w : Vec ℝ n) :
    sr3Gradient A b 1 lam w = lam • (w - sr3Inner A b 1 lam w) := by
  unfold sr3Gradient
  rw [sr3_residual]
  set y := sr3Inner A b 1 lam w with hy
  have hn := sr3Inner_normal A b lam hlam w
  rw [← hy] at hn
  have hF : (sr3F A 1 lam)ᵀ *ᵥ Sum.elim (A *ᵥ y - b) (Real.sqrt lam • (w - y)) =
      lam • (sr3HInv A 1 lam *ᵥ (Aᵀ *ᵥ (A *ᵥ y - b))) + lam • ((w - y) - lam • (sr3HInv A 1 lam *ᵥ (w - y))) := by
    unfold sr3F
    rw [transpose_fromRows, fromCols_mulVec]
    simp only [Sum.elim_comp_inl, Sum.elim_comp_inr, transpose_smul, transpose_mul, transpose_sub, transpose_one, transpose_transpose,
      sr3HInv_transpose, one_mul, mul_one, smul_mulVec, mulVec_smul, sub_mulVec, one_mulVec, ← mulVec_mulVec]
    rw [smul_smul, Real.mul_self_sqrt hlam.le]
  rw [hF, hn, mulVec_smul]
  funext i
  simp only [Pi.add_apply, Pi.smul_apply, Pi.sub_apply, smul_eq_mul]
  ring

end

end Verif
