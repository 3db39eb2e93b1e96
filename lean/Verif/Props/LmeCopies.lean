import Verif.Props.LmePrecision

/-!
# C215: copies of the data give the same estimates with a smaller covariance
-/

open Matrix

namespace Verif

variable {p q : ℕ}

/-- Every group `k` times. -/
def copies {α : Type*} (k : ℕ) (D : List α) : List α := (List.replicate k D).flatten

theorem mem_copies {α : Type*} {k : ℕ} {D : List α} {g : α} (h : g ∈ copies k D) : g ∈ D := by
  obtain ⟨l, hl, hg⟩ := List.mem_flatten.1 h
  rwa [List.eq_of_mem_replicate hl] at hg

theorem sum_copies {α M : Type*} [AddCommMonoid M] (k : ℕ) (D : List α) (f : α → M) : ((copies k D).map f).sum = k • (D.map f).sum := by
  unfold copies
  induction k with
  | zero => simp
  | succ k ih => rw [List.replicate_succ, List.flatten_cons, List.map_append, List.sum_append, ih, succ_nsmul, add_comm]

/-- **C215**: with `k ≥ 1` copies of every group the loss without prior is `k` times the loss, `optimal_beta` returns the same fixed effects, and the covariance of the fixed effects is divided by `k`. -/
theorem C215_copies (D : List (LmeGroup p q)) (hD : PosVar D) (gamma : Vec ℝ q) (hg : ∀ j, 0 ≤ gamma j) (k : ℕ) (hk : 1 ≤ k) :
    (∀ beta, ∃ v, lmeLoss D .nonInformative beta gamma = .ok v ∧ lmeLoss (copies k D) .nonInformative beta gamma = .ok (k * v)) ∧
    (∀ beta, lmeOptimalBeta D gamma = .ok beta ↔ lmeOptimalBeta (copies k D) gamma = .ok beta) ∧
    ∀ C, lmeCovarianceBeta (lmeHessianBeta D .nonInformative gamma) = .ok C → lmeCovarianceBeta (lmeHessianBeta (copies k D) .nonInformative gamma) = .ok ((k : ℝ)⁻¹ • C) := by
  have hk0 : (k : ℝ) ≠ 0 := Nat.cast_ne_zero.2 (by omega)
  have hd := inDomain_of_nonneg hD hg
  have hdc : InDomain (copies k D) gamma := fun g h => hd g (mem_copies h)
  have hdet : ∀ A : Matrix (Fin p) (Fin p) ℝ, IsUnit (k • A).det ↔ IsUnit A.det := fun A => by
    rw [← Nat.cast_smul_eq_nsmul ℝ, det_smul, isUnit_iff_ne_zero, isUnit_iff_ne_zero, mul_ne_zero_iff]
    exact and_iff_right (pow_ne_zero _ hk0)
  refine ⟨fun beta => ⟨_, lmeLoss_ok.2 ⟨hd, rfl⟩, lmeLoss_ok.2 ⟨hdc, ?_⟩⟩, fun beta => ?_, fun C hC => ?_⟩
  · have e : (LmeInstPrior.nonInformative : LmeInstPrior ℝ p q).loss beta gamma = 0 := rfl
    unfold marginalNLL
    rw [sum_copies, e, add_zero, add_zero, nsmul_eq_mul]
  · have e1 : lmeKernelTail D gamma = .ok _ := lmeKernelTail_ok.2 ⟨hd, rfl⟩
    have e2 : lmeKernelTail (copies k D) gamma = .ok _ := lmeKernelTail_ok.2 ⟨hdc, rfl⟩
    unfold lmeOptimalBeta
    rw [e1, e2]
    change npSolve _ _ = _ ↔ npSolve _ _ = _
    rw [npSolve_ok, npSolve_ok]
    simp only [sum_copies]
    rw [hdet]
    refine and_congr_right fun _ => ?_
    rw [← Nat.cast_smul_eq_nsmul ℝ, ← Nat.cast_smul_eq_nsmul ℝ, Matrix.smul_mulVec]
    exact ⟨fun h => by rw [h], fun h => smul_right_injective _ hk0 h⟩
  · have e1 : lmeHessianBeta D .nonInformative gamma = .ok _ := lmeHessianBeta_ok.2 ⟨hd, rfl⟩
    have e2 : lmeHessianBeta (copies k D) .nonInformative gamma = .ok _ := lmeHessianBeta_ok.2 ⟨hdc, rfl⟩
    have e : (LmeInstPrior.nonInformative : LmeInstPrior ℝ p q).hessianBeta = 0 := rfl
    unfold lmeCovarianceBeta at hC ⊢
    rw [e1] at hC
    rw [e2]
    obtain ⟨hu, rfl⟩ := npInv_ok.1 hC
    refine npInv_ok.2 ?_
    rw [e, add_zero] at hu
    rw [sum_copies, e, add_zero, add_zero]
    refine ⟨(hdet _).2 hu, ?_⟩
    rw [← Nat.cast_smul_eq_nsmul ℝ]
    refine (Matrix.inv_eq_right_inv ?_).symm
    rw [Matrix.smul_mul, Matrix.mul_smul, smul_smul, mul_inv_cancel₀ hk0, one_smul, Matrix.mul_nonsing_inv _ hu]

/-- Non-vacuity: three copies of the example group. -/
example : ∃ C, lmeCovarianceBeta (lmeHessianBeta [exGroup] .nonInformative ![1]) = .ok C ∧ lmeCovarianceBeta (lmeHessianBeta [exGroup, exGroup, exGroup] .nonInformative ![1]) = .ok ((3 : ℝ)⁻¹ • C) := by
  obtain ⟨H, hH, hne⟩ := exGroup_hessian
  have hC : lmeCovarianceBeta (lmeHessianBeta [exGroup] .nonInformative ![1]) = .ok H⁻¹ := by
    unfold lmeCovarianceBeta
    rw [hH]
    exact npInv_ok.2 ⟨isUnit_iff_ne_zero.2 hne, rfl⟩
  exact ⟨_, hC, (C215_copies [exGroup] exGroup_posVar ![1] (fun j => by fin_cases j; norm_num) 3 (by norm_num)).2.2 _ hC⟩

end Verif
