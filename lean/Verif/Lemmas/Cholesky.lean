import Mathlib.Analysis.Matrix.LDL
import Mathlib.Algebra.Order.Star.Real
import Mathlib.LinearAlgebra.Matrix.Block
import Mathlib.Tactic.Linarith
import Mathlib.Tactic.Positivity
import Verif.Model.LmeOracle

/-!
# Facts about the Cholesky contract

Existence for positive definite matrices, uniqueness, and the two identities through which every oracle
formula goes: `elInvᵀ elInv = Ω⁻¹` and `∑ log (diag elInv) = -½ log det Ω`.
-/

open Matrix

namespace Verif

variable {n : ℕ}

/-- Lower-triangularity in Mathlib's vocabulary. -/
theorem lower_iff {L : Matrix (Fin n) (Fin n) ℝ} :
    (∀ i j, i < j → L i j = 0) ↔ BlockTriangular L (OrderDual.toDual : Fin n → (Fin n)ᵒᵈ) := by
  constructor
  · intro h i j hij
    exact h i j hij
  · intro h i j hij
    exact h (show OrderDual.toDual j < OrderDual.toDual i from hij)

theorem det_lower {L : Matrix (Fin n) (Fin n) ℝ} (h : ∀ i j, i < j → L i j = 0) :
    L.det = ∏ i, L i i := by
  have h' : L.BlockTriangular OrderDual.toDual := lower_iff.1 h
  exact Matrix.det_of_isLowerTriangular L h'

theorem inv_lower {L : Matrix (Fin n) (Fin n) ℝ} (h : ∀ i j, i < j → L i j = 0) (hd : IsUnit L.det) :
    ∀ i j, i < j → L⁻¹ i j = 0 := by
  rw [lower_iff] at h ⊢
  have := invertibleOfIsUnitDet L hd
  exact blockTriangular_inv_of_blockTriangular h

/-- A Cholesky factor is invertible. -/
theorem IsCholesky.isUnit_det {L A : Matrix (Fin n) (Fin n) ℝ} (h : IsCholesky L A) : IsUnit L.det := by
  rw [det_lower h.lower]
  exact (Finset.prod_ne_zero_iff.2 fun i _ => (h.diag_pos i).ne').isUnit

theorem IsCholesky.posDef {L A : Matrix (Fin n) (Fin n) ℝ} (h : IsCholesky L A) : A.PosDef := by
  rw [← h.mul_transpose]
  have := PosDef.mul_conjTranspose_self L (by
    have hu : IsUnit L := (Matrix.isUnit_iff_isUnit_det L).2 h.isUnit_det
    intro v w hvw
    exact Matrix.vecMul_injective_of_isUnit hu hvw)
  simpa [conjTranspose_eq_transpose_of_trivial] using this

/-- Every positive definite matrix has a Cholesky factor. -/
theorem exists_isCholesky {A : Matrix (Fin n) (Fin n) ℝ} (hA : A.PosDef) : ∃ L, IsCholesky L A := by
  have hlow : ∀ i j, i < j → (LDL.lower hA) i j = 0 := by
    have h1 : ∀ i j, i < j → (LDL.lowerInv hA) i j = 0 := fun i j h => LDL.lowerInv_triangular hA h
    have h2 : IsUnit (LDL.lowerInv hA).det :=
      (Matrix.isUnit_iff_isUnit_det _).1 (isUnit_of_invertible (LDL.lowerInv hA))
    exact inv_lower h1 h2
  have hdet : IsUnit (LDL.lower hA).det := by
    have h2 : IsUnit (LDL.lowerInv hA).det :=
      (Matrix.isUnit_iff_isUnit_det _).1 (isUnit_of_invertible (LDL.lowerInv hA))
    unfold LDL.lower
    exact Matrix.isUnit_nonsing_inv_det _ h2
  have hD : ∀ i, 0 < LDL.diagEntries hA i := by
    have hpd : (LDL.diag hA).PosDef := by
      rw [LDL.diag_eq_lowerInv_conj]
      exact (Matrix.IsUnit.posDef_star_right_conjugate_iff
        (isUnit_of_invertible (LDL.lowerInv hA))).2 hA
    intro i
    have := hpd.diag_pos (i := i)
    simpa [LDL.diag] using this
  set M := LDL.lower hA with hM
  have hMd : ∀ i, M i i ≠ 0 := by
    intro i
    have h := hdet.ne_zero
    rw [det_lower hlow] at h
    exact Finset.prod_ne_zero_iff.1 h i (Finset.mem_univ _)
  -- scale the columns and fix the signs
  let s : Fin n → ℝ := fun i => SignType.sign (M i i) * Real.sqrt (LDL.diagEntries hA i)
  have hs2 : ∀ i, s i * s i = LDL.diagEntries hA i := by
    intro i
    have h1 : ((SignType.sign (M i i) : SignType) : ℝ) * (SignType.sign (M i i) : SignType) = 1 := by
      rcases lt_or_gt_of_ne (hMd i) with h | h <;> simp [h]
    calc s i * s i = (((SignType.sign (M i i) : SignType) : ℝ) * (SignType.sign (M i i) : SignType)) *
          (Real.sqrt (LDL.diagEntries hA i) * Real.sqrt (LDL.diagEntries hA i)) := by
            simp only [s]; ring
      _ = _ := by rw [h1, Real.mul_self_sqrt (hD i).le, one_mul]
  refine ⟨M * diagonal s, ?_, ?_, ?_⟩
  · intro i j hij
    rw [Matrix.mul_diagonal, hlow i j hij, zero_mul]
  · intro i
    rw [Matrix.mul_diagonal]
    have h1 : M i i * s i = |M i i| * Real.sqrt (LDL.diagEntries hA i) := by
      simp only [s]
      rw [← mul_assoc, mul_comm (M i i), sign_mul_self]
    rw [h1]
    exact mul_pos (abs_pos.2 (hMd i)) (Real.sqrt_pos.2 (hD i))
  · have h1 : diagonal s * (diagonal s)ᵀ = LDL.diag hA := by
      rw [diagonal_transpose, diagonal_mul_diagonal, LDL.diag]
      congr 1
      funext i
      exact hs2 i
    calc M * diagonal s * (M * diagonal s)ᵀ = M * (diagonal s * (diagonal s)ᵀ) * Mᵀ := by
            rw [Matrix.transpose_mul]; simp only [Matrix.mul_assoc]
      _ = A := by
            rw [h1]
            simpa [conjTranspose_eq_transpose_of_trivial] using LDL.lower_conj_diag hA

/-- The Cholesky factor is unique. -/
theorem IsCholesky.unique {L M A : Matrix (Fin n) (Fin n) ℝ} (hL : IsCholesky L A) (hM : IsCholesky M A) :
    L = M := by
  have uL := hL.isUnit_det
  have uM := hM.isUnit_det
  set N := M⁻¹ * L with hN
  have hMN : M * N = L := by rw [hN, Matrix.mul_nonsing_inv_cancel_left _ _ uM]
  have hNlow : ∀ i j, i < j → N i j = 0 := by
    have h1 := lower_iff.1 (inv_lower hM.lower uM)
    have h2 := lower_iff.1 hL.lower
    exact lower_iff.2 (h1.mul h2)
  have hNN : N * Nᵀ = 1 := by
    have e : L * Lᵀ = M * Mᵀ := by rw [hL.mul_transpose, hM.mul_transpose]
    calc N * Nᵀ = M⁻¹ * (L * Lᵀ) * (Mᵀ)⁻¹ := by
            rw [hN, Matrix.transpose_mul, Matrix.transpose_nonsing_inv]; simp only [Matrix.mul_assoc]
      _ = (M⁻¹ * M) * (Mᵀ * (Mᵀ)⁻¹) := by rw [e]; simp only [Matrix.mul_assoc]
      _ = 1 := by
            rw [Matrix.nonsing_inv_mul _ uM, Matrix.mul_nonsing_inv _ (by rwa [Matrix.det_transpose]),
              Matrix.one_mul]
  have hNd : IsUnit N.det := by
    rw [hN, Matrix.det_mul]
    exact (Matrix.isUnit_nonsing_inv_det _ uM).mul uL
  have hNinv : N⁻¹ = Nᵀ := Matrix.inv_eq_right_inv hNN
  have hNup : ∀ i j, j < i → N i j = 0 := by
    intro i j hij
    have := inv_lower hNlow hNd j i hij
    rwa [hNinv] at this
  have hNpos : ∀ i, 0 < N i i := by
    intro i
    have h1 : L i i = M i i * N i i := by
      rw [← hMN, Matrix.mul_apply, Finset.sum_eq_single i]
      · intro k _ hk
        rcases lt_or_gt_of_ne hk with h | h
        · rw [hNlow k i h, mul_zero]
        · rw [hM.lower i k h, zero_mul]
      · intro h; exact absurd (Finset.mem_univ i) h
    have h2 := hL.diag_pos i
    rw [h1] at h2
    exact (mul_pos_iff_of_pos_left (hM.diag_pos i)).1 h2
  have hN1 : N = 1 := by
    ext i j
    rcases lt_trichotomy i j with h | h | h
    · rw [hNlow i j h, Matrix.one_apply_ne h.ne]
    · subst h
      have h1 : (N * Nᵀ) i i = 1 := by rw [hNN, Matrix.one_apply_eq]
      rw [Matrix.mul_apply, Finset.sum_eq_single i] at h1
      · rw [Matrix.transpose_apply] at h1
        rw [Matrix.one_apply_eq]
        nlinarith [hNpos i]
      · intro k _ hk
        rcases lt_or_gt_of_ne hk with h | h
        · rw [hNup i k h, zero_mul]
        · rw [hNlow i k h, zero_mul]
      · intro h; exact absurd (Finset.mem_univ i) h
    · rw [hNup i j h, Matrix.one_apply_ne h.ne']
  rw [← hMN, hN1, Matrix.mul_one]

theorem cholFactor_spec {A : Matrix (Fin n) (Fin n) ℝ} (h : ∃ L, IsCholesky L A) :
    IsCholesky (cholFactor A) A := by
  unfold cholFactor
  rw [dif_pos h]
  exact h.choose_spec

theorem cholFactor_eq {L A : Matrix (Fin n) (Fin n) ℝ} (h : IsCholesky L A) : cholFactor A = L :=
  (cholFactor_spec ⟨L, h⟩).unique h

theorem exists_isCholesky_iff {A : Matrix (Fin n) (Fin n) ℝ} : (∃ L, IsCholesky L A) ↔ A.PosDef :=
  ⟨fun ⟨_, h⟩ => h.posDef, exists_isCholesky⟩

theorem npCholesky_ok {A L : Matrix (Fin n) (Fin n) ℝ} :
    npCholesky A = .ok L ↔ A.PosDef ∧ L = cholFactor A := by
  unfold npCholesky
  by_cases h : ∃ L, IsCholesky L A
  · rw [if_pos h]
    constructor
    · intro e; cases e; exact ⟨exists_isCholesky_iff.1 h, rfl⟩
    · rintro ⟨_, rfl⟩; rfl
  · rw [if_neg h]
    constructor
    · intro e; cases e
    · rintro ⟨hp, _⟩; exact absurd (exists_isCholesky_iff.2 hp) h

theorem trtriInv_eq {L : Matrix (Fin n) (Fin n) ℝ} : trtriInv L = L⁻¹ := by
  unfold trtriInv
  rw [Matrix.transpose_nonsing_inv, Matrix.transpose_transpose]

/-- `elInvᵀ elInv = Ω⁻¹`. -/
theorem IsCholesky.invT_mul_inv {L A : Matrix (Fin n) (Fin n) ℝ} (h : IsCholesky L A) :
    (trtriInv L)ᵀ * trtriInv L = A⁻¹ := by
  rw [trtriInv_eq, ← h.mul_transpose, Matrix.mul_inv_rev, Matrix.transpose_nonsing_inv]

/-- `∑ log (diag elInv) = -½ log det Ω`. -/
theorem IsCholesky.sum_log {L A : Matrix (Fin n) (Fin n) ℝ} (h : IsCholesky L A) :
    ∑ i, Real.log (trtriInv L i i) = -(1 / 2 * Real.log A.det) := by
  rw [trtriInv_eq]
  have hu := h.isUnit_det
  have hE := inv_lower h.lower hu
  have hEd : (L⁻¹).det = ∏ i, L⁻¹ i i := det_lower hE
  have hne : ∀ i, L⁻¹ i i ≠ 0 := by
    intro i
    have h2 := (Matrix.isUnit_nonsing_inv_det _ hu).ne_zero
    rw [hEd] at h2
    exact Finset.prod_ne_zero_iff.1 h2 i (Finset.mem_univ _)
  rw [← Real.log_prod (fun i _ => hne i), ← hEd, Matrix.det_nonsing_inv, Ring.inverse_eq_inv',
    Real.log_inv, ← h.mul_transpose, Matrix.det_mul, Matrix.det_transpose,
    Real.log_mul hu.ne_zero hu.ne_zero]
  ring

end Verif
