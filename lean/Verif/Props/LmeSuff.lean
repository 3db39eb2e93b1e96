import Mathlib.LinearAlgebra.Matrix.Rank
import Verif.Lemmas.SolverOffset
import Verif.Props.LmeReorder
import Verif.Props.LmeAic

/-!
# Mixed-effects fits use each group only through weighted cross products (C187)
-/

open Matrix

namespace Verif

variable {p q : ℕ}

/-- The weighted cross products of two groups (of possibly different sizes) agree: `xᵀ Λ⁻¹ x`, `xᵀ Λ⁻¹ z`, `zᵀ Λ⁻¹ z`, `xᵀ Λ⁻¹ y` and
`zᵀ Λ⁻¹ y`, with `Λ` the diagonal matrix of the observation variances. -/
structure SameCross (g g' : LmeGroup p q) : Prop where
  xx : ∀ k k', ∑ i, g'.x i k * g'.x i k' / g'.l i = ∑ i, g.x i k * g.x i k' / g.l i
  xz : ∀ k j, ∑ i, g'.x i k * g'.z i j / g'.l i = ∑ i, g.x i k * g.z i j / g.l i
  zz : ∀ j j', ∑ i, g'.z i j * g'.z i j' / g'.l i = ∑ i, g.z i j * g.z i j' / g.l i
  xy : ∀ k, ∑ i, g'.x i k * g'.y i / g'.l i = ∑ i, g.x i k * g.y i / g.l i
  zy : ∀ j, ∑ i, g'.z i j * g'.y i / g'.l i = ∑ i, g.z i j * g.y i / g.l i

/-- The weighted inner product of a group. -/
noncomputable def wip (g : LmeGroup p q) (b c : Fin g.n → ℝ) : ℝ := ∑ i, b i * c i / g.l i

/-- `1 + Γ zᵀ Λ⁻¹ z`. -/
noncomputable def shrink (g : LmeGroup p q) (gamma : Vec ℝ q) : Matrix (Fin q) (Fin q) ℝ :=
  1 + diagonal gamma * g.zᵀ * diagonal (fun i => 1 / g.l i) * g.z

theorem cross_apply (g : LmeGroup p q) (j j' : Fin q) : (g.zᵀ * diagonal (fun i => 1 / g.l i) * g.z) j j' = ∑ i, g.z i j * g.z i j' / g.l i := by
  rw [Matrix.mul_apply]
  refine Finset.sum_congr rfl fun i _ => ?_
  rw [Matrix.mul_diagonal, transpose_apply]
  ring

theorem shrink_eq (g : LmeGroup p q) (gamma : Vec ℝ q) :
    shrink g gamma = 1 + diagonal gamma * Matrix.of fun j j' => ∑ i, g.z i j * g.z i j' / g.l i := by
  unfold shrink
  rw [Matrix.mul_assoc, Matrix.mul_assoc, ← Matrix.mul_assoc g.zᵀ]
  congr 2
  ext j j'
  rw [cross_apply]
  rfl

/-- The bilinear form of the inverse covariance by weighted inner products. -/
theorem inv_form {g : LmeGroup p q} (hl : ∀ i, 0 < g.l i) {gamma : Vec ℝ q} (hd : (margCov g gamma).PosDef) (b c : Fin g.n → ℝ) :
    b ⬝ᵥ ((margCov g gamma)⁻¹ *ᵥ c) =
      wip g b c - (fun j => wip g b fun i => g.z i j) ⬝ᵥ (((shrink g gamma)⁻¹ * diagonal gamma) *ᵥ fun j => wip g (fun i => g.z i j) c) := by
  have hu : IsUnit (margCov g gamma).det := hd.det_pos.ne'.isUnit
  have hT : IsUnit (shrink g gamma).det := by
    have h1 := hd.det_pos
    rw [det_margCov hl] at h1
    have h2 : 0 < ∏ i, g.l i := Finset.prod_pos fun i _ => hl i
    exact ((mul_pos_iff_of_pos_left h2).1 h1).ne'.isUnit
  have hLW : diagonal g.l * diagonal (fun i => 1 / g.l i) = 1 := by
    rw [Matrix.diagonal_mul_diagonal, ← Matrix.diagonal_one]
    congr 1
    funext i
    exact mul_one_div_cancel (hl i).ne'
  set W := diagonal (fun i => 1 / g.l i) with hW
  have h1 : margCov g gamma * (W * g.z) = g.z * shrink g gamma := by
    unfold margCov shrink
    rw [← hW, Matrix.add_mul, Matrix.mul_add, Matrix.mul_one, ← Matrix.mul_assoc (diagonal g.l), hLW, Matrix.one_mul, add_comm]
    simp only [Matrix.mul_assoc]
  have h2 : (margCov g gamma)⁻¹ * g.z = W * g.z * (shrink g gamma)⁻¹ := by
    have h0 : g.z = margCov g gamma * (W * g.z) * (shrink g gamma)⁻¹ := by
      rw [h1, Matrix.mul_assoc, Matrix.mul_nonsing_inv _ hT, Matrix.mul_one]
    conv_lhs => rw [h0]
    rw [Matrix.mul_assoc, ← Matrix.mul_assoc (margCov g gamma)⁻¹, Matrix.nonsing_inv_mul _ hu, Matrix.one_mul]
  have h3 : margCov g gamma * W = 1 + g.z * (diagonal gamma * g.zᵀ * W) := by
    unfold margCov
    rw [Matrix.add_mul, hLW, add_comm]
    simp only [Matrix.mul_assoc]
  have h4 : (margCov g gamma)⁻¹ = W - W * g.z * ((shrink g gamma)⁻¹ * diagonal gamma) * (g.zᵀ * W) := by
    have h5 : W = (margCov g gamma)⁻¹ + (margCov g gamma)⁻¹ * g.z * (diagonal gamma * g.zᵀ * W) := by
      conv_lhs => rw [← Matrix.one_mul W, ← Matrix.nonsing_inv_mul _ hu, Matrix.mul_assoc, h3, Matrix.mul_add, Matrix.mul_one, ← Matrix.mul_assoc]
    rw [h2] at h5
    have h6 := eq_sub_of_add_eq h5.symm
    rw [h6]
    simp only [Matrix.mul_assoc]
  have wb : ∀ b c : Fin g.n → ℝ, b ⬝ᵥ (W *ᵥ c) = wip g b c := by
    intro b c
    rw [hW]
    unfold wip dotProduct
    refine Finset.sum_congr rfl fun i _ => ?_
    rw [Matrix.mulVec_diagonal]
    ring
  have wz : (g.zᵀ * W) *ᵥ c = fun j => wip g (fun i => g.z i j) c := by
    funext j
    rw [← wb, ← mulVec_mulVec]
    rfl
  have wz' : b ᵥ* (W * g.z) = fun j => wip g b fun i => g.z i j := by
    funext j
    rw [← wb, dotProduct_mulVec, ← vecMul_vecMul]
    rfl
  rw [h4, Matrix.sub_mulVec, dotProduct_sub, wb, ← mulVec_mulVec, wz, ← mulVec_mulVec, dotProduct_mulVec, wz']

/-- Whether a `gamma` is in the domain is decided by `zᵀ Λ⁻¹ z`. -/
theorem posDef_cross {g : LmeGroup p q} (hl : ∀ i, 0 < g.l i) (gamma : Vec ℝ q) {S : Matrix (Fin q) (Fin q) ℝ} (hS : ∀ j j', S j j' = ∑ i, g.z i j * g.z i j' / g.l i) :
    (margCov g gamma).PosDef ↔ ∀ a : Vec ℝ q, S *ᵥ a ≠ 0 → 0 < a ⬝ᵥ (S *ᵥ a) + ∑ j, gamma j * (S *ᵥ a) j ^ 2 := by
  have hq : ∀ v : Fin g.n → ℝ, v ⬝ᵥ (margCov g gamma *ᵥ v) = ∑ i, g.l i * v i ^ 2 + ∑ j, gamma j * (g.zᵀ *ᵥ v) j ^ 2 := by
    intro v
    unfold margCov
    rw [Matrix.add_mulVec, dotProduct_add, add_comm, ← mulVec_mulVec, ← mulVec_mulVec, dotProduct_mulVec v g.z, ← mulVec_transpose]
    congr 1
    · unfold dotProduct
      refine Finset.sum_congr rfl fun i _ => ?_
      rw [Matrix.mulVec_diagonal]
      ring
    · unfold dotProduct
      refine Finset.sum_congr rfl fun i _ => ?_
      rw [Matrix.mulVec_diagonal]
      ring
  have hza : ∀ a : Vec ℝ q, g.zᵀ *ᵥ (fun i => (g.z *ᵥ a) i / g.l i) = S *ᵥ a := by
    intro a
    funext j
    simp only [Matrix.mulVec, dotProduct, transpose_apply, hS, Finset.sum_mul, Finset.sum_div, Finset.mul_sum]
    rw [Finset.sum_comm]
    refine Finset.sum_congr rfl fun j' _ => Finset.sum_congr rfl fun i _ => ?_
    ring
  have has : ∀ a : Vec ℝ q, a ⬝ᵥ (S *ᵥ a) = ∑ i, (g.z *ᵥ a) i ^ 2 / g.l i := by
    intro a
    rw [← hza, dotProduct_mulVec, vecMul_transpose]
    unfold dotProduct
    refine Finset.sum_congr rfl fun i _ => ?_
    ring
  constructor
  · intro hd a ha
    have hv : (fun i => (g.z *ᵥ a) i / g.l i) ≠ 0 := by
      intro h
      rw [← hza, h, Matrix.mulVec_zero] at ha
      exact ha rfl
    have h := hd.dotProduct_mulVec_pos hv
    rw [star_trivial, hq, hza] at h
    rw [has]
    refine h.trans_eq (congrArg (· + _) (Finset.sum_congr rfl fun i _ => ?_))
    have := (hl i).ne'
    field_simp
  · intro h
    refine PosDef.of_dotProduct_mulVec_pos (by rw [IsHermitian, conjTranspose_eq_transpose_of_trivial, margCov_isSymm]) fun v hv => ?_
    rw [star_trivial, hq]
    have hpos : 0 < ∑ i, g.l i * v i ^ 2 := by
      obtain ⟨i, hi⟩ := Function.ne_iff.1 hv
      refine Finset.sum_pos' (fun i _ => mul_nonneg (hl i).le (sq_nonneg _)) ⟨i, Finset.mem_univ _, mul_pos (hl i) ?_⟩
      have : v i ≠ 0 := hi
      positivity
    -- a solution of `S a = zᵀ v`
    obtain ⟨a, ha⟩ : ∃ a, S *ᵥ a = g.zᵀ *ᵥ v := by
      set N : Matrix (Fin g.n) (Fin q) ℝ := diagonal (fun i => 1 / Real.sqrt (g.l i)) * g.z with hN
      have hsq : ∀ i, Real.sqrt (g.l i) * Real.sqrt (g.l i) = g.l i := fun i => Real.mul_self_sqrt (hl i).le
      have hs0 : ∀ i, Real.sqrt (g.l i) ≠ 0 := fun i => (Real.sqrt_pos.2 (hl i)).ne'
      have hNN : Nᵀ * N = S := by
        ext j j'
        rw [hS, Matrix.mul_apply]
        refine Finset.sum_congr rfl fun i _ => ?_
        rw [hN, transpose_apply, Matrix.diagonal_mul, Matrix.diagonal_mul]
        have h1 := hs0 i
        have h2 := (hl i).ne'
        have h3 : 1 / Real.sqrt (g.l i) * g.z i j * (1 / Real.sqrt (g.l i) * g.z i j') = g.z i j * g.z i j' / (Real.sqrt (g.l i) * Real.sqrt (g.l i)) := by
          field_simp
        rw [h3, hsq]
      have hle : LinearMap.range (Nᵀ * N).mulVecLin ≤ LinearMap.range Nᵀ.mulVecLin := by
        rintro _ ⟨a, rfl⟩
        exact ⟨N *ᵥ a, by simp⟩
      have heq : LinearMap.range (Nᵀ * N).mulVecLin = LinearMap.range Nᵀ.mulVecLin := by
        refine Submodule.eq_of_le_of_finrank_eq hle ?_
        change (Nᵀ * N).rank = Nᵀ.rank
        rw [Matrix.rank_transpose_mul_self, Matrix.rank_transpose]
      have hm : g.zᵀ *ᵥ v ∈ LinearMap.range Nᵀ.mulVecLin := by
        refine ⟨fun i => Real.sqrt (g.l i) * v i, ?_⟩
        rw [mulVecLin_apply]
        funext j
        simp only [Matrix.mulVec, dotProduct, transpose_apply, hN, Matrix.diagonal_mul]
        refine Finset.sum_congr rfl fun i _ => ?_
        have := hs0 i
        field_simp
      rw [← heq] at hm
      obtain ⟨a, ha⟩ := hm
      exact ⟨a, by rw [← hNN]; exact ha⟩
    by_cases h0 : S *ᵥ a = 0
    · rw [← ha, h0]
      simpa using hpos
    · have h1 := h a h0
      rw [ha] at h1
      have h2 : a ⬝ᵥ (g.zᵀ *ᵥ v) ≤ ∑ i, g.l i * v i ^ 2 := by
        have h3 : 0 ≤ ∑ i, g.l i * (v i - (g.z *ᵥ a) i / g.l i) ^ 2 := Finset.sum_nonneg fun i _ => mul_nonneg (hl i).le (sq_nonneg _)
        have h4 : ∑ i, g.l i * (v i - (g.z *ᵥ a) i / g.l i) ^ 2 = ∑ i, g.l i * v i ^ 2 - 2 * (a ⬝ᵥ (g.zᵀ *ᵥ v)) + a ⬝ᵥ (S *ᵥ a) := by
          rw [has, dotProduct_mulVec, vecMul_transpose]
          unfold dotProduct
          rw [Finset.mul_sum, ← Finset.sum_sub_distrib, ← Finset.sum_add_distrib]
          refine Finset.sum_congr rfl fun i _ => ?_
          have := (hl i).ne'
          field_simp
          ring
        rw [h4, ha] at h3
        linarith
      linarith

namespace SameCross
variable {g g' : LmeGroup p q} (h : SameCross g g')
include h

theorem shrink_eq (gamma : Vec ℝ q) : shrink g' gamma = shrink g gamma := by
  rw [Verif.shrink_eq, Verif.shrink_eq]
  congr 3
  funext j j'
  exact h.zz j j'

theorem posDef (hl : ∀ i, 0 < g.l i) (hl' : ∀ i, 0 < g'.l i) (gamma : Vec ℝ q) : (margCov g' gamma).PosDef ↔ (margCov g gamma).PosDef := by
  rw [posDef_cross (S := Matrix.of fun j j' => ∑ i, g.z i j * g.z i j' / g.l i) hl gamma fun _ _ => rfl,
    posDef_cross (S := Matrix.of fun j j' => ∑ i, g.z i j * g.z i j' / g.l i) hl' gamma fun j j' => (h.zz j j').symm]

omit h in
theorem wip_residual (b : Fin g.n → ℝ) (beta : Vec ℝ p) : wip g b (residual g beta) = wip g b g.y - ∑ k, wip g b (fun i => g.x i k) * beta k := by
  unfold wip residual
  simp only [Finset.sum_mul]
  rw [Finset.sum_comm, ← Finset.sum_sub_distrib]
  refine Finset.sum_congr rfl fun i _ => ?_
  rw [mul_sub, sub_div, Finset.mul_sum, Finset.sum_div]
  refine congrArg _ (Finset.sum_congr rfl fun k _ => ?_)
  ring

omit h in
theorem wip_comm (b c : Fin g.n → ℝ) : wip g b c = wip g c b := Finset.sum_congr rfl fun i _ => by ring

theorem xr (beta : Vec ℝ p) (k : Fin p) : wip g' (fun i => g'.x i k) (residual g' beta) = wip g (fun i => g.x i k) (residual g beta) := by
  rw [wip_residual, wip_residual]
  exact congrArg₂ _ (h.xy k) (Finset.sum_congr rfl fun k' _ => congrArg (· * _) (h.xx k k'))

theorem zr (beta : Vec ℝ p) (j : Fin q) : wip g' (fun i => g'.z i j) (residual g' beta) = wip g (fun i => g.z i j) (residual g beta) := by
  rw [wip_residual, wip_residual]
  refine congrArg₂ _ (h.zy j) (Finset.sum_congr rfl fun k' _ => congrArg (· * _) ?_)
  rw [wip_comm, wip_comm (g := g)]
  exact h.xz k' j

theorem rr (beta : Vec ℝ p) : wip g' (residual g' beta) (residual g' beta) = wip g (residual g beta) (residual g beta) + (wip g' g'.y g'.y - wip g g.y g.y) := by
  have e : ∀ g : LmeGroup p q, wip g (residual g beta) (residual g beta) =
      wip g g.y g.y - ∑ k, wip g g.y (fun i => g.x i k) * beta k - ∑ k, wip g (fun i => g.x i k) (residual g beta) * beta k := by
    intro g
    rw [wip_residual, wip_comm, wip_residual]
    refine congrArg _ (Finset.sum_congr rfl fun k _ => ?_)
    rw [wip_comm]
  have e2 : ∑ k, wip g' g'.y (fun i => g'.x i k) * beta k = ∑ k, wip g g.y (fun i => g.x i k) * beta k := by
    refine Finset.sum_congr rfl fun k _ => congrArg (· * _) ?_
    rw [wip_comm, wip_comm (g := g)]
    exact h.xy k
  rw [e g, e g', e2]
  simp only [h.xr]
  ring

variable (hl : ∀ i, 0 < g.l i) (hl' : ∀ i, 0 < g'.l i)
include hl hl'

theorem xr_inv {gamma : Vec ℝ q} (hd : (margCov g gamma).PosDef) (beta : Vec ℝ p) :
    g'.xᵀ *ᵥ ((margCov g' gamma)⁻¹ *ᵥ residual g' beta) = g.xᵀ *ᵥ ((margCov g gamma)⁻¹ *ᵥ residual g beta) := by
  funext k
  have e := inv_form hl hd (fun i => g.x i k) (residual g beta)
  have e' := inv_form hl' ((h.posDef hl hl' gamma).2 hd) (fun i => g'.x i k) (residual g' beta)
  rw [h.xr, h.shrink_eq] at e'
  simp only [h.zr] at e'
  refine e'.trans (Eq.trans ?_ e.symm)
  refine congrArg (fun v => _ - v ⬝ᵥ _) (funext fun j => h.xz k j)

theorem zr_inv {gamma : Vec ℝ q} (hd : (margCov g gamma).PosDef) (beta : Vec ℝ p) :
    g'.zᵀ *ᵥ ((margCov g' gamma)⁻¹ *ᵥ residual g' beta) = g.zᵀ *ᵥ ((margCov g gamma)⁻¹ *ᵥ residual g beta) := by
  funext k
  have e := inv_form hl hd (fun i => g.z i k) (residual g beta)
  have e' := inv_form hl' ((h.posDef hl hl' gamma).2 hd) (fun i => g'.z i k) (residual g' beta)
  rw [h.zr, h.shrink_eq] at e'
  simp only [h.zr] at e'
  refine e'.trans (Eq.trans ?_ e.symm)
  refine congrArg (fun v => _ - v ⬝ᵥ _) (funext fun j => h.zz k j)

theorem xy_inv {gamma : Vec ℝ q} (hd : (margCov g gamma).PosDef) :
    g'.xᵀ *ᵥ ((margCov g' gamma)⁻¹ *ᵥ g'.y) = g.xᵀ *ᵥ ((margCov g gamma)⁻¹ *ᵥ g.y) := by
  have e : ∀ g : LmeGroup p q, residual g 0 = g.y := fun g => funext fun i => by simp [residual]
  simpa only [e] using h.xr_inv hl hl' hd 0

theorem zz_inv {gamma : Vec ℝ q} (hd : (margCov g gamma).PosDef) : g'.zᵀ * (margCov g' gamma)⁻¹ * g'.z = g.zᵀ * (margCov g gamma)⁻¹ * g.z := by
  ext j j'
  have e := inv_form hl hd (fun i => g.z i j) (fun i => g.z i j')
  have e' := inv_form hl' ((h.posDef hl hl' gamma).2 hd) (fun i => g'.z i j) (fun i => g'.z i j')
  have t : ∀ g : LmeGroup p q, (g.zᵀ * (margCov g gamma)⁻¹ * g.z) j j' = (fun i => g.z i j) ⬝ᵥ ((margCov g gamma)⁻¹ *ᵥ fun i => g.z i j') := by
    intro g
    rw [Matrix.mul_assoc]
    rfl
  have s : ∀ j j', wip g' (fun i => g'.z i j) (fun i => g'.z i j') = wip g (fun i => g.z i j) (fun i => g.z i j') := h.zz
  simp only [s, h.shrink_eq] at e'
  rw [t, t, e, e']

theorem xx_inv {gamma : Vec ℝ q} (hd : (margCov g gamma).PosDef) : g'.xᵀ * (margCov g' gamma)⁻¹ * g'.x = g.xᵀ * (margCov g gamma)⁻¹ * g.x := by
  ext j j'
  have e := inv_form hl hd (fun i => g.x i j) (fun i => g.x i j')
  have e' := inv_form hl' ((h.posDef hl hl' gamma).2 hd) (fun i => g'.x i j) (fun i => g'.x i j')
  have t : ∀ g : LmeGroup p q, (g.xᵀ * (margCov g gamma)⁻¹ * g.x) j j' = (fun i => g.x i j) ⬝ᵥ ((margCov g gamma)⁻¹ *ᵥ fun i => g.x i j') := by
    intro g
    rw [Matrix.mul_assoc]
    rfl
  have s : ∀ j j', wip g' (fun i => g'.x i j) (fun i => g'.x i j') = wip g (fun i => g.x i j) (fun i => g.x i j') := h.xx
  have s2 : ∀ j j', wip g' (fun i => g'.x i j) (fun i => g'.z i j') = wip g (fun i => g.x i j) (fun i => g.z i j') := h.xz
  have s3 : ∀ j j', wip g' (fun i => g'.z i j) (fun i => g'.x i j') = wip g (fun i => g.z i j) (fun i => g.x i j') := by
    intro j j'
    rw [wip_comm, s2, wip_comm]
  simp only [s, s2, s3, h.shrink_eq] at e'
  rw [t, t, e, e']

theorem zx_inv {gamma : Vec ℝ q} (hd : (margCov g gamma).PosDef) : g'.zᵀ * (margCov g' gamma)⁻¹ * g'.x = g.zᵀ * (margCov g gamma)⁻¹ * g.x := by
  ext j j'
  have e := inv_form hl hd (fun i => g.z i j) (fun i => g.x i j')
  have e' := inv_form hl' ((h.posDef hl hl' gamma).2 hd) (fun i => g'.z i j) (fun i => g'.x i j')
  have t : ∀ g : LmeGroup p q, (g.zᵀ * (margCov g gamma)⁻¹ * g.x) j j' = (fun i => g.z i j) ⬝ᵥ ((margCov g gamma)⁻¹ *ᵥ fun i => g.x i j') := by
    intro g
    rw [Matrix.mul_assoc]
    rfl
  have s : ∀ j j', wip g' (fun i => g'.z i j) (fun i => g'.z i j') = wip g (fun i => g.z i j) (fun i => g.z i j') := h.zz
  have s3 : ∀ j j', wip g' (fun i => g'.z i j) (fun i => g'.x i j') = wip g (fun i => g.z i j) (fun i => g.x i j') := by
    intro j j'
    rw [wip_comm, wip_comm (g := g)]
    exact h.xz j' j
  simp only [s, s3, h.shrink_eq] at e'
  rw [t, t, e, e']

/-- The likelihoods differ by a constant. -/
theorem nll {gamma : Vec ℝ q} (hd : (margCov g gamma).PosDef) (beta : Vec ℝ p) :
    groupNLL g' beta gamma - (1 / 2 * ∑ i, g'.y i ^ 2 / g'.l i + 1 / 2 * ∑ i, Real.log (g'.l i)) =
      groupNLL g beta gamma - (1 / 2 * ∑ i, g.y i ^ 2 / g.l i + 1 / 2 * ∑ i, Real.log (g.l i)) := by
  have hd' := (h.posDef hl hl' gamma).2 hd
  have e := inv_form hl hd (residual g beta) (residual g beta)
  have e' := inv_form hl' hd' (residual g' beta) (residual g' beta)
  have s : ∀ j, wip g' (residual g' beta) (fun i => g'.z i j) = wip g (residual g beta) (fun i => g.z i j) := by
    intro j
    rw [wip_comm, h.zr, wip_comm]
  simp only [s, h.zr, h.rr, h.shrink_eq] at e'
  have dl : ∀ {g : LmeGroup p q}, (∀ i, 0 < g.l i) → (margCov g gamma).PosDef → Real.log (margCov g gamma).det = ∑ i, Real.log (g.l i) + Real.log (shrink g gamma).det := by
    intro g hl hd
    have h1 := hd.det_pos
    rw [det_margCov hl] at h1 ⊢
    have h2 : 0 < ∏ i, g.l i := Finset.prod_pos fun i _ => hl i
    rw [Real.log_mul h2.ne' ((mul_pos_iff_of_pos_left h2).1 h1).ne', Real.log_prod fun i _ => (hl i).ne']
    rfl
  have y2 : ∀ g : LmeGroup p q, ∑ i, g.y i ^ 2 / g.l i = wip g g.y g.y := fun g => Finset.sum_congr rfl fun i _ => by rw [sq]
  unfold groupNLL
  rw [e, e', dl hl hd, dl hl' hd', h.shrink_eq, y2, y2]
  ring

omit hl hl'
theorem effects (beta : Vec ℝ p) (gamma : Vec ℝ q) : lmeRandomEffect g' beta gamma = lmeRandomEffect g beta gamma := by
  have hk : reKernel g' gamma = reKernel g gamma := by
    unfold reKernel
    congr 1
    ext j j'
    have t : ∀ g : LmeGroup p q, ((g.zMasked gamma)ᵀ * diagonal (fun i => 1 / g.l i) * g.zMasked gamma) j j' = ∑ i, g.z i j.1 * g.z i j'.1 / g.l i :=
      fun g => cross_apply g j.1 j'.1
    rw [t, t, h.zz]
  have hr : ((g'.zMasked gamma)ᵀ * diagonal (fun i => 1 / g'.l i)) *ᵥ g'.xi beta = ((g.zMasked gamma)ᵀ * diagonal (fun i => 1 / g.l i)) *ᵥ g.xi beta := by
    funext j
    have t : ∀ g : LmeGroup p q, (((g.zMasked gamma)ᵀ * diagonal (fun i => 1 / g.l i)) *ᵥ g.xi beta) j = wip g (fun i => g.z i j.1) (residual g beta) := by
      intro g
      unfold wip
      rw [Matrix.mulVec, dotProduct]
      refine Finset.sum_congr rfl fun i _ => ?_
      rw [Matrix.mul_diagonal, residual_eq]
      change g.z i j.1 * (1 / g.l i) * _ = _
      rw [mul_one_div, div_mul_eq_mul_div]
      rfl
    rw [t, t, h.zr]
  unfold lmeRandomEffect
  rw [hk, hr]

end SameCross

/-! ## All groups -/

/-- The constant part of the likelihood of a group. -/
noncomputable def constNLL (g : LmeGroup p q) : ℝ := 1 / 2 * ∑ i, g.y i ^ 2 / g.l i + 1 / 2 * ∑ i, Real.log (g.l i)

section
variable {D D' : List (LmeGroup p q)} (h : List.Forall₂ SameCross D D') (hD : PosVar D) (hD' : PosVar D')
include h hD hD'

theorem cross_domain (gamma : Vec ℝ q) : InDomain D' gamma ↔ InDomain D gamma := by
  unfold InDomain
  induction h with
  | nil => simp
  | @cons g g' D D' hg _ ih =>
    rw [List.forall_mem_cons, List.forall_mem_cons, hg.posDef (hD g List.mem_cons_self) (hD' g' List.mem_cons_self),
      ih (fun g hg => hD g (List.mem_cons_of_mem _ hg)) fun g hg => hD' g (List.mem_cons_of_mem _ hg)]

theorem cross_map {α : Type*} {F : LmeGroup p q → α} {gamma : Vec ℝ q}
    (hF : ∀ g g', SameCross g g' → (∀ i, 0 < g.l i) → (∀ i, 0 < g'.l i) → (margCov g gamma).PosDef → F g' = F g) (hd : InDomain D gamma) : D'.map F = D.map F := by
  unfold InDomain at hd
  induction h with
  | nil => rfl
  | @cons g g' D D' hg _ ih =>
    rw [List.map_cons, List.map_cons, hF g g' hg (hD g List.mem_cons_self) (hD' g' List.mem_cons_self) (hd g List.mem_cons_self),
      ih (fun g hg => hD g (List.mem_cons_of_mem _ hg)) (fun g hg => hD' g (List.mem_cons_of_mem _ hg)) fun g hg => hd g (List.mem_cons_of_mem _ hg)]

theorem cross_nll {gamma : Vec ℝ q} (hd : InDomain D gamma) (beta : Vec ℝ p) :
    marginalNLL D' beta gamma = marginalNLL D beta gamma + ((D'.map constNLL).sum - (D.map constNLL).sum) := by
  have e : ∀ D : List (LmeGroup p q), (D.map fun g => groupNLL g beta gamma - constNLL g).sum = marginalNLL D beta gamma - (D.map constNLL).sum := by
    intro D
    unfold marginalNLL
    induction D with
    | nil => simp
    | cons g D ih =>
      simp only [List.map_cons, List.sum_cons, ih]
      ring
  have h1 := congrArg List.sum (cross_map (F := fun g => groupNLL g beta gamma - constNLL g) h hD hD' (fun g g' hg hl hl' hd => hg.nll hl hl' hd beta) hd)
  rw [e, e] at h1
  linarith

omit hD hD' in
theorem cross_effects (beta : Vec ℝ p) (gamma : Vec ℝ q) : D'.mapM (fun g => lmeRandomEffect g beta gamma) = D.mapM (fun g => lmeRandomEffect g beta gamma) := by
  induction h with
  | nil => rfl
  | cons hg _ ih => rw [List.mapM_cons, List.mapM_cons, hg.effects, ih]

end

/-- **C187**, the oracle: for groups with positive observation variances and the same weighted cross products, the losses of the oracle differ by one constant, for all `beta` and `gamma`
(also negative ones), and gradients, best fixed effects and random effects are the same; each is an exception for one list of groups exactly when it is for the other, the same one. -/
theorem C187_oracle (D D' : List (LmeGroup p q)) (Pr : LmeInstPrior ℝ p q) (h : List.Forall₂ SameCross D D') (hD : PosVar D) (hD' : PosVar D') :
    (∃ c : ℝ, ∀ beta gamma, lmeLoss D' Pr beta gamma = (lmeLoss D Pr beta gamma).map (· + c)) ∧
    (∀ beta gamma, lmeGradientBeta D' Pr beta gamma = lmeGradientBeta D Pr beta gamma) ∧
    (∀ beta gamma, lmeGradientGamma D' Pr beta gamma = lmeGradientGamma D Pr beta gamma) ∧
    (∀ gamma, lmeHessianBeta D' Pr gamma = lmeHessianBeta D Pr gamma) ∧
    (∀ gamma, lmeOptimalBeta D' gamma = lmeOptimalBeta D gamma) ∧
    (∀ beta gamma, lmeRandomEffects D' beta gamma = lmeRandomEffects D beta gamma) := by
  have hdom := cross_domain h hD hD'
  have bind_err : ∀ {α : Type} {gamma : Vec ℝ q} (k : List (LmeFactored p q) → Except PyErr α), ¬ InDomain D gamma →
      (lmeRecalculate D' gamma >>= k) = (lmeRecalculate D gamma >>= k) := by
    intro α gamma k hd
    rw [lmeRecalculate_error hd, lmeRecalculate_error (fun h => hd ((hdom gamma).1 h))]
  refine ⟨⟨(D'.map constNLL).sum - (D.map constNLL).sum, fun beta gamma => ?_⟩, fun beta gamma => ?_, fun beta gamma => ?_, fun gamma => ?_, fun gamma => ?_, fun beta gamma => ?_⟩
  · by_cases hd : InDomain D gamma
    · rw [lmeLoss_ok.2 ⟨hd, rfl⟩, lmeLoss_ok.2 ⟨(hdom gamma).2 hd, rfl⟩, cross_nll h hD hD' hd]
      exact congrArg Except.ok (by ring)
    · unfold lmeLoss
      rw [lmeRecalculate_error hd, lmeRecalculate_error (fun h => hd ((hdom gamma).1 h))]
      rfl
  · by_cases hd : InDomain D gamma
    · rw [lmeGradientBeta_ok.2 ⟨hd, rfl⟩, lmeGradientBeta_ok.2 ⟨(hdom gamma).2 hd, rfl⟩]
      rw [cross_map h hD hD' (fun g g' hg hl hl' hd => by rw [hg.xr_inv hl hl' hd beta]) hd]
    · exact bind_err _ hd
  · by_cases hd : InDomain D gamma
    · rw [lmeGradientGamma_ok.2 ⟨hd, rfl⟩, lmeGradientGamma_ok.2 ⟨(hdom gamma).2 hd, rfl⟩]
      rw [cross_map h hD hD' (fun g g' hg hl hl' hd => by rw [hg.zr_inv hl hl' hd beta, hg.zz_inv hl hl' hd]) hd]
    · exact bind_err _ hd
  · by_cases hd : InDomain D gamma
    · rw [lmeHessianBeta_ok.2 ⟨hd, rfl⟩, lmeHessianBeta_ok.2 ⟨(hdom gamma).2 hd, rfl⟩]
      rw [cross_map h hD hD' (fun g g' hg hl hl' hd => by rw [hg.xx_inv hl hl' hd]) hd]
    · exact bind_err _ hd
  · unfold lmeOptimalBeta
    have e : lmeKernelTail D' gamma = lmeKernelTail D gamma := by
      by_cases hd : InDomain D gamma
      · rw [lmeKernelTail_ok.2 ⟨hd, rfl⟩, lmeKernelTail_ok.2 ⟨(hdom gamma).2 hd, rfl⟩]
        rw [cross_map h hD hD' (F := fun g => g.xᵀ * (margCov g gamma)⁻¹ * g.x) (fun g g' hg hl hl' hd => by rw [hg.xx_inv hl hl' hd]) hd,
          cross_map h hD hD' (F := fun g => g.xᵀ *ᵥ ((margCov g gamma)⁻¹ *ᵥ g.y)) (fun g g' hg hl hl' hd => by rw [hg.xy_inv hl hl' hd]) hd]
      · exact bind_err _ hd
    rw [e]
  · unfold lmeRandomEffects
    rw [cross_effects h]
    by_cases hd : InDomain D gamma
    · rw [lmeRecalculate_ok.2 ⟨hd, rfl⟩, lmeRecalculate_ok.2 ⟨(hdom gamma).2 hd, rfl⟩]
      rfl
    · exact bind_err _ hd

/-! ## The SR3 oracle -/

section
variable {D D' : List (LmeGroup p q)} (h : List.Forall₂ SameCross D D') (hD : PosVar D) (hD' : PosVar D')
include h hD hD'

theorem cross_recalc (gamma : Vec ℝ q) {A B : Type} [AddCommMonoid A] (t : LmeFactored p q → A) (F : A → B)
    (ht : ∀ g g', SameCross g g' → (∀ i, 0 < g.l i) → (∀ i, 0 < g'.l i) → (margCov g gamma).PosDef → t (lmeFact gamma g') = t (lmeFact gamma g)) :
    (lmeRecalculate D' gamma >>= fun fs => (pure (F (fs.map t).sum) : Except PyErr B)) = lmeRecalculate D gamma >>= fun fs => pure (F (fs.map t).sum) := by
  by_cases hd : InDomain D gamma
  · rw [lmeRecalculate_ok.2 ⟨hd, rfl⟩, lmeRecalculate_ok.2 ⟨(cross_domain h hD hD' gamma).2 hd, rfl⟩]
    change Except.ok (F _) = Except.ok (F _)
    rw [List.map_map, List.map_map, cross_map (F := t ∘ lmeFact gamma) h hD hD' ht hd]
  · rw [lmeRecalculate_error hd, lmeRecalculate_error (fun h' => hd ((cross_domain h hD hD' gamma).1 h'))]

theorem cross_hessianGamma (P : LmeInstPrior ℝ p q) (kind : HessKind) (beta : Vec ℝ p) (gamma : Vec ℝ q) :
    lmeHessianGamma D' P kind beta gamma = lmeHessianGamma D P kind beta gamma :=
  cross_recalc h hD hD' gamma _ (fun s => (1 / 2 : ℝ) • s + P.hessianGamma) fun g g' hg hl hl' hd => by
    unfold hessGammaTerm
    rw [elZZ_eq hd, elZZ_eq ((hg.posDef hl hl' gamma).2 hd), elZXi_eq hd, elZXi_eq ((hg.posDef hl hl' gamma).2 hd), hg.zz_inv hl hl' hd, hg.zr_inv hl hl' hd]

theorem cross_hessianBetaGamma (P : LmeInstPrior ℝ p q) (beta : Vec ℝ p) (gamma : Vec ℝ q) : lmeHessianBetaGamma D' P beta gamma = lmeHessianBetaGamma D P beta gamma :=
  cross_recalc h hD hD' gamma _ (fun s => sᵀ + P.hessianBetaGamma) fun g g' hg hl hl' hd => by
    ext j i
    rw [hessBetaGammaTerm_apply hd, hessBetaGammaTerm_apply ((hg.posDef hl hl' gamma).2 hd), hg.zx_inv hl hl' hd, hg.zr_inv hl hl' hd]

theorem cross_kernelTail (gamma : Vec ℝ q) : lmeKernelTail D' gamma = lmeKernelTail D gamma := by
  by_cases hd : InDomain D gamma
  · rw [lmeKernelTail_ok.2 ⟨hd, rfl⟩, lmeKernelTail_ok.2 ⟨(cross_domain h hD hD' gamma).2 hd, rfl⟩]
    rw [cross_map h hD hD' (F := fun g => g.xᵀ * (margCov g gamma)⁻¹ * g.x) (fun g g' hg hl hl' hd => by rw [hg.xx_inv hl hl' hd]) hd,
      cross_map h hD hD' (F := fun g => g.xᵀ *ᵥ ((margCov g gamma)⁻¹ *ᵥ g.y)) (fun g g' hg hl hl' hd => by rw [hg.xy_inv hl hl' hd]) hd]
  · unfold lmeKernelTail
    rw [lmeRecalculate_error hd, lmeRecalculate_error (fun h' => hd ((cross_domain h hD hD' gamma).1 h'))]

theorem cross_ipLoop (P : LmeInstPrior ℝ p q) (c : IpCfg p q) (s : IpState p q) : ipLoop D' P c s = ipLoop D P c s := by
  obtain ⟨-, h2, h3, h4, -, -⟩ := C187_oracle D D' P h hD hD'
  have hF : ipF D' P = ipF D P := by
    funext s
    unfold Verif.ipF lmeSr3GradientBeta lmeSr3GradientGamma
    rw [h2, h3]
  have hJ : ipJac D' P = ipJac D P := by
    funext kind s
    unfold Verif.ipJac lmeSr3HessianBeta lmeSr3HessianGamma
    rw [h4, cross_hessianBetaGamma h hD hD', cross_hessianGamma h hD hD']
  have hS : ipStep D' P = ipStep D P := by
    funext c s F
    unfold Verif.ipStep
    rw [hJ]
  generalize hk : (c.nIter - s.iteration).toNat = k
  induction k using Nat.strong_induction_on generalizing s with
  | _ k ih =>
    rw [Verif.ipLoop, Verif.ipLoop.eq_def D P c s, hF, hS]
    split_ifs with h1
    · cases Verif.ipF D P s with
      | error e => rfl
      | ok F =>
        simp only
        split_ifs with h2
        · cases Verif.ipStep D P c s F with
          | error e => rfl
          | ok s' => exact ih (c.nIter - (s.iteration + 1 : ℕ)).toNat (by omega) _ rfl
        · rfl
    · rfl

theorem cross_findIp (P : LmeInstPrior ℝ p q) : lmeFindIp D' P = lmeFindIp D P := by
  funext c o beta gamma tbeta tgamma
  unfold lmeFindIp lmeSr3OptimalBeta
  rw [cross_kernelTail h hD hD', cross_ipLoop h hD hD']

/-- The value function of SR3 changes by the same constant. -/
theorem cross_sr3Raises (P : LmeInstPrior ℝ p q) (cf : IpCfg p q) : ∃ c : ℝ, Raises c (lmeSr3Oracle D P cf) (lmeSr3Oracle D' P cf) := by
  obtain ⟨⟨c, h1⟩, -⟩ := C187_oracle D D' P h hD hD'
  refine ⟨c, fun x s => ?_, fun x s => ?_⟩
  · change lmeSr3ValueFunction D' P cf s (xBeta x) (xGamma x) = Except.map _ (lmeSr3ValueFunction D P cf s (xBeta x) (xGamma x))
    unfold lmeSr3ValueFunction lmeSr3Loss
    rw [cross_findIp h hD hD']
    cases lmeFindIp D P cf s ((2 : ℝ) • xBeta x) ((2 : ℝ) • xGamma x) (xBeta x) (xGamma x) with
    | error e => rfl
    | ok r =>
      change ((lmeLoss D' P r.1.beta r.1.gamma >>= fun v => Except.ok (v + _ + _)) >>= fun v => Except.ok (v, r.2)) =
        Except.map _ ((lmeLoss D P r.1.beta r.1.gamma >>= fun v => Except.ok (v + _ + _)) >>= fun v => Except.ok (v, r.2))
      rw [h1]
      cases lmeLoss D P r.1.beta r.1.gamma with
      | error e => rfl
      | ok v => exact congrArg (fun v => Except.ok (v, r.2)) (by ring)
  · change (lmeSr3GradientValueFunction D' P cf s (xBeta x) (xGamma x)).map _ = Except.map _ ((lmeSr3GradientValueFunction D P cf s (xBeta x) (xGamma x)).map _)
    unfold lmeSr3GradientValueFunction
    rw [cross_findIp h hD hD']
    cases lmeFindIp D P cf s ((2 : ℝ) • xBeta x) ((2 : ℝ) • xGamma x) (xBeta x) (xGamma x) <;> rfl

theorem cross_raises (P : LmeInstPrior ℝ p q) : ∃ c : ℝ, Raises c (lmeOracle D P) (lmeOracle D' P) := by
  obtain ⟨⟨c, h1⟩, h2, h3, -⟩ := C187_oracle D D' P h hD hD'
  refine ⟨c, fun x s => ?_, fun x s => ?_⟩
  · change (lmeLoss D' P (xBeta x) (xGamma x)).map _ = Except.map _ ((lmeLoss D P (xBeta x) (xGamma x)).map _)
    rw [h1]
    cases lmeLoss D P (xBeta x) (xGamma x) <;> rfl
  · change (lmeGradientBeta D' P (xBeta x) (xGamma x) >>= fun gb => lmeGradientGamma D' P (xBeta x) (xGamma x) >>= fun gg => Except.ok (joinX gb gg, s)) =
      Except.map _ (lmeGradientBeta D P (xBeta x) (xGamma x) >>= fun gb => lmeGradientGamma D P (xBeta x) (xGamma x) >>= fun gg => Except.ok (joinX gb gg, s))
    rw [h2, h3]
    cases lmeGradientBeta D P (xBeta x) (xGamma x) with
    | error e => rfl
    | ok gb => cases lmeGradientGamma D P (xBeta x) (xGamma x) <;> rfl

theorem cross_initialize (init : Option String) (ob : Vec ℝ q → Vec ℝ p → Except PyErr (Vec ℝ p)) (beta : Vec ℝ p) (gamma : Vec ℝ q) :
    lmeInitialize init D' ob beta gamma = lmeInitialize init D ob beta gamma := by
  unfold lmeInitialize
  simp only [(C187_oracle D D' .nonInformative h hD hD').2.2.2.2.2, h.length_eq]

/-- Optimisations give the same point and the same log up to a constant in the losses. -/
theorem cross_optimize (M : LmeModelCfg) (Pr : LmeInstPrior ℝ p q) (R : Regularizer ℝ (p + q)) (beta : Vec ℝ p) (gamma : Vec ℝ q) :
    ∃ c : ℝ, lmeOptimize M D' Pr R beta gamma = (lmeOptimize M D Pr R beta gamma).map fun r => (r.1, r.2.mapKey (raiseVal c)) := by
  unfold lmeOptimize
  cases M.sr3 with
  | none =>
    obtain ⟨c, hT⟩ := cross_raises h hD hD' Pr
    refine ⟨c, ?_⟩
    have hi : lmeInitialize M.initializer D' (fun g _ => lmeOptimalBeta D' g) beta gamma = lmeInitialize M.initializer D (fun g _ => lmeOptimalBeta D g) beta gamma := by
      rw [cross_initialize h hD hD']
      simp only [(C187_oracle D D' .nonInformative h hD hD').2.2.2.2.1]
    dsimp only
    rw [hi]
    cases lmeInitialize M.initializer D (fun g _ => lmeOptimalBeta D g) beta gamma with
    | error e => rfl
    | ok bg =>
      have h6 := hT.pgdOptimize R M.solver (joinX bg.1 bg.2) (Logger.init M.loggerKind M.loggerKeys : Logger (PyVal ℝ (p + q))) ()
      rw [Logger.mapKey_init] at h6
      change (pgdOptimize (lmeOracle D' Pr) R M.solver (joinX bg.1 bg.2) (Logger.init M.loggerKind M.loggerKeys) () >>= fun r => Except.ok r.1) =
        Except.map _ (pgdOptimize (lmeOracle D Pr) R M.solver (joinX bg.1 bg.2) (Logger.init M.loggerKind M.loggerKeys) () >>= fun r => Except.ok r.1)
      rw [h6]
      cases pgdOptimize (lmeOracle D Pr) R M.solver (joinX bg.1 bg.2) (Logger.init M.loggerKind M.loggerKeys) () <;> rfl
  | some s =>
    obtain ⟨c, hT⟩ := cross_sr3Raises h hD hD' Pr (s.ip p q)
    refine ⟨c, ?_⟩
    have hi : lmeInitialize M.initializer D' (fun g b => lmeSr3OptimalBeta D' ⟨s.ell, s.ell⟩ g b) beta gamma =
        lmeInitialize M.initializer D (fun g b => lmeSr3OptimalBeta D ⟨s.ell, s.ell⟩ g b) beta gamma := by
      rw [cross_initialize h hD hD']
      unfold lmeSr3OptimalBeta
      simp only [cross_kernelTail h hD hD']
    dsimp only
    rw [hi]
    cases lmeInitialize M.initializer D (fun g b => lmeSr3OptimalBeta D ⟨s.ell, s.ell⟩ g b) beta gamma with
    | error e => rfl
    | ok bg =>
      have hf : lmeSr3FindOptimal D' Pr = lmeSr3FindOptimal D Pr := by
        funext c o tbeta tgamma
        unfold lmeSr3FindOptimal
        rw [cross_findIp h hD hD']
      rw [hf]
      dsimp only [bind, Except.bind]
      split_ifs
      · have h6 := hT.fakeOptimize R
          (opt := fun x st => (lmeSr3FindOptimal D Pr (s.ipPractical R) st (xBeta x) (xGamma x)).map fun r => (joinX r.1.1 r.1.2, r.2))
          (opt' := fun x st => (lmeSr3FindOptimal D Pr (s.ipPractical R) st (xBeta x) (xGamma x)).map fun r => (joinX r.1.1 r.1.2, r.2))
          (fun x st => by dsimp only [id]; cases lmeSr3FindOptimal D Pr (s.ipPractical R) st (xBeta x) (xGamma x) <;> rfl)
          (joinX bg.1 bg.2) (Logger.init M.loggerKind M.loggerKeys : Logger (PyVal ℝ (p + q))) ⟨⟨s.ell, s.ell⟩, none⟩
        rw [Logger.mapKey_init] at h6
        dsimp only [id] at h6 ⊢
        rw [h6]
        generalize fakeOptimize (lmeSr3Oracle D Pr (s.ip p q)) _ R _ _ _ = E
        cases E <;> rfl
      · have h6 := hT.pgdOptimize R M.solver (joinX bg.1 bg.2) (Logger.init M.loggerKind M.loggerKeys : Logger (PyVal ℝ (p + q))) ⟨⟨s.ell, s.ell⟩, none⟩
        rw [Logger.mapKey_init] at h6
        dsimp only [id] at h6 ⊢
        rw [h6]
        generalize pgdOptimize (lmeSr3Oracle D Pr (s.ip p q)) R _ _ _ _ = E
        cases E <;> rfl

end

theorem ex_bind {α β : Type} {f : ℝ → β → β} {k k' : α → Except PyErr β} (x : Except PyErr α) (h : ∀ a, ∃ c, k' a = (k a).map (f c)) :
    ∃ c, (x >>= k') = (x >>= k).map (f c) := by
  cases x with
  | error e => exact ⟨0, rfl⟩
  | ok a => exact h a

/-- **C187**, fits: let the data of a problem be replaced by other data, possibly with other numbers of observations, such that the weighted cross products of each group stay the same
(and all observation variances are positive). Then a fit of every mixed-effects model, plain or SR3, with every regularizer, prior, initializer and all settings, leaves the same `coef_`. -/
theorem C187_fits (M : LmeModelCfg) (st : LmeState) (P : LmeProblem ℝ) (a : LmeFitArgs)
    (F : List (List (List ℝ))) (Z : List (RandomDesign ℝ)) (V : List (List ℝ)) (A : Option (List (List ℝ)))
    (D D' : List (LmeGroup P.numFixed P.numRandom)) (hD : lmeGroups P = .ok D)
    (hD' : lmeGroups { P with fixedFeatures := F, randomFeatures := Z, obsVars := V, answers := A } = .ok D')
    (h : List.Forall₂ SameCross D D') (hv : PosVar D) (hv' : PosVar D') :
    (lmeFitProblem M st { P with fixedFeatures := F, randomFeatures := Z, obsVars := V, answers := A } a).2 = (lmeFitProblem M st P a).2 := by
  obtain ⟨sr3, tol, maxIter, stepping, fsl, init, prior, eps, reg, kind, keys⟩ := M
  have h5 := (C187_oracle D D' .nonInformative h hv hv').2.2.2.2.2
  have core : ∃ c : ℝ, lmeFitCore ⟨sr3, tol, maxIter, stepping, fsl, init, prior, eps, reg, kind, keys⟩ st { P with fixedFeatures := F, randomFeatures := Z, obsVars := V, answers := A } a =
      (lmeFitCore ⟨sr3, tol, maxIter, stepping, fsl, init, prior, eps, reg, kind, keys⟩ st P a).map fun r => (r.1, r.2.1, r.2.2.mapKey (raiseVal c)) := by
    unfold lmeFitCore
    refine ex_bind (betaToGammaMap P) fun m => ex_bind (lmePriorFor prior P) fun Pr => ex_bind (reg.weights P.numFixed P.numRandom (a.feWeights.getD P.feWeights ++ a.reWeights.getD P.reWeights)) fun w =>
      ex_bind (reg.build P.numFixed P.numRandom m w) fun base => ?_
    rw [hD', hD]
    refine ex_bind (asVec P.numFixed (lmeStart st P a).1) fun beta => ex_bind (asVec P.numRandom (lmeStart st P a).2) fun gamma => ?_
    obtain ⟨c, hc⟩ := cross_optimize h hv hv' ⟨sr3, tol, maxIter, stepping, fsl, init, prior, eps, reg, kind, keys⟩ Pr (wrapReg P.numFixed P.numRandom eps base) beta gamma
    refine ⟨c, ?_⟩
    change (lmeOptimize (p := P.numFixed) (q := P.numRandom) ⟨sr3, tol, maxIter, stepping, fsl, init, prior, eps, reg, kind, keys⟩ D' Pr (wrapReg P.numFixed P.numRandom eps base) beta gamma >>= fun r => _) =
      Except.map _ (lmeOptimize ⟨sr3, tol, maxIter, stepping, fsl, init, prior, eps, reg, kind, keys⟩ D Pr (wrapReg P.numFixed P.numRandom eps base) beta gamma >>= fun r => _)
    rw [hc]
    cases lmeOptimize ⟨sr3, tol, maxIter, stepping, fsl, init, prior, eps, reg, kind, keys⟩ D Pr (wrapReg P.numFixed P.numRandom eps base) beta gamma with
    | error e => rfl
    | ok r =>
      change (lmeRandomEffects D' (xBeta r.1) (xGamma r.1) >>= fun us => _) = Except.map _ (lmeRandomEffects D (xBeta r.1) (xGamma r.1) >>= fun us => _)
      rw [h5]
      cases lmeRandomEffects D (xBeta r.1) (xGamma r.1) with
      | error e => rfl
      | ok us =>
        change (getPerGroupCoefficients (List.ofFn (xBeta r.1)) (us.map fun u => ((), List.ofFn u)) (P.interceptLabel.getD "" :: P.columnLabels) >>= fun per => _) =
          Except.map _ (getPerGroupCoefficients (List.ofFn (xBeta r.1)) (us.map fun u => ((), List.ofFn u)) (P.interceptLabel.getD "" :: P.columnLabels) >>= fun per => _)
        cases getPerGroupCoefficients (List.ofFn (xBeta r.1)) (us.map fun u => ((), List.ofFn u)) (P.interceptLabel.getD "" :: P.columnLabels) <;> rfl
  rw [lmeFitProblem_coef, lmeFitProblem_coef]
  obtain ⟨c, hc⟩ := core
  simp only [coefAfter]
  rw [hc]
  cases lmeFitCore ⟨sr3, tol, maxIter, stepping, fsl, init, prior, eps, reg, kind, keys⟩ st P a <;> rfl

/-- Replicates may be merged: two observations of a group with the same features and the variances `l1`, `l2` have the same cross products as one
observation, their weighted mean, with the variance `1 / (1 / l1 + 1 / l2)`. -/
theorem C187_replicates {m : ℕ} (x0 : Vec ℝ p) (z0 : Vec ℝ q) (y1 y2 l1 l2 : ℝ) (h1 : 0 < l1) (h2 : 0 < l2) (x : Matrix (Fin m) (Fin p) ℝ) (y : Vec ℝ m) (z : Matrix (Fin m) (Fin q) ℝ) (l : Vec ℝ m) :
    SameCross (⟨m + 2, Matrix.of (Fin.cons x0 (Fin.cons x0 x)), Fin.cons y1 (Fin.cons y2 y), Matrix.of (Fin.cons z0 (Fin.cons z0 z)), Fin.cons l1 (Fin.cons l2 l)⟩ : LmeGroup p q)
      ⟨m + 1, Matrix.of (Fin.cons x0 x), Fin.cons ((y1 / l1 + y2 / l2) / (1 / l1 + 1 / l2)) y, Matrix.of (Fin.cons z0 z), Fin.cons (1 / (1 / l1 + 1 / l2)) l⟩ := by
  have e : ∀ s t : ℝ, s * t / (1 / (1 / l1 + 1 / l2)) = s * t / l1 + s * t / l2 := by
    intro s t
    field_simp
  have e2 : ∀ s : ℝ, s * ((y1 / l1 + y2 / l2) / (1 / l1 + 1 / l2)) / (1 / (1 / l1 + 1 / l2)) = s * y1 / l1 + s * y2 / l2 := by
    intro s
    field_simp
  constructor
  · intro k k'
    simp only [Fin.sum_univ_succ, Matrix.of_apply, Fin.cons_zero, Fin.cons_succ, e, add_assoc]
    rfl
  · intro k k'
    simp only [Fin.sum_univ_succ, Matrix.of_apply, Fin.cons_zero, Fin.cons_succ, e, add_assoc]
    rfl
  · intro k k'
    simp only [Fin.sum_univ_succ, Matrix.of_apply, Fin.cons_zero, Fin.cons_succ, e, add_assoc]
    rfl
  · intro k
    simp only [Fin.sum_univ_succ, Matrix.of_apply, Fin.cons_zero, Fin.cons_succ, e2, add_assoc]
    rfl
  · intro k
    simp only [Fin.sum_univ_succ, Matrix.of_apply, Fin.cons_zero, Fin.cons_succ, e2, add_assoc]
    rfl

/-- A problem with a fixed and random intercept and two groups, of two observations and of one. -/
noncomputable def replicateProblem : LmeProblem ℝ where
  fixedFeatures := [[[1], [1]], [[1]]]
  randomFeatures := [.rows [[1], [1]], .rows [[1]]]
  obsVars := [[1, 1], [2]]
  groupLabels := [0, 1]
  interceptLabel := some FIXED_RANDOM
  columnLabels := [GROUP, VARIANCE]
  orderOfObjects := [0, 1, 2]
  answers := some [[2, 4], [5]]
  feColumns := none
  reColumns := none
  feWeights := [1]
  reWeights := [1]

theorem replicate_fixed : replicateProblem.numFixed = 1 := by decide
theorem replicate_random : replicateProblem.numRandom = 1 := by decide

/-- A case of C187: the two observations 2 and 4 of the first group can be replaced by the single observation 3 with half the variance, for every model. -/
example (M : LmeModelCfg) (st : LmeState) (a : LmeFitArgs) :
    (lmeFitProblem M st { replicateProblem with fixedFeatures := [[[1]], [[1]]], randomFeatures := [.rows [[1]], .rows [[1]]], obsVars := [[1 / 2], [2]], answers := some [[3], [5]] } a).2 =
      (lmeFitProblem M st replicateProblem a).2 := by
  refine C187_fits M st replicateProblem a [[[1]], [[1]]] [.rows [[1]], .rows [[1]]] [[1 / 2], [2]] (some [[3], [5]])
    [⟨2, Matrix.of fun i j => ([[1], [1]].getD i []).getD j 0, fun i => [2, 4].getD i 0, Matrix.of fun i j => ([[1], [1]].getD i []).getD j 0, fun i => [1, 1].getD i 0⟩,
      ⟨1, Matrix.of fun i j => ([[1]].getD i []).getD j 0, fun i => [5].getD i 0, Matrix.of fun i j => ([[1]].getD i []).getD j 0, fun i => [2].getD i 0⟩]
    [⟨1, Matrix.of fun i j => ([[1]].getD i []).getD j 0, fun i => [3].getD i 0, Matrix.of fun i j => ([[1]].getD i []).getD j 0, fun i => [1 / 2].getD i 0⟩,
      ⟨1, Matrix.of fun i j => ([[1]].getD i []).getD j 0, fun i => [5].getD i 0, Matrix.of fun i j => ([[1]].getD i []).getD j 0, fun i => [2].getD i 0⟩] ?_ ?_ ?_ ?_ ?_
  · have e : ∀ x y z l, x.length = y.length ∧ z.length = y.length ∧ l.length = y.length ∧ (∀ r ∈ x, r.length = 1) ∧ (∀ r ∈ z, r.length = 1) →
        lmeGroupOf replicateProblem.numFixed replicateProblem.numRandom x y z l = .ok ⟨y.length, Matrix.of fun i j => (x.getD i []).getD j 0, fun i => y.getD i 0,
          Matrix.of fun i j => (z.getD i []).getD j 0, fun i => l.getD i 0⟩ := by
      intro x y z l h
      unfold lmeGroupOf
      rw [replicate_fixed, replicate_random, if_pos h]
    change (lmeGroupOf replicateProblem.numFixed replicateProblem.numRandom [[1], [1]] [2, 4] [[1], [1]] [1, 1] >>= fun g =>
      ((lmeGroupOf replicateProblem.numFixed replicateProblem.numRandom [[1]] [5] [[1]] [2] >>= fun g' => _) >>= fun gs => _)) = _
    rw [e _ _ _ _ (by simp), e _ _ _ _ (by simp)]
    rfl
  · have e : ∀ x y z l, x.length = y.length ∧ z.length = y.length ∧ l.length = y.length ∧ (∀ r ∈ x, r.length = 1) ∧ (∀ r ∈ z, r.length = 1) →
        lmeGroupOf replicateProblem.numFixed replicateProblem.numRandom x y z l = .ok ⟨y.length, Matrix.of fun i j => (x.getD i []).getD j 0, fun i => y.getD i 0,
          Matrix.of fun i j => (z.getD i []).getD j 0, fun i => l.getD i 0⟩ := by
      intro x y z l h
      unfold lmeGroupOf
      rw [replicate_fixed, replicate_random, if_pos h]
    change (lmeGroupOf replicateProblem.numFixed replicateProblem.numRandom [[1]] [3] [[1]] [1 / 2] >>= fun g =>
      ((lmeGroupOf replicateProblem.numFixed replicateProblem.numRandom [[1]] [5] [[1]] [2] >>= fun g' => _) >>= fun gs => _)) = _
    rw [e _ _ _ _ (by simp), e _ _ _ _ (by simp)]
    rfl
  · have hk : ∀ k : Fin replicateProblem.numFixed, k.1 = 0 := fun k => Nat.lt_one_iff.1 (k.2.trans_eq replicate_fixed)
    have hj : ∀ k : Fin replicateProblem.numRandom, k.1 = 0 := fun k => Nat.lt_one_iff.1 (k.2.trans_eq replicate_random)
    refine .cons ⟨fun k k' => ?_, fun k j => ?_, fun j j' => ?_, fun k => ?_, fun j => ?_⟩
      (.cons ⟨fun _ _ => rfl, fun _ _ => rfl, fun _ _ => rfl, fun _ => rfl, fun _ => rfl⟩ .nil)
    all_goals
      simp [hk, hj]
      norm_num
  · intro g hg
    rcases List.mem_cons.1 hg with rfl | hg
    · intro i
      change Fin 2 at i
      fin_cases i <;> norm_num
    · rw [List.mem_singleton.1 hg]
      intro i
      change Fin 1 at i
      fin_cases i
      norm_num
  · intro g hg
    rcases List.mem_cons.1 hg with rfl | hg
    · intro i
      change Fin 1 at i
      fin_cases i
      norm_num
    · rw [List.mem_singleton.1 hg]
      intro i
      change Fin 1 at i
      fin_cases i
      norm_num

end Verif
