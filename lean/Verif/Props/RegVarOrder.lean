import Verif.Props.RegOrder
import Verif.Props.Wrappers

/-!
# C217: the regularizers of mixed models keep the order of the variances

The mixed models wrap their regularizer in the elastic wrapper and that in the (`lme/models.py:999-1000` and the like)
positive-quadrant wrapper, which clips the variances before the inner operator runs.
-/

namespace Verif

variable {K : Type*} [Field K] [LinearOrder K] [IsStrictOrderedRing K] {n : ℕ}

/-- **C217**: under the positive-quadrant wrapper of an L1, CAD or SCAD regularizer, itself in the elastic wrapper or not, variances with equal weights keep their order (negative ones count as zero) and
a longer step never makes the absolute value of any coordinate larger. -/
theorem C217_order (pos : Fin n → Bool) (weights : Option (Vec K n)) (lam rho sigma eps alpha alpha' : K) (x z z' : Vec K n) (ha : 0 ≤ alpha) (haa : alpha ≤ alpha') (heps : 0 ≤ eps) (hlam : 0 ≤ lam)
    (hw : ∀ i, 0 ≤ weightsOrOnes weights i) (R S : Regularizer K n)
    (hR : R = l1Regularizer lam weights ∨ R = cadRegularizer rho lam weights ∨ (1 < rho ∧ 0 ≤ sigma ∧ R = scadRegularizer rho sigma lam weights))
    (hS : S = R ∨ S = elastic eps (some R))
    (hz : (positiveQuadrant pos (some S)).prox x alpha = .ok z) (hz' : (positiveQuadrant pos (some S)).prox x alpha' = .ok z') :
    (∀ i j, pos i = true → pos j = true → weightsOrOnes weights i = weightsOrOnes weights j → x i ≤ x j → z i ≤ z j) ∧ ∀ i, |z' i| ≤ |z i| := by
  obtain ⟨y, hy⟩ : ∃ y : Vec K n, y = fun i => if pos i = true then clip0 (x i) else x i := ⟨_, rfl⟩
  have hb : BaseReg R := by
    rcases hR with rfl | rfl | ⟨hr, hs, rfl⟩
    · exact .l1 lam weights hlam hw
    · exact .cad rho lam weights hlam hw
    · exact .scad rho sigma lam weights hr hs hlam hw
  have hl : LibReg S := by
    rcases hS with rfl | rfl
    · exact .base hb
    · exact .elastic eps heps (.base hb)
  have h1 : S.prox y alpha = .ok z := by rw [hy]; exact hz
  have h1' : S.prox y alpha' = .ok z' := by rw [hy]; exact hz'
  have hpos : ∀ i, pos i = true → y i = max (x i) 0 := fun i hi => by rw [hy]; simp [hi, clip0]
  have key : (∀ i, |z' i| ≤ |z i|) ∧ ∀ i j, weightsOrOnes weights i = weightsOrOnes weights j → |y i| ≤ |y j| → |z i| ≤ |z j| := by
    rcases hS with rfl | rfl
    · refine ⟨fun i => C212_step weights lam rho sigma alpha alpha' y y z z' ha haa hlam hw _ hR h1 h1' i le_rfl, fun i j hij hx => ?_⟩
      refine C212_order weights lam rho sigma alpha y y z z ha hlam hw ?_ i j hij hx
      rcases hR with rfl | rfl | ⟨hr, hs, rfl⟩
      · exact Or.inl ⟨h1, h1⟩
      · exact Or.inr (Or.inl ⟨h1, h1⟩)
      · exact Or.inr (Or.inr ⟨hr, hs, h1, h1⟩)
    · exact C212_elastic weights lam rho sigma eps alpha alpha' y z z' ha haa heps hlam hw R hR h1 h1'
  refine ⟨fun i j hi hj hij hx => ?_, key.1⟩
  have hyi : 0 ≤ y i := by rw [hpos i hi]; exact le_max_right _ _
  have hyj : 0 ≤ y j := by rw [hpos j hj]; exact le_max_right _ _
  have h2 := key.2 i j hij (by
    rw [abs_of_nonneg hyi, abs_of_nonneg hyj, hpos i hi, hpos j hj]
    exact max_le_max_right _ hx)
  rwa [abs_of_nonneg (hl.nonneg ha h1 i hyi), abs_of_nonneg (hl.nonneg ha h1 j hyj)] at h2

/-- Non-vacuity: one fixed effect `-5` and the variances `-1, 2, 3` under L1 in the elastic wrapper with one half, steps one and two. -/
example : (positiveQuadrant ![false, true, true, true] (some (elastic (1 / 2 : ℚ) (some (l1Regularizer 1 none))))).prox ![-5, -1, 2, 3] 1 = .ok ![-8 / 3, 0, 2 / 3, 4 / 3] ∧
    (![-8 / 3, 0, 2 / 3, 4 / 3] : Vec ℚ 4) 2 ≤ (![-8 / 3, 0, 2 / 3, 4 / 3] : Vec ℚ 4) 3 ∧ |(![-3 / 2, 0, 0, 1 / 2] : Vec ℚ 4) 0| ≤ |(![-8 / 3, 0, 2 / 3, 4 / 3] : Vec ℚ 4) 0| := by
  have h : (positiveQuadrant ![false, true, true, true] (some (elastic (1 / 2 : ℚ) (some (l1Regularizer 1 none))))).prox ![-5, -1, 2, 3] 1 = .ok ![-8 / 3, 0, 2 / 3, 4 / 3] := by
    refine congrArg Except.ok (funext fun i => ?_)
    fin_cases i <;> norm_num [soft, clip0]
  have h' : (positiveQuadrant ![false, true, true, true] (some (elastic (1 / 2 : ℚ) (some (l1Regularizer 1 none))))).prox ![-5, -1, 2, 3] 2 = .ok ![-3 / 2, 0, 0, 1 / 2] := by
    refine congrArg Except.ok (funext fun i => ?_)
    fin_cases i <;> norm_num [soft, clip0]
  have := C217_order ![false, true, true, true] none 1 2 1 (1 / 2) 1 2 ![-5, -1, 2, 3] _ _ zero_le_one (by norm_num) (by norm_num) zero_le_one (fun _ => zero_le_one) _ _ (Or.inl rfl) (Or.inr rfl) h h'
  exact ⟨h, this.1 2 3 rfl rfl rfl (show (2 : ℚ) ≤ 3 by norm_num), this.2 0⟩

end Verif
