import Verif.Props.LmeHat
import Mathlib.LinearAlgebra.Matrix.Symmetric

/-!
# C69: symmetry of the covariance outputs
-/

open Matrix

namespace Verif

variable {p q : ℕ}

/-- The Hessian of the plain and of the SR3 oracle (for any relaxation constant), as passed to `lmeCovarianceBeta`. -/
def IsBetaHessian (D : List (LmeGroup p q)) (P : LmeInstPrior ℝ p q) (gamma : Vec ℝ q)
    (hessian : Except PyErr (Matrix (Fin p) (Fin p) ℝ)) : Prop :=
  hessian = lmeHessianBeta D P gamma ∨ ∃ S : Sr3Params, hessian = lmeSr3HessianBeta D P S gamma

theorem betaHessian_symm {D : List (LmeGroup p q)} {P : LmeInstPrior ℝ p q} {gamma : Vec ℝ q}
    {hessian : Except PyErr (Matrix (Fin p) (Fin p) ℝ)} (h : IsBetaHessian D P gamma hessian)
    {H : Matrix (Fin p) (Fin p) ℝ} (hH : hessian = .ok H) : Hᵀ = H := by
  have key : ∀ {H}, lmeHessianBeta D P gamma = .ok H → Hᵀ = H := by
    intro H h
    obtain ⟨-, rfl⟩ := lmeHessianBeta_ok.1 h
    rw [Matrix.transpose_add, kernel_symm, P.hessianBeta_symm]
  rcases h with h | ⟨S, h⟩
  · exact key (h ▸ hH)
  · rw [h] at hH
    unfold lmeSr3HessianBeta at hH
    obtain ⟨H0, h0, h1⟩ := ebind_ok.1 hH
    cases h1
    rw [Matrix.transpose_add, key h0, Matrix.transpose_smul, Matrix.transpose_one]

theorem covBeta_symm {D : List (LmeGroup p q)} {P : LmeInstPrior ℝ p q} {gamma : Vec ℝ q}
    {hessian : Except PyErr (Matrix (Fin p) (Fin p) ℝ)} (h : IsBetaHessian D P gamma hessian)
    {c : Matrix (Fin p) (Fin p) ℝ} (hc : lmeCovarianceBeta hessian = .ok c) : cᵀ = c := by
  unfold lmeCovarianceBeta at hc
  obtain ⟨H, h1, h2⟩ := ebind_ok.1 hc
  obtain ⟨-, rfl⟩ := npInv_ok.1 h2
  rw [Matrix.transpose_nonsing_inv, betaHessian_symm h h1]

theorem symm_of_subsingleton {n : ℕ} (hn : n ≤ 1) (M : Matrix (Fin n) (Fin n) ℝ) : Mᵀ = M := by
  have : Subsingleton (Fin n) := Fin.subsingleton_iff_le_one.2 hn
  ext i j
  rw [Matrix.transpose_apply, Subsingleton.elim i j]

theorem covUTerm_symm {c : Matrix (Fin p) (Fin p) ℝ} (hc : cᵀ = c) (gamma : Vec ℝ q) (f : LmeFactored p q)
    (h : q ≤ 1 ∨ f.elInvᵀ = f.elInv) : (covUTerm c gamma f)ᵀ = covUTerm c gamma f := by
  rcases h with h | h
  · exact symm_of_subsingleton h _
  · unfold covUTerm
    simp only [Matrix.transpose_mul, Matrix.transpose_sub, Matrix.transpose_transpose, Matrix.diagonal_transpose, h, hc,
      Matrix.mul_assoc]

theorem lmeCovarianceRandomEffects_ok {D : List (LmeGroup p q)} {hessian : Except PyErr (Matrix (Fin p) (Fin p) ℝ)}
    {gamma : Vec ℝ q} {us : List (Matrix (Fin q) (Fin q) ℝ)} :
    lmeCovarianceRandomEffects D hessian gamma = .ok us ↔ InDomain D gamma ∧ ∃ c, lmeCovarianceBeta hessian = .ok c ∧
      us = D.map fun g => covUTerm c gamma (lmeFact gamma g) := by
  unfold lmeCovarianceRandomEffects
  rw [ebind_ok]
  constructor
  · rintro ⟨fs, h1, h⟩
    obtain ⟨hd, rfl⟩ := lmeRecalculate_ok.1 h1
    obtain ⟨c, h2, h⟩ := ebind_ok.1 h
    cases h
    exact ⟨hd, c, h2, by rw [List.map_map]; rfl⟩
  · rintro ⟨hd, c, h2, rfl⟩
    refine ⟨_, lmeRecalculate_ok.2 ⟨hd, rfl⟩, ?_⟩
    rw [ebind_ok]
    exact ⟨c, h2, by rw [List.map_map]; rfl⟩

theorem zip_map_self {α β : Type*} (l : List α) (f : α → β) : l.zip (l.map f) = l.map fun a => (a, f a) := by
  induction l with
  | nil => rfl
  | cons a l ih => simp [ih]

theorem lmeCovarianceY_ok {D : List (LmeGroup p q)} {hessian : Except PyErr (Matrix (Fin p) (Fin p) ℝ)}
    {gamma : Vec ℝ q} {ys : List (Σ g : LmeGroup p q, Matrix (Fin g.n) (Fin g.n) ℝ)} :
    lmeCovarianceY D hessian gamma = .ok ys ↔ InDomain D gamma ∧ ∃ c, lmeCovarianceBeta hessian = .ok c ∧
      ys = D.map fun g => ⟨g, covYTerm c g (covUTerm c gamma (lmeFact gamma g))⟩ := by
  unfold lmeCovarianceY
  rw [ebind_ok]
  constructor
  · rintro ⟨c, h1, h⟩
    obtain ⟨us, h2, h⟩ := ebind_ok.1 h
    obtain ⟨hd, c', h3, rfl⟩ := lmeCovarianceRandomEffects_ok.1 h2
    rw [h1] at h3
    cases h3
    cases h
    refine ⟨hd, c, h1, ?_⟩
    rw [zip_map_self, List.map_map]
    rfl
  · rintro ⟨hd, c, h1, rfl⟩
    refine ⟨c, h1, ?_⟩
    rw [ebind_ok]
    refine ⟨_, lmeCovarianceRandomEffects_ok.2 ⟨hd, c, h1, rfl⟩, ?_⟩
    rw [zip_map_self, List.map_map]
    rfl

/-- The asymmetry of a group's `covariance_y` is that of its noise vector, once the random effects have a symmetric
covariance. -/
theorem covYTerm_asymm {c : Matrix (Fin p) (Fin p) ℝ} (hc : cᵀ = c) (g : LmeGroup p q) {u : Matrix (Fin q) (Fin q) ℝ}
    (hu : uᵀ = u) (i j : Fin g.n) : covYTerm c g u i j - covYTerm c g u j i = g.l j - g.l i := by
  have h1 : (g.x * c * g.xᵀ)ᵀ = g.x * c * g.xᵀ := by
    simp only [Matrix.transpose_mul, Matrix.transpose_transpose, hc, Matrix.mul_assoc]
  have h2 : (g.z * u * g.zᵀ)ᵀ = g.z * u * g.zᵀ := by
    simp only [Matrix.transpose_mul, Matrix.transpose_transpose, hu, Matrix.mul_assoc]
  have e1 : (g.x * c * g.xᵀ) j i = (g.x * c * g.xᵀ) i j := congrFun (congrFun h1 i) j
  have e2 : (g.z * u * g.zᵀ) j i = (g.z * u * g.zᵀ) i j := congrFun (congrFun h2 i) j
  unfold covYTerm
  simp only [Matrix.add_apply, Matrix.of_apply, e1, e2]
  ring

/-- **C69, partial**: what holds of the symmetry claim, for the plain oracle and the SR3 oracle with every prior.
The covariance of the fixed effects is symmetric.  The covariances of the random effects are symmetric if there is at most one
random effect, or all groups have at most one observation.  In these two cases those of the observations are symmetric too,
*if and only if* the noise variance is constant in the group.  Missing: the other cases, where the claim is false
(`C69_random_effects_violated`, `C69_observations_violated`). -/
theorem C69_symmetric_partial (D : List (LmeGroup p q)) (P : LmeInstPrior ℝ p q) (gamma : Vec ℝ q)
    (hessian : Except PyErr (Matrix (Fin p) (Fin p) ℝ)) (h : IsBetaHessian D P gamma hessian) :
    (∀ c, lmeCovarianceBeta hessian = .ok c → c.IsSymm) ∧
    ((q ≤ 1 ∨ ∀ g ∈ D, g.n ≤ 1) →
      (∀ us, lmeCovarianceRandomEffects D hessian gamma = .ok us → ∀ u ∈ us, u.IsSymm) ∧
      ∀ ys, lmeCovarianceY D hessian gamma = .ok ys → ys.map Sigma.fst = D ∧
        ∀ m ∈ ys, m.2.IsSymm ↔ ∀ i j, m.1.l i = m.1.l j) := by
  refine ⟨fun c hc => covBeta_symm h hc, fun hq => ?_⟩
  have hu : ∀ c, lmeCovarianceBeta hessian = .ok c → ∀ g ∈ D,
      (covUTerm c gamma (lmeFact gamma g))ᵀ = covUTerm c gamma (lmeFact gamma g) := by
    intro c hc g hg
    refine covUTerm_symm (covBeta_symm h hc) gamma _ ?_
    rcases hq with hq | hq
    · exact Or.inl hq
    · exact Or.inr (symm_of_subsingleton (hq g hg) _)
  constructor
  · intro us hus u hmem
    obtain ⟨-, c, hc, rfl⟩ := lmeCovarianceRandomEffects_ok.1 hus
    obtain ⟨g, hg, rfl⟩ := List.mem_map.1 hmem
    exact hu c hc g hg
  · intro ys hys
    obtain ⟨-, c, hc, rfl⟩ := lmeCovarianceY_ok.1 hys
    constructor
    · rw [List.map_map]
      exact List.map_id D
    · intro m hm
      obtain ⟨g, hg, rfl⟩ := List.mem_map.1 hm
      have key := covYTerm_asymm (covBeta_symm h hc) g (hu c hc g hg)
      constructor
      · intro hs i j
        have := key i j
        have e : covYTerm c g (covUTerm c gamma (lmeFact gamma g)) j i
            = covYTerm c g (covUTerm c gamma (lmeFact gamma g)) i j := congrFun (congrFun hs i) j
        rw [e] at this
        simp only
        linarith
      · intro hl
        refine Matrix.IsSymm.ext fun i j => ?_
        have := key i j
        have e : g.l i = g.l j := hl i j
        simp only at this ⊢
        linarith

/-- C69 on a concrete problem: all three covariances exist. -/
example : ∃ c us ys, lmeCovarianceBeta (lmeHessianBeta [exGroup] .nonInformative ![1]) = .ok c ∧
    lmeCovarianceRandomEffects [exGroup] (lmeHessianBeta [exGroup] .nonInformative ![1]) ![1] = .ok us ∧
    lmeCovarianceY [exGroup] (lmeHessianBeta [exGroup] .nonInformative ![1]) ![1] = .ok ys ∧ c.IsSymm := by
  have hg : ∀ j, 0 ≤ (![1] : Vec ℝ 1) j := by intro j; fin_cases j; simp
  have hd : InDomain [exGroup] ![1] := inDomain_of_nonneg exGroup_posVar hg
  have hh : lmeHessianBeta [exGroup] .nonInformative ![1]
      = .ok ((([exGroup].map (lmeFact ![1])).map hessBetaTerm).sum + 0) := recalc_bind_ok.2 ⟨hd, rfl⟩
  have hc : lmeCovarianceBeta (lmeHessianBeta [exGroup] .nonInformative ![1])
      = .ok ((([exGroup].map (lmeFact ![1])).map hessBetaTerm).sum + 0)⁻¹ := by
    unfold lmeCovarianceBeta
    rw [hh]
    refine npInv_ok.2 ⟨?_, rfl⟩
    rw [add_zero]
    exact exGroup_kernel _ hg
  exact ⟨_, _, _, hc, lmeCovarianceRandomEffects_ok.2 ⟨hd, _, hc, rfl⟩, lmeCovarianceY_ok.2 ⟨hd, _, hc, rfl⟩,
    (C69_symmetric_partial [exGroup] .nonInformative ![1] _ (Or.inl rfl)).1 _ hc⟩

/-- **C69 is violated for the observations**: the noise vector is added to every row instead of to the diagonal.
Here the two noise variances are 1 and 2 and the matrix is not symmetric. -/
theorem C69_observations_violated : ∃ (D : List (LmeGroup 1 1)) (gamma : Vec ℝ 1), PosVar D ∧ (∀ j, 0 < gamma j) ∧
    ∃ ys, lmeCovarianceY D (lmeHessianBeta D .nonInformative gamma) gamma = .ok ys ∧ ∃ m ∈ ys, ¬ m.2.IsSymm := by
  have hg : ∀ j, 0 ≤ (![1] : Vec ℝ 1) j := by intro j; fin_cases j; simp
  have hd : InDomain [exGroup] ![1] := inDomain_of_nonneg exGroup_posVar hg
  have hh : lmeHessianBeta [exGroup] .nonInformative ![1]
      = .ok ((([exGroup].map (lmeFact ![1])).map hessBetaTerm).sum + 0) := recalc_bind_ok.2 ⟨hd, rfl⟩
  have hc : lmeCovarianceBeta (lmeHessianBeta [exGroup] .nonInformative ![1])
      = .ok ((([exGroup].map (lmeFact ![1])).map hessBetaTerm).sum + 0)⁻¹ := by
    unfold lmeCovarianceBeta
    rw [hh]
    refine npInv_ok.2 ⟨?_, rfl⟩
    rw [add_zero]
    exact exGroup_kernel _ hg
  have hy : lmeCovarianceY [exGroup] (lmeHessianBeta [exGroup] .nonInformative ![1]) ![1] = .ok _ :=
    lmeCovarianceY_ok.2 ⟨hd, _, hc, rfl⟩
  refine ⟨[exGroup], ![1], exGroup_posVar, by intro j; fin_cases j; simp, _, hy, _, List.mem_cons_self, fun hs => ?_⟩
  have h2 := ((((C69_symmetric_partial [exGroup] .nonInformative ![1] _ (Or.inl rfl)).2 (Or.inl le_rfl)).2 _ hy).2 _
    List.mem_cons_self).1 hs (0 : Fin 2) (1 : Fin 2)
  have : (1 : ℝ) = 2 := h2
  norm_num at this

/-- Two observations, one fixed effect with features `(1, 0)`, two random effects. -/
noncomputable def covGroup : LmeGroup 1 2 := ⟨2, !![1; 0], ![0, 0], !![1, 0; 1, 1], ![3, 9 / 4]⟩

theorem covGroup_posVar : PosVar [covGroup] := by
  intro g hg i
  rw [List.mem_singleton] at hg
  subst hg
  change Fin 2 at i
  fin_cases i
  · change (0 : ℝ) < 3; norm_num
  · change (0 : ℝ) < 9 / 4; norm_num

theorem diagonal_two (a b : ℝ) : diagonal ![a, b] = (!![a, 0; 0, b] : Matrix (Fin 2) (Fin 2) ℝ) := by
  ext i j
  fin_cases i <;> fin_cases j <;> simp

theorem transpose_two (a b c d : ℝ) : (!![a, b; c, d] : Matrix (Fin 2) (Fin 2) ℝ)ᵀ = !![a, c; b, d] := by
  ext i j
  fin_cases i <;> fin_cases j <;> rfl

theorem transpose_col (a b : ℝ) : (!![a; b] : Matrix (Fin 2) (Fin 1) ℝ)ᵀ = !![a, b] := by
  ext i j
  fin_cases i
  fin_cases j <;> rfl

theorem covGroup_chol : IsCholesky (!![2, 0; 1 / 2, 2] : Matrix (Fin 2) (Fin 2) ℝ)
    ((!![1, 0; 1, 1] : Matrix (Fin 2) (Fin 2) ℝ) * diagonal ![1, 1] * (!![1, 0; 1, 1] : Matrix (Fin 2) (Fin 2) ℝ)ᵀ
      + diagonal ![3, 9 / 4]) where
  lower := by
    intro i j hij
    fin_cases i <;> fin_cases j <;> simp_all
  diag_pos := by
    intro i
    fin_cases i <;> simp
  mul_transpose := by
    rw [diagonal_two, diagonal_two, transpose_two, transpose_two]
    ext i j
    fin_cases i <;> fin_cases j <;> simp [Matrix.mul_apply, Matrix.transpose_apply, Fin.sum_univ_two] <;> norm_num

theorem covGroup_elInv : lmeElInv covGroup ![1, 1] = (!![1 / 2, 0; -1 / 8, 1 / 2] : Matrix (Fin 2) (Fin 2) ℝ) := by
  unfold lmeElInv
  rw [lmeOmega_eq]
  have e : cholFactor (margCov covGroup ![1, 1]) = (!![2, 0; 1 / 2, 2] : Matrix (Fin 2) (Fin 2) ℝ) :=
    cholFactor_eq covGroup_chol
  rw [e]
  have key : (!![2, 0; 1 / 2, 2] : Matrix (Fin 2) (Fin 2) ℝ) * !![1 / 2, 0; -1 / 8, 1 / 2] = 1 := by
    ext i j
    fin_cases i <;> fin_cases j <;> simp <;> norm_num
  exact trtriInv_eq.trans (Matrix.inv_eq_right_inv key)

/-- **C69 is violated for the random effects**: the code puts the inverse Cholesky factor where the inverse covariance
belongs. Here the noise is positive, both variances are 1, and the matrix is not symmetric. -/
theorem C69_random_effects_violated : ∃ (D : List (LmeGroup 1 2)) (gamma : Vec ℝ 2), PosVar D ∧ (∀ j, 0 < gamma j) ∧
    ∃ us, lmeCovarianceRandomEffects D (lmeHessianBeta D .nonInformative gamma) gamma = .ok us ∧ ∃ u ∈ us, ¬ u.IsSymm := by
  have hg : ∀ j, 0 ≤ (![1, 1] : Vec ℝ 2) j := by intro j; fin_cases j <;> simp
  have hd : InDomain [covGroup] ![1, 1] := inDomain_of_nonneg covGroup_posVar hg
  have hH : hessBetaTerm (lmeFact ![1, 1] covGroup) = (!![17 / 64] : Matrix (Fin 1) (Fin 1) ℝ) := by
    have key : ((!![1 / 2, 0; -1 / 8, 1 / 2] : Matrix (Fin 2) (Fin 2) ℝ) * (!![1; 0] : Matrix (Fin 2) (Fin 1) ℝ))ᵀ
        * ((!![1 / 2, 0; -1 / 8, 1 / 2] : Matrix (Fin 2) (Fin 2) ℝ) * (!![1; 0] : Matrix (Fin 2) (Fin 1) ℝ))
        = (!![17 / 64] : Matrix (Fin 1) (Fin 1) ℝ) := by
      ext i j
      fin_cases i; fin_cases j
      simp [Matrix.mul_apply, Fin.sum_univ_two]
      norm_num
    have e : hessBetaTerm (lmeFact ![1, 1] covGroup)
        = (lmeElInv covGroup ![1, 1] * covGroup.x)ᵀ * (lmeElInv covGroup ![1, 1] * covGroup.x) := rfl
    rw [e, covGroup_elInv]
    exact key
  have hh : lmeHessianBeta [covGroup] .nonInformative ![1, 1]
      = .ok ((([covGroup].map (lmeFact ![1, 1])).map hessBetaTerm).sum + 0) := recalc_bind_ok.2 ⟨hd, rfl⟩
  rw [List.map_cons, List.map_nil, List.map_cons, List.map_nil, List.sum_cons, List.sum_nil, add_zero, add_zero, hH] at hh
  have hinv : (!![17 / 64] : Matrix (Fin 1) (Fin 1) ℝ)⁻¹ = !![64 / 17] := by
    refine Matrix.inv_eq_right_inv ?_
    ext i j
    fin_cases i; fin_cases j
    simp [Matrix.mul_apply]
  have hc : lmeCovarianceBeta (lmeHessianBeta [covGroup] .nonInformative ![1, 1]) = .ok (!![64 / 17]) := by
    unfold lmeCovarianceBeta
    rw [hh]
    refine npInv_ok.2 ⟨?_, hinv.symm⟩
    rw [Matrix.det_fin_one]
    simp
  refine ⟨[covGroup], ![1, 1], covGroup_posVar, by intro j; fin_cases j <;> simp, _,
    lmeCovarianceRandomEffects_ok.2 ⟨hd, _, hc, rfl⟩, _, List.mem_cons_self, fun hs => ?_⟩
  have key : ∀ E : Matrix (Fin 2) (Fin 2) ℝ, E = !![1 / 2, 0; -1 / 8, 1 / 2] →
      ∀ M : Matrix (Fin 2) (Fin 2) ℝ, M = diagonal ![1, 1] * (!![1, 0; 1, 1] : Matrix (Fin 2) (Fin 2) ℝ)ᵀ
      * (E - E * (!![1; 0] : Matrix (Fin 2) (Fin 1) ℝ)
        * (!![64 / 17] : Matrix (Fin 1) (Fin 1) ℝ) * (!![1; 0] : Matrix (Fin 2) (Fin 1) ℝ)ᵀ * E)
      * (!![1, 0; 1, 1] : Matrix (Fin 2) (Fin 2) ℝ) * diagonal ![1, 1] → M 1 0 ≠ M 0 1 := by
    rintro E rfl M rfl
    rw [diagonal_two, transpose_two, transpose_col]
    simp [Matrix.mul_apply, Matrix.transpose_apply, Fin.sum_univ_two]
    norm_num
  exact key _ covGroup_elInv _ rfl (congrFun (congrFun hs 0) 1)

end Verif
