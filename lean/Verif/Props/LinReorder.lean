import Verif.Props.LinClasses

/-!
# The order of the observations does not matter for linear models: property C121
-/

namespace Verif

open Matrix

variable {m n : ℕ}

theorem normSq_comp {ι : Type*} [Fintype ι] (e : ι ≃ ι) (v : ι → ℝ) : normSq (v ∘ e) = normSq v :=
  Equiv.sum_comp e fun i => v i ^ 2

theorem rows_mulVec (σ : Equiv.Perm (Fin m)) (A : Matrix (Fin m) (Fin n) ℝ) (b : Vec ℝ m) (x : Vec ℝ n) :
    A.submatrix σ id *ᵥ x - b ∘ σ = (A *ᵥ x - b) ∘ σ := rfl

theorem rows_gram (σ : Equiv.Perm (Fin m)) (A : Matrix (Fin m) (Fin n) ℝ) : (A.submatrix σ id)ᵀ * A.submatrix σ id = Aᵀ * A := by
  rw [Matrix.transpose_submatrix, Matrix.submatrix_mul_equiv, Matrix.submatrix_id_id]

theorem rows_tmulVec (σ : Equiv.Perm (Fin m)) (A : Matrix (Fin m) (Fin n) ℝ) (v : Vec ℝ m) : (A.submatrix σ id)ᵀ *ᵥ (v ∘ σ) = Aᵀ *ᵥ v := by
  rw [Matrix.transpose_submatrix, Matrix.submatrix_mulVec_equiv, Function.comp_assoc, Equiv.self_comp_symm, Function.comp_id, Function.comp_id]

theorem linLoss_rows (σ : Equiv.Perm (Fin m)) (A : Matrix (Fin m) (Fin n) ℝ) (b : Vec ℝ m) (P : InstPrior ℝ n) (x : Vec ℝ n) :
    linLoss (A.submatrix σ id) (b ∘ σ) P x = linLoss A b P x := by
  unfold linLoss
  rw [rows_mulVec, normSq_comp]

theorem linOracle_rows (σ : Equiv.Perm (Fin m)) (A : Matrix (Fin m) (Fin n) ℝ) (b : Vec ℝ m) (P : InstPrior ℝ n) :
    linOracle (A.submatrix σ id) (b ∘ σ) P = linOracle A b P := by
  unfold linOracle linValueFunction linGradientValueFunction linGradient
  congr 1
  · funext x s
    rw [linLoss_rows]
  · funext x s
    rw [rows_mulVec, rows_tmulVec]

theorem sr3H_rows (σ : Equiv.Perm (Fin m)) (A : Matrix (Fin m) (Fin n) ℝ) (c : Matrix (Fin n) (Fin n) ℝ) (lam : ℝ) : sr3H (A.submatrix σ id) c lam = sr3H A c lam := by
  unfold sr3H
  rw [rows_gram]

theorem sr3HInv_rows (σ : Equiv.Perm (Fin m)) (A : Matrix (Fin m) (Fin n) ℝ) (c : Matrix (Fin n) (Fin n) ℝ) (lam : ℝ) :
    sr3HInv (A.submatrix σ id) c lam = sr3HInv A c lam := by
  unfold sr3HInv
  rw [sr3H_rows]

theorem sr3Inner_rows (σ : Equiv.Perm (Fin m)) (A : Matrix (Fin m) (Fin n) ℝ) (b : Vec ℝ m) (c : Matrix (Fin n) (Fin n) ℝ) (lam : ℝ) :
    sr3Inner (A.submatrix σ id) (b ∘ σ) c lam = sr3Inner A b c lam := by
  funext x
  unfold sr3Inner
  rw [sr3HInv_rows, rows_tmulVec]

theorem sr3F_rows (σ : Equiv.Perm (Fin m)) (A : Matrix (Fin m) (Fin n) ℝ) (c : Matrix (Fin n) (Fin n) ℝ) (lam : ℝ) :
    sr3F (A.submatrix σ id) c lam = (sr3F A c lam).submatrix (Equiv.sumCongr σ (Equiv.refl _)) id := by
  unfold sr3F
  rw [sr3HInv_rows]
  ext i j
  cases i <;> rfl

theorem sr3G_rows (σ : Equiv.Perm (Fin m)) (A : Matrix (Fin m) (Fin n) ℝ) (c : Matrix (Fin n) (Fin n) ℝ) (lam : ℝ) :
    sr3G (A.submatrix σ id) c lam = (sr3G A c lam).submatrix (Equiv.sumCongr σ (Equiv.refl _)) σ := by
  unfold sr3G
  rw [sr3HInv_rows]
  ext i j
  cases i with
  | inl i =>
    change (1 : Matrix (Fin m) (Fin m) ℝ) i j - _ = (1 : Matrix (Fin m) (Fin m) ℝ) (σ i) (σ j) - _
    rw [Matrix.one_apply, Matrix.one_apply]
    simp only [EmbeddingLike.apply_eq_iff_eq]
    rfl
  | inr i => rfl

theorem sr3_residual_rows (σ : Equiv.Perm (Fin m)) (A : Matrix (Fin m) (Fin n) ℝ) (b : Vec ℝ m) (c : Matrix (Fin n) (Fin n) ℝ) (lam : ℝ) (w : Vec ℝ n) :
    sr3F (A.submatrix σ id) c lam *ᵥ w - sr3G (A.submatrix σ id) c lam *ᵥ (b ∘ σ) = (sr3F A c lam *ᵥ w - sr3G A c lam *ᵥ b) ∘ Equiv.sumCongr σ (Equiv.refl _) := by
  rw [sr3F_rows, sr3G_rows, Matrix.submatrix_mulVec_equiv (e₁ := Equiv.sumCongr σ (Equiv.refl _)) (e₂ := σ), Function.comp_assoc, Equiv.self_comp_symm, Function.comp_id]
  rfl

theorem sr3Oracle_rows (σ : Equiv.Perm (Fin m)) (A : Matrix (Fin m) (Fin n) ℝ) (b : Vec ℝ m) (c : Matrix (Fin n) (Fin n) ℝ) (lam : ℝ) (practical : Bool) :
    sr3Oracle (A.submatrix σ id) (b ∘ σ) c lam practical = sr3Oracle A b c lam practical := by
  unfold sr3Oracle sr3Value sr3Gradient
  congr 1
  · funext x s
    rw [sr3_residual_rows, normSq_comp]
  · funext x s
    rw [sr3_residual_rows, sr3F_rows, Matrix.transpose_submatrix, Matrix.submatrix_mulVec_equiv, Function.comp_assoc, Equiv.self_comp_symm, Function.comp_id,
      Function.comp_id]

theorem practicalLoop_rows (σ : Equiv.Perm (Fin m)) (A : Matrix (Fin m) (Fin n) ℝ) (b : Vec ℝ m) (c : Matrix (Fin n) (Fin n) ℝ) (lam : ℝ) (R : Regularizer ℝ n)
    (tol : ℝ) (maxIter : ℤ) (x : Vec ℝ n) (xprev : Option (Vec ℝ n)) (iteration : ℕ) :
    practicalLoop (A.submatrix σ id) (b ∘ σ) c lam R tol maxIter x xprev iteration = practicalLoop A b c lam R tol maxIter x xprev iteration := by
  generalize hk : (maxIter - iteration).toNat = k
  induction k using Nat.strong_induction_on generalizing x xprev iteration with
  | _ k ih =>
    rw [practicalLoop, practicalLoop.eq_def A b, sr3Inner_rows]
    split_ifs with h
    · congr 1
      funext x'
      exact ih _ (by omega) x' _ _ rfl
    · rfl

/-- **C121**: the order of the observations does not matter for linear models.  For every linear model, plain or SR3, practical or not, with every prior, regularizer,
solver setting and set of logged quantities, every problem, start and weights: the fit of the problem with permuted rows returns the same coefficients and the same log,
or raises the same exception. -/
theorem C121_row_order_linear (M : LinModelCfg) (P : LinProblem ℝ) (σ : Equiv.Perm (Fin P.m)) (x0 : Option (Vec ℝ P.n)) (warmStart : Bool) (weights : Option (Vec ℝ P.n)) :
    linFit M { P with a := P.a.submatrix σ id, b := P.b ∘ σ } x0 warmStart weights = linFit M P x0 warmStart weights := by
  have hi : linOracleInstantiate M.prior { P with a := P.a.submatrix σ id, b := P.b ∘ σ } = linOracleInstantiate M.prior P := rfl
  unfold linFit
  simp only [hi, linOracle_rows, sr3Oracle_rows, sr3H_rows, linAic, linBic, sr3Aic, sr3Bic, linLoss_rows, findOptimalParameters, practicalLoop_rows]

/-- Non-vacuity of C121: LinearL1Model() style fits of two observations in both orders; the rows are different. -/
example (M : LinModelCfg) : linFit M ⟨2, 1, !![3; 1], ![4, 5], 1, none, .none⟩ none false none = linFit M ⟨2, 1, !![1; 3], ![5, 4], 1, none, .none⟩ none false none := by
  have ha : (!![1; 3] : Matrix (Fin 2) (Fin 1) ℝ).submatrix (Equiv.swap 0 1) id = !![3; 1] := by
    ext i j
    fin_cases i <;> fin_cases j <;> simp
  have hb : (![5, 4] : Vec ℝ 2) ∘ Equiv.swap 0 1 = ![4, 5] := by
    funext i
    fin_cases i <;> simp
  rw [← ha, ← hb]
  exact C121_row_order_linear M ⟨2, 1, !![1; 3], ![5, 4], 1, none, .none⟩ (Equiv.swap 0 1) none false none

end Verif
