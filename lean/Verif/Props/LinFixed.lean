import Verif.Props.LinConverge
import Verif.Props.LinClasses
import Mathlib.Analysis.Matrix.Spectrum
import Mathlib.Analysis.Matrix.PosDef

/-!
# C105: the exact set of design matrices on which fixed steps of the default length converge
-/

namespace Verif

open Matrix

variable {m n : ℕ}

/-- What a fit with fixed steps of the default length does. -/
theorem fixed_trace (N : ℕ) (P : LinProblem ℝ) : ∃ (x : Vec ℝ P.n) (Lf : Logger (PyVal ℝ P.n)) (k : ℕ) (X : ℕ → Vec ℝ P.n),
    linFit (fixedModel N) P none false none = .ok (x, Lf) ∧ Lf.get "converged" = .ok (.atom (.bool (decide (k < N)))) ∧ X 0 = (fun _ => 1) ∧
    (∀ i < k, X (i + 1) = fun j => X i j - 5 / 100 * linGradientValueFunction P.a P.b .nonInformative (X i) j) ∧
    (∀ i < k, guardAt (fixedModel N).solver X 0 i none) ∧ ¬ guardAt (fixedModel N).solver X 0 k none := by
  obtain ⟨x, Lf, h⟩ := linFit_plain_returns (fixedModel N) rfl rfl rfl (by simp [fixedModel]) (fun _ _ _ => 0) (fun _ _ _ => rfl) (fun _ _ y _ => ⟨y, rfl⟩) P none false none
  have h' := h
  unfold linFit at h
  simp only [fixedModel, linOracleInstantiate] at h
  obtain ⟨pr, hpr, h⟩ := except_bind_ok.1 h
  cases hpr
  obtain ⟨⟨⟨y, Ly⟩, sy⟩, hy, h⟩ := except_bind_ok.1 h
  obtain ⟨Lz, hLz, h⟩ := except_bind_ok.1 h
  cases h
  obtain ⟨k, X, Ls, s1, L1, -, h0, hk, hc, hit, hsteps, hguards, hend⟩ := pgdOptimize_trace _ _ _ _ _
    (fun x _ x' _ => x' = fun j => x j - 5 / 100 * linGradientValueFunction P.a P.b .nonInformative x j)
    (fun x it L s x' L' s' hb => by
      obtain ⟨g, s1, step, s2, hg, hst, hp, _⟩ := pgdBody_ok _ _ _ _ _ _ _ _ _ _ _ hb
      cases hg
      unfold chooseStep at hst
      split_ifs at hst with hls
      · exact absurd hls (by simp [LinModelCfg.solver])
      obtain ⟨rfl, -⟩ := pure_ok.1 hst
      simp only [LinModelCfg.solver, LinModelCfg.step] at hp
      have e : (fun i => x i - 5 / 100 * linGradientValueFunction P.a P.b InstPrior.nonInformative x i) = x' := by
        simpa [dummyRegularizer] using hp
      exact e.symm) _ _ _ _ hy
  refine ⟨_, _, k, X, h', ?_, by simpa using h0, hsteps, hguards, hend⟩
  rw [logIC_keeps _ _ _ _ hLz _ (by decide) (by decide), (Logger.add_get hit).2 _ (by decide), (Logger.add_get hc).1]
  simp [LinModelCfg.solver]

/-- A bound on the eigenvalues of `AᵀA` bounds `A`. -/
theorem normSq_mulVec_le (A : Matrix (Fin m) (Fin n) ℝ) (hH : (Aᵀ * A).IsHermitian) (L : ℝ) (hL : ∀ i, hH.eigenvalues i ≤ L) (h : Vec ℝ n) : normSq (A *ᵥ h) ≤ L * normSq h := by
  have hsp := hH.spectral_theorem
  obtain ⟨U, hU⟩ : ∃ U, U = hH.eigenvectorUnitary := ⟨_, rfl⟩
  rw [← hU, Unitary.conjStarAlgAut_apply] at hsp
  have hUU : (U : Matrix (Fin n) (Fin n) ℝ) * star (U : Matrix (Fin n) (Fin n) ℝ) = 1 := Unitary.mul_star_self_of_mem U.2
  have hdiff : L • (1 : Matrix (Fin n) (Fin n) ℝ) - Aᵀ * A = (U : Matrix (Fin n) (Fin n) ℝ) * diagonal (fun i => L - hH.eigenvalues i) * (U : Matrix (Fin n) (Fin n) ℝ)ᴴ := by
    have e : (diagonal (fun i => L - hH.eigenvalues i) : Matrix (Fin n) (Fin n) ℝ) = L • 1 - diagonal (RCLike.ofReal ∘ hH.eigenvalues) := by
      ext i j
      by_cases hij : i = j
      · subst hij; simp
      · simp [hij]
    rw [e, mul_sub, sub_mul, ← star_eq_conjTranspose, Matrix.mul_smul, Matrix.smul_mul, mul_one, hUU]
    exact congrArg (fun M => L • (1 : Matrix (Fin n) (Fin n) ℝ) - M) hsp
  have hps : (L • (1 : Matrix (Fin n) (Fin n) ℝ) - Aᵀ * A).PosSemidef := by
    rw [hdiff]
    exact (posSemidef_diagonal_iff.2 fun i => sub_nonneg.2 (hL i)).mul_mul_conjTranspose_same _
  have h1 := hps.dotProduct_mulVec_nonneg h
  rw [star_trivial, sub_mulVec, dotProduct_sub, smul_mulVec, one_mulVec, dotProduct_smul, smul_eq_mul, ← mulVec_mulVec, ← mulVec_dot, ← normSq_eq_dot, ← normSq_eq_dot] at h1
  linarith

/-- If the form `‖A h‖²` reaches `c ‖h‖²` somewhere, `AᵀA` has an eigenvalue of at least `c`. -/
theorem exists_eigenvector (A : Matrix (Fin m) (Fin n) ℝ) (c : ℝ) (h : Vec ℝ n) (h0 : h ≠ 0) (hc : c * normSq h ≤ normSq (A *ᵥ h)) :
    ∃ (v : Vec ℝ n) (l : ℝ), c ≤ l ∧ normSq v = 1 ∧ Aᵀ *ᵥ (A *ᵥ v) = l • v := by
  have hH : (Aᵀ * A).IsHermitian := by
    have := isHermitian_conjTranspose_mul_self A
    rwa [conjTranspose_eq_transpose_of_trivial] at this
  have hne : Nonempty (Fin n) := by
    by_contra hn
    rw [not_nonempty_iff] at hn
    exact h0 (funext fun i => (hn.false i).elim)
  obtain ⟨i, -, hi⟩ := Finset.exists_max_image Finset.univ hH.eigenvalues Finset.univ_nonempty
  have h1 := normSq_mulVec_le A hH _ (fun j => hi j (Finset.mem_univ j)) h
  have h2 : 0 < normSq h := lt_of_le_of_ne (normSq_nonneg h) fun e => h0 (normSq_eq_zero_iff.1 e.symm)
  refine ⟨fun j => hH.eigenvectorBasis i j, hH.eigenvalues i, le_of_mul_le_mul_right (hc.trans h1) h2, ?_, ?_⟩
  · have h3 := hH.eigenvectorBasis.orthonormal.1 i
    rw [EuclideanSpace.norm_eq] at h3
    have h4 := congrArg (· ^ 2) h3
    simp only [one_pow] at h4
    rw [Real.sq_sqrt (Finset.sum_nonneg fun _ _ => sq_nonneg _)] at h4
    simpa [normSq] using h4
  · rw [mulVec_mulVec]
    exact hH.mulVec_eigenvectorBasis i

theorem exists_strict_bound (A : Matrix (Fin m) (Fin n) ℝ) (c : ℝ) (hc0 : 0 < c) (hlt : ∀ h : Vec ℝ n, h ≠ 0 → normSq (A *ᵥ h) < c * normSq h) :
    ∃ L < c, ∀ h : Vec ℝ n, normSq (A *ᵥ h) ≤ L * normSq h := by
  have hH : (Aᵀ * A).IsHermitian := by
    have := isHermitian_conjTranspose_mul_self A
    rwa [conjTranspose_eq_transpose_of_trivial] at this
  rcases isEmpty_or_nonempty (Fin n) with hn | hn
  · refine ⟨0, hc0, fun h => ?_⟩
    have : h = 0 := funext fun i => (hn.false i).elim
    rw [this]
    simp [normSq]
  · obtain ⟨i, -, hi⟩ := Finset.exists_max_image Finset.univ hH.eigenvalues Finset.univ_nonempty
    refine ⟨hH.eigenvalues i, ?_, normSq_mulVec_le A hH _ fun j => hi j (Finset.mem_univ j)⟩
    obtain ⟨v, hv⟩ : ∃ v : Vec ℝ n, v = fun j => hH.eigenvectorBasis i j := ⟨_, rfl⟩
    have h3 : normSq v = 1 := by
      have h3 := hH.eigenvectorBasis.orthonormal.1 i
      rw [EuclideanSpace.norm_eq] at h3
      have h4 := congrArg (· ^ 2) h3
      simp only [one_pow] at h4
      rw [Real.sq_sqrt (Finset.sum_nonneg fun _ _ => sq_nonneg _)] at h4
      rw [hv]
      simpa [normSq] using h4
    have h5 : Aᵀ *ᵥ (A *ᵥ v) = hH.eigenvalues i • v := by
      rw [mulVec_mulVec, hv]
      exact hH.mulVec_eigenvectorBasis i
    have h6 : normSq (A *ᵥ v) = hH.eigenvalues i := by
      rw [normSq_eq_dot, mulVec_dot, h5, dotProduct_smul, ← normSq_eq_dot, h3, smul_eq_mul, mul_one]
    have h7 := hlt v fun e => by rw [e] at h3; simp [normSq] at h3
    rw [h6, h3, mul_one] at h7
    exact h7

theorem fixed_step (A : Matrix (Fin m) (Fin n) ℝ) (b : Vec ℝ m) (x x' : Vec ℝ n) (h : x' = fun j => x j - 5 / 100 * linGradientValueFunction A b .nonInformative x j) :
    x' - x = (-(5 / 100 : ℝ)) • (Aᵀ *ᵥ (A *ᵥ x - b)) ∧ A *ᵥ x' - b = (A *ᵥ x - b) + A *ᵥ (x' - x) ∧
    normSq (A *ᵥ x' - b) = normSq (A *ᵥ x - b) - 40 * normSq (x' - x) + normSq (A *ᵥ (x' - x)) := by
  have e1 : x' - x = (-(5 / 100 : ℝ)) • (Aᵀ *ᵥ (A *ᵥ x - b)) := by
    rw [h]
    funext j
    simp only [Pi.sub_apply, Pi.smul_apply, smul_eq_mul, linGradientValueFunction, linGradient, Pi.add_apply]
    rw [show (InstPrior.nonInformative : InstPrior ℝ n).gradient x = 0 from rfl, Pi.zero_apply]
    ring
  have e2 : A *ᵥ x' - b = (A *ᵥ x - b) + A *ᵥ (x' - x) := by
    rw [mulVec_sub]
    abel
  refine ⟨e1, e2, ?_⟩
  have e3 : (A *ᵥ x - b) ⬝ᵥ A *ᵥ (x' - x) = -20 * normSq (x' - x) := by
    have e4 : Aᵀ *ᵥ (A *ᵥ x - b) = (-20 : ℝ) • (x' - x) := by
      rw [e1, smul_smul]
      norm_num
    rw [dotProduct_comm, mulVec_dot, e4, dotProduct_smul, ← normSq_eq_dot, smul_eq_mul]
  rw [e2, normSq_add, e3]
  ring

theorem fixed_grows (A : Matrix (Fin m) (Fin n) ℝ) (v : Vec ℝ n) (l : ℝ) (hl : 40 ≤ l) (hv : normSq v = 1) (he : Aᵀ *ᵥ (A *ᵥ v) = l • v) (X : ℕ → Vec ℝ n) (k : ℕ) (h0 : X 0 = fun _ => 1)
    (hst : ∀ i < k, X (i + 1) = fun j => X i j - 5 / 100 * linGradientValueFunction A (A *ᵥ (fun _ => 1) - A *ᵥ v) .nonInformative (X i) j) (i : ℕ) (hi : i < k) :
    4 ≤ normSq (X (i + 1) - X i) := by
  have hr : ∀ i ≤ k, A *ᵥ X i - (A *ᵥ (fun _ => 1) - A *ᵥ v) = (1 - 5 / 100 * l) ^ i • A *ᵥ v := by
    intro i
    induction i with
    | zero => intro _; rw [h0, pow_zero, one_smul]; abel
    | succ i ih =>
      intro hi
      obtain ⟨e1, e2, -⟩ := fixed_step A _ _ _ (hst i (by omega))
      rw [e2, e1, ih (by omega), mulVec_smul, mulVec_smul, mulVec_smul, he, mulVec_smul, smul_smul, smul_smul, ← add_smul, pow_succ]
      congr 1
      ring
  obtain ⟨e1, -, -⟩ := fixed_step A _ _ _ (hst i hi)
  rw [e1, hr i hi.le, mulVec_smul, he, smul_smul, smul_smul, normSq_smul, hv, mul_one]
  have h1 : 1 ≤ ((1 - 5 / 100 * l) ^ i) ^ 2 := by
    rw [pow_right_comm]
    exact one_le_pow₀ (by nlinarith)
  have h2 : (1600 : ℝ) ≤ l ^ 2 := by nlinarith
  calc (4 : ℝ) ≤ (5 / 100) ^ 2 * (1 * l ^ 2) := by linarith
    _ ≤ (5 / 100) ^ 2 * (((1 - 5 / 100 * l) ^ i) ^ 2 * l ^ 2) := by gcongr
    _ = _ := by ring

theorem fixed_sum (A : Matrix (Fin m) (Fin n) ℝ) (b : Vec ℝ m) (L : ℝ) (hL : ∀ h : Vec ℝ n, normSq (A *ᵥ h) ≤ L * normSq h) (X : ℕ → Vec ℝ n) (k : ℕ)
    (hst : ∀ i < k, X (i + 1) = fun j => X i j - 5 / 100 * linGradientValueFunction A b .nonInformative (X i) j) :
    ∀ i ≤ k, (40 - L) * ∑ j ∈ Finset.range i, normSq (X (j + 1) - X j) ≤ normSq (A *ᵥ X 0 - b) - normSq (A *ᵥ X i - b) := by
  intro i
  induction i with
  | zero => intro _; simp
  | succ i ih =>
    intro hi
    have h1 := ih (by omega)
    obtain ⟨-, -, e3⟩ := fixed_step A b _ _ (hst i (by omega))
    have h2 := hL (X (i + 1) - X i)
    rw [Finset.sum_range_succ, mul_add, e3]
    linarith

/-- **C105**, exactly: for a design matrix `A`, `SimpleLinearModel(stepping="fixed")` reports convergence for every target vector once the budget is large enough, if and only if
`‖A h‖² < 40 ‖h‖²` for every `h ≠ 0`, that is, if the largest eigenvalue of `AᵀA` is below 40. Otherwise there is a target vector for which the fit reports no convergence whatever the budget. -/
theorem C105_sharp (A : Matrix (Fin m) (Fin n) ℝ) :
    ((∀ b : Vec ℝ m, ∃ N0 : ℕ, ∀ N ≥ N0, ∃ x Lf, linFit (fixedModel N) ⟨m, n, A, b, 1, none, .none⟩ none false none = .ok (x, Lf) ∧ Lf.get "converged" = .ok (.atom (.bool true))) ↔
      ∀ h : Fin n → ℝ, h ≠ 0 → ∑ r, (∑ j, A r j * h j) ^ 2 < 40 * ∑ j, h j ^ 2) ∧
    ((∃ h : Fin n → ℝ, h ≠ 0 ∧ 40 * ∑ j, h j ^ 2 ≤ ∑ r, (∑ j, A r j * h j) ^ 2) →
      ∃ b : Vec ℝ m, ∀ N, ∃ x Lf, linFit (fixedModel N) ⟨m, n, A, b, 1, none, .none⟩ none false none = .ok (x, Lf) ∧ Lf.get "converged" = .ok (.atom (.bool false))) := by
  have hneg : (∃ h : Fin n → ℝ, h ≠ 0 ∧ 40 * ∑ j, h j ^ 2 ≤ ∑ r, (∑ j, A r j * h j) ^ 2) →
      ∃ b : Vec ℝ m, ∀ N, ∃ x Lf, linFit (fixedModel N) ⟨m, n, A, b, 1, none, .none⟩ none false none = .ok (x, Lf) ∧ Lf.get "converged" = .ok (.atom (.bool false)) := by
    rintro ⟨h, h0, hge⟩
    obtain ⟨v, l, hl, hv, he⟩ := exists_eigenvector A 40 h h0 hge
    refine ⟨A *ᵥ (fun _ => 1) - A *ᵥ v, fun N => ?_⟩
    obtain ⟨x, Lf, k, X, hx, hcv, hX0, hst, hgu, hend⟩ := fixed_trace N ⟨m, n, A, A *ᵥ (fun _ => 1) - A *ᵥ v, 1, none, .none⟩
    refine ⟨x, Lf, hx, ?_⟩
    have hk : ¬ k < N := by
      intro hlt
      refine hend ⟨?_, by simpa [LinModelCfg.solver, fixedModel] using hlt⟩
      cases k with
      | zero =>
        left
        rcases Nat.eq_zero_or_pos n with hn | hn
        · subst hn
          exact absurd (funext fun i => i.elim0) h0
        · exact hn
      | succ j =>
        right
        have h1 := fixed_grows A v l hl hv he X (j + 1) hX0 hst j (by omega)
        have h2 : (fixedModel N).solver.tol ^ 2 < 4 := by norm_num [LinModelCfg.solver, fixedModel]
        exact h2.trans_le h1
    rw [hcv, decide_eq_false hk]
  refine ⟨⟨fun hall h h0 => ?_, fun hlt b => ?_⟩, hneg⟩
  · by_contra hge
    obtain ⟨b, hb⟩ := hneg ⟨h, h0, not_lt.1 hge⟩
    obtain ⟨N, hN⟩ := hall b
    obtain ⟨x, Lf, hx, h1⟩ := hN N le_rfl
    obtain ⟨x', Lf', hx', h2⟩ := hb N
    rw [hx] at hx'
    cases hx'
    rw [h1] at h2
    cases h2
  · obtain ⟨L, hL40, hL⟩ := exists_strict_bound A 40 (by norm_num) hlt
    have hpos : 0 < (40 - L) * (1 / 10 ^ 5) ^ 2 := mul_pos (sub_pos.2 hL40) (by norm_num)
    obtain ⟨N0, hN0⟩ := exists_nat_gt (1 + normSq (A *ᵥ (fun _ => 1) - b) / ((40 - L) * (1 / 10 ^ 5) ^ 2))
    refine ⟨N0, fun N hN => ?_⟩
    obtain ⟨x, Lf, k, X, hx, hcv, hX0, hst, hgu, hend⟩ := fixed_trace N ⟨m, n, A, b, 1, none, .none⟩
    refine ⟨x, Lf, hx, ?_⟩
    have hk : k < N := by
      have h1 := fixed_sum A b L hL X k hst k le_rfl
      rw [hX0] at h1
      have h2 : ((k : ℝ) - 1) * (1 / 10 ^ 5) ^ 2 ≤ ∑ j ∈ Finset.range k, normSq (X (j + 1) - X j) := by
        cases k with
        | zero => simp
        | succ j =>
          rw [Finset.sum_range_succ]
          have h3 : ∀ i ∈ Finset.range j, (1 / 10 ^ 5 : ℝ) ^ 2 ≤ normSq (X (i + 1) - X i) := by
            intro i hi
            rcases (hgu (i + 1) (by have := Finset.mem_range.1 hi; omega)).1 with h4 | h4
            · exact absurd h4 (by norm_num [LinModelCfg.solver, fixedModel])
            · exact le_of_lt (by simpa [LinModelCfg.solver, fixedModel] using h4)
          have h5 := Finset.sum_le_sum h3
          rw [Finset.sum_const, Finset.card_range, nsmul_eq_mul] at h5
          have h6 := normSq_nonneg (X (j + 1) - X j)
          push_cast
          linarith
      have h3 : ((k : ℝ) - 1) * ((40 - L) * (1 / 10 ^ 5) ^ 2) ≤ normSq (A *ᵥ (fun _ => 1) - b) := by
        have h4 := mul_le_mul_of_nonneg_left h2 (sub_pos.2 hL40).le
        have h5 := normSq_nonneg (A *ᵥ X k - b)
        nlinarith
      have h4 := (le_div_iff₀ hpos).2 h3
      have h5 : (k : ℝ) < N0 := by linarith
      exact (Nat.cast_lt.1 h5).trans_le hN
    rw [hcv, decide_eq_true hk]

/-- Non-vacuity: one feature with the value 6 (36 < 40, above the bound 20 of the partial theorem) is always fitted; one feature with the value 7 is not, for some target. -/
example : (∀ b : Vec ℝ 1, ∃ N0 : ℕ, ∀ N ≥ N0, ∃ x Lf, linFit (fixedModel N) ⟨1, 1, !![6], b, 1, none, .none⟩ none false none = .ok (x, Lf) ∧ Lf.get "converged" = .ok (.atom (.bool true))) ∧
    ∃ b : Vec ℝ 1, ∀ N, ∃ x Lf, linFit (fixedModel N) ⟨1, 1, !![7], b, 1, none, .none⟩ none false none = .ok (x, Lf) ∧ Lf.get "converged" = .ok (.atom (.bool false)) := by
  refine ⟨(C105_sharp !![6]).1.2 fun h h0 => ?_, (C105_sharp !![7]).2 ⟨fun _ => 1, fun e => one_ne_zero (congrFun e 0), ?_⟩⟩
  · have h1 : h 0 ≠ 0 := fun e => h0 (funext fun i => by rw [Subsingleton.elim i 0, e]; rfl)
    have h2 := pow_pos (abs_pos.2 h1) 2
    rw [sq_abs] at h2
    simp
    nlinarith
  · simp
    norm_num

end Verif
