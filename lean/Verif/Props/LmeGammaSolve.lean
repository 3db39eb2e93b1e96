import Verif.Props.LmeNewton

/-!
# C63 and C64 for `optimal_gamma_ip` and `optimal_gamma_pgd`
-/

open Matrix

namespace Verif

variable {p q : ℕ}

theorem killZeros_nonneg {ι : Type*} (x : ι → ℝ) (i : ι) : 0 ≤ killZeros x i := by
  classical
  unfold killZeros
  split_ifs with h
  · exact le_refl _
  · push Not at h
    exact (by norm_num : (0 : ℝ) ≤ 1e-18).trans h.le

/-- Directions are only negative at positive entries. -/
def Projected {ι : Type*} (x d : ι → ℝ) : Prop := ∀ i, d i < 0 → x i ≠ 0

theorem projectDirection_projected {ι : Type*} (x d : ι → ℝ) : Projected x (projectDirection x d) := by
  classical
  intro i hi hx
  unfold projectDirection at hi
  by_cases h : d i < 0
  · rw [if_pos ⟨h, hx⟩] at hi
    exact lt_irrefl _ hi
  · rw [if_neg fun hc => h hc.1] at hi
    exact h hi

theorem maxStepLen_pos_of_projected {n : ℕ} {x d : Vec ℝ n} (hx : ∀ i, 0 ≤ x i) (h : Projected x d) :
    ∀ e ∈ stepPairs x d, e.2 < 0 → 0 < e.1 := by
  intro e he
  unfold stepPairs at he
  rw [List.mem_ofFn] at he
  obtain ⟨i, rfl⟩ := he
  exact fun hd => lt_of_le_of_ne (hx i) (Ne.symm (h i hd))

theorem maxStepLen_pos' {l : List (ℝ × ℝ)} (h : ∀ e ∈ l, e.2 < 0 → 0 < e.1) : 0 < maxStepLen l := by
  classical
  refine lt_foldr_min zero_lt_one fun a ha => ?_
  obtain ⟨e, he, rfl⟩ := List.mem_map.1 ha
  obtain ⟨h1, h2⟩ := List.mem_filter.1 he
  have h2 : e.2 < 0 := by simpa using h2
  exact div_pos_of_neg_of_neg (by linarith [h e h1 h2]) h2

/-! ## C64 -/

theorem pgdGammaLoop_inv (grad : Vec ℝ q → Except PyErr (Vec ℝ q)) (ls : LineSearch) (nIter : ℤ) (tol : ℝ)
    (I : PgdState q → Prop)
    (hstep : ∀ s step d, I s → (s.iteration : ℤ) < nIter →
      ls s.iteration (maxStepLen (stepPairs s.gamma s.direction)) = .ok step →
      pgdDirection grad (killZeros (s.gamma + step • s.direction)) = .ok d →
      I ⟨killZeros (s.gamma + step • s.direction), d, step, s.iteration + 1⟩) :
    ∀ (n : ℕ) (s r : PgdState q), (nIter - s.iteration).toNat = n → I s →
      pgdGammaLoop grad ls nIter tol s = .ok r → I r := by
  intro n
  induction n using Nat.strong_induction_on with
  | _ n ih =>
    intro s r hn hs h
    unfold pgdGammaLoop at h
    split_ifs at h with h1
    · cases hl : ls s.iteration (maxStepLen (stepPairs s.gamma s.direction)) with
      | error e => rw [hl] at h; cases h
      | ok step =>
        rw [hl] at h
        simp only at h
        cases hd : pgdDirection grad (killZeros (s.gamma + step • s.direction)) with
        | error e => rw [hd] at h; cases h
        | ok d =>
          rw [hd] at h
          refine ih _ ?_ _ r rfl (hstep s step d hs h1.2.1 hl hd) h
          rw [← hn]
          simp only
          have := h1.2.1
          push_cast
          omega
    · cases h; exact hs

/-- **C64**: for every gradient, line search, iteration limit and nonnegative start, `optimal_gamma_pgd` returns
nonnegative variances after at most `n_iter_inner` iterations (so every iterate is nonnegative: take each iteration
limit).  Moreover in every state of the loop the interval offered to the line search is not empty: its end is positive and at most
1, and all of its points are feasible. -/
theorem C64_pgd_feasible (grad : Vec ℝ q → Except PyErr (Vec ℝ q)) (ls : LineSearch) (nIter : ℤ) (tol : ℝ)
    (gamma : Vec ℝ q) (hg : ∀ j, 0 ≤ gamma j) :
    (∀ r k, lmeOptimalGammaPgd grad ls nIter tol gamma = .ok (r, k) → (∀ j, 0 ≤ r j) ∧ (k : ℤ) ≤ max nIter 0) ∧
    (∀ d s, pgdDirection grad gamma = .ok d → pgdGammaLoop grad ls nIter tol ⟨gamma, d, 1, 0⟩ = .ok s →
      (∀ j, 0 ≤ s.gamma j) ∧ ∃ m, m = maxStepLen (stepPairs s.gamma s.direction) ∧ 0 < m ∧ m ≤ 1 ∧
        ∀ a, 0 ≤ a → a ≤ m → ∀ j, 0 ≤ (s.gamma + a • s.direction) j) := by
  have hdir : ∀ x d, pgdDirection grad x = .ok d → Projected x d := by
    intro x d h
    unfold pgdDirection at h
    obtain ⟨g, -, h⟩ := ebind_ok.1 h
    cases h
    exact projectDirection_projected _ _
  have inv : ∀ d s, pgdDirection grad gamma = .ok d → pgdGammaLoop grad ls nIter tol ⟨gamma, d, 1, 0⟩ = .ok s →
      (∀ j, 0 ≤ s.gamma j) ∧ Projected s.gamma s.direction ∧ (s.iteration : ℤ) ≤ max nIter 0 := by
    intro d s hd hs
    refine pgdGammaLoop_inv grad ls nIter tol (fun s => (∀ j, 0 ≤ s.gamma j) ∧ Projected s.gamma s.direction ∧
      (s.iteration : ℤ) ≤ max nIter 0) ?_ _ _ s rfl ⟨hg, hdir _ _ hd, by simp⟩ hs
    intro s step d' _ hlt _ hd'
    refine ⟨fun j => killZeros_nonneg _ j, hdir _ _ hd', ?_⟩
    push_cast
    omega
  constructor
  · intro r k h
    unfold lmeOptimalGammaPgd at h
    obtain ⟨d, hd, h⟩ := ebind_ok.1 h
    obtain ⟨s, hs, h⟩ := ebind_ok.1 h
    cases h
    exact ⟨(inv d s hd hs).1, (inv d s hd hs).2.2⟩
  · intro d s hd hs
    obtain ⟨h1, h2, -⟩ := inv d s hd hs
    refine ⟨h1, _, rfl, maxStepLen_pos' (maxStepLen_pos_of_projected h1 h2), maxStepLen_le_one _, ?_⟩
    intro a ha0 ha j
    exact step_nonneg (mem_stepPairs _ _ j) (h1 j) ha0 ha

/-- The first part of `C64_pgd_feasible` on a run that moves: a gradient of 1 and a line search that takes the whole
interval carry the variance from 1/2 to 0. -/
example : ∃ r k, lmeOptimalGammaPgd (fun _ => .ok (fun _ => 1) : Vec ℝ 1 → Except PyErr (Vec ℝ 1)) (fun _ m => .ok m) 1 1e-5
    (fun _ => 1 / 2) = .ok (r, k) ∧ k = 1 ∧ r 0 = 0 := by
  have hd : pgdDirection (fun _ => .ok (fun _ => 1) : Vec ℝ 1 → Except PyErr (Vec ℝ 1)) (fun _ => 1 / 2)
      = .ok (fun _ => -1) := by
    unfold pgdDirection
    change Except.ok _ = Except.ok _
    congr 1
    funext j
    unfold projectDirection
    rw [if_neg (by norm_num)]
    rfl
  have hmax : maxStepLen (stepPairs (fun _ : Fin 1 => (1 / 2 : ℝ)) (fun _ => -1)) = 1 / 2 := by
    have e : stepPairs (fun _ : Fin 1 => (1 / 2 : ℝ)) (fun _ => -1) = [(1 / 2, -1)] := by simp [stepPairs]
    rw [e]
    unfold maxStepLen
    rw [List.filter_cons_of_pos (by norm_num)]
    simp
    norm_num
  have hk : killZeros ((fun _ : Fin 1 => (1 / 2 : ℝ)) + (1 / 2 : ℝ) • fun _ => (-1 : ℝ)) = fun _ => 0 := by
    funext j
    unfold killZeros
    rw [if_pos]
    simp
    norm_num
  have hd0 : ∃ d, pgdDirection (fun _ => .ok (fun _ => 1) : Vec ℝ 1 → Except PyErr (Vec ℝ 1)) (fun _ => 0) = .ok d :=
    ⟨_, rfl⟩
  obtain ⟨d, hd0⟩ := hd0
  refine ⟨fun _ => 0, 1, ?_, rfl, rfl⟩
  unfold lmeOptimalGammaPgd
  rw [hd]
  change (pgdGammaLoop _ _ _ _ _ >>= _) = _
  have hl : pgdGammaLoop (fun _ => .ok (fun _ => 1) : Vec ℝ 1 → Except PyErr (Vec ℝ 1)) (fun _ m => .ok m) 1 1e-5
      ⟨fun _ => 1 / 2, fun _ => -1, 1, 0⟩ = .ok ⟨fun _ => 0, d, 1 / 2, 1⟩ := by
    unfold pgdGammaLoop
    rw [dif_pos]
    · dsimp only
      rw [hmax]
      rw [hk, hd0]
      change pgdGammaLoop _ _ _ _ ⟨fun _ => 0, d, 1 / 2, 1⟩ = _
      unfold pgdGammaLoop
      rw [dif_neg (by simp)]
    · refine ⟨zero_lt_one, by norm_num, ?_⟩
      unfold npNorm
      have : ∑ _i : Fin 1, (-1 : ℝ) ^ 2 = 1 := by simp
      simp only
      rw [this, Real.sqrt_one]
      norm_num
  rw [hl]
  rfl

/-! ## C63 for `optimal_gamma_ip` -/

theorem ipGammaLoop_inv (grad : Vec ℝ q → Except PyErr (Vec ℝ q))
    (hess : Vec ℝ q → Except PyErr (Matrix (Fin q) (Fin q) ℝ)) (loss : Vec ℝ q → Except PyErr ℝ) (ls : LineSearch)
    (nIter : ℤ) (tol : ℝ) (I : IpGammaState q → Prop)
    (hstep : ∀ s F s', I s → (s.iteration : ℤ) < nIter → ipGammaF grad s.v s.gamma s.mu = .ok F →
      ipGammaStep grad hess loss ls s F = .ok s' → I { s' with iteration := s.iteration + 1 }) :
    ∀ (n : ℕ) (s r : IpGammaState q), (nIter - s.iteration).toNat = n → I s →
      ipGammaLoop grad hess loss ls nIter tol s = .ok r → I r := by
  intro n
  induction n using Nat.strong_induction_on with
  | _ n ih =>
    intro s r hn hs h
    unfold ipGammaLoop at h
    split_ifs at h with h1
    · cases hF : ipGammaF grad s.v s.gamma s.mu with
      | error e => rw [hF] at h; cases h
      | ok F =>
        rw [hF] at h
        simp only at h
        split_ifs at h with h2
        · cases hs' : ipGammaStep grad hess loss ls s F with
          | error e => rw [hs'] at h; cases h
          | ok s' =>
            rw [hs'] at h
            simp only at h
            refine ih _ ?_ _ r rfl (hstep s F s' hs h1.2 hF hs') h
            rw [← hn]
            simp only
            have := h1.2
            push_cast
            omega
        · cases h; exact hs
    · cases h; exact hs

/-- **C63 for `optimal_gamma_ip`, partial**: multipliers and variances stay *nonnegative* whatever directions and steps
are computed, and the number of iterations is at most `n_iter_inner`. Missing: they need not stay positive, see
`C63_ip_violated`. -/
theorem C63_ip_nonneg_partial (grad : Vec ℝ q → Except PyErr (Vec ℝ q))
    (hess : Vec ℝ q → Except PyErr (Matrix (Fin q) (Fin q) ℝ)) (loss : Vec ℝ q → Except PyErr ℝ) (ls : LineSearch)
    (nIter : ℤ) (tol : ℝ) (gamma : Vec ℝ q) (hg : ∀ j, 0 ≤ gamma j) (r : IpGammaState q)
    (h : lmeOptimalGammaIp grad hess loss ls nIter tol gamma = .ok r) :
    (∀ j, 0 ≤ r.gamma j) ∧ (∀ j, 0 ≤ r.v j) ∧ (r.iteration : ℤ) ≤ max nIter 0 := by
  refine ipGammaLoop_inv grad hess loss ls nIter tol (fun r => (∀ j, 0 ≤ r.gamma j) ∧ (∀ j, 0 ≤ r.v j) ∧
    (r.iteration : ℤ) ≤ max nIter 0) ?_ _ _ r rfl ⟨hg, fun _ => zero_le_one, by simp⟩ h
  intro s F s' _ hlt _ hs'
  unfold ipGammaStep at hs'
  obtain ⟨dF, -, hs'⟩ := ebind_ok.1 hs'
  obtain ⟨d, -, hs'⟩ := ebind_ok.1 hs'
  obtain ⟨step, -, hs'⟩ := ebind_ok.1 hs'
  obtain ⟨_, -, hs'⟩ := ebind_ok.1 hs'
  obtain ⟨_, -, hs'⟩ := ebind_ok.1 hs'
  cases hs'
  refine ⟨fun j => killZeros_nonneg _ j, fun j => killZeros_nonneg _ j, ?_⟩
  push_cast
  omega

/-- One observation `y = 0` with noise variance 1/10 and one random effect. -/
noncomputable def flatGroup : LmeGroup 0 1 := ⟨1, 0, ![0], !![1], ![1 / 10]⟩

theorem flatGroup_posVar : PosVar [flatGroup] := by
  intro g hg i
  rw [List.mem_singleton] at hg
  subst hg
  change Fin 1 at i
  fin_cases i
  change (0 : ℝ) < 1 / 10
  norm_num

theorem flat_zInvR (t : ℝ) : zInvR flatGroup ![] ![t] = 0 := by
  have r : residual flatGroup ![] = (0 : Vec ℝ 1) := by
    have key : (fun i => (![0] : Vec ℝ 1) i - ∑ k, (0 : Matrix (Fin 1) (Fin 0) ℝ) i k * (![] : Vec ℝ 0) k) = 0 := by
      funext i; fin_cases i; simp
    exact key
  unfold zInvR
  rw [r]
  exact (congrArg (fun v => flatGroup.zᵀ *ᵥ v) (Matrix.mulVec_zero _)).trans (Matrix.mulVec_zero _)

theorem flat_zInvZ (t : ℝ) (ht : 0 ≤ t) : zInvZ flatGroup ![t] 0 0 = 1 / (t + 1 / 10) := by
  have e : margCov flatGroup ![t] = (diagonal fun _ => t + 1 / 10 : Matrix (Fin 1) (Fin 1) ℝ) := by
    have key : (!![1] * diagonal ![t] * !![1]ᵀ + diagonal ![1 / 10] : Matrix (Fin 1) (Fin 1) ℝ)
        = diagonal fun _ => t + 1 / 10 := by
      ext i j
      fin_cases i; fin_cases j
      rw [Matrix.add_apply, Matrix.mul_apply]
      simp [Matrix.mul_apply]
    exact key
  have hne : t + 1 / 10 ≠ 0 := by positivity
  have hinv : ((diagonal fun _ => t + 1 / 10 : Matrix (Fin 1) (Fin 1) ℝ))⁻¹ = diagonal fun _ => (t + 1 / 10)⁻¹ := by
    refine Matrix.inv_eq_right_inv ?_
    rw [Matrix.diagonal_mul_diagonal]
    ext i j
    fin_cases i; fin_cases j
    simp
    exact mul_inv_cancel₀ (by simpa using hne)
  unfold zInvZ
  rw [e]
  have key : ((!![1] : Matrix (Fin 1) (Fin 1) ℝ)ᵀ * (diagonal fun _ => t + 1 / 10 : Matrix (Fin 1) (Fin 1) ℝ)⁻¹
      * (!![1] : Matrix (Fin 1) (Fin 1) ℝ) : Matrix (Fin 1) (Fin 1) ℝ) 0 0
      = 1 / (t + 1 / 10) := by
    rw [hinv, Matrix.mul_apply]
    simp [Matrix.mul_apply]
  exact key

theorem flat_grad (t : ℝ) (ht : 0 ≤ t) :
    lmeGradientGamma [flatGroup] .nonInformative ![] ![t] = .ok ![1 / (2 * (t + 1 / 10))] := by
  refine lmeGradientGamma_ok'.2 ⟨inDomain_of_nonneg flatGroup_posVar (by intro j; fin_cases j; exact ht), ?_⟩
  funext j
  fin_cases j
  have h1 : nllGradGamma flatGroup ![] ![t] 0
      = 1 / 2 * zInvZ flatGroup ![t] 0 0 - 1 / 2 * zInvR flatGroup ![] ![t] 0 ^ 2 := rfl
  simp only [List.map_cons, List.map_nil, List.sum_cons, List.sum_nil, add_zero]
  change 1 / (2 * (t + 1 / 10)) = nllGradGamma flatGroup ![] ![t] 0 + 0
  rw [h1, flat_zInvZ t ht, flat_zInvR]
  have : t + 1 / 10 ≠ 0 := by positivity
  simp
  ring

theorem flat_hess (t : ℝ) (ht : 0 ≤ t) :
    lmeHessianGamma [flatGroup] .nonInformative .positivePart ![] ![t] = .ok 0 := by
  refine lmeHessianGamma_ok.2 ⟨inDomain_of_nonneg flatGroup_posVar (by intro j; fin_cases j; exact ht), ?_⟩
  ext i j
  simp only [List.map_cons, List.map_nil, List.sum_cons, List.sum_nil, add_zero]
  change (0 : ℝ) = (1 / 2) * (2 * (zInvR flatGroup ![] ![t] i * zInvR flatGroup ![] ![t] j) * zInvZ flatGroup ![t] i j) + 0
  rw [flat_zInvR]
  simp

theorem flat_solve : npSolve (fromBlocks (diagonal ![1 / 10]) (diagonal fun _ => 1) (-1) 0 :
      Matrix (Fin 1 ⊕ Fin 1) (Fin 1 ⊕ Fin 1) ℝ) (-(Sum.elim (fun _ => 0) fun _ => 3 / 2))
    = .ok (Sum.elim (fun _ => 3 / 2) fun _ => -3 / 20) := by
  rw [npSolve_ok]
  constructor
  · refine Matrix.isUnit_det_of_right_inverse (B := fromBlocks 0 (-1) 1 (diagonal fun _ => 1 / 10)) ?_
    rw [Matrix.fromBlocks_multiply, ← Matrix.fromBlocks_one]
    congr 1
    · ext i j; fin_cases i; fin_cases j; simp
    · ext i j; fin_cases i; fin_cases j; simp
    · ext i j; fin_cases i; fin_cases j; simp
    · ext i j; fin_cases i; fin_cases j; simp
  · funext i
    rw [Matrix.fromBlocks_mulVec]
    rcases i with i | i
    · fin_cases i
      simp [Matrix.mulVec_diagonal]
      norm_num
    · fin_cases i
      simp [Matrix.neg_mulVec]

/-- **C63 for `optimal_gamma_ip` is violated**: nothing keeps the iterates away from the boundary, the largest step offered to
the line search reaches it.  Here the noise variances and the start are positive, the line search keeps to the
bounds it is given, and after one iteration the variance is 0. -/
theorem C63_ip_violated : ∃ (D : List (LmeGroup 0 1)) (beta : Vec ℝ 0) (gamma : Vec ℝ 1) (ls : LineSearch),
    PosVar D ∧ (∀ j, 0 < gamma j) ∧ (∀ k m, 0 ≤ m → ∃ step, ls k m = .ok step ∧ 0 ≤ step ∧ step ≤ m) ∧
    ∃ r, lmeOptimalGammaIp (lmeGradientGamma D .nonInformative beta)
        (lmeHessianGamma D .nonInformative .positivePart beta) (lmeLoss D .nonInformative beta) ls 1 1e-5 gamma = .ok r ∧
      r.gamma 0 = 0 := by
  refine ⟨[flatGroup], ![], ![1 / 10], fun _ m => .ok m, flatGroup_posVar, ?_, fun k m hm => ⟨m, rfl, hm, le_refl _⟩, ?_⟩
  · intro j; fin_cases j
    change (0 : ℝ) < 1 / 10
    norm_num
  have hF : ipGammaF (lmeGradientGamma [flatGroup] .nonInformative ![]) (fun _ => 1) ![1 / 10] (1 / 10)
      = .ok (Sum.elim (fun _ => 0) fun _ => 3 / 2) := by
    unfold ipGammaF
    rw [flat_grad (1 / 10) (by norm_num)]
    change Except.ok _ = Except.ok _
    congr 1
    funext i
    rcases i with i | i
    · fin_cases i; simp
    · fin_cases i
      simp
      norm_num
  have hJ : ipGammaJac (lmeHessianGamma [flatGroup] .nonInformative .positivePart ![]) (fun _ => 1) ![1 / 10]
      = .ok (fromBlocks (diagonal ![1 / 10]) (diagonal fun _ => 1) (-1) 0) := by
    unfold ipGammaJac
    rw [flat_hess (1 / 10) (by norm_num)]
    rfl
  have hn : (1e-5 : ℝ) < npNorm (Sum.elim (fun _ : Fin 1 => (0 : ℝ)) fun _ : Fin 1 => 3 / 2) := by
    unfold npNorm
    have : ∑ i, (Sum.elim (fun _ : Fin 1 => (0 : ℝ)) fun _ : Fin 1 => 3 / 2) i ^ 2 = (3 / 2) ^ 2 := by
      simp
    rw [this, Real.sqrt_sq (by norm_num)]
    norm_num
  have hproj : projectDirection (Sum.elim (fun _ => 1) ![1 / 10] : Fin 1 ⊕ Fin 1 → ℝ)
      (Sum.elim (fun _ => 3 / 2) fun _ => -3 / 20) = Sum.elim (fun _ => 3 / 2) fun _ => -3 / 20 := by
    funext i
    unfold projectDirection
    rw [if_neg]
    rcases i with i | i <;> fin_cases i <;> simp
  have hmax : maxStepLen (stepPairs (fun _ : Fin 1 => (1 : ℝ)) (fun _ => 3 / 2)
      ++ stepPairs (![1 / 10] : Vec ℝ 1) (fun _ => -3 / 20)) = 2 / 3 := by
    have e : stepPairs (fun _ : Fin 1 => (1 : ℝ)) (fun _ => 3 / 2)
      ++ stepPairs (![1 / 10] : Vec ℝ 1) (fun _ => -3 / 20) = [(1, 3 / 2), (1 / 10, -3 / 20)] := by
      simp [stepPairs]
    rw [e]
    unfold maxStepLen
    rw [List.filter_cons_of_neg (by norm_num), List.filter_cons_of_pos (by norm_num)]
    simp
    norm_num
  have hstep : ∃ r, ipGammaStep (lmeGradientGamma [flatGroup] .nonInformative ![])
      (lmeHessianGamma [flatGroup] .nonInformative .positivePart ![]) (lmeLoss [flatGroup] .nonInformative ![])
      (fun _ m => .ok m) ⟨fun _ => 1, ![1 / 10], 1 / 10, 1, 0⟩ (Sum.elim (fun _ => 0) fun _ => 3 / 2) = .ok r ∧
      r.gamma 0 = 0 := by
    have bind_ok : ∀ {α β : Type} (a : α) (f : α → Except PyErr β), (Except.ok a >>= f) = f a := fun _ _ => rfl
    obtain ⟨v1, hv1⟩ : ∃ v1 : Vec ℝ 1, v1 = killZeros ((fun _ => 1) + (2 / 3 : ℝ) • fun _ => 3 / 2) := ⟨_, rfl⟩
    have hg1 : killZeros ((![1 / 10] : Vec ℝ 1) + (2 / 3 : ℝ) • fun _ => -3 / 20) = ![0] := by
      funext i
      fin_cases i
      unfold killZeros
      rw [if_pos]
      · rfl
      · simp
        norm_num
    have hd0 : InDomain [flatGroup] ![0] :=
      inDomain_of_nonneg flatGroup_posVar (by intro j; fin_cases j; exact le_refl _)
    obtain ⟨L, hL⟩ : ∃ L, lmeLoss [flatGroup] .nonInformative ![] ![0] = .ok L := ⟨_, lmeLoss_ok.2 ⟨hd0, rfl⟩⟩
    obtain ⟨F', hF'⟩ : ∃ F', ipGammaF (lmeGradientGamma [flatGroup] .nonInformative ![]) v1 ![0]
        (0.1 * (v1 ⬝ᵥ ![0]) / (1 : ℕ)) = .ok F' := by
      unfold ipGammaF
      rw [flat_grad 0 (le_refl _)]
      exact ⟨_, rfl⟩
    refine ⟨⟨v1, ![0], 0.1 * (v1 ⬝ᵥ ![0]) / (1 : ℕ), 2 / 3, 1⟩, ?_, rfl⟩
    unfold ipGammaStep
    simp only [hJ, bind_ok, flat_solve, hproj]
    change (lmeLoss [flatGroup] .nonInformative ![] (killZeros (![1 / 10] + (maxStepLen (stepPairs (fun _ : Fin 1 => (1 : ℝ)) (fun _ => 3 / 2)
      ++ stepPairs (![1 / 10] : Vec ℝ 1) (fun _ => -3 / 20))) • (fun _ => -3 / 20))) >>= _) = _
    have hm' : maxStepLen (stepPairs (fun _ : Fin 1 => (1 : ℝ)) ((Sum.elim (fun _ : Fin 1 => (3 / 2 : ℝ)) fun _ : Fin 1 => -3 / 20) ∘ Sum.inl)
      ++ stepPairs (![1 / 10] : Vec ℝ 1) ((Sum.elim (fun _ : Fin 1 => (3 / 2 : ℝ)) fun _ : Fin 1 => -3 / 20) ∘ Sum.inr)) = 2 / 3 := hmax
    have hg1' : killZeros ((![1 / 10] : Vec ℝ 1) + (2 / 3 : ℝ) • ((Sum.elim (fun _ : Fin 1 => (3 / 2 : ℝ)) fun _ : Fin 1 => -3 / 20) ∘ Sum.inr))
      = ![0] := hg1
    have hv1' : killZeros ((fun _ => 1) + (2 / 3 : ℝ) • ((Sum.elim (fun _ : Fin 1 => (3 / 2 : ℝ)) fun _ : Fin 1 => -3 / 20) ∘ Sum.inl)) = v1 :=
      hv1.symm
    rw [hmax, hg1, hL, bind_ok]
    simp only [hm', hg1', hv1', hF', bind_ok]
    rfl
  obtain ⟨r, hr, hr0⟩ := hstep
  refine ⟨{ r with iteration := 0 + 1 }, ?_, hr0⟩
  unfold lmeOptimalGammaIp
  have hmu : (∑ j, (![1 / 10] : Vec ℝ 1) j) / (1 : ℕ) = 1 / 10 := by simp
  rw [hmu]
  unfold ipGammaLoop
  rw [dif_pos ⟨one_ne_zero, by norm_num⟩, hF]
  simp only
  rw [if_pos hn, hr]
  simp only
  unfold ipGammaLoop
  rw [dif_neg (by simp)]

/-- **C64**, dispatch: `optimal_gamma` returns for the two documented methods only; any other name is a `ValueError`. Whichever
method is used, nonnegative variances stay nonnegative. -/
theorem C64_methods (D : List (LmeGroup p q)) (P : LmeInstPrior ℝ p q) (ls : LineSearch) (nIter : ℤ) (tol : ℝ) (method : String)
    (beta : Vec ℝ p) (gamma : Vec ℝ q) (hg : ∀ j, 0 ≤ gamma j) :
    (method ≠ "pgd" → method ≠ "ip" → lmeOptimalGamma D P ls nIter tol method beta gamma = .error .valueError) ∧
    ∀ g, lmeOptimalGamma D P ls nIter tol method beta gamma = .ok g → (method = "pgd" ∨ method = "ip") ∧ ∀ j, 0 ≤ g j := by
  constructor
  · intro h1 h2
    unfold lmeOptimalGamma
    rw [if_neg h1, if_neg h2]
  · intro g h
    unfold lmeOptimalGamma at h
    split_ifs at h with h1 h2
    · obtain ⟨r, hr, h⟩ := ebind_ok.1 h
      cases h
      exact ⟨.inl h1, ((C64_pgd_feasible _ ls nIter tol gamma hg).1 _ _ hr).1⟩
    · obtain ⟨r, hr, h⟩ := ebind_ok.1 h
      cases h
      exact ⟨.inr h2, (C63_ip_nonneg_partial _ _ _ ls nIter tol gamma hg r hr).1⟩

/-- With no iterations allowed the start comes back. -/
example (D : List (LmeGroup 0 1)) (hD : PosVar D) (ls : LineSearch) : ∃ g, lmeOptimalGamma D .nonInformative ls 0 1e-5 "pgd" ![] ![1] = .ok g := by
  have hd : InDomain D (![1] : Vec ℝ 1) := inDomain_of_nonneg hD (by intro j; fin_cases j; exact zero_le_one)
  obtain ⟨v, hv⟩ : ∃ v, lmeGradientGamma D .nonInformative (![] : Vec ℝ 0) ![1] = .ok v := ⟨_, lmeGradientGamma_ok'.2 ⟨hd, rfl⟩⟩
  obtain ⟨d, hdir⟩ : ∃ d, pgdDirection (lmeGradientGamma D .nonInformative (![] : Vec ℝ 0)) ![1] = .ok d := by
    unfold pgdDirection
    rw [hv]
    exact ⟨_, rfl⟩
  refine ⟨![1], ?_⟩
  unfold lmeOptimalGamma
  rw [if_pos rfl]
  refine ebind_ok.2 ⟨(![1], 0), ebind_ok.2 ⟨d, hdir, ebind_ok.2 ⟨⟨![1], d, 1, 0⟩, ?_, rfl⟩⟩, rfl⟩
  rw [pgdGammaLoop, dif_neg (by simp)]

end Verif
