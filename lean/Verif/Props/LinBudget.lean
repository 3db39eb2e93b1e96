import Verif.Props.LinZeroCol
import Verif.Props.LinModels

/-!
# Larger budgets of linear L0 models (C203)
-/

open Matrix

namespace Verif

noncomputable section

/-- A fit with fixed steps whose iterates are known: it runs through them until they repeat. -/
theorem finite_run (M : LinModelCfg) (hs : M.sr3 = none) (hpr : M.prior = .none) (hk : M.loggerKind = .tuple) (hks : M.loggerKeys.Nodup) (hst : M.stepping ≠ "line-search")
    (P : LinProblem ℝ) (hn : 0 < P.n) (w : Option (Vec ℝ P.n)) (g : Vec ℝ P.n → WithTop ℝ) (hg : ∀ x, (M.regularizer P.n (w.getD fun _ => 1)).value x = .ok (g x))
    (hprox : ∀ y, ∃ z, (M.regularizer P.n (w.getD fun _ => 1)).prox y M.step = .ok z) (q : ℕ → Vec ℝ P.n) (m : ℕ) (hq0 : q 0 = fun _ => 1)
    (hq : ∀ i, i ≤ m → (M.regularizer P.n (w.getD fun _ => 1)).prox (fun j => q i j - M.step * linGradientValueFunction P.a P.b .nonInformative (q i) j) M.step = .ok (q (i + 1)))
    (hfar : ∀ i, i < m → M.tol ^ 2 < ∑ j, (q (i + 1) j - q i j) ^ 2) (hfix : q (m + 1) = q m) (htol : 0 ≤ M.tol) (hmax : (m : ℤ) + 1 < M.maxIter) :
    ∃ Lf, linFit M P none false w = .ok (q m, Lf) ∧ Lf.get "converged" = .ok (.atom (.bool true)) := by
  obtain ⟨x, Lf, s', h⟩ := returns_fixed (linOracle P.a P.b .nonInformative) (M.regularizer P.n (w.getD fun _ => 1)) _ _ g
    (fun x s => ⟨s, rfl⟩) (fun x s => ⟨s, rfl⟩) hg M.solver hst hprox (fun _ => 1) _ (Logger.good_init M.loggerKeys hks) ()
  obtain ⟨L', hL'⟩ := logIC_ok Lf (linAic P.a P.b .nonInformative x) (linBic P.a P.b .nonInformative x)
  obtain ⟨k, X, Ls, s1, L1, -, h0, hX, hcv, hit, hsteps, hguards, hend⟩ := pgdOptimize_trace (linOracle P.a P.b .nonInformative) (M.regularizer P.n (w.getD fun _ => 1)) M.solver _ _
    (fun x _ x' _ => ∀ i, i ≤ m → x = q i → x' = q (i + 1))
    (fun x it L' s x' L'' s' hbd i hi hx => by
      obtain ⟨gv, s1, t, s2, hgv, hstp, hpx', -⟩ := pgdBody_ok _ _ _ _ _ _ _ _ _ _ _ hbd
      have e : gv = linGradientValueFunction P.a P.b .nonInformative x := (Prod.mk.inj (Except.ok.inj hgv)).1.symm
      unfold chooseStep at hstp
      rw [if_neg (show ¬ M.solver.stepping = "line-search" from hst)] at hstp
      obtain ⟨rfl, -⟩ := pure_ok.1 hstp
      have hpx2 : (M.regularizer P.n (w.getD fun _ => 1)).prox (fun i => x i - M.step * gv i) M.step = .ok x' := hpx'
      rw [e, hx, hq i hi] at hpx2
      exact (Except.ok.inj hpx2).symm) _ _ _ _ h
  have hXq : ∀ i, i ≤ k → i ≤ m + 1 → X i = q i := fun i => by
    induction i with
    | zero => exact fun _ _ => h0.trans hq0.symm
    | succ i ih => exact fun h1 h2 => hsteps i (by omega) i (by omega) (ih (by omega) (by omega))
  have hk1 : k ≤ m + 1 := by
    by_contra hcon
    push Not at hcon
    have hgd : farApart M.tol (some (X m)) (X (m + 1)) := (hguards (m + 1) hcon).1
    rw [hXq m (by omega) (by omega), hXq (m + 1) (by omega) le_rfl, hfix] at hgd
    rcases hgd with h3 | h3
    · exact absurd h3 (not_lt.2 htol)
    · rw [sub_self] at h3
      have h4 : normSq (0 : Vec ℝ P.n) = 0 := by simp [normSq]
      rw [h4] at h3
      exact absurd h3 (not_lt.2 (sq_nonneg _))
  have hk2 : m + 1 ≤ k := by
    by_contra hcon
    push Not at hcon
    refine hend ⟨?_, by show ((0 + k : ℕ) : ℤ) < M.maxIter; push_cast; omega⟩
    cases k with
    | zero => exact Or.inl hn
    | succ i =>
      refine Or.inr ?_
      show M.tol ^ 2 < normSq (X (i + 1) - X i)
      rw [hXq _ le_rfl (by omega), hXq i (by omega) (by omega)]
      refine (hfar i (by omega)).trans_eq ?_
      simp only [normSq, Pi.sub_apply]
  have hkm : k = m + 1 := le_antisymm hk1 hk2
  subst hkm
  have hxq : x = q m := by rw [← hX, hXq _ le_rfl le_rfl, hfix]
  subst hxq
  refine ⟨L', ?_, ?_⟩
  · unfold linFit
    simp only [hs, hpr, hk, linOracleInstantiate]
    exact except_bind_ok.2 ⟨_, rfl, except_bind_ok.2 ⟨_, h, except_bind_ok.2 ⟨_, hL', rfl⟩⟩⟩
  · rw [logIC_keeps _ _ _ _ hL' _ (by decide) (by decide), (Logger.add_get hit).2 _ (by decide), (Logger.add_get hcv).1]
    have : ((m + 1 : ℕ) : ℤ) < M.solver.maxIter := by
      show ((m + 1 : ℕ) : ℤ) < M.maxIter
      push_cast
      omega
    rw [decide_eq_true this]

/-- An operator that keeps the `k` largest entries keeps a given set of `k` entries if they are larger than all others. -/
theorem KeepsLargest.strict {n k : ℕ} {R : Regularizer ℝ n} {prox : Vec ℝ n → ℝ → Vec ℝ n} (h : KeepsLargest k R prox) (y z : Vec ℝ n) (t : ℝ) (S : Finset (Fin n)) (hS : S.card = k)
    (hdom : ∀ i ∈ S, ∀ j ∉ S, |y j| < |y i|) (hz : ∀ i, z i = if i ∈ S then y i else 0) : R.prox y t = .ok z := by
  obtain ⟨hp, ⟨T, hT, hin, hout, hd⟩, -⟩ := h y t
  have hcard : T.card = S.card := by
    rw [hT, hS]
    exact min_eq_left (hS ▸ (Finset.card_le_univ S).trans_eq (Fintype.card_fin n))
  have hTS : T = S := by
    refine (Finset.eq_of_subset_of_card_le (fun i hi => ?_) hcard.le).symm
    by_contra hiT
    obtain ⟨j, hjT, hjS⟩ : ∃ j ∈ T, j ∉ S := by
      by_contra hcon
      push Not at hcon
      have h1 : T ⊆ S.erase i := fun j hj => Finset.mem_erase.2 ⟨fun e => hiT (e ▸ hj), hcon j hj⟩
      have h2 := Finset.card_le_card h1
      rw [Finset.card_erase_of_mem hi] at h2
      have h3 : 0 < S.card := Finset.card_pos.2 ⟨i, hi⟩
      omega
    exact absurd (hd j hjT i hiT) (not_le.2 (hdom i hi j hjS))
  subst hTS
  rw [hp]
  congr 1
  funext i
  rw [hz]
  split_ifs with hi
  · exact hin i hi
  · exact hout i hi

/-- Three observations of three features of length one, the third nearly in the span of the others. -/
def budgetProblem : LinProblem ℝ := ⟨3, 3, !![1, 0, 2 / 3; 0, 1, 2 / 3; 0, 0, 1 / 3], ![6 / 5, 11 / 10, 3 / 10], 1, none, .scalar 1⟩

theorem budgetProblem_move (y : Vec ℝ 3) : (fun j => y j - 1 * linGradientValueFunction budgetProblem.a budgetProblem.b .nonInformative y j) =
    (![6 / 5 - 2 / 3 * y 2, 11 / 10 - 2 / 3 * y 2, 49 / 30 - 2 / 3 * (y 0 + y 1)] : Vec ℝ 3) := by
  have h012 : ∀ j : Fin 3, j = 0 ∨ j = 1 ∨ j = 2 := by decide
  have e : ∀ j : Fin 3, linGradientValueFunction budgetProblem.a budgetProblem.b .nonInformative y j =
      ∑ r : Fin 3, (!![1, 0, 2 / 3; 0, 1, 2 / 3; 0, 0, 1 / 3] : Matrix (Fin 3) (Fin 3) ℝ) r j *
        ((∑ i : Fin 3, (!![1, 0, 2 / 3; 0, 1, 2 / 3; 0, 0, 1 / 3] : Matrix (Fin 3) (Fin 3) ℝ) r i * y i) - (![6 / 5, 11 / 10, 3 / 10] : Vec ℝ 3) r) + 0 := fun j => rfl
  funext j
  rcases h012 j with rfl | rfl | rfl <;> rw [e] <;> simp [Fin.sum_univ_three] <;> ring

/-- `LinearL0Model(nnz=k, stepping='fixed', fixed_step_len=1)`. -/
def budgetModel (k : ℕ) (sort : NpSort) : LinModelCfg := linClass (.l0 (some (k : ℤ)) sort) false { stepping := "fixed", fixedStepLen := some 1 }

theorem budgetModel_keeps (k : ℕ) (sort : NpSort) : KeepsLargest k ((budgetModel k sort).regularizer budgetProblem.n ((none : Option (Vec ℝ budgetProblem.n)).getD fun _ => 1))
    fun y _ => maskedKMax (participation fun _ => 1) (sort.sub 3 fun _ => 1) y (k : ℕ) :=
  l0_keepsLargest k (sort.all 3) ⟨fun _ => 1, sort.sub 3 fun _ => 1⟩ fun _ => one_ne_zero

theorem budgetModel_run (k : ℕ) (sort : NpSort) (q : ℕ → Vec ℝ 3) (m : ℕ) (hm : m ≤ 3) (hq0 : q 0 = fun _ => 1) (S : ℕ → Finset (Fin 3)) (hS : ∀ i, i ≤ m → (S i).card = k)
    (hdom : ∀ i, i ≤ m → ∀ j ∈ S i, ∀ l ∉ S i, |(![6 / 5 - 2 / 3 * q i 2, 11 / 10 - 2 / 3 * q i 2, 49 / 30 - 2 / 3 * (q i 0 + q i 1)] : Vec ℝ 3) l| <
      |(![6 / 5 - 2 / 3 * q i 2, 11 / 10 - 2 / 3 * q i 2, 49 / 30 - 2 / 3 * (q i 0 + q i 1)] : Vec ℝ 3) j|)
    (hq : ∀ i, i ≤ m → ∀ j, q (i + 1) j = if j ∈ S i then (![6 / 5 - 2 / 3 * q i 2, 11 / 10 - 2 / 3 * q i 2, 49 / 30 - 2 / 3 * (q i 0 + q i 1)] : Vec ℝ 3) j else 0)
    (hfar : ∀ i, i < m → (1 / 10 ^ 5 : ℝ) ^ 2 < ∑ j, (q (i + 1) j - q i j) ^ 2) (hfix : q (m + 1) = q m) :
    ∃ Lf, linFit (budgetModel k sort) budgetProblem none false none = .ok (q m, Lf) ∧ Lf.get "converged" = .ok (.atom (.bool true)) := by
  have hstep : (budgetModel k sort).step = 1 := by norm_num [budgetModel, linClass, LinModelCfg.step]
  refine finite_run (budgetModel k sort) rfl rfl rfl (by simp [budgetModel, linClass]) (by show "fixed" ≠ "line-search"; decide) budgetProblem (by show 0 < 3; norm_num) none
    (fun x => if (nnzCount x : ℤ) > k then ⊤ else 0) (fun x => ?_) (fun y => ⟨_, (budgetModel_keeps k sort y _).1⟩) q m hq0 (fun i hi => ?_) hfar hfix (by norm_num [budgetModel, linClass])
    (lt_of_le_of_lt (by exact_mod_cast Nat.succ_le_succ hm : (m : ℤ) + 1 ≤ 4) (by norm_num [budgetModel, linClass]))
  · show (if (nnzCount x : ℤ) > k then Except.ok ⊤ else Except.ok 0) = _
    split_ifs <;> rfl
  · rw [hstep]
    have e := budgetProblem_move (q i)
    refine (budgetModel_keeps k sort).strict _ _ _ (S i) (hS i hi) ?_ ?_
    · exact fun j hj l hl => ((congrArg abs (congrFun e l)).trans_lt (hdom i hi j hj l hl)).trans_eq (congrArg abs (congrFun e j)).symm
    · intro j
      refine (hq i hi j).trans ?_
      rw [← congrFun e j]
      rfl

theorem budget_one (sort : NpSort) : ∃ Lf, linFit (budgetModel 1 sort) budgetProblem none false none = .ok ((![0, 0, 49 / 30] : Vec ℝ 3), Lf) ∧ Lf.get "converged" = .ok (.atom (.bool true)) := by
  have v2 : ∀ a b c : ℝ, (![a, b, c] : Vec ℝ 3) 2 = c := fun _ _ _ => rfl
  refine budgetModel_run 1 sort (fun i => match i with | 0 => fun _ => 1 | 1 => ![8 / 15, 0, 0] | 2 => ![0, 0, 23 / 18] | _ => ![0, 0, 49 / 30]) 3 le_rfl rfl
    (fun i => match i with | 0 => {0} | _ => {2}) (fun i hi => ?_) (fun i hi j hj l hl => ?_) (fun i hi j => ?_) (fun i hi => ?_) rfl
  · interval_cases i <;> rfl
  · interval_cases i <;> fin_cases l <;> simp at hl <;> fin_cases j <;> simp at hj <;> norm_num [v2, abs_of_pos]
  · interval_cases i <;> fin_cases j <;> norm_num [v2] <;> first | rfl | exact fun h => absurd h (by decide)
  · interval_cases i <;> norm_num [Fin.sum_univ_three, v2]

theorem budget_two (sort : NpSort) : ∃ Lf, linFit (budgetModel 2 sort) budgetProblem none false none = .ok ((![6 / 5, 11 / 10, 0] : Vec ℝ 3), Lf) ∧ Lf.get "converged" = .ok (.atom (.bool true)) := by
  have v2 : ∀ a b c : ℝ, (![a, b, c] : Vec ℝ 3) 2 = c := fun _ _ _ => rfl
  refine budgetModel_run 2 sort (fun i => match i with | 0 => fun _ => 1 | 1 => ![8 / 15, 13 / 30, 0] | _ => ![6 / 5, 11 / 10, 0]) 2 (by norm_num) rfl
      (fun _ => {0, 1}) (fun i hi => rfl) (fun i hi j hj l hl => ?_) (fun i hi j => ?_) (fun i hi => ?_) rfl
  · interval_cases i <;> fin_cases l <;> simp at hl <;> fin_cases j <;> simp at hj <;> norm_num [v2, abs_of_pos]
  · interval_cases i <;> fin_cases j <;> norm_num [v2] <;> first | rfl | exact fun h => absurd h (by decide)
  · interval_cases i <;> norm_num [Fin.sum_univ_three, v2]

/-- **C203**, violated: `LinearL0Model(nnz=2)` keeps the first two features and fits worse than `LinearL0Model(nnz=1)`, which finds the third; both fits start from the default point, use the same
fixed step and report convergence. -/
theorem C203_violated (sort : NpSort) : ∃ (x1 x2 : Vec ℝ 3) (L1 L2 : Logger (PyVal ℝ 3)),
    linFit (budgetModel 1 sort) budgetProblem none false none = .ok (x1, L1) ∧ L1.get "converged" = .ok (.atom (.bool true)) ∧
    linFit (budgetModel 2 sort) budgetProblem none false none = .ok (x2, L2) ∧ L2.get "converged" = .ok (.atom (.bool true)) ∧
    ∑ r : Fin 3, ((∑ j : Fin 3, budgetProblem.a r j * x1 j) - budgetProblem.b r) ^ 2 < ∑ r : Fin 3, ((∑ j : Fin 3, budgetProblem.a r j * x2 j) - budgetProblem.b r) ^ 2 := by
  obtain ⟨L1, h1, c1⟩ := budget_one sort
  obtain ⟨L2, h2, c2⟩ := budget_two sort
  refine ⟨_, _, L1, L2, h1, c1, h2, c2, ?_⟩
  show ∑ r : Fin 3, ((∑ j : Fin 3, (!![1, 0, 2 / 3; 0, 1, 2 / 3; 0, 0, 1 / 3] : Matrix (Fin 3) (Fin 3) ℝ) r j * (![0, 0, 49 / 30] : Vec ℝ 3) j) - (![6 / 5, 11 / 10, 3 / 10] : Vec ℝ 3) r) ^ 2 <
    ∑ r : Fin 3, ((∑ j : Fin 3, (!![1, 0, 2 / 3; 0, 1, 2 / 3; 0, 0, 1 / 3] : Matrix (Fin 3) (Fin 3) ℝ) r j * (![6 / 5, 11 / 10, 0] : Vec ℝ 3) j) - (![6 / 5, 11 / 10, 3 / 10] : Vec ℝ 3) r) ^ 2
  simp [Fin.sum_univ_three]
  norm_num

/-! ## Budgets that start from the fit before -/

/-- One step of an L0 model from a point within the budget: the loss does not increase and the result is within the budget. -/
theorem l0_step_descent {n k : ℕ} {R : Regularizer ℝ n} {prox : Vec ℝ n → ℝ → Vec ℝ n} (h : KeepsLargest k R prox) (f : Vec ℝ n → ℝ) (gr : Vec ℝ n → Vec ℝ n) (L : ℝ) (hb : BelowParabola f gr L)
    (t : ℝ) (ht : 0 < t) (htL : t * L ≤ 1) (x x' : Vec ℝ n) (hx : numNonzero x ≤ k) (hp : R.prox (fun i => x i - t * gr x i) t = .ok x') : numNonzero x' ≤ k ∧ f x' ≤ f x := by
  obtain ⟨hp', ⟨T, hT, -, hout, -⟩, hbest⟩ := h (fun i => x i - t * gr x i) t
  have e : x' = _ := Except.ok.inj (hp.symm.trans hp')
  rw [← e] at hout hbest
  refine ⟨?_, ?_⟩
  · have h1 : numNonzero x' ≤ T.card := by
      unfold numNonzero
      rw [← Set.ncard_coe_finset]
      exact Set.ncard_le_ncard (fun i hi => by
        by_contra hc
        exact hi (hout i hc)) (Finset.finite_toSet T)
    exact h1.trans (hT.le.trans (min_le_left _ _))
  · have h1 := hbest x hx
    have h2 : ∑ i, (x' i - (x i - t * gr x i)) ^ 2 = ∑ i, (x' i - x i) ^ 2 + 2 * t * ∑ i, gr x i * (x' i - x i) + ∑ i, (x i - (x i - t * gr x i)) ^ 2 := by
      rw [Finset.mul_sum, ← Finset.sum_add_distrib, ← Finset.sum_add_distrib]
      exact Finset.sum_congr rfl fun i _ => by ring
    rw [h2] at h1
    have h3 := hb x x'
    have h4 : 0 ≤ ∑ i, (x' i - x i) ^ 2 := Finset.sum_nonneg fun i _ => sq_nonneg _
    have h5 : 2 * t * (∑ i, gr x i * (x' i - x i) + L / 2 * ∑ i, (x' i - x i) ^ 2) ≤ 0 := by nlinarith
    have h6 : ∑ i, gr x i * (x' i - x i) + L / 2 * ∑ i, (x' i - x i) ^ 2 ≤ 0 := by
      by_contra hc
      push Not at hc
      nlinarith [mul_pos (mul_pos two_pos ht) hc]
    linarith

/-- **C203** for budgets that are tried one after the other: a fit that starts from coefficients within its budget (`warm_start=True` with `x0` the result for a smaller budget) fits the data at least
as well, if the fixed step is at most the inverse curvature. Missing: fits from other starts, see `C203_violated`. -/
theorem C203_warm_partial (M : LinModelCfg) (hs : M.sr3 = none) (hst : M.stepping ≠ "line-search") (P : LinProblem ℝ) (w : Option (Vec ℝ P.n)) (k : ℕ) (prox : Vec ℝ P.n → ℝ → Vec ℝ P.n)
    (hreg : KeepsLargest k (M.regularizer P.n (w.getD fun _ => 1)) prox)
    (L : ℝ) (hL : ∀ h : Vec ℝ P.n, ∑ r, (∑ j, P.a r j * h j) ^ 2 ≤ L * ∑ j, h j ^ 2) (ht : 0 < M.step) (htL : M.step * L ≤ 1)
    (u x : Vec ℝ P.n) (Lf : Logger (PyVal ℝ P.n)) (hu : numNonzero u ≤ k) (h : linFit M P (some u) true w = .ok (x, Lf)) :
    numNonzero x ≤ k ∧ ∑ r, ((∑ j, P.a r j * x j) - P.b r) ^ 2 ≤ ∑ r, ((∑ j, P.a r j * u j) - P.b r) ^ 2 := by
  obtain ⟨hb, -⟩ := linLoss_belowParabola P.a P.b L hL
  have hobj : ∀ v, linValueFunction P.a P.b .nonInformative v = (∑ r, ((∑ j, P.a r j * v j) - P.b r) ^ 2) / 2 := fun v => by
    show linLoss P.a P.b .nonInformative v = _
    rw [(C31_linear_oracle P.a P.b (.nonInformative : InstPrior ℝ P.n) trivial).2.2.1 v]
    simp [InstPrior.loss, leastSquares]
  unfold linFit at h
  simp only [hs] at h
  cases hpr : M.prior with
  | gaussian p => simp only [hpr] at h; cases h
  | none =>
    simp only [hpr, linOracleInstantiate] at h
    obtain ⟨_, e, h⟩ := except_bind_ok.1 h
    cases e
    obtain ⟨⟨⟨y, Ly⟩, sy⟩, hy, h⟩ := except_bind_ok.1 h
    obtain ⟨Lz, -, h⟩ := except_bind_ok.1 h
    cases h
    obtain ⟨m, X, Ls, s1, L1, -, h0, hX, -, -, hsteps, -, -⟩ := pgdOptimize_trace (linOracle P.a P.b .nonInformative) (M.regularizer P.n (w.getD fun _ => 1)) M.solver _ _
      (fun x _ x' _ => numNonzero x ≤ k → numNonzero x' ≤ k ∧ linValueFunction P.a P.b .nonInformative x' ≤ linValueFunction P.a P.b .nonInformative x)
      (fun x it L' s x' L'' s' hbd hx => by
        obtain ⟨gv, s1, t, s2, hgv, hstp, hpx', -⟩ := pgdBody_ok _ _ _ _ _ _ _ _ _ _ _ hbd
        have e : gv = linGradientValueFunction P.a P.b .nonInformative x := (Prod.mk.inj (Except.ok.inj hgv)).1.symm
        unfold chooseStep at hstp
        rw [if_neg (show ¬ M.solver.stepping = "line-search" from hst)] at hstp
        obtain ⟨rfl, -⟩ := pure_ok.1 hstp
        rw [e] at hpx'
        exact l0_step_descent hreg _ _ L hb M.step ht htL x x' hx hpx') _ _ _ _ hy
    have hall : ∀ i, i ≤ m → numNonzero (X i) ≤ k ∧ linValueFunction P.a P.b .nonInformative (X i) ≤ linValueFunction P.a P.b .nonInformative u := fun i => by
      induction i with
      | zero =>
        intro _
        rw [show X 0 = u from h0]
        exact ⟨hu, le_rfl⟩
      | succ i ih =>
        intro hi
        have h1 := ih (by omega)
        have h2 := hsteps i (by omega) h1.1
        exact ⟨h2.1, h2.2.trans h1.2⟩
    have h1 := hall m le_rfl
    rw [hX, hobj, hobj] at h1
    exact ⟨h1.1, by linarith [h1.2]⟩

/-- **C203**, two budgets: the fit for `k` features continued with a budget of `k' ≥ k` features is at least as good. -/
theorem C203_budgets_partial (k k' : ℕ) (hkk : k ≤ k') (sort sort' : NpSort) (a a' : LinArgs) (hmax : 1 ≤ a.maxIter) (hst : a'.stepping ≠ "line-search") (P : LinProblem ℝ)
    (L : ℝ) (hL : ∀ h : Vec ℝ P.n, ∑ r, (∑ j, P.a r j * h j) ^ 2 ≤ L * ∑ j, h j ^ 2)
    (ht : 0 < (linClass (.l0 (some (k' : ℤ)) sort') false a').step) (htL : (linClass (.l0 (some (k' : ℤ)) sort') false a').step * L ≤ 1)
    (x0 : Option (Vec ℝ P.n)) (warm : Bool) (x x' : Vec ℝ P.n) (Lf Lf' : Logger (PyVal ℝ P.n))
    (h : linFit (linClass (.l0 (some (k : ℤ)) sort) false a) P x0 warm none = .ok (x, Lf)) (h' : linFit (linClass (.l0 (some (k' : ℤ)) sort') false a') P (some x) true none = .ok (x', Lf')) :
    numNonzero x' ≤ k' ∧ ∑ r, ((∑ j, P.a r j * x' j) - P.b r) ^ 2 ≤ ∑ r, ((∑ j, P.a r j * x j) - P.b r) ^ 2 := by
  have h1 := C39_l0_budget (linClass (.l0 (some (k : ℤ)) sort) false a) k (by positivity) hmax (fun n w => ⟨sort.all n, sort.sub n w, rfl⟩) P x0 warm none x Lf (by simp) h
  exact C203_warm_partial (linClass (.l0 (some (k' : ℤ)) sort') false a') rfl hst P none k' _ (l0_keepsLargest k' (sort'.all P.n) ⟨fun _ => 1, sort'.sub P.n fun _ => 1⟩ fun _ => one_ne_zero) L hL ht htL x x' Lf'
    ((by exact_mod_cast h1 : numNonzero x ≤ k).trans hkk) h'

/-- Non-vacuity of `C203_budgets_partial`: the fit for one feature continued with a budget of two features and the step `1/2`. -/
example (sort : NpSort) : ∃ (x x' : Vec ℝ 3) (Lf Lf' : Logger (PyVal ℝ 3)), linFit (budgetModel 1 sort) budgetProblem none false none = .ok (x, Lf) ∧
    linFit (linClass (.l0 (some ((2 : ℕ) : ℤ)) sort) false { stepping := "fixed", fixedStepLen := some (1 / 2) }) budgetProblem (some x) true none = .ok (x', Lf') ∧ numNonzero x' ≤ 2 ∧
    ∑ r : Fin 3, ((∑ j : Fin 3, budgetProblem.a r j * x' j) - budgetProblem.b r) ^ 2 ≤ ∑ r : Fin 3, ((∑ j : Fin 3, budgetProblem.a r j * x j) - budgetProblem.b r) ^ 2 := by
  obtain ⟨L1, h1, -⟩ := budget_one sort
  obtain ⟨x', L2, h2⟩ := linFit_plain_returns (linClass (.l0 (some ((2 : ℕ) : ℤ)) sort) false { stepping := "fixed", fixedStepLen := some (1 / 2) }) rfl rfl rfl (by simp [linClass])
    (fun _ _ x => if (nnzCount x : ℤ) > 2 then ⊤ else 0) (fun n w x => by
      show (if (nnzCount x : ℤ) > ((2 : ℕ) : ℤ) then Except.ok ⊤ else Except.ok 0) = _
      push_cast
      split_ifs <;> rfl) (fun _ _ _ _ => ⟨_, rfl⟩) budgetProblem (some (![0, 0, 49 / 30] : Vec ℝ 3)) true none
  have hstep : (linClass (.l0 (some ((2 : ℕ) : ℤ)) sort) false { stepping := "fixed", fixedStepLen := some (1 / 2) }).step = 1 / 2 := by norm_num [linClass, LinModelCfg.step]
  have hL : ∀ h : Vec ℝ 3, ∑ r : Fin 3, (∑ j : Fin 3, (!![1, 0, 2 / 3; 0, 1, 2 / 3; 0, 0, 1 / 3] : Matrix (Fin 3) (Fin 3) ℝ) r j * h j) ^ 2 ≤ 2 * ∑ j : Fin 3, h j ^ 2 := fun h => by
    simp [Fin.sum_univ_three]
    nlinarith [sq_nonneg (h 0 - 2 / 3 * h 2), sq_nonneg (h 1 - 2 / 3 * h 2), sq_nonneg (h 2)]
  have A := C203_budgets_partial 1 2 one_le_two sort sort { stepping := "fixed", fixedStepLen := some 1 } { stepping := "fixed", fixedStepLen := some (1 / 2) } (by norm_num)
    (by show "fixed" ≠ "line-search"; decide) budgetProblem 2 hL (by rw [hstep]; norm_num) (by rw [hstep]; norm_num) none false _ x' L1 L2 h1 h2
  exact ⟨_, x', L1, L2, h1, h2, A⟩

end

end Verif
