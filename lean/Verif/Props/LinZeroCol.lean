import Verif.Props.LinFolded
import Verif.Props.LinL0
import Verif.Props.LinClasses
import Verif.Props.LinNonconvex
import Verif.Props.LmeTrap

/-!
# Features that are zero in all observations (C190)
-/

open Matrix

namespace Verif

noncomputable section

/-- The coefficient of a feature that is zero in all observations is changed by the proximal operator only. -/
theorem zeroCol_inv (M : LinModelCfg) (hs : M.sr3 = none) (P : LinProblem ℝ) (j : Fin P.n) (hz : ∀ r, P.a r j = 0) (x0 : Option (Vec ℝ P.n)) (warm : Bool) (w : Option (Vec ℝ P.n))
    (Q : ℝ → Prop) (hQ0 : Q (fitStart x0 warm j)) (hQ : ∀ y step z, Q (y j) → (M.regularizer P.n (w.getD fun _ => 1)).prox y step = .ok z → Q (z j))
    (x : Vec ℝ P.n) (Lf : Logger (PyVal ℝ P.n)) (h : linFit M P x0 warm w = .ok (x, Lf)) : Q (x j) := by
  unfold linFit at h
  simp only [hs] at h
  obtain ⟨pr, hpr, h⟩ := except_bind_ok.1 h
  have hpr' : pr = .nonInformative := by
    unfold linOracleInstantiate at hpr
    cases hm : M.prior with
    | none => rw [hm] at hpr; cases hpr; rfl
    | gaussian params => rw [hm] at hpr; simp [gaussInstantiateArg] at hpr
  subst hpr'
  obtain ⟨⟨⟨x', Ly⟩, sy⟩, hy, h⟩ := except_bind_ok.1 h
  obtain ⟨Lz, hLz, h⟩ := except_bind_ok.1 h
  cases h
  refine (pgdOptimize_inv (fun x => Q (x j)) (fun _ => True) (fun _ _ _ _ _ _ _ => trivial) (fun y s g s' hy _ hg => ⟨trivial, fun step z hp => ?_⟩) hQ0 trivial hy).1
  refine hQ _ step z ?_ hp
  have e : g = linGradientValueFunction P.a P.b .nonInformative y := (Prod.mk.inj (Except.ok.inj hg)).1.symm
  have e2 : linGradientValueFunction P.a P.b .nonInformative y j = 0 := by
    show ∑ r, P.a r j * _ + 0 = _
    rw [add_zero]
    exact Finset.sum_eq_zero fun r _ => by rw [hz r, zero_mul]
  show Q (y j + step * -g j)
  rw [e, e2, neg_zero, mul_zero, add_zero]
  exact hy

/-- **C190**, violated by `SimpleLinearModel`: a feature that is zero in all observations keeps its starting value, which is one by default: it is counted as a selected feature. -/
theorem C190_simple_violated (M : LinModelCfg) (hs : M.sr3 = none) (P : LinProblem ℝ) (w : Option (Vec ℝ P.n)) (hreg : M.regularizer P.n (w.getD fun _ => 1) = dummyRegularizer)
    (j : Fin P.n) (hz : ∀ r, P.a r j = 0) (x0 : Option (Vec ℝ P.n)) (warm : Bool) (x : Vec ℝ P.n) (Lf : Logger (PyVal ℝ P.n)) (h : linFit M P x0 warm w = .ok (x, Lf)) :
    x j = (if warm then x0.getD fun _ => 1 else fun _ => 1) j := by
  refine zeroCol_inv M hs P j hz x0 warm w (fun v => v = fitStart x0 warm j) rfl (fun y step z hy hp => ?_) x Lf h
  rw [hreg] at hp
  cases hp
  exact hy

/-- **C190**, violated by `LinearCADModel` with `rho < 1`: the default starting value of a feature that is zero in all observations lies above the threshold and stays. -/
theorem C190_cad_violated (M : LinModelCfg) (hs : M.sr3 = none) (P : LinProblem ℝ) (w : Option (Vec ℝ P.n)) (rho lam : ℝ) (hrho : rho < 1)
    (hreg : M.regularizer P.n (w.getD fun _ => 1) = cadRegularizer rho lam (some (w.getD fun _ => 1))) (j : Fin P.n) (hz : ∀ r, P.a r j = 0) (x : Vec ℝ P.n) (Lf : Logger (PyVal ℝ P.n))
    (h : linFit M P none false w = .ok (x, Lf)) : x j = 1 := by
  refine zeroCol_inv M hs P j hz none false w (fun v => v = 1) rfl (fun y step z hy hp => ?_) x Lf h
  rw [hreg] at hp
  cases hp
  dsimp only
  rw [hy, abs_one, if_neg (fun h => absurd h.1 (not_le.2 hrho))]

/-- One observation `1/2` of two features of which the first is zero. -/
def emptyFeature : LinProblem ℝ := ⟨1, 2, !![0, 1], ![1 / 2], 1, none, .scalar 1⟩

/-- **C190**, violated by `LinearL0Model(nnz=1)` with line search and the default step: for every tolerance and iteration limit that lets it do a step, the fit keeps the feature that is always zero, drops the one that
explains the observation, and predicts nothing. -/
theorem C190_l0_violated (sort : NpSort) (tol : ℝ) (maxIter : ℤ) (hmax : 1 ≤ maxIter) :
    ∃ Lf, linFit (linClass (.l0 (some 1) sort) false { tol := tol, maxIter := maxIter }) emptyFeature none false none = .ok ((![1, 0] : Vec ℝ 2), Lf) := by
  obtain ⟨M, hM⟩ : ∃ M, M = linClass (.l0 (some 1) sort) false { tol := tol, maxIter := maxIter } := ⟨_, rfl⟩
  rw [← hM]
  have hstep : M.solver.fixedStepLen = 5 / 100 := by rw [hM]; norm_num [linClass, LinModelCfg.step, LinModelCfg.solver]
  have hmx : M.solver.maxIter = maxIter := by rw [hM]; rfl
  have hK : KeepsLargest 1 (M.regularizer emptyFeature.n fun _ => 1) fun y _ => maskedKMax (participation fun _ => 1) (sort.sub 2 fun _ => 1) y (1 : ℕ) := by
    rw [hM]
    exact l0_keepsLargest 1 (sort.all 2) ⟨fun _ => 1, sort.sub 2 fun _ => 1⟩ fun _ => one_ne_zero
  obtain ⟨g, hg⟩ : ∃ g : Vec ℝ emptyFeature.n → WithTop ℝ, ∀ x, (M.regularizer emptyFeature.n fun _ => 1).value x = .ok (g x) := by
    rw [hM]
    refine ⟨fun x => if (nnzCount x : ℤ) > 1 then ⊤ else 0, fun x => ?_⟩
    show (if (nnzCount x : ℤ) > 1 then Except.ok ⊤ else Except.ok 0) = _
    dsimp only
    split_ifs <;> rfl
  obtain ⟨x, Lf, s', h⟩ := C16_returns (linOracle emptyFeature.a emptyFeature.b .nonInformative) (M.regularizer emptyFeature.n fun _ => 1) _ _ _
    (fun x s => ⟨s, rfl⟩) (fun x s => ⟨s, rfl⟩) hg (fun y t => ⟨_, (hK y t).1⟩) M.solver (fun _ => 1) _
    (Logger.good_init ["converged"] (by simp)) ()
  obtain ⟨L', hL'⟩ := logIC_ok Lf (linAic emptyFeature.a emptyFeature.b .nonInformative x) (linBic emptyFeature.a emptyFeature.b .nonInformative x)
  obtain ⟨k, X, Ls, s1, L1, -, h0, hk, -, -, hsteps, -, hend⟩ := pgdOptimize_trace _ _ M.solver _ _ (fun x _ x' _ => x 0 = 1 → (x 1 = 0 ∨ x 1 = 1) → x' = ![1, 0])
    (fun x it L' s x' L'' s' hbd hx0 hx1 => by
      obtain ⟨gv, s1, t, s2, hgv, hst, hpx, -⟩ := pgdBody_ok _ _ _ _ _ _ _ _ _ _ _ hbd
      have e : gv = linGradientValueFunction emptyFeature.a emptyFeature.b .nonInformative x := (Prod.mk.inj (Except.ok.inj hgv)).1.symm
      have e0 : gv 0 = 0 := by
        rw [e]
        show ∑ r : Fin 1, (!![0, 1] : Matrix (Fin 1) (Fin 2) ℝ) r 0 * _ + 0 = _
        simp
      have e1 : gv 1 = x 1 - 1 / 2 := by
        rw [e]
        show ∑ r : Fin 1, (!![0, 1] : Matrix (Fin 1) (Fin 2) ℝ) r 1 * ((∑ i : Fin 2, (!![0, 1] : Matrix (Fin 1) (Fin 2) ℝ) r i * x i) - (![1 / 2] : Vec ℝ 1) r) + 0 = _
        simp [Fin.sum_univ_two]
      obtain ⟨i, rfl⟩ := chooseStep_dyadic _ _ _ _ _ _ _ _ hst
      rw [hstep] at hpx
      obtain ⟨t, ht⟩ : ∃ t : ℝ, t = 5 / 100 * (1 / 2) ^ i := ⟨_, rfl⟩
      have ht0 : 0 < t := by rw [ht]; positivity
      have ht1 : t ≤ 1 := by
        rw [ht]
        have : ((1 : ℝ) / 2) ^ i ≤ 1 := pow_le_one₀ (by norm_num) (by norm_num)
        linarith
      rw [← ht] at hpx
      obtain ⟨hp, ⟨T, hT, hin, hout, hdom⟩, -⟩ := hK (fun i => x i - t * gv i) t
      have hx' : x' = _ := Except.ok.inj (hpx.symm.trans hp)
      rw [← hx'] at hin hout
      have hlt : |x 1 - t * gv 1| < |x 0 - t * gv 0| := by
        rw [e0, e1, hx0, mul_zero, sub_zero, abs_one, abs_lt]
        rcases hx1 with h1 | h1 <;> rw [h1] <;> constructor <;> linarith
      have hT1 : T.card = 1 := hT
      obtain ⟨a, rfl⟩ := Finset.card_eq_one.1 hT1
      have h01 : ∀ j : Fin 2, j = 0 ∨ j = 1 := by decide
      have ha : a = (0 : Fin 2) := by
        rcases h01 a with rfl | rfl
        · rfl
        · exact absurd (hdom (1 : Fin 2) (Finset.mem_singleton_self _) (0 : Fin 2) (fun h => absurd (Finset.mem_singleton.1 h) (show ¬ (0 : Fin 2) = 1 by decide))) (not_le.2 hlt)
      subst ha
      funext j
      rcases h01 j with rfl | rfl
      · rw [hin (0 : Fin 2) (Finset.mem_singleton_self _), e0, hx0]
        simp
      · exact hout (1 : Fin 2) (fun h => absurd (Finset.mem_singleton.1 h) (show ¬ (1 : Fin 2) = 0 by decide))) _ _ _ _ h
  have hkpos : k ≠ 0 := by
    rintro rfl
    exact hend ⟨Or.inl (show 0 < 2 by norm_num), by rw [hmx]; push_cast; omega⟩
  have hall : ∀ i, i + 1 ≤ k → X (i + 1) = ![1, 0] := fun i => by
    induction i with
    | zero => exact fun hi => hsteps 0 (by omega) (by rw [h0]) (by rw [h0]; exact Or.inr rfl)
    | succ i ih =>
      intro hi
      have e := ih (by omega)
      exact hsteps (i + 1) (by omega) (by rw [e]; rfl) (by rw [e]; exact Or.inl rfl)
  obtain ⟨i, rfl⟩ := Nat.exists_eq_succ_of_ne_zero hkpos
  have hx := hall i le_rfl
  rw [show X (i + 1) = x from hk] at hx
  subst hx
  refine ⟨L', ?_⟩
  unfold linFit
  rw [show M.sr3 = none by rw [hM]; rfl, show M.prior = .none by rw [hM]; rfl, show M.loggerKind = .tuple by rw [hM]; rfl, show M.loggerKeys = ["converged"] by rw [hM]; rfl]
  exact except_bind_ok.2 ⟨_, rfl, except_bind_ok.2 ⟨_, h, except_bind_ok.2 ⟨_, hL', rfl⟩⟩⟩

/-- In this problem the other choice of one feature would have explained the observation exactly. -/
example : (∑ i : Fin 2, emptyFeature.a (0 : Fin 1) i * (![0, 1 / 2] : Vec ℝ 2) i) = emptyFeature.b (0 : Fin 1) ∧ (∑ i : Fin 2, emptyFeature.a (0 : Fin 1) i * (![1, 0] : Vec ℝ 2) i) = 0 := by
  constructor
  · show (∑ i : Fin 2, (!![0, 1] : Matrix (Fin 1) (Fin 2) ℝ) 0 i * (![0, 1 / 2] : Vec ℝ 2) i) = (![1 / 2] : Vec ℝ 1) 0
    simp [Fin.sum_univ_two]
  · show (∑ i : Fin 2, (!![0, 1] : Matrix (Fin 1) (Fin 2) ℝ) 0 i * (![1, 0] : Vec ℝ 2) i) = 0
    simp [Fin.sum_univ_two]

/-- `SimpleLinearModel()` and `LinearCADModel(lam=1, rho=0.3)` on the same problem. -/
example : (∃ x Lf, linFit (linClass .dummy false {}) emptyFeature none false none = .ok (x, Lf) ∧ x (0 : Fin 2) = 1) ∧
    ∃ x Lf, linFit (linClass (.cad 1 (3 / 10)) false {}) emptyFeature none false none = .ok (x, Lf) ∧ x (0 : Fin 2) = 1 := by
  have hz : ∀ r : Fin 1, emptyFeature.a r (0 : Fin 2) = 0 := fun r => by
    rw [Subsingleton.elim r 0]
    rfl
  obtain ⟨x, L, h⟩ := linFit_plain_returns (linClass .dummy false {}) rfl rfl rfl (by simp [linClass]) _ (fun _ _ _ => rfl) (fun _ _ _ _ => ⟨_, rfl⟩) emptyFeature none false none
  obtain ⟨x', L', h'⟩ := linFit_plain_returns (linClass (.cad 1 (3 / 10)) false {}) rfl rfl rfl (by simp [linClass]) _ (fun _ _ _ => rfl) (fun _ _ _ _ => ⟨_, rfl⟩) emptyFeature none false none
  exact ⟨⟨x, L, h, C190_simple_violated _ rfl _ none rfl (0 : Fin 2) hz none false x L h⟩, x', L', h', C190_cad_violated _ rfl _ none (3 / 10) 1 (by norm_num) rfl (0 : Fin 2) hz x' L' h'⟩

/-- **C190** for converged fits with the L1 penalty: the coefficient of a feature that is zero in all observations is exactly zero if its penalty exceeds the stopping error `tol (1/t + L)`.
Missing: the other models, see `C190_simple_violated`, `C190_cad_violated` and `C190_l0_violated`. -/
theorem C190_l1_partial (M : LinModelCfg) (hs : M.sr3 = none) (P : LinProblem ℝ) (x0 : Option (Vec ℝ P.n)) (warm : Bool) (w : Option (Vec ℝ P.n))
    (lam : ℝ) (hreg : M.regularizer P.n (w.getD fun _ => 1) = l1Regularizer lam (some (w.getD fun _ => 1))) (hlam : 0 ≤ lam) (hw : ∀ i, 0 ≤ (w.getD fun _ => 1) i)
    (L : ℝ) (hL : ∀ h : Vec ℝ P.n, ∑ r, (∑ j, P.a r j * h j) ^ 2 ≤ L * ∑ j, h j ^ 2) (hr : StepRule M.solver L)
    (x : Vec ℝ P.n) (Lf : Logger (PyVal ℝ P.n)) (h : linFit M P x0 warm w = .ok (x, Lf)) (hc : Lf.get "converged" = .ok (.atom (.bool true)))
    (j : Fin P.n) (hz : ∀ r, P.a r j = 0) (hpen : M.tol * (1 / stepFloor M.solver L + L) < lam * (w.getD fun _ => 1) j) : x j = 0 := by
  obtain ⟨z, -, hp, hm, hk⟩ := C150_stationary M hs P (lt_of_le_of_lt (Nat.zero_le _) j.2) x0 warm w lam (Or.inr ⟨hreg, hlam, hw⟩) L hL hr x Lf h hc j
  rw [Finset.sum_eq_zero fun r _ => by rw [hz r, zero_mul], zero_sub, abs_neg] at hk
  by_contra hne
  have h1 : |z| = 1 := by
    rcases lt_or_gt_of_ne hne with h2 | h2
    · rw [hm h2, abs_neg, abs_one]
    · rw [hp h2, abs_one]
  rw [abs_mul, h1, mul_one, abs_of_nonneg (mul_nonneg hlam (hw j))] at hk
  linarith

/-- **C190** for converged fits with CAD: the coefficient is exactly zero or above the threshold. Missing: see `C190_cad_violated`. -/
theorem C190_cad_partial (M : LinModelCfg) (hs : M.sr3 = none) (P : LinProblem ℝ) (x0 : Option (Vec ℝ P.n)) (warm : Bool) (w : Option (Vec ℝ P.n)) (rho lam : ℝ)
    (hreg : M.regularizer P.n (w.getD fun _ => 1) = cadRegularizer rho lam (some (w.getD fun _ => 1))) (hlam : 0 ≤ lam) (hw : ∀ i, 0 ≤ (w.getD fun _ => 1) i)
    (L : ℝ) (hL : ∀ h : Vec ℝ P.n, ∑ r, (∑ j, P.a r j * h j) ^ 2 ≤ L * ∑ j, h j ^ 2) (hr : StepRule M.solver L)
    (x : Vec ℝ P.n) (Lf : Logger (PyVal ℝ P.n)) (h : linFit M P x0 warm w = .ok (x, Lf)) (hc : Lf.get "converged" = .ok (.atom (.bool true)))
    (j : Fin P.n) (hz : ∀ r, P.a r j = 0) (hpen : M.tol * (1 / stepFloor M.solver L + L) < lam * (w.getD fun _ => 1) j) : x j = 0 ∨ rho < |x j| := by
  obtain ⟨s, hk, -, -, hs1, -⟩ := C161_cad M hs P (lt_of_le_of_lt (Nat.zero_le _) j.2) x0 warm w rho lam hreg hlam hw L hL hr x Lf h hc j
  rw [Finset.sum_eq_zero fun r _ => by rw [hz r, zero_mul], zero_sub, abs_neg] at hk
  by_contra hne
  push Not at hne
  rw [hs1 (abs_pos.2 hne.1) hne.2] at hk
  linarith

/-- **C190** for converged fits with SCAD: the coefficient is exactly zero or above `sigma`. Missing: a starting value above `rho sigma` stays. -/
theorem C190_scad_partial (M : LinModelCfg) (hs : M.sr3 = none) (P : LinProblem ℝ) (x0 : Option (Vec ℝ P.n)) (warm : Bool) (w : Option (Vec ℝ P.n)) (rho sigma lam : ℝ)
    (hreg : M.regularizer P.n (w.getD fun _ => 1) = scadRegularizer rho sigma lam (some (w.getD fun _ => 1))) (hrho : 1 < rho) (hsig : 0 ≤ sigma) (hlam : 0 ≤ lam)
    (hw : ∀ i, 0 ≤ (w.getD fun _ => 1) i) (hstep : ∀ i, M.step * lam * (w.getD fun _ => 1) i < rho - 1)
    (L : ℝ) (hL : ∀ h : Vec ℝ P.n, ∑ r, (∑ j, P.a r j * h j) ^ 2 ≤ L * ∑ j, h j ^ 2) (hr : StepRule M.solver L)
    (x : Vec ℝ P.n) (Lf : Logger (PyVal ℝ P.n)) (h : linFit M P x0 warm w = .ok (x, Lf)) (hc : Lf.get "converged" = .ok (.atom (.bool true)))
    (j : Fin P.n) (hz : ∀ r, P.a r j = 0) (hpen : M.tol * (1 / stepFloor M.solver L + L) < lam * (w.getD fun _ => 1) j * sigma) : x j = 0 ∨ sigma < |x j| := by
  obtain ⟨s, hk, -, -, hs1, -⟩ := C161_scad M hs P (lt_of_le_of_lt (Nat.zero_le _) j.2) x0 warm w rho sigma lam hreg hrho hsig hlam hw hstep L hL hr x Lf h hc j
  rw [Finset.sum_eq_zero fun r _ => by rw [hz r, zero_mul], zero_sub, abs_neg] at hk
  by_contra hne
  push Not at hne
  rw [hs1 (abs_pos.2 hne.1) hne.2] at hk
  linarith

/-! ## Examples -/

/-- A fit with fixed steps whose first step leads to a fixed point of the iteration converges. -/
theorem fixedPoint_converges (M : LinModelCfg) (hs : M.sr3 = none) (hpr : M.prior = .none) (hk : M.loggerKind = .tuple) (hks : M.loggerKeys.Nodup) (hst : M.stepping ≠ "line-search")
    (P : LinProblem ℝ) (w : Option (Vec ℝ P.n)) (g : Vec ℝ P.n → WithTop ℝ) (hg : ∀ x, (M.regularizer P.n (w.getD fun _ => 1)).value x = .ok (g x))
    (hprox : ∀ y, ∃ z, (M.regularizer P.n (w.getD fun _ => 1)).prox y M.step = .ok z) (p : Vec ℝ P.n)
    (hp : ∀ y, (y = p ∨ y = fun _ => 1) → (M.regularizer P.n (w.getD fun _ => 1)).prox (fun i => y i - M.step * linGradientValueFunction P.a P.b .nonInformative y i) M.step = .ok p)
    (htol : 0 ≤ M.tol) (hmax : 2 < M.maxIter) :
    ∃ x Lf, linFit M P none false w = .ok (x, Lf) ∧ Lf.get "converged" = .ok (.atom (.bool true)) := by
  obtain ⟨x, Lf, s', h⟩ := returns_fixed (linOracle P.a P.b .nonInformative) (M.regularizer P.n (w.getD fun _ => 1)) _ _ g
    (fun x s => ⟨s, rfl⟩) (fun x s => ⟨s, rfl⟩) hg M.solver hst hprox (fun _ => 1) _ (Logger.good_init M.loggerKeys hks) ()
  obtain ⟨L', hL'⟩ := logIC_ok Lf (linAic P.a P.b .nonInformative x) (linBic P.a P.b .nonInformative x)
  refine ⟨x, L', ?_, ?_⟩
  · unfold linFit
    simp only [hs, hpr, hk, linOracleInstantiate]
    exact except_bind_ok.2 ⟨_, rfl, except_bind_ok.2 ⟨_, h, except_bind_ok.2 ⟨_, hL', rfl⟩⟩⟩
  · rw [logIC_keeps _ _ _ _ hL' _ (by decide) (by decide)]
    obtain ⟨k, X, Ls, s1, L1, -, h0, hk, hcv, hit, hsteps, hguards, -⟩ := pgdOptimize_trace (linOracle P.a P.b .nonInformative) (M.regularizer P.n (w.getD fun _ => 1)) M.solver _ _
      (fun x _ x' _ => (x = p ∨ x = fun _ => 1) → x' = p)
      (fun x it L' s x' L'' s' hbd hx => by
        obtain ⟨gv, s1, t, s2, hgv, hstp, hpx', -⟩ := pgdBody_ok _ _ _ _ _ _ _ _ _ _ _ hbd
        have e : gv = linGradientValueFunction P.a P.b .nonInformative x := (Prod.mk.inj (Except.ok.inj hgv)).1.symm
        unfold chooseStep at hstp
        rw [if_neg (show ¬ M.solver.stepping = "line-search" from hst)] at hstp
        obtain ⟨rfl, -⟩ := pure_ok.1 hstp
        have hpx2 : (M.regularizer P.n (w.getD fun _ => 1)).prox (fun i => x i - M.step * gv i) M.step = .ok x' := hpx'
        rw [e, hp x hx] at hpx2
        exact (Except.ok.inj hpx2).symm) _ _ _ _ h
    rw [(Logger.add_get hit).2 _ (by decide), (Logger.add_get hcv).1]
    have hk2 : k ≤ 2 := by
      by_contra hcon
      push Not at hcon
      have hgd := (hguards 2 hcon).1
      have e1 := hsteps 0 (by omega) (Or.inr h0)
      have e2 := hsteps 1 (by omega) (Or.inl e1)
      have hgd' : farApart M.tol (some (X 1)) (X 2) := hgd
      rw [e1, e2] at hgd'
      rcases hgd' with h3 | h3
      · exact absurd h3 (not_lt.2 htol)
      · rw [sub_self] at h3
        have h4 : normSq (0 : Vec ℝ P.n) = 0 := by simp [normSq]
        rw [h4] at h3
        exact absurd h3 (not_lt.2 (sq_nonneg _))
    have : (k : ℤ) < M.solver.maxIter := lt_of_le_of_lt (by exact_mod_cast hk2) hmax
    rw [decide_eq_true this]

/-- The gradient of the example. -/
theorem emptyFeature_move (y : Vec ℝ 2) (i : Fin 2) : y i - 1 * linGradientValueFunction emptyFeature.a emptyFeature.b .nonInformative y i = (![y (0 : Fin 2), 1 / 2] : Vec ℝ 2) i := by
  have h01 : ∀ j : Fin 2, j = 0 ∨ j = 1 := by decide
  have e : ∀ j : Fin 2, linGradientValueFunction emptyFeature.a emptyFeature.b .nonInformative y j =
      ∑ r : Fin 1, (!![0, 1] : Matrix (Fin 1) (Fin 2) ℝ) r j * ((∑ i : Fin 2, (!![0, 1] : Matrix (Fin 1) (Fin 2) ℝ) r i * y i) - (![1 / 2] : Vec ℝ 1) r) + 0 := fun j => rfl
  rcases h01 i with rfl | rfl
  · rw [e]
    simp
  · rw [e]
    simp [Fin.sum_univ_two]

theorem emptyFeature_norm (h : Vec ℝ emptyFeature.n) : ∑ r, (∑ j, emptyFeature.a r j * h j) ^ 2 ≤ 1 * ∑ j, h j ^ 2 := by
  show ∑ r : Fin 1, (∑ j : Fin 2, (!![0, 1] : Matrix (Fin 1) (Fin 2) ℝ) r j * (h : Vec ℝ 2) j) ^ 2 ≤ 1 * ∑ j : Fin 2, (h : Vec ℝ 2) j ^ 2
  simp [Fin.sum_univ_two]
  positivity

/-- Non-vacuity of the theorems for L1, CAD and SCAD: `lam=1` (and `rho=1`, respectively `rho=3.7`, `sigma=1`), fixed steps of length one and the default tolerance: the fits converge, and the coefficient of the
empty feature is zero (L1), zero or above one in absolute value (CAD, SCAD). -/
example : (∃ x Lf, linFit (linClass (.l1 1) false { stepping := "fixed", fixedStepLen := some 1 }) emptyFeature none false none = .ok (x, Lf) ∧ x (0 : Fin 2) = 0) ∧
    (∃ x Lf, linFit (linClass (.cad 1 1) false { stepping := "fixed", fixedStepLen := some 1 }) emptyFeature none false none = .ok (x, Lf) ∧ (x (0 : Fin 2) = 0 ∨ 1 < |x (0 : Fin 2)|)) ∧
    ∃ x Lf, linFit (linClass (.scad 1 (37 / 10) 1) false { stepping := "fixed", fixedStepLen := some 1 }) emptyFeature none false none = .ok (x, Lf) ∧ (x (0 : Fin 2) = 0 ∨ 1 < |x (0 : Fin 2)|) := by
  have hz : ∀ r : Fin 1, emptyFeature.a r (0 : Fin 2) = 0 := fun r => by
    rw [Subsingleton.elim r 0]
    rfl
  have h01 : ∀ j : Fin 2, j = 0 ∨ j = 1 := by decide
  have hpen : ∀ pen : LinPenalty, (1 / 10 ^ 5 : ℝ) * (1 / stepFloor (linClass pen false { stepping := "fixed", fixedStepLen := some 1 }).solver 1 + 1) < 1 := fun pen => by
    rw [folded_floor]
    norm_num
  have hmv : ∀ y : Vec ℝ 2, (fun i : Fin 2 => y i - 1 * linGradientValueFunction emptyFeature.a emptyFeature.b .nonInformative y i) = (![y 0, 1 / 2] : Vec ℝ 2) := fun y => funext (emptyFeature_move y)
  have hy0 : ∀ y : Vec ℝ 2, (y = 0 ∨ y = fun _ => 1) → y 0 = 0 ∨ y 0 = 1 := by
    rintro y (rfl | rfl)
    · exact Or.inl rfl
    · exact Or.inr rfl
  refine ⟨?_, ?_, ?_⟩
  · obtain ⟨x, Lf, h, hc⟩ := fixedPoint_converges (linClass (.l1 1) false { stepping := "fixed", fixedStepLen := some 1 }) rfl rfl rfl (by simp [linClass]) (by show "fixed" ≠ "line-search"; decide) emptyFeature none _
      (fun _ => rfl) (fun _ => ⟨_, rfl⟩) (0 : Vec ℝ 2) (fun y hy => by
        rw [folded_step]
        refine Eq.trans (congrArg (fun v : Vec ℝ 2 => (l1Regularizer (1 : ℝ) (some fun _ => 1)).prox v 1) (hmv y)) ?_
        refine congrArg Except.ok (funext fun i => ?_)
        show soft (1 * 1 * 1) ((![y (0 : Fin 2), 1 / 2] : Vec ℝ 2) i) = 0
        rcases h01 i with rfl | rfl
        · rcases hy0 y hy with e | e <;> simp [e, soft, clip0]
        · norm_num [soft, clip0]) (by show (0 : ℝ) ≤ 1 / 10 ^ 5; norm_num) (by show (2 : ℤ) < 1000; norm_num)
    exact ⟨x, Lf, h, C190_l1_partial _ rfl emptyFeature none false none 1 rfl zero_le_one (fun _ => zero_le_one) 1 emptyFeature_norm (folded_rule _) x Lf h hc (0 : Fin 2) hz ((hpen _).trans_eq (mul_one _).symm)⟩
  · obtain ⟨x, Lf, h, hc⟩ := fixedPoint_converges (linClass (.cad 1 1) false { stepping := "fixed", fixedStepLen := some 1 }) rfl rfl rfl (by simp [linClass]) (by show "fixed" ≠ "line-search"; decide) emptyFeature none _
      (fun _ => rfl) (fun _ => ⟨_, rfl⟩) (0 : Vec ℝ 2) (fun y hy => by
        rw [folded_step]
        refine Eq.trans (congrArg (fun v : Vec ℝ 2 => (cadRegularizer (1 : ℝ) 1 (some fun _ => 1)).prox v 1) (hmv y)) ?_
        refine congrArg Except.ok (funext fun i => ?_)
        show (if |(![y (0 : Fin 2), 1 / 2] : Vec ℝ 2) i| ≤ 1 ∧ (0 : ℝ) < 1 then soft (1 * 1 * 1) ((![y (0 : Fin 2), 1 / 2] : Vec ℝ 2) i) else (![y (0 : Fin 2), 1 / 2] : Vec ℝ 2) i) = 0
        rcases h01 i with rfl | rfl
        · rcases hy0 y hy with e | e <;> simp [e, soft, clip0]
        · norm_num [soft, clip0, abs_le]) (by show (0 : ℝ) ≤ 1 / 10 ^ 5; norm_num) (by show (2 : ℤ) < 1000; norm_num)
    exact ⟨x, Lf, h, C190_cad_partial _ rfl emptyFeature none false none 1 1 rfl zero_le_one (fun _ => zero_le_one) 1 emptyFeature_norm (folded_rule _) x Lf h hc (0 : Fin 2) hz ((hpen _).trans_eq (mul_one _).symm)⟩
  · obtain ⟨x, Lf, h, hc⟩ := fixedPoint_converges (linClass (.scad 1 (37 / 10) 1) false { stepping := "fixed", fixedStepLen := some 1 }) rfl rfl rfl (by simp [linClass]) (by show "fixed" ≠ "line-search"; decide) emptyFeature none _
      (fun _ => rfl) (fun y => by
        obtain ⟨g, -, z, hz, -⟩ := (C06_scad_exact_partial (37 / 10) 1 1 1 (some fun _ => 1) (y : Vec ℝ 2) (by norm_num) (by norm_num) (by norm_num) one_pos.le (fun _ => zero_le_one) (fun _ => by show (1 : ℝ) * 1 * 1 < _; norm_num)).1
        exact ⟨z, by rw [folded_step]; exact hz⟩) (0 : Vec ℝ 2) (fun y hy => by
        rw [folded_step]
        refine Eq.trans (congrArg (fun v : Vec ℝ 2 => (scadRegularizer (37 / 10 : ℝ) 1 1 (some fun _ => 1)).prox v 1) (hmv y)) ?_
        refine (collect_ok_iff _ _).2 fun i => ?_
        show scadProx1 (37 / 10) 1 1 (1 * 1 * 1) ((![y (0 : Fin 2), 1 / 2] : Vec ℝ 2) i) = .ok 0
        rcases h01 i with rfl | rfl
        · rcases hy0 y hy with e | e <;> norm_num [e, soft, clip0, scadProx1]
        · norm_num [soft, clip0, scadProx1]) (by show (0 : ℝ) ≤ 1 / 10 ^ 5; norm_num) (by show (2 : ℤ) < 1000; norm_num)
    exact ⟨x, Lf, h, C190_scad_partial _ rfl emptyFeature none false none (37 / 10) 1 1 rfl (by norm_num) zero_le_one zero_le_one (fun _ => zero_le_one)
      (fun _ => by rw [folded_step]; show (1 : ℝ) * 1 * 1 < _; norm_num) 1 emptyFeature_norm (folded_rule _) x Lf h hc (0 : Fin 2) hz ((hpen _).trans_eq (show (1 : ℝ) = 1 * 1 * 1 by norm_num))⟩

end

end Verif
