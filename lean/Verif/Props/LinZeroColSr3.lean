import Verif.Props.LinZeroCol
import Verif.Props.LinSr3Stat

/-!
# Features that are zero in all observations, linear models with relaxation (C200)
-/

open Matrix

namespace Verif

noncomputable section

/-- The relaxed coefficient of a feature without data is the coefficient. -/
theorem sr3Inner_zeroCol {m n : ℕ} (A : Matrix (Fin m) (Fin n) ℝ) (b : Vec ℝ m) (el : ℝ) (hel : 0 < el) (j : Fin n) (hz : ∀ r, A r j = 0) (w : Vec ℝ n) : sr3Inner A b 1 el w j = w j := by
  have h := congrFun (sr3Inner_normal A b el hel w) j
  have e : (Aᵀ *ᵥ (A *ᵥ sr3Inner A b 1 el w - b)) j = 0 := by
    show ∑ r, A r j * _ = 0
    exact Finset.sum_eq_zero fun r _ => by rw [hz r, zero_mul]
  rw [e] at h
  have h2 : el * (w j - sr3Inner A b 1 el w j) = 0 := h.symm
  rcases mul_eq_zero.1 h2 with h3 | h3
  · exact absurd h3 hel.ne'
  · linarith

theorem practicalLoop_zeroCol {m n : ℕ} (A : Matrix (Fin m) (Fin n) ℝ) (b : Vec ℝ m) (el : ℝ) (hel : 0 < el) (j : Fin n) (hz : ∀ r, A r j = 0) (R : Regularizer ℝ n) (Q : ℝ → Prop)
    (hQ : ∀ y step z, Q (y j) → R.prox y step = .ok z → Q (z j)) (tol : ℝ) (maxIter : ℤ) (x : Vec ℝ n) (xprev : Option (Vec ℝ n)) (it : ℕ) (xf : Vec ℝ n)
    (h : practicalLoop A b 1 el R tol maxIter x xprev it = .ok xf) (hx : Q (x j)) : Q (xf j) := by
  induction x, xprev, it using practicalLoop.induct (tol := tol) (maxIter := maxIter) with
  | case1 x xprev it hg ih =>
    rw [practicalLoop, dif_pos hg] at h
    obtain ⟨x', hx', h⟩ := except_bind_ok.1 h
    exact ih x' h (hQ _ _ _ (by rw [sr3Inner_zeroCol A b el hel j hz]; exact hx) hx')
  | case2 x xprev it hg =>
    rw [practicalLoop, dif_neg hg] at h
    cases h
    exact hx

/-- A practical fit is a run of the loop. -/
theorem linFit_practical {M : LinModelCfg} {el : ℝ} (hs : M.sr3 = some (el, true)) {P : LinProblem ℝ} (hcm : P.c = 1) {x0 : Option (Vec ℝ P.n)} {warm : Bool} {w : Option (Vec ℝ P.n)} {x : Vec ℝ P.n}
    {Lf : Logger (PyVal ℝ P.n)} (h : linFit M P x0 warm w = .ok (x, Lf)) :
    practicalLoop P.a P.b 1 el (M.regularizer P.n (w.getD fun _ => 1)) M.tol M.maxIter (fitStart x0 warm) none 0 = .ok x := by
  unfold linFit at h
  simp only [hs] at h
  cases hpr : M.prior with
  | gaussian p => simp only [hpr] at h; cases h
  | none =>
    simp only [hpr] at h
    by_cases hd : (sr3H P.a P.c el).det = 0
    · rw [if_pos hd] at h; cases h
    rw [if_neg hd] at h
    simp only [if_true] at h
    obtain ⟨⟨⟨y, Ly⟩, sy⟩, hy, h⟩ := except_bind_ok.1 h
    obtain ⟨Lz, -, h⟩ := except_bind_ok.1 h
    cases h
    unfold fakeOptimize at hy
    obtain ⟨z, s1, hz, hy⟩ := bind_ok.1 hy
    obtain ⟨L1, s2, -, hy⟩ := bind_ok.1 hy
    obtain ⟨L2, s3, -, hy⟩ := bind_ok.1 hy
    obtain ⟨he, -⟩ := pure_ok.1 hy
    cases he
    have h2 := (callReg_ok.1 hz).1
    unfold findOptimalParameters at h2
    by_cases hel : el = 0
    · rw [if_pos hel] at h2; cases h2
    rw [if_neg hel, hcm] at h2
    exact h2

/-- The coefficient of a feature without data is changed by the proximal operator only. -/
theorem zeroCol_sr3_inv (M : LinModelCfg) (el : ℝ) (hel : 0 < el) (prac : Bool) (hs : M.sr3 = some (el, prac)) (P : LinProblem ℝ) (hcm : P.c = 1) (j : Fin P.n) (hz : ∀ r, P.a r j = 0)
    (x0 : Option (Vec ℝ P.n)) (warm : Bool) (w : Option (Vec ℝ P.n))
    (Q : ℝ → Prop) (hQ0 : Q (fitStart x0 warm j)) (hQ : ∀ y step z, Q (y j) → (M.regularizer P.n (w.getD fun _ => 1)).prox y step = .ok z → Q (z j))
    (x : Vec ℝ P.n) (Lf : Logger (PyVal ℝ P.n)) (h : linFit M P x0 warm w = .ok (x, Lf)) : Q (x j) := by
  cases prac with
  | true => exact practicalLoop_zeroCol P.a P.b el hel j hz _ Q hQ _ _ _ _ _ _ (linFit_practical hs hcm h) hQ0
  | false =>
    unfold linFit at h
    simp only [hs, hcm] at h
    cases hm : M.prior with
    | gaussian params => rw [hm] at h; cases h
    | none =>
      rw [hm] at h
      simp only at h
      by_cases hdet : (sr3H P.a 1 el).det = 0
      · rw [if_pos hdet] at h; cases h
      rw [if_neg hdet] at h
      simp only [Bool.false_eq_true, if_false] at h
      obtain ⟨⟨⟨x', Ly⟩, sy⟩, hy, h⟩ := except_bind_ok.1 h
      obtain ⟨Lz, hLz, h⟩ := except_bind_ok.1 h
      cases h
      refine (pgdOptimize_inv (fun x => Q (x j)) (fun _ => True) (fun _ _ _ _ _ _ _ => trivial) (fun y s g s' hy _ hg => ⟨trivial, fun step z hp => ?_⟩) hQ0 trivial hy).1
      refine hQ _ step z ?_ hp
      rw [sr3Oracle_grad _ _ _ hel.le] at hg
      have e : g = sr3Gradient P.a P.b 1 el y := (Prod.mk.inj (Except.ok.inj hg)).1.symm
      show Q (y j + step * -g j)
      have e2 : g j = 0 := by
        rw [e, sr3Gradient_eq _ _ _ hel]
        show el * (y j - sr3Inner P.a P.b 1 el y j) = 0
        rw [sr3Inner_zeroCol _ _ _ hel j hz, sub_self, mul_zero]
      rw [e2, neg_zero, mul_zero, add_zero]
      exact hy

/-- **C200**, violated by `SimpleLinearModelSR3` in both modes: a feature that is zero in all observations keeps its starting value, which is one by default. -/
theorem C200_simple_violated (M : LinModelCfg) (el : ℝ) (hel : 0 < el) (prac : Bool) (hs : M.sr3 = some (el, prac)) (P : LinProblem ℝ) (hcm : P.c = 1) (w : Option (Vec ℝ P.n))
    (hreg : M.regularizer P.n (w.getD fun _ => 1) = dummyRegularizer) (j : Fin P.n) (hz : ∀ r, P.a r j = 0) (x0 : Option (Vec ℝ P.n)) (warm : Bool) (x : Vec ℝ P.n) (Lf : Logger (PyVal ℝ P.n))
    (h : linFit M P x0 warm w = .ok (x, Lf)) : x j = (if warm then x0.getD fun _ => 1 else fun _ => 1) j := by
  refine zeroCol_sr3_inv M el hel prac hs P hcm j hz x0 warm w (fun v => v = fitStart x0 warm j) rfl (fun y step z hy hp => ?_) x Lf h
  rw [hreg] at hp
  cases hp
  exact hy

/-- **C200**, violated by `LinearCADModelSR3` with `rho < 1` in both modes: the default starting value lies above the threshold and stays. -/
theorem C200_cad_violated (M : LinModelCfg) (el : ℝ) (hel : 0 < el) (prac : Bool) (hs : M.sr3 = some (el, prac)) (P : LinProblem ℝ) (hcm : P.c = 1) (w : Option (Vec ℝ P.n)) (rho lam : ℝ) (hrho : rho < 1)
    (hreg : M.regularizer P.n (w.getD fun _ => 1) = cadRegularizer rho lam (some (w.getD fun _ => 1))) (j : Fin P.n) (hz : ∀ r, P.a r j = 0) (x : Vec ℝ P.n) (Lf : Logger (PyVal ℝ P.n))
    (h : linFit M P none false w = .ok (x, Lf)) : x j = 1 := by
  refine zeroCol_sr3_inv M el hel prac hs P hcm j hz none false w (fun v => v = 1) rfl (fun y step z hy hp => ?_) x Lf h
  rw [hreg] at hp
  cases hp
  dsimp only
  rw [hy, abs_one, if_neg (fun h => absurd h.1 (not_le.2 hrho))]

/-- **C200** for converged fits of `LinearL1ModelSR3` in the exact mode: a penalty above the stopping error makes the coefficient exactly zero.
Missing: the models without penalty, CAD (violated) and the other penalties. -/
theorem C200_l1_partial (M : LinModelCfg) (el : ℝ) (hel : 0 < el) (hs : M.sr3 = some (el, false)) (P : LinProblem ℝ) (hcm : P.c = 1) (x0 : Option (Vec ℝ P.n)) (warm : Bool) (w : Option (Vec ℝ P.n))
    (lam : ℝ) (hreg : M.regularizer P.n (w.getD fun _ => 1) = l1Regularizer lam (some (w.getD fun _ => 1))) (hlam : 0 ≤ lam) (hw : ∀ i, 0 ≤ (w.getD fun _ => 1) i) (hr : StepRule M.solver el)
    (x : Vec ℝ P.n) (Lf : Logger (PyVal ℝ P.n)) (h : linFit M P x0 warm w = .ok (x, Lf)) (hc : Lf.get "converged" = .ok (.atom (.bool true)))
    (j : Fin P.n) (hz : ∀ r, P.a r j = 0) (hpen : M.tol * (1 / stepFloor M.solver el + el) < lam * (w.getD fun _ => 1) j) : x j = 0 := by
  obtain ⟨-, v, hv, hst⟩ := C152_stationary M el hel hs P hcm (lt_of_le_of_lt (Nat.zero_le _) j.2) x0 warm w lam (Or.inr ⟨hreg, hlam, hw⟩) hr x Lf h hc
  obtain ⟨z, -, hp, hm, hk⟩ := hst j
  rw [← hv j, Finset.sum_eq_zero fun r _ => by rw [hz r, zero_mul], zero_sub, abs_neg] at hk
  by_contra hne
  have h1 : |z| = 1 := by
    rcases lt_or_gt_of_ne hne with h2 | h2
    · rw [hm h2, abs_neg, abs_one]
    · rw [hp h2, abs_one]
  rw [abs_mul, h1, mul_one, abs_of_nonneg (mul_nonneg hlam (hw j))] at hk
  linarith

theorem soft_dichotomy (t x : ℝ) (ht : 0 ≤ t) : soft t x = 0 ∨ (|soft t x| = |x| - t ∧ |soft t x - x| = t) := by
  unfold soft clip0
  rcases le_total x 0 with h | h
  · rw [max_eq_right (by linarith), abs_of_nonpos h]
    rcases le_total (-x - t) 0 with h2 | h2
    · left; rw [max_eq_right h2]; ring
    · right
      rw [max_eq_left h2]
      refine ⟨?_, ?_⟩
      · rw [zero_sub, abs_neg, abs_of_nonneg h2]
      · rw [show 0 - (-x - t) - x = t by ring, abs_of_nonneg ht]
  · rw [max_eq_right (by linarith : -x - t ≤ 0), abs_of_nonneg h]
    rcases le_total (x - t) 0 with h2 | h2
    · left; rw [max_eq_right h2]; ring
    · right
      rw [max_eq_left h2]
      refine ⟨?_, ?_⟩
      · rw [sub_zero, abs_of_nonneg h2]
      · rw [show x - t - 0 - x = -t by ring, abs_neg, abs_of_nonneg ht]

theorem practicalLoop_l1_zeroCol {m n : ℕ} (A : Matrix (Fin m) (Fin n) ℝ) (b : Vec ℝ m) (el : ℝ) (hel : 0 < el) (j : Fin n) (hz : ∀ r, A r j = 0) (lam : ℝ) (w : Vec ℝ n) (s a : ℝ)
    (hse : s = 1 / el * w j * lam) (hs0 : 0 < s) (tol : ℝ) (htol : tol < s) (maxIter : ℤ) (ha : a ≤ maxIter * s) (x : Vec ℝ n) (xprev : Option (Vec ℝ n)) (it : ℕ) (xf : Vec ℝ n)
    (h : practicalLoop A b 1 el (l1Regularizer lam (some w)) tol maxIter x xprev it = .ok xf)
    (hx : x j = 0 ∨ (|x j| ≤ a - it * s ∧ farApart tol xprev x)) : xf j = 0 := by
  induction x, xprev, it using practicalLoop.induct (tol := tol) (maxIter := maxIter) with
  | case1 x xprev it hg ih =>
    rw [practicalLoop, dif_pos hg] at h
    obtain ⟨x', hx', h⟩ := except_bind_ok.1 h
    refine ih x' h ?_
    have e : x' j = soft s (x j) := by
      rw [← congrFun (Except.ok.inj hx') j]
      show soft (1 / el * w j * lam) (sr3Inner A b 1 el x j) = _
      rw [sr3Inner_zeroCol A b el hel j hz, hse]
    rcases hx with hx | ⟨hx, -⟩
    · left
      rw [e, hx]
      unfold soft clip0
      rw [neg_zero, sub_self]
    · rcases soft_dichotomy s (x j) hs0.le with h1 | ⟨h1, h2⟩
      · exact .inl (e.trans h1)
      · right
        refine ⟨?_, ?_⟩
        · rw [e, h1]
          push_cast
          linarith
        · rcases lt_or_ge tol 0 with ht | ht
          · exact .inl ht
          · right
            refine lt_of_lt_of_le (pow_lt_pow_left₀ htol ht two_ne_zero) ?_
            rw [← h2, sq_abs, ← e]
            show (x' j - x j) ^ 2 ≤ ∑ i, (x' i - x i) ^ 2
            exact Finset.single_le_sum (f := fun i => (x' i - x i) ^ 2) (fun i _ => sq_nonneg _) (Finset.mem_univ j)
  | case2 x xprev it hg =>
    rw [practicalLoop, dif_neg hg] at h
    cases h
    rcases hx with hx | ⟨hx, hf⟩
    · exact hx
    · have hle : maxIter ≤ it := not_lt.1 fun hlt => hg ⟨hf, hlt⟩
      have hle' : (maxIter : ℝ) ≤ it := by exact_mod_cast hle
      have := mul_le_mul_of_nonneg_right hle' hs0.le
      exact abs_eq_zero.1 (le_antisymm (by linarith) (abs_nonneg _))

/-- **C200** for `LinearL1ModelSR3` in the practical mode, whether or not it converges: if the shrinkage `lam w_j / el` of one iteration exceeds the tolerance and the iteration limit is enough to bring
the start to zero, the coefficient is exactly zero. -/
theorem C200_l1_practical_partial (M : LinModelCfg) (el : ℝ) (hel : 0 < el) (hs : M.sr3 = some (el, true)) (P : LinProblem ℝ) (hcm : P.c = 1) (x0 : Option (Vec ℝ P.n)) (warm : Bool) (w : Option (Vec ℝ P.n))
    (lam : ℝ) (hreg : M.regularizer P.n (w.getD fun _ => 1) = l1Regularizer lam (some (w.getD fun _ => 1))) (x : Vec ℝ P.n) (Lf : Logger (PyVal ℝ P.n)) (h : linFit M P x0 warm w = .ok (x, Lf))
    (j : Fin P.n) (hz : ∀ r, P.a r j = 0) (hpos : 0 < lam * (w.getD fun _ => 1) j) (hpen : M.tol < lam * (w.getD fun _ => 1) j / el)
    (hmax : |(if warm then x0.getD fun _ => 1 else fun _ => 1) j| ≤ M.maxIter * (lam * (w.getD fun _ => 1) j / el)) : x j = 0 := by
  have h2 := linFit_practical hs hcm h
  rw [hreg] at h2
  refine practicalLoop_l1_zeroCol P.a P.b el hel j hz lam (w.getD fun _ => 1) (lam * (w.getD fun _ => 1) j / el) _ (by ring) (div_pos hpos hel) M.tol hpen M.maxIter hmax _ _ _ _ h2 (.inr ⟨?_, ?_⟩)
  · rw [Nat.cast_zero, zero_mul, sub_zero]
    exact le_rfl
  · exact .inl (lt_of_le_of_lt (Nat.zero_le _) j.2)

/-- **C200** on one observation of two features of which the first is zero: `SimpleLinearModelSR3()` and `LinearCADModelSR3(lam=1, rho=0.3)` report the coefficient one in both modes,
`LinearL1ModelSR3(lam=1)` with practical=True reports zero. -/
example (prac : Bool) : (∃ x Lf, linFit (linClass .dummy true { practical := prac }) emptyFeature none false none = .ok (x, Lf) ∧ x (0 : Fin 2) = 1) ∧
    (∃ x Lf, linFit (linClass (.cad 1 (3 / 10)) true { practical := prac }) emptyFeature none false none = .ok (x, Lf) ∧ x (0 : Fin 2) = 1) ∧
    ∃ x Lf, linFit (linClass (.l1 1) true { practical := true }) emptyFeature none false none = .ok (x, Lf) ∧ x (0 : Fin 2) = 0 := by
  have hz : ∀ r : Fin 1, emptyFeature.a r (0 : Fin 2) = 0 := fun r => by
    rw [Subsingleton.elim r 0]
    rfl
  obtain ⟨x, L, h⟩ := C110_returns_partial .dummy true { practical := prac } rfl rfl (by simp) (fun _ => one_pos) emptyFeature rfl none false none trivial
  obtain ⟨x', L', h'⟩ := C110_returns_partial (.cad 1 (3 / 10)) true { practical := prac } rfl rfl (by simp) (fun _ => one_pos) emptyFeature rfl none false none trivial
  obtain ⟨x'', L'', h''⟩ := C110_returns_partial (.l1 1) true { practical := true } rfl rfl (by simp) (fun _ => one_pos) emptyFeature rfl none false none trivial
  refine ⟨⟨x, L, h, C200_simple_violated (linClass .dummy true { practical := prac }) 1 one_pos prac rfl emptyFeature rfl none rfl (0 : Fin 2) hz none false x L h⟩,
    ⟨x', L', h', C200_cad_violated (linClass (.cad 1 (3 / 10)) true { practical := prac }) 1 one_pos prac rfl emptyFeature rfl none (3 / 10) 1 (by norm_num) rfl (0 : Fin 2) hz x' L' h'⟩,
    x'', L'', h'', C200_l1_practical_partial (linClass (.l1 1) true { practical := true }) 1 one_pos rfl emptyFeature rfl none false none 1 rfl x'' L'' h'' (0 : Fin 2) hz ?_ ?_ ?_⟩
  · show (0 : ℝ) < 1 * 1
    norm_num
  · show (1 / 10 ^ 5 : ℝ) < 1 * 1 / 1
    norm_num
  · show |(1 : ℝ)| ≤ ((1000 : ℤ) : ℝ) * (1 * 1 / 1)
    norm_num

/-- **C200** for the exact mode: with a large enough iteration limit the fit of `LinearL1ModelSR3(lam=1, el=10)` converges, with coefficient zero. -/
example : ∃ (N : ℤ) (x : Vec ℝ 2) (Lf : Logger (PyVal ℝ 2)), linFit (sr3Model N) emptyFeature none false none = .ok (x, Lf) ∧ x 0 = 0 := by
  have hz : ∀ r : Fin 1, emptyFeature.a r (0 : Fin 2) = 0 := fun r => by
    rw [Subsingleton.elim r 0]
    rfl
  obtain ⟨N, hN⟩ := exists_nat_gt (1 + 2 * (1 / 10) * lassoObjective emptyFeature.a emptyFeature.b 1 (fun _ => 1) (fun _ => 1) / (1 / 10 ^ 5) ^ 2)
  obtain ⟨x, Lf, h, hc⟩ := C104_converges_sr3 (sr3Model N) 10 (by norm_num) rfl rfl rfl (by simp [sr3Model, lassoModel]) emptyFeature rfl none false none 1
    (Or.inr ⟨rfl, zero_le_one, fun _ => zero_le_one⟩) (sr3Model_rule _) (by norm_num [sr3Model, lassoModel]) (by
      have e : (sr3Model N).step = 1 / 10 := by norm_num [sr3Model, lassoModel, LinModelCfg.step]
      rw [e]
      simpa [sr3Model, lassoModel, fitStart] using hN)
  refine ⟨N, x, Lf, h, C200_l1_partial (sr3Model N) 10 (by norm_num) rfl emptyFeature rfl none false none 1 rfl zero_le_one (fun _ => zero_le_one) (sr3Model_rule N) x Lf h hc (0 : Fin 2) hz ?_⟩
  rw [sr3Model_floor]
  show (1 / 10 ^ 5 : ℝ) * (1 / (1 / 20) + 10) < 1 * 1
  norm_num

end

end Verif
