import Verif.Props.LmeCurv
import Verif.Props.LmeDescent
import Verif.Props.LmeTrap
import Verif.Props.Converge

/-!
# C124, C125: fits of plain mixed-effects models stop, near a stationary point
-/

open Matrix

namespace Verif

/-! ## The solver on problems that are not convex -/

section Solver

variable {n : ℕ} {σ : Type} {o : Oracle ℝ n σ} {R : Regularizer ℝ n}

/-- The line search, when every step of at most `1/L` is accepted. -/
theorem lineSearch_floor {x d : Vec ℝ n} {step0 L : ℝ} (hL : 0 < L)
    (hacc : ∀ t z fz fx s1 s2 s3 s4, 0 < t → t ≤ step0 → t ≤ 1 / L → R.prox (x + t • d) t = .ok z → o.value z s1 = .ok (fz, s2) → o.value x s3 = .ok (fx, s4) → Accept fz fx x d z t)
    {step t : ℝ} (hs : 0 < step) (hs0 : step ≤ step0) {s s' : σ} (h : lineSearch o R x d step s = .ok (t, s')) :
    min step (1 / (2 * L)) ≤ t ∧ 0 < t ∧ t ≤ step := by
  induction step using lineSearch.induct (K := ℝ) generalizing s with
  | case1 step hstep ih =>
    rw [lineSearch, dif_pos hstep] at h
    obtain ⟨z, s1, hz, h1⟩ := bind_ok.1 h
    obtain ⟨fz, s2, hfz, h2⟩ := bind_ok.1 h1
    obtain ⟨fx, s3, hfx, h3⟩ := bind_ok.1 h2
    obtain ⟨hz, -⟩ := callReg_ok.1 hz
    by_cases hac : Accept fz fx x d z step
    · rw [if_pos hac] at h3
      obtain ⟨rfl, rfl⟩ := pure_ok.1 h3
      exact ⟨min_le_left _ _, hs, le_rfl⟩
    · rw [if_neg hac] at h3
      obtain ⟨a1, a2, a3⟩ := ih (by linarith) (by linarith) h3
      have h4 : 1 / L < step := by
        by_contra hc
        exact hac (hacc _ _ _ _ _ _ _ _ hs hs0 (not_lt.1 hc) hz hfz hfx)
      refine ⟨le_trans ?_ a1, a2, by linarith⟩
      have e2 : 1 / (2 * L) = 1 / L / 2 := by rw [div_div, mul_comm]
      refine le_min ?_ (min_le_right _ _)
      refine (min_le_right _ _).trans ?_
      rw [e2]
      linarith
  | case2 step hstep =>
    rw [lineSearch, dif_neg hstep] at h
    obtain ⟨rfl, rfl⟩ := pure_ok.1 h
    exact ⟨min_le_left _ _, hs, le_rfl⟩

/-- Proximal steps of a penalty whose curvature is at least `-κ` on a convex set. -/
theorem prox_three_point_weak {A : Vec ℝ n → Prop} (hA : ∀ u v : Vec ℝ n, ∀ s : ℝ, A u → A v → 0 ≤ s → s ≤ 1 → A fun i => u i + s * (v i - u i))
    {pen : Vec ℝ n → ℝ} {κ : ℝ} (hpen : ∀ u v : Vec ℝ n, ∀ s : ℝ, A u → A v → 0 ≤ s → s ≤ 1 →
      pen (fun i => u i + s * (v i - u i)) ≤ pen u + s * (pen v - pen u) + κ / 2 * (s * (1 - s)) * normSq (v - u))
    {t : ℝ} (ht : 0 < t) {y z : Vec ℝ n} (hz : A z) (hmin : ∀ u, A u → t * pen z + normSq (z - y) / 2 ≤ t * pen u + normSq (u - y) / 2) (u : Vec ℝ n) (hu : A u) :
    0 ≤ t * (pen u - pen z) + (∑ i, (z i - y i) * (u i - z i)) + t * κ / 2 * normSq (u - z) := by
  set B := normSq (u - z) with hB
  set C := ∑ i, (z i - y i) * (u i - z i) with hC
  have hs : ∀ s, 0 < s → s ≤ 1 → 0 ≤ (t * (pen u - pen z) + C + t * κ / 2 * B) + s * (B / 2 - t * κ / 2 * B) := by
    intro s hs0 hs1
    have h1 := hmin _ (hA z u s hz hu hs0.le hs1)
    have h2 := mul_le_mul_of_nonneg_left (hpen z u s hz hu hs0.le hs1) ht.le
    have e2 : normSq ((fun i => z i + s * (u i - z i)) - y) = normSq (z - y) + 2 * s * C + s ^ 2 * B := by
      simp only [hB, hC, normSq, Pi.sub_apply, Finset.mul_sum, ← Finset.sum_add_distrib]
      exact Finset.sum_congr rfl fun i _ => by ring
    rw [e2] at h1
    rw [← hB] at h2
    have h3 : 0 ≤ s * ((t * (pen u - pen z) + C + t * κ / 2 * B) + s * (B / 2 - t * κ / 2 * B)) := by nlinarith
    exact nonneg_of_mul_nonneg_right h3 hs0
  by_contra hneg
  push Not at hneg
  set a := t * (pen u - pen z) + C + t * κ / 2 * B with ha
  set b := B / 2 - t * κ / 2 * B with hb
  rcases le_or_gt b 0 with hb0 | hb0
  · have := hs 1 one_pos le_rfl
    linarith
  · have hpos : 0 < -a / (2 * b) := div_pos (by linarith) (by linarith)
    have h1 := hs (min 1 (-a / (2 * b))) (lt_min one_pos hpos) (min_le_left _ _)
    have h2 : min 1 (-a / (2 * b)) * b ≤ -a / 2 := by
      calc min 1 (-a / (2 * b)) * b ≤ -a / (2 * b) * b := mul_le_mul_of_nonneg_right (min_le_right _ _) hb0.le
        _ = -a / 2 := by field_simp
    linarith

/-- What the solver does when the smooth part has curvature at most `L` below the starting objective and the penalty has curvature at least `-κ`: the objective decreases, the number
of iterations is bounded, and a run that stops by its tolerance ends at a point that no other point beats by more than first order in the tolerance. -/
theorem pgd_nonconvex {A : Vec ℝ n → Prop} (hA : ∀ u v : Vec ℝ n, ∀ s : ℝ, A u → A v → 0 ≤ s → s ≤ 1 → A fun i => u i + s * (v i - u i))
    {f pen : Vec ℝ n → ℝ} {gr : Vec ℝ n → Vec ℝ n} {κ L F0 : ℝ}
    (hpen : ∀ u v : Vec ℝ n, ∀ s : ℝ, A u → A v → 0 ≤ s → s ≤ 1 →
      pen (fun i => u i + s * (v i - u i)) ≤ pen u + s * (pen v - pen u) + κ / 2 * (s * (1 - s)) * normSq (v - u))
    (hval : ∀ x s v s', o.value x s = .ok (v, s') → v = f x) (hgrad : ∀ x s v s', o.grad x s = .ok (v, s') → v = gr x)
    {cfg : PGDCfg ℝ} (hr : StepRule cfg L) (hκs : cfg.fixedStepLen * κ < 1)
    (hprox : ∀ y t z, 0 < t → t ≤ cfg.fixedStepLen → R.prox y t = .ok z → A z ∧ ∀ u, A u → t * pen z + normSq (z - y) / 2 ≤ t * pen u + normSq (u - y) / 2)
    (hcurv : ∀ x z, A x → f x + pen x ≤ F0 → A z → f z ≤ f x + (∑ i, gr x i * (z i - x i)) + L / 2 * ∑ i, (z i - x i) ^ 2)
    {x0 : Vec ℝ n} (hx0 : A x0) (hF0 : f x0 + pen x0 ≤ F0) {Lg : Logger (PyVal ℝ n)}
    {s s' : σ} {x : Vec ℝ n} {Lf : Logger (PyVal ℝ n)} (h : pgdOptimize o R cfg x0 Lg s = .ok ((x, Lf), s')) :
    ∃ k : ℕ, Lf.get "converged" = .ok (.atom (.bool (decide ((k : ℤ) < cfg.maxIter)))) ∧ Lf.get "iteration" = .ok (.atom (.int k)) ∧
      A x ∧ f x + pen x ≤ f x0 + pen x0 ∧
      (0 < cfg.tol → ∀ B, (∀ z, A z → B ≤ f z + pen z) → ((k : ℝ) - 1) * cfg.tol ^ 2 * (1 - cfg.fixedStepLen * κ) ≤ 2 * cfg.fixedStepLen * (F0 - B)) ∧
      ((k : ℤ) < cfg.maxIter → 0 < n → ∀ ρ, 0 ≤ ρ → (∀ x z, A x → A z → f x + (∑ i, gr x i * (z i - x i)) - ρ / 2 * ∑ i, (z i - x i) ^ 2 ≤ f z) →
        ∀ u, A u → f x + pen x ≤ f u + pen u + cfg.tol / stepFloor cfg L * √(normSq (u - x)) + κ / 2 * normSq (u - x)
          + ρ / 2 * (√(normSq (u - x)) + cfg.tol) ^ 2 + L / 2 * cfg.tol ^ 2) ∧
      ((k : ℤ) < cfg.maxIter → 0 < n → ∃ xp t, A xp ∧ f xp + pen xp ≤ f x0 + pen x0 ∧ 0 ≤ cfg.tol ∧ normSq (x - xp) ≤ cfg.tol ^ 2 ∧ stepFloor cfg L ≤ t ∧ 0 < t ∧
        ∀ u, A u → 0 ≤ t * (pen u - pen x) + (∑ i, (x i - (xp i - t * gr xp i)) * (u i - x i)) + t * κ / 2 * normSq (u - x)) := by
  have hfl := stepFloor_pos hr
  obtain ⟨hs, hL, hr'⟩ := hr
  obtain ⟨k, X, Ls, s1, L1, -, h0, hk, hc, hit, hsteps, hguards, hend⟩ := pgdOptimize_trace o R cfg x0 Lg
    (fun x _ x' _ => A x → f x + pen x ≤ F0 → A x' ∧ ∃ t, stepFloor cfg L ≤ t ∧ 0 < t ∧ t ≤ cfg.fixedStepLen ∧
      f x' + pen x' + (1 - cfg.fixedStepLen * κ) / (2 * cfg.fixedStepLen) * normSq (x' - x) ≤ f x + pen x ∧
      ∀ u, A u → 0 ≤ t * (pen u - pen x') + (∑ i, (x' i - (x i - t * gr x i)) * (u i - x' i)) + t * κ / 2 * normSq (u - x'))
    (fun x it L' s x' L'' s' hbd hAx hFx => by
      obtain ⟨gv, s1, t, s2, hgv, hst, hpx, -⟩ := pgdBody_ok _ _ _ _ _ _ _ _ _ _ _ hbd
      have := hgrad _ _ _ _ hgv
      subst this
      have hsd : ∀ t z, 0 < t → t ≤ 1 / L → A z → SufficientDecrease f (fun i => - gr x i) t x z := by
        intro t z ht htL hz
        unfold SufficientDecrease
        have h1 := hcurv x z hAx hFx hz
        have h2 : L / 2 ≤ 1 / (2 * t) := by
          rw [div_le_div_iff₀ (by norm_num) (by positivity)]
          rw [le_div_iff₀ hL] at htL
          linarith
        have h3 : 0 ≤ ∑ i, (z i - x i) ^ 2 := Finset.sum_nonneg fun i _ => sq_nonneg _
        have h4 := mul_le_mul_of_nonneg_right h2 h3
        have e1 : (∑ i, -gr x i * (z i - x i)) = -∑ i, gr x i * (z i - x i) := by
          rw [← Finset.sum_neg_distrib]
          exact Finset.sum_congr rfl fun i _ => by ring
        rw [e1, div_eq_mul_inv]
        rw [one_div] at h4
        linarith
      have hmv : ∀ t : ℝ, x + t • -gr x = fun i => x i - t * gr x i := by
        intro t
        funext i
        simp [sub_eq_add_neg]
      have hto : ∀ t z, SufficientDecrease f (fun i => - gr x i) t x z → Accept (f z) (f x) x (-gr x) z t := by
        intro t z hsd
        unfold Accept
        unfold SufficientDecrease at hsd
        refine hsd.trans (le_of_eq ?_)
        simp only [dot, normSq, Pi.sub_apply, Pi.neg_apply]
        ring
      have hfrom : ∀ t z, Accept (f z) (f x) x (-gr x) z t → SufficientDecrease f (fun i => - gr x i) t x z := by
        intro t z hac
        unfold Accept at hac
        unfold SufficientDecrease
        refine hac.trans (le_of_eq ?_)
        simp only [dot, normSq, Pi.sub_apply, Pi.neg_apply]
        ring
      obtain ⟨hlo, htp, hhi, hdec⟩ : stepFloor cfg L ≤ t ∧ 0 < t ∧ t ≤ cfg.fixedStepLen ∧ SufficientDecrease f (fun i => - gr x i) t x x' := by
        unfold chooseStep at hst
        unfold stepFloor
        split_ifs at hst hr' ⊢ with hls
        · obtain ⟨a1, a2, a3⟩ := lineSearch_floor (step0 := cfg.fixedStepLen) hL (fun t z fz fx s1 s2 s3 s4 ht ht0 htL hz hfz hfx => by
            rw [hval _ _ _ _ hfz, hval _ _ _ _ hfx]
            exact hto _ _ (hsd t z ht htL (hprox _ _ _ ht ht0 hz).1)) hs le_rfl hst
          refine ⟨a1, a2, a3, ?_⟩
          rcases (lineSearch_ok hst).2 with hsm | ⟨z, fz, fx, b1, b2, b3, b4, hz, hfz, hfx, hac⟩
          · exact hsd _ _ a2 (hsm.trans (one_div_le_one_div_of_le hL hr')) (hprox _ _ _ a2 a3 hpx).1
          · rw [hmv, hpx] at hz
            cases hz
            rw [hval _ _ _ _ hfz, hval _ _ _ _ hfx] at hac
            exact hfrom _ _ hac
        · obtain ⟨rfl, -⟩ := pure_ok.1 hst
          exact ⟨le_rfl, hs, le_rfl, hsd _ _ hs hr' (hprox _ _ _ hs le_rfl hpx).1⟩
      obtain ⟨hAx', hmin⟩ := hprox _ _ _ htp hhi hpx
      have h3 := fun u hu => prox_three_point_weak hA hpen htp hAx' hmin u hu
      refine ⟨hAx', t, hlo, htp, hhi, ?_, h3⟩
      have h4 := h3 x hAx
      have e1 : ∑ i, (x' i - (x i - t * gr x i)) * (x i - x' i) = -normSq (x' - x) - t * ∑ i, gr x i * (x' i - x i) := by
        simp only [normSq, Pi.sub_apply, Finset.mul_sum, ← Finset.sum_neg_distrib, ← Finset.sum_sub_distrib]
        exact Finset.sum_congr rfl fun i _ => by ring
      have e2 : normSq (x - x') = normSq (x' - x) := by
        simp only [normSq, Pi.sub_apply]
        exact Finset.sum_congr rfl fun i _ => by ring
      rw [e1, e2] at h4
      unfold SufficientDecrease at hdec
      have e3 : (∑ i, -gr x i * (x' i - x i)) = -∑ i, gr x i * (x' i - x i) := by
        rw [← Finset.sum_neg_distrib]
        exact Finset.sum_congr rfl fun i _ => by ring
      have e4 : ∑ i, (x' i - x i) ^ 2 = normSq (x' - x) := rfl
      rw [e3, e4] at hdec
      have hN : 0 ≤ normSq (x' - x) := Finset.sum_nonneg fun i _ => sq_nonneg _
      have h5 : pen x' + (∑ i, gr x i * (x' i - x i)) + (1 / t - κ / 2) * normSq (x' - x) ≤ pen x := by
        have h6 : 0 ≤ t * (pen x - pen x' - (∑ i, gr x i * (x' i - x i)) - (1 / t - κ / 2) * normSq (x' - x)) := by
          have : t * (pen x - pen x' - (∑ i, gr x i * (x' i - x i)) - (1 / t - κ / 2) * normSq (x' - x))
              = t * (pen x - pen x') + (-normSq (x' - x) - t * ∑ i, gr x i * (x' i - x i)) + t * κ / 2 * normSq (x' - x) := by
            field_simp
            ring
          rw [this]
          exact h4
        have := nonneg_of_mul_nonneg_right h6 htp
        linarith
      have h7 : (1 - cfg.fixedStepLen * κ) / (2 * cfg.fixedStepLen) ≤ 1 / t - κ / 2 - 1 / (2 * t) := by
        have h8 : 1 / (2 * cfg.fixedStepLen) ≤ 1 / (2 * t) := one_div_le_one_div_of_le (by linarith) (by linarith)
        have e5 : (1 - cfg.fixedStepLen * κ) / (2 * cfg.fixedStepLen) = 1 / (2 * cfg.fixedStepLen) - κ / 2 := by
          field_simp
        have e6 : 1 / t = 1 / (2 * t) + 1 / (2 * t) := by
          field_simp
          norm_num
        rw [e5, e6]
        linarith
      have h9 := mul_le_mul_of_nonneg_right h7 hN
      have e7 : normSq (x' - x) / (2 * t) = 1 / (2 * t) * normSq (x' - x) := by ring
      rw [e7] at hdec
      linarith) s s' x Lf h
  have hκ' : 0 ≤ (1 - cfg.fixedStepLen * κ) / (2 * cfg.fixedStepLen) := div_nonneg (by linarith) (by linarith)
  have hN : ∀ v : Vec ℝ n, 0 ≤ normSq v := fun v => Finset.sum_nonneg fun i _ => sq_nonneg _
  have hinv : ∀ i ≤ k, A (X i) ∧ f (X i) + pen (X i) ≤ f x0 + pen x0 := by
    intro i
    induction i with
    | zero => exact fun _ => by rw [h0]; exact ⟨hx0, le_rfl⟩
    | succ i ih =>
      intro hi
      obtain ⟨h1, h2⟩ := ih (by omega)
      obtain ⟨h3, t, -, -, -, h4, -⟩ := hsteps i (by omega) h1 (h2.trans hF0)
      exact ⟨h3, by linarith [mul_nonneg hκ' (hN (X (i + 1) - X i))]⟩
  have hst : ∀ i < k, _ := fun i hi => hsteps i hi (hinv i hi.le).1 ((hinv i hi.le).2.trans hF0)
  refine ⟨k, ?_, (Logger.add_get hit).1, hk ▸ (hinv k le_rfl).1, hk ▸ (hinv k le_rfl).2, fun htol B hB => ?_, fun hlt hn ρ hρ htan u hu => ?_, fun hlt hn => ?_⟩
  · rw [(Logger.add_get hit).2 _ (by decide)]
    exact (Logger.add_get hc).1
  · have hen : ∀ i, i < k → (i : ℝ) * (cfg.tol ^ 2 * ((1 - cfg.fixedStepLen * κ) / (2 * cfg.fixedStepLen))) ≤ F0 - (f (X i) + pen (X i)) := by
      intro i
      induction i with
      | zero => intro _; rw [h0]; simpa using hF0
      | succ i ih =>
        intro hi
        have h1 := ih (by omega)
        obtain ⟨h3, t, -, -, -, h4, -⟩ := hst i (by omega)
        have h5 : cfg.tol ^ 2 < normSq (X (i + 1) - X i) := by
          rcases (hguards (i + 1) hi).1 with h6 | h6
          · exact absurd h6 (not_lt.2 htol.le)
          · exact h6
        have := mul_le_mul_of_nonneg_right h5.le hκ'
        push_cast
        linarith
    have hle : ((k : ℝ) - 1) * (cfg.tol ^ 2 * ((1 - cfg.fixedStepLen * κ) / (2 * cfg.fixedStepLen))) ≤ F0 - B := by
      rcases Nat.eq_zero_or_pos k with hk0 | hk0
      · have := hB x0 hx0
        have h1 : 0 ≤ cfg.tol ^ 2 * ((1 - cfg.fixedStepLen * κ) / (2 * cfg.fixedStepLen)) := mul_nonneg (sq_nonneg _) hκ'
        subst hk0
        push_cast
        linarith
      · have h1 := hen (k - 1) (by omega)
        have h2 := hB (X (k - 1)) (hinv (k - 1) (by omega)).1
        have e : ((k - 1 : ℕ) : ℝ) = (k : ℝ) - 1 := by
          push_cast [hk0]
          ring
        rw [e] at h1
        linarith
    have := mul_le_mul_of_nonneg_left hle (by linarith : 0 ≤ 2 * cfg.fixedStepLen)
    have e : 2 * cfg.fixedStepLen * (((k : ℝ) - 1) * (cfg.tol ^ 2 * ((1 - cfg.fixedStepLen * κ) / (2 * cfg.fixedStepLen)))) =
        ((k : ℝ) - 1) * cfg.tol ^ 2 * (1 - cfg.fixedStepLen * κ) := by
      field_simp
    rw [e] at this
    exact this
  · cases k with
    | zero => exact absurd ⟨Or.inl hn, by simpa using hlt⟩ hend
    | succ j =>
      have hfar : ¬ farApart cfg.tol (some (X j)) (X (j + 1)) := fun hf => hend ⟨hf, by simpa using hlt⟩
      simp only [farApart, not_or, not_lt] at hfar
      obtain ⟨ht0, hsq⟩ := hfar
      obtain ⟨hAx, t, hlo, htp, -, -, h3⟩ := hst j (by omega)
      obtain ⟨hAj, hFj⟩ := hinv j (by omega)
      have h4 := h3 u hu
      rw [hk] at hAx h4 hsq
      have hup := hcurv (X j) x hAj (hFj.trans hF0) hAx
      have hlow := htan (X j) u hAj hu
      set d := √(normSq (u - x)) with hd
      have hd2 : normSq (u - x) = d ^ 2 := (Real.sq_sqrt (hN _)).symm
      have hd0 : 0 ≤ d := Real.sqrt_nonneg _
      -- inner product of the last move with `u - x`
      have hcs : (∑ i, (x i - X j i) * (u i - x i)) ≤ cfg.tol * d := by
        have h2 := Finset.sum_mul_sq_le_sq_mul_sq Finset.univ (fun i => x i - X j i) (fun i => u i - x i)
        have h3 : (∑ i, (x i - X j i) * (u i - x i)) ^ 2 ≤ (cfg.tol * d) ^ 2 := by
          rw [mul_pow, ← hd2]
          exact h2.trans (mul_le_mul_of_nonneg_right hsq (hN _))
        exact (abs_le_of_sq_le_sq' h3 (by positivity)).2
      have e1 : ∑ i, (x i - (X j i - t * gr (X j) i)) * (u i - x i) = (∑ i, (x i - X j i) * (u i - x i)) + t * ∑ i, gr (X j) i * (u i - x i) := by
        rw [Finset.mul_sum, ← Finset.sum_add_distrib]
        exact Finset.sum_congr rfl fun i _ => by ring
      rw [e1] at h4
      have h5 : pen x ≤ pen u + cfg.tol * d / t + (∑ i, gr (X j) i * (u i - x i)) + κ / 2 * normSq (u - x) := by
        have h6 : 0 ≤ t * (pen u + cfg.tol * d / t + (∑ i, gr (X j) i * (u i - x i)) + κ / 2 * normSq (u - x) - pen x) := by
          have : t * (pen u + cfg.tol * d / t + (∑ i, gr (X j) i * (u i - x i)) + κ / 2 * normSq (u - x) - pen x)
              = t * (pen u - pen x) + (cfg.tol * d + t * ∑ i, gr (X j) i * (u i - x i)) + t * κ / 2 * normSq (u - x) := by
            field_simp
            ring
          rw [this]
          linarith
        have := nonneg_of_mul_nonneg_right h6 htp
        linarith
      have h7 : cfg.tol * d / t ≤ cfg.tol / stepFloor cfg L * d := by
        rw [div_mul_eq_mul_div]
        exact div_le_div_of_nonneg_left (by positivity) hfl hlo
      have e2 : ∑ i, gr (X j) i * (u i - x i) = (∑ i, gr (X j) i * (u i - X j i)) - ∑ i, gr (X j) i * (x i - X j i) := by
        rw [← Finset.sum_sub_distrib]
        exact Finset.sum_congr rfl fun i _ => by ring
      have h8 : ∑ i, (x i - X j i) ^ 2 ≤ cfg.tol ^ 2 := hsq
      have h9 : ∑ i, (u i - X j i) ^ 2 ≤ (d + cfg.tol) ^ 2 := by
        have e3 : ∑ i, (u i - X j i) ^ 2 = normSq (u - x) + 2 * (∑ i, (x i - X j i) * (u i - x i)) + ∑ i, (x i - X j i) ^ 2 := by
          simp only [normSq, Pi.sub_apply, Finset.mul_sum, ← Finset.sum_add_distrib]
          exact Finset.sum_congr rfl fun i _ => by ring
        rw [e3, hd2]
        nlinarith
      have h10 := mul_le_mul_of_nonneg_left h9 (by linarith : 0 ≤ ρ / 2)
      have h11 := mul_le_mul_of_nonneg_left h8 (by linarith : 0 ≤ L / 2)
      linarith
  · cases k with
    | zero => exact absurd ⟨Or.inl hn, by simpa using hlt⟩ hend
    | succ j =>
      have hfar : ¬ farApart cfg.tol (some (X j)) (X (j + 1)) := fun hf => hend ⟨hf, by simpa using hlt⟩
      simp only [farApart, not_or, not_lt] at hfar
      obtain ⟨ht0, hsq⟩ := hfar
      obtain ⟨-, t, hlo, htp, -, -, h3⟩ := hst j (by omega)
      obtain ⟨hAj, hFj⟩ := hinv j (by omega)
      rw [hk] at hsq h3
      exact ⟨X j, t, hAj, hFj, ht0, hsq, hlo, htp, h3⟩

end Solver

/-! ## The penalties -/

theorem max_sq_convex (a b s : ℝ) (h0 : 0 ≤ s) (h1 : s ≤ 1) : max (a + s * (b - a)) 0 ^ 2 ≤ max a 0 ^ 2 + s * (max b 0 ^ 2 - max a 0 ^ 2) := by
  have h2 : max (a + s * (b - a)) 0 ≤ (1 - s) * max a 0 + s * max b 0 := by
    refine max_le ?_ (add_nonneg (mul_nonneg (by linarith) (le_max_right _ _)) (mul_nonneg h0 (le_max_right _ _)))
    have := mul_le_mul_of_nonneg_left (le_max_left a 0) (by linarith : 0 ≤ 1 - s)
    have := mul_le_mul_of_nonneg_left (le_max_left b 0) h0
    linarith
  have h3 : 0 ≤ max (a + s * (b - a)) 0 := le_max_right _ _
  have h4 : max (a + s * (b - a)) 0 ^ 2 ≤ ((1 - s) * max a 0 + s * max b 0) ^ 2 := pow_le_pow_left₀ h3 h2 2
  have h5 : 0 ≤ s * (1 - s) * (max a 0 - max b 0) ^ 2 := mul_nonneg (mul_nonneg h0 (by linarith)) (sq_nonneg _)
  nlinarith

/-- SCAD plus a parabola, as a function of the absolute value. -/
theorem scad_plus_square {rho sigma a : ℝ} (hr : 1 < rho) (hs : 0 ≤ sigma) (ha : 0 ≤ a) :
    (scadTerm rho sigma 1 a + a ^ 2 / (2 * (rho - 1))) * (2 * (rho - 1)) = 2 * rho * sigma * a - sigma ^ 2 + max (sigma - a) 0 ^ 2 + max (a - rho * sigma) 0 ^ 2 := by
  have hr0 : (2 * (rho - 1)) ≠ 0 := by
    intro h
    linarith
  rw [add_mul, div_mul_cancel₀ _ hr0]
  have hrs : sigma ≤ rho * sigma := by nlinarith
  rcases scad_pieces rho sigma a hr hs ha with ⟨h1, h2, -⟩ | ⟨h1, h2, h3, -⟩ | ⟨h1, h2, h3, -⟩
  · rw [h2, max_eq_left (by linarith), max_eq_right (by linarith)]
    ring
  · rw [h3, max_eq_right (by linarith), max_eq_right (by linarith)]
    ring
  · rw [h3, max_eq_right (by linarith), max_eq_left (by linarith)]
    ring

/-- The curvature of SCAD is at least `-w / (rho - 1)`. -/
theorem scadTerm_weak {rho sigma w : ℝ} (hr : 1 < rho) (hs : 0 ≤ sigma) (hw : 0 ≤ w) (a b s : ℝ) (h0 : 0 ≤ s) (h1 : s ≤ 1) :
    scadTerm rho sigma w (a + s * (b - a)) ≤ scadTerm rho sigma w a + s * (scadTerm rho sigma w b - scadTerm rho sigma w a) + w / (rho - 1) / 2 * (s * (1 - s)) * (b - a) ^ 2 := by
  have hr0 : 0 < 2 * (rho - 1) := by linarith
  have key : scadTerm rho sigma 1 (a + s * (b - a)) ≤ scadTerm rho sigma 1 a + s * (scadTerm rho sigma 1 b - scadTerm rho sigma 1 a) + (s * (1 - s)) * (b - a) ^ 2 / (2 * (rho - 1)) := by
    have ea := scad_plus_square hr hs (abs_nonneg a)
    have eb := scad_plus_square hr hs (abs_nonneg b)
    obtain ⟨m, hm⟩ : ∃ m, m = |a| + s * (|b| - |a|) := ⟨_, rfl⟩
    have hm0 : 0 ≤ m := by
      have := mul_nonneg (by linarith : 0 ≤ 1 - s) (abs_nonneg a)
      have := mul_nonneg h0 (abs_nonneg b)
      rw [hm]
      linarith
    have em := scad_plus_square hr hs hm0
    have hmle : |a + s * (b - a)| ≤ |m| := by
      rw [abs_of_nonneg hm0, hm]
      have e : a + s * (b - a) = (1 - s) * a + s * b := by ring
      rw [e]
      refine (abs_add_le _ _).trans ?_
      rw [abs_mul, abs_mul, abs_of_nonneg h0, abs_of_nonneg (by linarith : 0 ≤ 1 - s)]
      linarith
    have hsc := scadTerm_mono rho sigma 1 hr hs zero_le_one hmle
    have hsq : (a + s * (b - a)) ^ 2 ≤ m ^ 2 := sq_le_sq.2 hmle
    have c1 := max_sq_convex (sigma - |a|) (sigma - |b|) s h0 h1
    have c2 := max_sq_convex (|a| - rho * sigma) (|b| - rho * sigma) s h0 h1
    have e1 : sigma - |a| + s * (sigma - |b| - (sigma - |a|)) = sigma - m := by rw [hm]; ring
    have e2 : |a| - rho * sigma + s * (|b| - rho * sigma - (|a| - rho * sigma)) = m - rho * sigma := by rw [hm]; ring
    rw [e1] at c1
    rw [e2] at c2
    have h2 : (scadTerm rho sigma 1 m + m ^ 2 / (2 * (rho - 1))) * (2 * (rho - 1)) ≤
        ((scadTerm rho sigma 1 |a| + |a| ^ 2 / (2 * (rho - 1))) + s * ((scadTerm rho sigma 1 |b| + |b| ^ 2 / (2 * (rho - 1))) - (scadTerm rho sigma 1 |a| + |a| ^ 2 / (2 * (rho - 1))))) * (2 * (rho - 1)) := by
      have e : ((scadTerm rho sigma 1 |a| + |a| ^ 2 / (2 * (rho - 1))) + s * ((scadTerm rho sigma 1 |b| + |b| ^ 2 / (2 * (rho - 1))) - (scadTerm rho sigma 1 |a| + |a| ^ 2 / (2 * (rho - 1))))) * (2 * (rho - 1))
          = (scadTerm rho sigma 1 |a| + |a| ^ 2 / (2 * (rho - 1))) * (2 * (rho - 1)) + s * ((scadTerm rho sigma 1 |b| + |b| ^ 2 / (2 * (rho - 1))) * (2 * (rho - 1)) - (scadTerm rho sigma 1 |a| + |a| ^ 2 / (2 * (rho - 1))) * (2 * (rho - 1))) := by ring
      rw [e, ea, eb, em]
      rw [hm] at c1 c2 ⊢
      linarith
    have h3 := le_of_mul_le_mul_right h2 hr0
    rw [scadTerm_abs, scadTerm_abs, sq_abs, sq_abs] at h3
    have h4 : (a + s * (b - a)) ^ 2 / (2 * (rho - 1)) ≤ m ^ 2 / (2 * (rho - 1)) := div_le_div_of_nonneg_right hsq hr0.le
    have e3 : a ^ 2 / (2 * (rho - 1)) + s * (b ^ 2 / (2 * (rho - 1)) - a ^ 2 / (2 * (rho - 1))) - (a + s * (b - a)) ^ 2 / (2 * (rho - 1)) = (s * (1 - s)) * (b - a) ^ 2 / (2 * (rho - 1)) := by
      ring
    linarith
  rw [scadTerm_weight rho sigma w, scadTerm_weight rho sigma w a, scadTerm_weight rho sigma w b]
  have h2 := mul_le_mul_of_nonneg_left key hw
  have hne : rho - 1 ≠ 0 := by
    intro h
    linarith
  have e : w / (rho - 1) / 2 * (s * (1 - s)) * (b - a) ^ 2 = w * ((s * (1 - s)) * (b - a) ^ 2 / (2 * (rho - 1))) := by
    field_simp
  rw [e]
  linarith

/-- The curvature of the penalty of a regularizer with weights `w` is at least `-κ` (no penalty and L1: convex; CAD and L0 are excluded). -/
def LmeReg.CurvedAbove {n : ℕ} (κ : ℝ) (w : Vec ℝ n) : LmeReg → Prop
  | .dummy => 0 ≤ κ
  | .l1 _ => 0 ≤ κ
  | .scad rho _ lam => 0 ≤ κ ∧ ∀ i, lam * w i ≤ κ * (rho - 1)
  | _ => False

theorem LmeReg.penalty_weak {r : LmeReg} (hr : r.Admissible) {n : ℕ} {w : Vec ℝ n} (hw : ∀ i, 0 ≤ w i) {κ : ℝ} (hκ : r.CurvedAbove κ w) (i : Fin n) (a b s : ℝ) (h0 : 0 ≤ s) (h1 : s ≤ 1) :
    r.penalty w i (a + s * (b - a)) ≤ r.penalty w i a + s * (r.penalty w i b - r.penalty w i a) + κ / 2 * (s * (1 - s)) * (b - a) ^ 2 := by
  have hs : 0 ≤ s * (1 - s) * (b - a) ^ 2 := mul_nonneg (mul_nonneg h0 (by linarith)) (sq_nonneg _)
  cases r with
  | dummy =>
    have := mul_nonneg (show (0 : ℝ) ≤ κ from hκ) hs
    change (0 : ℝ) ≤ 0 + s * (0 - 0) + _
    linarith
  | l1 lam =>
    have := mul_nonneg (show (0 : ℝ) ≤ κ from hκ) hs
    change lam * (w i * |a + s * (b - a)|) ≤ lam * (w i * |a|) + s * (lam * (w i * |b|) - lam * (w i * |a|)) + _
    have e : a + s * (b - a) = (1 - s) * a + s * b := by ring
    have h2 : |a + s * (b - a)| ≤ (1 - s) * |a| + s * |b| := by
      rw [e]
      refine (abs_add_le _ _).trans ?_
      rw [abs_mul, abs_mul, abs_of_nonneg h0, abs_of_nonneg (by linarith : 0 ≤ 1 - s)]
    have h3 := mul_le_mul_of_nonneg_left (mul_le_mul_of_nonneg_left h2 (hw i)) (show (0 : ℝ) ≤ lam from hr)
    linarith
  | scad rho sigma lam =>
    obtain ⟨hr1, hr2, hr3⟩ := hr
    have h2 := mul_le_mul_of_nonneg_left (scadTerm_weak hr1 hr2 (hw i) a b s h0 h1) hr3
    have h3 : lam * (w i / (rho - 1)) ≤ κ := by
      rw [← mul_div_assoc, div_le_iff₀ (by linarith)]
      exact hκ.2 i
    have h4 := mul_le_mul_of_nonneg_right h3 hs
    change lam * scadTerm rho sigma (w i) (a + s * (b - a)) ≤ lam * scadTerm rho sigma (w i) a + s * (lam * scadTerm rho sigma (w i) b - lam * scadTerm rho sigma (w i) a) + _
    linarith
  | l0 => exact hκ.elim
  | cad => exact hκ.elim

theorem LmeReg.penalty_nonneg {r : LmeReg} (hr : r.Admissible) {n : ℕ} {w : Vec ℝ n} (hw : ∀ i, 0 ≤ w i) (i : Fin n) (a : ℝ) : 0 ≤ r.penalty w i a := by
  have h := LmeReg.penalty_mono hr hw i 0 a (by simp)
  have e : r.penalty w i 0 = 0 ∨ 0 ≤ r.penalty w i 0 := by
    cases r with
    | l1 lam => left; simp [LmeReg.penalty]
    | scad rho sigma lam =>
      left
      obtain ⟨hr1, hr2, hr3⟩ := hr
      rcases scad_pieces rho sigma 0 hr1 hr2 le_rfl with ⟨h1, h2, -⟩ | ⟨h1, h2, h3, -⟩ | ⟨h1, h2, h3, -⟩
      · simp only [LmeReg.penalty]
        rw [scadTerm_weight, h2]
        simp
      · have hs0 : sigma = 0 := le_antisymm h1 hr2
        simp only [LmeReg.penalty]
        rw [scadTerm_weight]
        have : scadTerm rho sigma 1 0 * (2 * (rho - 1)) = 0 := by rw [h3, hs0]; ring
        rcases mul_eq_zero.1 this with h | h
        · rw [h]; simp
        · linarith
      · have := mul_nonneg (by linarith : 0 ≤ rho) hr2
        linarith
    | _ => right; exact le_rfl
  rcases e with e | e
  · rwa [e] at h
  · linarith

/-! ## The fit -/

section Fit

variable {p q : ℕ}

/-- What a fit minimises: the negative log-likelihood, the ridge and the penalty. -/
noncomputable def lmeObjective (D : List (LmeGroup p q)) (eps : ℝ) (h : Fin (p + q) → ℝ → ℝ) (b : Vec ℝ p) (g : Vec ℝ q) : ℝ :=
  marginalNLL D b g + eps / 2 * (∑ i, b i ^ 2 + ∑ j, g j ^ 2) + ∑ i, h i (joinX b g i)

/-- Gradient of the negative log-likelihood. -/
noncomputable def nllGradient (D : List (LmeGroup p q)) (x : Vec ℝ (p + q)) : Vec ℝ (p + q) :=
  joinX (D.map fun g => -(g.xᵀ *ᵥ ((margCov g (xGamma x))⁻¹ *ᵥ residual g (xBeta x)))).sum (D.map fun g => nllGradGamma g (xBeta x) (xGamma x)).sum

theorem sum_join {φ : ℝ → ℝ → ℝ} (u v : Vec ℝ (p + q)) : ∑ i, φ (u i) (v i) = ∑ i, φ (xBeta u i) (xBeta v i) + ∑ j, φ (xGamma u j) (xGamma v j) := Fin.sum_univ_add _

theorem lmeObjective_join (D : List (LmeGroup p q)) (eps : ℝ) (h : Fin (p + q) → ℝ → ℝ) (x : Vec ℝ (p + q)) :
    lmeObjective D eps h (xBeta x) (xGamma x) = marginalNLL D (xBeta x) (xGamma x) + (eps / 2 * ∑ i, x i ^ 2 + ∑ i, h i (x i)) := by
  have e : joinX (xBeta x) (xGamma x) = x := Fin.append_castAdd_natAdd
  unfold lmeObjective
  rw [e, sum_join (φ := fun a _ => a ^ 2) x x]
  ring

/-- The runs of plain models without prior. -/
theorem lmeRun_converge {D : List (LmeGroup p q)} (hD : PosVar D) {r : LmeReg} (hr : r.Admissible) {m : List ℤ} {w : Vec ℝ (p + q)} (hw : ∀ i, 0 ≤ w i) {eps : ℝ} (heps : 0 ≤ eps)
    {base : Regularizer ℝ (p + q)} (hbase : r.build p q m w = .ok base) {cfg : PGDCfg ℝ} {L κ : ℝ} (hκ : r.CurvedAbove κ w) (hκs : cfg.fixedStepLen * κ < 1) (hrule : StepRule cfg L)
    {b0 : Vec ℝ p} {g0 : Vec ℝ q} (hg0 : ∀ j, 0 ≤ g0 j)
    (hL : fixedCurvature D + 2 * (lmeObjective D eps (r.penalty w) b0 g0 - noiseFloor D) * relaxationNeeded D ≤ L)
    {Lg Lf : Logger (PyVal ℝ (p + q))} {x : Vec ℝ (p + q)} {s s' : Unit}
    (h : pgdOptimize (lmeOracle D .nonInformative) (wrapReg p q eps base) cfg (joinX b0 g0) Lg s = .ok ((x, Lf), s')) :
    ∃ k : ℕ, Lf.get "converged" = .ok (.atom (.bool (decide ((k : ℤ) < cfg.maxIter)))) ∧ Lf.get "iteration" = .ok (.atom (.int k)) ∧
      (∀ j, 0 ≤ xGamma x j) ∧ lmeObjective D eps (r.penalty w) (xBeta x) (xGamma x) ≤ lmeObjective D eps (r.penalty w) b0 g0 ∧
      (0 < cfg.tol → ((k : ℝ) - 1) * cfg.tol ^ 2 * (1 - cfg.fixedStepLen * κ) ≤ 2 * cfg.fixedStepLen * (lmeObjective D eps (r.penalty w) b0 g0 - noiseFloor D)) ∧
      ((k : ℤ) < cfg.maxIter → 0 < p + q → ∀ (b : Vec ℝ p) (g : Vec ℝ q), (∀ j, 0 ≤ g j) → ∀ d, d = √(∑ i, (b i - xBeta x i) ^ 2 + ∑ j, (g j - xGamma x j) ^ 2) →
        lmeObjective D eps (r.penalty w) (xBeta x) (xGamma x) ≤ lmeObjective D eps (r.penalty w) b g + cfg.tol / stepFloor cfg L * d + κ / 2 * d ^ 2
          + relaxationNeeded D / 2 * (d + cfg.tol) ^ 2 + L / 2 * cfg.tol ^ 2) ∧
      ((k : ℤ) < cfg.maxIter → 0 < p + q → ∃ (xp : Vec ℝ (p + q)) (t : ℝ), (∀ j, 0 ≤ xGamma xp j) ∧
        lmeObjective D eps (r.penalty w) (xBeta xp) (xGamma xp) ≤ lmeObjective D eps (r.penalty w) b0 g0 ∧ 0 ≤ cfg.tol ∧
        ∑ i, (x i - xp i) ^ 2 ≤ cfg.tol ^ 2 ∧ stepFloor cfg L ≤ t ∧ 0 < t ∧ ∀ u : Vec ℝ (p + q), (∀ j, 0 ≤ xGamma u j) →
          0 ≤ t * ((eps / 2 * ∑ i, u i ^ 2 + ∑ i, r.penalty w i (u i)) - (eps / 2 * ∑ i, x i ^ 2 + ∑ i, r.penalty w i (x i)))
            + (∑ i, (x i - (xp i - t * nllGradient D xp i)) * (u i - x i)) + t * κ / 2 * ∑ i, (u i - x i) ^ 2) := by
  have hpn : ∀ z : Vec ℝ (p + q), 0 ≤ eps / 2 * ∑ i, z i ^ 2 + ∑ i, r.penalty w i (z i) := fun z =>
    add_nonneg (mul_nonneg (by linarith) (Finset.sum_nonneg fun _ _ => sq_nonneg _)) (Finset.sum_nonneg fun i _ => LmeReg.penalty_nonneg hr hw i _)
  have hx : r.ExactUpTo cfg.fixedStepLen w := by
    cases r with
    | dummy => trivial
    | l1 => trivial
    | scad rho sigma lam =>
      intro i
      have h1 := mul_le_mul_of_nonneg_left (hκ.2 i) hrule.1.le
      have h2 : cfg.fixedStepLen * κ * (rho - 1) < 1 * (rho - 1) := mul_lt_mul_of_pos_right hκs (by linarith [hr.1])
      linarith
    | l0 => exact hκ.elim
    | cad => exact hκ.elim
  have hval : ∀ x s v s', (lmeOracle D .nonInformative).value x s = .ok (v, s') → v = marginalNLL D (xBeta x) (xGamma x) := by
    intro x s v s' hv
    have := (lmeLoss_ok.1 (lossOrZero_ok hv).2).2
    rw [this]
    exact add_zero _
  have hgrad : ∀ x s v s', (lmeOracle D .nonInformative).grad x s = .ok (v, s') → v = nllGradient D x := by
    intro x s v s' hv
    change (lmeGradientBeta D .nonInformative _ _ >>= fun gb => lmeGradientGamma D .nonInformative _ _ >>= fun gg => Except.ok (joinX gb gg, s)) = _ at hv
    obtain ⟨gb, h1, hv⟩ := ebind_ok.1 hv
    obtain ⟨gg, h2, hv⟩ := ebind_ok.1 hv
    cases hv
    rw [(lmeGradientBeta_ok.1 h1).2, (lmeGradientGamma_ok'.1 h2).2]
    unfold nllGradient
    congr 1
    · exact add_zero _
    · exact add_zero _
  have hinner : ∀ x z : Vec ℝ (p + q), ∑ i, nllGradient D x i * (z i - x i) =
      (D.map fun g => -(g.xᵀ *ᵥ ((margCov g (xGamma x))⁻¹ *ᵥ residual g (xBeta x)))).sum ⬝ᵥ (xBeta z - xBeta x)
        + (D.map fun g => nllGradGamma g (xBeta x) (xGamma x)).sum ⬝ᵥ (xGamma z - xGamma x) := by
    intro x z
    rw [sum_join (φ := fun a b => a * b) (nllGradient D x) (fun i => z i - x i)]
    unfold nllGradient
    rw [xBeta_join, xGamma_join]
    rfl
  have hsq : ∀ x z : Vec ℝ (p + q), ∑ i, (z i - x i) ^ 2 = ∑ i, (xBeta z i - xBeta x i) ^ 2 + ∑ j, (xGamma z j - xGamma x j) ^ 2 := fun x z =>
    sum_join (φ := fun a b => (a - b) ^ 2) z x
  obtain ⟨k, h1, h2, h3, h4, h5, h6, h7⟩ := pgd_nonconvex (A := fun u : Vec ℝ (p + q) => ∀ j, 0 ≤ xGamma u j)
    (f := fun x => marginalNLL D (xBeta x) (xGamma x)) (pen := fun u => eps / 2 * ∑ i, u i ^ 2 + ∑ i, r.penalty w i (u i)) (gr := nllGradient D) (κ := κ) (L := L)
    (F0 := lmeObjective D eps (r.penalty w) b0 g0)
    (fun u v s hu hv hs0 hs1 j => by
      have h1 := mul_nonneg (by linarith : 0 ≤ 1 - s) (hu j)
      have h2 := mul_nonneg hs0 (hv j)
      change 0 ≤ xGamma u j + s * (xGamma v j - xGamma u j)
      linarith)
    (fun u v s hu hv hs0 hs1 => by
      have h1 : ∑ i, r.penalty w i (u i + s * (v i - u i)) ≤ ∑ i, (r.penalty w i (u i) + s * (r.penalty w i (v i) - r.penalty w i (u i)) + κ / 2 * (s * (1 - s)) * (v i - u i) ^ 2) :=
        Finset.sum_le_sum fun i _ => LmeReg.penalty_weak hr hw hκ i _ _ s hs0 hs1
      rw [Finset.sum_add_distrib, Finset.sum_add_distrib, ← Finset.mul_sum, ← Finset.mul_sum, Finset.sum_sub_distrib] at h1
      have h2 : ∑ i, (u i + s * (v i - u i)) ^ 2 ≤ ∑ i, (u i ^ 2 + s * (v i ^ 2 - u i ^ 2)) := Finset.sum_le_sum fun i _ => by
        have := mul_nonneg (mul_nonneg hs0 (by linarith : 0 ≤ 1 - s)) (sq_nonneg (v i - u i))
        nlinarith
      rw [Finset.sum_add_distrib, ← Finset.mul_sum, Finset.sum_sub_distrib] at h2
      have h3 := mul_le_mul_of_nonneg_left h2 (by linarith : 0 ≤ eps / 2)
      have e : normSq (v - u) = ∑ i, (v i - u i) ^ 2 := rfl
      rw [e]
      linarith) hval hgrad (cfg := cfg) hrule hκs
    (fun y t z ht htle hz => by
      have hp := wrapReg_prox_min heps ht (LmeReg.penalty_mono hr hw) (LmeReg.base_prox hr hw hx hbase (by
        have := mul_nonneg ht.le heps
        exact div_nonneg ht.le (by linarith)) ((div_le_self ht.le (by
          have := mul_nonneg ht.le heps
          linarith)).trans htle) _) hz
      obtain ⟨gz, hgz, hmin⟩ := hp
      have hfp : ∀ u : Vec ℝ (p + q), (∀ j, 0 ≤ xGamma u j) → fullPenalty p q eps (r.penalty w) u = ((eps / 2 * ∑ i, u i ^ 2 + ∑ i, r.penalty w i (u i) : ℝ) : WithTop ℝ) := by
        intro u hu
        unfold fullPenalty
        rw [if_neg (by push Not; exact hu)]
      have hAz : ∀ j, 0 ≤ xGamma z j := by
        by_contra hn
        push Not at hn
        unfold fullPenalty at hgz
        rw [if_pos hn] at hgz
        cases hgz
      refine ⟨hAz, fun u hu => ?_⟩
      have := hmin u _ (hfp u hu)
      rw [hfp z hAz] at hgz
      rw [← WithTop.coe_inj.1 hgz] at this
      exact this)
    (fun x z hAx hFx hAz => by
      have hv : marginalNLL D (xBeta x) (xGamma x) ≤ lmeObjective D eps (r.penalty w) b0 g0 := by
        have := hpn x
        linarith
      have hup := marginalNLL_upper hD hAx hAz (xBeta x) (xBeta z) hv
      rw [hinner, hsq]
      have hS : 0 ≤ ∑ i, (xBeta z i - xBeta x i) ^ 2 + ∑ j, (xGamma z j - xGamma x j) ^ 2 :=
        add_nonneg (Finset.sum_nonneg fun _ _ => sq_nonneg _) (Finset.sum_nonneg fun _ _ => sq_nonneg _)
      have := mul_le_mul_of_nonneg_right hL hS
      linarith)
    (x0 := joinX b0 g0) (fun j => by rw [xGamma_join]; exact hg0 j) (by
      rw [← lmeObjective_join, xBeta_join, xGamma_join]) h
  have eo : ∀ x, marginalNLL D (xBeta x) (xGamma x) + (eps / 2 * ∑ i, x i ^ 2 + ∑ i, r.penalty w i (x i)) = lmeObjective D eps (r.penalty w) (xBeta x) (xGamma x) := fun x => (lmeObjective_join D eps _ x).symm
  have e0 := eo (joinX b0 g0)
  rw [xBeta_join, xGamma_join] at e0
  simp only [xBeta_join, xGamma_join] at h4 h5 h6 h7
  simp only [eo, e0] at h4 h5 h6 h7
  refine ⟨k, h1, h2, h3, h4, fun htol => h5 htol _ fun z hz => ?_, fun hlt hn b g hg d hd => ?_, h7⟩
  · rw [← eo]
    have := hpn z
    have := noiseFloor_le hD hz (xBeta z)
    linarith
  · have h7 := h6 hlt hn (relaxationNeeded D) (relaxationNeeded_nonneg D) (fun x z hAx hAz => by
      have := marginalNLL_tangent hD hAx hAz (xBeta x) (xBeta z)
      rw [hinner, hsq]
      have h8 := mul_nonneg (relaxationNeeded_nonneg D) (Finset.sum_nonneg fun i (_ : i ∈ Finset.univ) => sq_nonneg (xBeta z i - xBeta x i))
      linarith) (joinX b g) (fun j => by rw [xGamma_join]; exact hg j)
    have ed : normSq (joinX b g - x) = ∑ i, (b i - xBeta x i) ^ 2 + ∑ j, (g j - xGamma x j) ^ 2 := by
      have := hsq x (joinX b g)
      rw [xBeta_join, xGamma_join] at this
      exact this
    rw [xBeta_join, xGamma_join, ed, ← hd] at h7
    have hd2 : ∑ i, (b i - xBeta x i) ^ 2 + ∑ j, (g j - xGamma x j) ^ 2 = d ^ 2 := by
      rw [hd, Real.sq_sqrt (add_nonneg (Finset.sum_nonneg fun _ _ => sq_nonneg _) (Finset.sum_nonneg fun _ _ => sq_nonneg _))]
    rw [hd2] at h7
    exact h7

/-- The fits of plain models without prior. -/
theorem lmeFit_converge {M : LmeModelCfg} (hM : M.Admissible) (hsr : M.sr3 = none) (hpr : M.prior = none) (hinit : M.initializer ≠ some "EM") {st : LmeState} {P : LmeProblem ℝ}
    {a : LmeFitArgs} {D : List (LmeGroup P.numFixed P.numRandom)} (hD : lmeGroups P = .ok D) (hDp : PosVar D) {b0 : Vec ℝ P.numFixed} {g0 : Vec ℝ P.numRandom}
    (hb : List.ofFn b0 = a.beta.getD (List.replicate P.numFixed 1)) (hg : List.ofFn g0 = a.gamma.getD (List.replicate P.numRandom 1)) (hg0 : ∀ j, 0 ≤ g0 j)
    {w : Vec ℝ (P.numFixed + P.numRandom)} (hw : List.ofFn w = a.feWeights.getD P.feWeights ++ a.reWeights.getD P.reWeights) (hw0 : ∀ i, 0 ≤ w i)
    {κ : ℝ} (hκ : M.reg.CurvedAbove κ w) (hκs : M.step * κ < 1) {L : ℝ} (hrule : StepRule M.solver L)
    (hL : fixedCurvature D + 2 * (lmeObjective D M.elasticEps (M.reg.penalty w) b0 g0 - noiseFloor D) * relaxationNeeded D ≤ L)
    {Lf : Logger (PyVal ℝ (P.numFixed + P.numRandom))} {c : LmeState} (h : lmeFitProblem M st P a = (.ok Lf, c)) :
    ∃ (k : ℕ) (x : Vec ℝ (P.numFixed + P.numRandom)) (coef : LmeCoef), c = some coef ∧ coef.beta = List.ofFn (xBeta x) ∧ coef.gamma = List.ofFn (xGamma x) ∧
      Lf.get "converged" = .ok (.atom (.bool (decide ((k : ℤ) < M.maxIter)))) ∧
      (∀ j, 0 ≤ xGamma x j) ∧ lmeObjective D M.elasticEps (M.reg.penalty w) (xBeta x) (xGamma x) ≤ lmeObjective D M.elasticEps (M.reg.penalty w) b0 g0 ∧
      (0 < M.tol → ((k : ℝ) - 1) * M.tol ^ 2 * (1 - M.step * κ) ≤ 2 * M.step * (lmeObjective D M.elasticEps (M.reg.penalty w) b0 g0 - noiseFloor D)) ∧
      ((k : ℤ) < M.maxIter → 0 < P.numFixed + P.numRandom → ∀ (b : Vec ℝ P.numFixed) (g : Vec ℝ P.numRandom), (∀ j, 0 ≤ g j) →
        ∀ d, d = √(∑ i, (b i - xBeta x i) ^ 2 + ∑ j, (g j - xGamma x j) ^ 2) →
        lmeObjective D M.elasticEps (M.reg.penalty w) (xBeta x) (xGamma x) ≤ lmeObjective D M.elasticEps (M.reg.penalty w) b g + M.tol / stepFloor M.solver L * d + κ / 2 * d ^ 2
          + relaxationNeeded D / 2 * (d + M.tol) ^ 2 + L / 2 * M.tol ^ 2) ∧
      ((k : ℤ) < M.maxIter → 0 < P.numFixed + P.numRandom → ∃ (xp : Vec ℝ (P.numFixed + P.numRandom)) (t : ℝ), (∀ j, 0 ≤ xGamma xp j) ∧
        lmeObjective D M.elasticEps (M.reg.penalty w) (xBeta xp) (xGamma xp) ≤ lmeObjective D M.elasticEps (M.reg.penalty w) b0 g0 ∧ 0 ≤ M.tol ∧
        ∑ i, (x i - xp i) ^ 2 ≤ M.tol ^ 2 ∧ stepFloor M.solver L ≤ t ∧ 0 < t ∧ ∀ u : Vec ℝ (P.numFixed + P.numRandom), (∀ j, 0 ≤ xGamma u j) →
          0 ≤ t * ((M.elasticEps / 2 * ∑ i, u i ^ 2 + ∑ i, M.reg.penalty w i (u i)) - (M.elasticEps / 2 * ∑ i, x i ^ 2 + ∑ i, M.reg.penalty w i (x i)))
            + (∑ i, (x i - (xp i - t * nllGradient D xp i)) * (u i - x i)) + t * κ / 2 * ∑ i, (u i - x i) ^ 2) := by
  unfold lmeFitProblem at h
  split at h
  · cases h
  rename_i r hr
  obtain ⟨coef, x, L0⟩ := r
  simp only [Prod.mk.injEq] at h
  obtain ⟨h, hc⟩ := h
  obtain ⟨D1, -, h⟩ := ebind_ok.1 h
  obtain ⟨Pr, -, h⟩ := ebind_ok.1 h
  obtain ⟨m, Pr', w', base, D', b0', g0', us, per, -, hPr', hw', hbase, hD', hb0', hg0', hopt, hus, -, hcoef⟩ := lmeFitCore_ok hr
  cases hD.symm.trans hD'
  have hstart : lmeStart st P a = (a.beta.getD (List.replicate P.numFixed 1), a.gamma.getD (List.replicate P.numRandom 1)) := by
    unfold lmeStart
    simp only [sklearnCheckTruth, Bool.and_false, Bool.false_eq_true, if_false]
    cases st <;> rfl
  rw [hstart] at hb0' hg0'
  obtain rfl : b0' = b0 := List.ofFn_injective ((asVec_ok.1 hb0').trans hb.symm)
  obtain rfl : g0' = g0 := List.ofFn_injective ((asVec_ok.1 hg0').trans hg.symm)
  have hPn : Pr' = .nonInformative := by
    rw [hpr] at hPr'
    exact (Except.ok.inj hPr').symm
  subst hPn
  -- the weights
  have hpw : w' = w ∨ (M.reg = .dummy ∧ w' = 0) := by
    rcases LmeReg.weights_mem hw' with h0 | ⟨hlen, hw'⟩
    · exact .inr h0
    · left
      refine List.ofFn_injective (hw'.trans ?_)
      rw [hw, ← hw, List.take_of_length_le (by simp)]
  have hw0' : ∀ i, 0 ≤ w' i := by
    rcases hpw with rfl | ⟨-, rfl⟩
    · exact hw0
    · exact fun _ => le_rfl
  have hpen : M.reg.penalty w' = M.reg.penalty w := by
    rcases hpw with rfl | ⟨hd, -⟩
    · rfl
    · rw [hd]; rfl
  have hκ' : M.reg.CurvedAbove κ w' := by
    rcases hpw with rfl | ⟨hd, -⟩
    · exact hκ
    · rw [hd] at hκ ⊢; exact hκ
  unfold lmeOptimize at hopt
  simp only [hsr] at hopt
  obtain ⟨bg, hbg, hopt⟩ := ebind_ok.1 hopt
  obtain ⟨⟨⟨x', L'⟩, u⟩, hrun, hopt⟩ := ebind_ok.1 hopt
  cases hopt
  unfold lmeInitialize at hbg
  rw [if_neg hinit] at hbg
  cases hbg
  rw [← hpen] at hL
  obtain ⟨k, h1, h2, h3, h4, h5, h6, h7⟩ := lmeRun_converge hDp hM.reg hw0' hM.eps hbase (cfg := M.solver) hκ' hκs hrule hg0 hL hrun
  rw [hpen] at h4 h5 h6 h7
  exact ⟨k, x, coef, hc.symm, by rw [hcoef], by rw [hcoef], by rw [lmeLogCriteria_other h (by decide)]; exact h1, h3, h4, h5, h6, h7⟩

/-- **C124**: fits of plain mixed-effects models stop. For every table with positive observation variances, every plain model without prior whose penalty is absent, L1 or SCAD, with line
search or fixed steps, all weights 0 and 1 and every start with nonnegative variances: let `F₀` be the objective at the start, `N = 1/2 Σ log l` the noise level of the negative
log-likelihood and `L` at least the curvature `Σ x²/l + 2 (F₀ - N) Σ_groups Σ_j (Σ z²/l)²`. If `L ≤ 1e14` (line search) or `step ≤ 1/L` (fixed steps), then the fit returns, has converged
whenever `max_iter > 1 + 2 step (F₀ - N) / (tol² (1 - step κ))`, and its objective is at most `F₀`; `κ` is 0 except for SCAD (`lam w ≤ κ (rho - 1)`, `step κ < 1`). -/
theorem C124_stops {N nc : ℕ} (M : LmeModelCfg) (hM : M.Robust) (hsr : M.sr3 = none) (hpr : M.prior = none) (htol : 0 < M.tol) (st : LmeState) (x : Matrix (Fin N) (Fin nc) ℝ) (y : Vec ℝ N)
    (columns : Option (List String)) (labels : List String) (ffi fri : Bool) (mustFe mustRe : Option (List String))
    (P : LmeProblem ℝ) (hP : lmeFromXY x (some y) columns labels ffi fri mustFe mustRe = .ok P)
    (hpos : ∀ v : Fin nc, labels[(v : ℕ)]? = some "variance" → ∀ r, 0 < x r v) (a : LmeFitArgs)
    (hfe : ∀ w, a.feWeights.getD P.feWeights = w → w.length = fixedCount labels ffi ∧ ∀ v ∈ w, v = 0 ∨ v = 1)
    (hre : ∀ w, a.reWeights.getD P.reWeights = w → w.length = randomCount labels fri ∧ ∀ v ∈ w, v = 0 ∨ v = 1)
    (D : List (LmeGroup P.numFixed P.numRandom)) (hD : lmeGroups P = .ok D) (b0 : Vec ℝ P.numFixed) (g0 : Vec ℝ P.numRandom)
    (hb : List.ofFn b0 = a.beta.getD (List.replicate P.numFixed 1)) (hg : List.ofFn g0 = a.gamma.getD (List.replicate P.numRandom 1)) (hg0 : ∀ j, 0 ≤ g0 j)
    (w : Vec ℝ (P.numFixed + P.numRandom)) (hw : List.ofFn w = a.feWeights.getD P.feWeights ++ a.reWeights.getD P.reWeights)
    (κ : ℝ) (hκ : M.reg.CurvedAbove κ w) (hκs : M.step * κ < 1) (L : ℝ) (hL0 : 0 < L) (hrule : if M.stepping = "line-search" then L ≤ 10 ^ 14 else M.step ≤ 1 / L)
    (hL : (D.map fun g => ∑ i, (∑ k, g.x i k ^ 2) / g.l i).sum
      + 2 * (lmeObjective D M.elasticEps (M.reg.penalty w) b0 g0 - 1 / 2 * (D.map fun g => ∑ i, Real.log (g.l i)).sum) * (D.map fun g => ∑ j, (∑ i, g.z i j ^ 2 / g.l i) ^ 2).sum ≤ L)
    (hmax : 1 + 2 * M.step * (lmeObjective D M.elasticEps (M.reg.penalty w) b0 g0 - 1 / 2 * (D.map fun g => ∑ i, Real.log (g.l i)).sum) / (M.tol ^ 2 * (1 - M.step * κ)) < M.maxIter) :
    ∃ Lf c b g, lmeFitProblem M st P a = (.ok Lf, some c) ∧ Lf.get "converged" = .ok (.atom (.bool true)) ∧ c.beta = List.ofFn b ∧ c.gamma = List.ofFn g ∧
      lmeObjective D M.elasticEps (M.reg.penalty w) b g ≤ lmeObjective D M.elasticEps (M.reg.penalty w) b0 g0 := by
  obtain ⟨_, _, feW, reW, -, -, hlen, -, -, -, -, -, -, -, hPe⟩ := lmeFromXY_ok x (some y) columns labels ffi fri mustFe mustRe P hP
  have hF := numFixed_eq P ffi fri (by rw [hPe])
  have hR := numRandom_eq P ffi fri (by rw [hPe])
  have hcl : P.columnLabels = labels := by rw [hPe]
  rw [hcl, ← fixedCount_eq] at hF
  rw [hcl, ← randomCount_eq] at hR
  have hDp : PosVar D := by
    obtain ⟨g, v, hg, hv, hgl, hD'⟩ := lmeGroups_table hP
    have hvl : labels[(v : ℕ)]? = some "variance" := by
      have : v ∈ labelIdx (p := nc) labels (fun l => decide (l = VARIANCE)) := by rw [hv]; simp
      rw [mem_labelIdx] at this
      have hlt : (v : ℕ) < labels.length := by omega
      rw [List.getElem?_eq_getElem hlt]
      simpa [List.getD_eq_getElem?_getD, List.getElem?_eq_getElem hlt, VARIANCE] using this
    cases hD.symm.trans hD'
    intro gr hgr i
    obtain ⟨l, -, rfl⟩ := List.mem_map.1 hgr
    exact hpos v hvl _
  obtain ⟨Lf, c, hfit, -, -⟩ := C83_fit_problem_returns M hM st x y columns labels ffi fri mustFe mustRe P hP hpos ⟨.nonInformative, by rw [hpr]; rfl⟩ a
    (fun b hb' => by rw [hb'] at hb; rw [← hF]; simpa using (congrArg List.length hb).symm)
    (fun g hg' => by
      rw [hg'] at hg
      refine ⟨by rw [← hR]; simpa using (congrArg List.length hg).symm, fun v hv => ?_⟩
      simp only [Option.getD_some] at hg
      rw [← hg] at hv
      obtain ⟨j, rfl⟩ := List.mem_ofFn.1 hv
      exact hg0 j) hfe hre
  have hw0 : ∀ i, 0 ≤ w i := by
    intro i
    have hmem : w i ∈ a.feWeights.getD P.feWeights ++ a.reWeights.getD P.reWeights := hw ▸ List.mem_ofFn.2 ⟨i, rfl⟩
    have h01 : w i = 0 ∨ w i = 1 := by
      rcases List.mem_append.1 hmem with h | h
      · exact (hfe _ rfl).2 _ h
      · exact (hre _ rfl).2 _ h
    rcases h01 with h | h <;> rw [h] <;> norm_num
  obtain ⟨k, x', coef, hc, hcb, hcg, hconv, -, hle, hbd, -, -⟩ := lmeFit_converge hM.adm hsr hpr (fun hE => hM.init hE hsr) hD hDp hb hg hg0 hw hw0 hκ hκs
    (L := L) ⟨hM.adm.step_pos, hL0, hrule⟩ hL hfit
  cases hc
  refine ⟨Lf, c, _, _, hfit, ?_, hcb, hcg, hle⟩
  rw [hconv]
  have hk : (k : ℤ) < M.maxIter := by
    have h1 := hbd htol
    have hden : 0 < M.tol ^ 2 * (1 - M.step * κ) := mul_pos (pow_pos htol 2) (by linarith)
    have h2 : (k : ℝ) - 1 ≤ 2 * M.step * (lmeObjective D M.elasticEps (M.reg.penalty w) b0 g0 - noiseFloor D) / (M.tol ^ 2 * (1 - M.step * κ)) := by
      rw [le_div_iff₀ hden]
      linarith
    have h3 : (k : ℝ) < M.maxIter := by
      unfold noiseFloor at h2
      linarith
    exact_mod_cast h3
  simp [hk]

/-- **C125**: a fit that reports convergence has stopped near a stationary point. Under the same conditions on penalty and step, for any successful fit that logs `converged = True`: no coefficients
with nonnegative variances at distance `d` from the result have an objective lower by more than `tol / t₀ d + κ/2 d² + R/2 (d + tol)² + L/2 tol²`, where `t₀` is the smallest step the solver may take
(`min step (1/(2L))` with line search) and `R = Σ_groups Σ_j (Σ z²/l)²` bounds the concavity of the log-determinant. -/
theorem C125_stationary (M : LmeModelCfg) (hM : M.Admissible) (hsr : M.sr3 = none) (hpr : M.prior = none) (hinit : M.initializer ≠ some "EM") (st : LmeState) (P : LmeProblem ℝ)
    (a : LmeFitArgs) (D : List (LmeGroup P.numFixed P.numRandom)) (hD : lmeGroups P = .ok D) (hDp : PosVar D) (hn : 0 < P.numFixed + P.numRandom) (b0 : Vec ℝ P.numFixed) (g0 : Vec ℝ P.numRandom)
    (hb : List.ofFn b0 = a.beta.getD (List.replicate P.numFixed 1)) (hg : List.ofFn g0 = a.gamma.getD (List.replicate P.numRandom 1)) (hg0 : ∀ j, 0 ≤ g0 j)
    (w : Vec ℝ (P.numFixed + P.numRandom)) (hw : List.ofFn w = a.feWeights.getD P.feWeights ++ a.reWeights.getD P.reWeights) (hw0 : ∀ i, 0 ≤ w i)
    (κ : ℝ) (hκ : M.reg.CurvedAbove κ w) (hκs : M.step * κ < 1) (L : ℝ) (hL0 : 0 < L) (hrule : if M.stepping = "line-search" then L ≤ 10 ^ 14 else M.step ≤ 1 / L)
    (hL : (D.map fun g => ∑ i, (∑ k, g.x i k ^ 2) / g.l i).sum
      + 2 * (lmeObjective D M.elasticEps (M.reg.penalty w) b0 g0 - 1 / 2 * (D.map fun g => ∑ i, Real.log (g.l i)).sum) * (D.map fun g => ∑ j, (∑ i, g.z i j ^ 2 / g.l i) ^ 2).sum ≤ L)
    (Lf : Logger (PyVal ℝ (P.numFixed + P.numRandom))) (c : LmeState) (h : lmeFitProblem M st P a = (.ok Lf, c)) (hconv : Lf.get "converged" = .ok (.atom (.bool true))) :
    ∃ coef b g, c = some coef ∧ coef.beta = List.ofFn b ∧ coef.gamma = List.ofFn g ∧ (∀ j, 0 ≤ g j) ∧
      ∀ (b' : Vec ℝ P.numFixed) (g' : Vec ℝ P.numRandom), (∀ j, 0 ≤ g' j) → ∀ d, d = √(∑ i, (b' i - b i) ^ 2 + ∑ j, (g' j - g j) ^ 2) →
        lmeObjective D M.elasticEps (M.reg.penalty w) b g ≤ lmeObjective D M.elasticEps (M.reg.penalty w) b' g'
          + M.tol / (if M.stepping = "line-search" then min M.step (1 / (2 * L)) else M.step) * d + κ / 2 * d ^ 2
          + (D.map fun g => ∑ j, (∑ i, g.z i j ^ 2 / g.l i) ^ 2).sum / 2 * (d + M.tol) ^ 2 + L / 2 * M.tol ^ 2 := by
  obtain ⟨k, x, coef, hc, hcb, hcg, hcv, hnn, -, -, hcert, -⟩ := lmeFit_converge hM hsr hpr hinit hD hDp hb hg hg0 hw hw0 hκ hκs (L := L) ⟨hM.step_pos, hL0, hrule⟩ hL h
  rw [hconv] at hcv
  have hk : (k : ℤ) < M.maxIter := by simpa using hcv
  exact ⟨coef, xBeta x, xGamma x, hc, hcb, hcg, hnn, fun b' g' hg' d hd => hcert hk hn b' g' hg' d hd⟩

end Fit

/-- An L1 model with fixed steps. -/
noncomputable def lmeFixedModel (step : ℝ) (maxIter : ℤ) : LmeModelCfg :=
  { exModel none maxIter (.l1 2) with stepping := "fixed", fixedStepLen := some step }

theorem lmeFixedModel_step {step : ℝ} (h : step ≠ 0) (maxIter : ℤ) : (lmeFixedModel step maxIter).step = step := if_neg h

theorem lmeFixedModel_robust {step : ℝ} (h : 0 < step) (maxIter : ℤ) : (lmeFixedModel step maxIter).Robust where
  adm := ⟨exL1, by norm_num [lmeFixedModel, exModel], (fun s hs => by cases hs; exact h.le), fun s h => by cases h⟩
  init := by simp [lmeFixedModel, exModel]
  kind := rfl
  keys := by change ["converged", "loss", "jones_bic", "muller_ic"].Nodup; decide
  vaida := by change _ ∉ ["converged", "loss", "jones_bic", "muller_ic"]; decide
  flip := fun h => absurd h (by change _ ∉ ["converged", "loss", "jones_bic", "muller_ic"]; decide)
  sr3 := fun s h => by cases h
  scad := fun _ _ => trivial

/-- Non-vacuity of C124 and C125: the example table is fitted with an L1 penalty of strength 2; with a small enough step and enough iterations the hypotheses hold, the fit converges and no
coefficients with nonnegative variances are better by more than the bound. -/
example : ∃ (P : LmeProblem ℝ) (D : List (LmeGroup P.numFixed P.numRandom)) (step L : ℝ) (maxIter : ℤ) (Lf : Logger (PyVal ℝ (P.numFixed + P.numRandom))) (c : LmeCoef)
    (b : Vec ℝ P.numFixed) (g : Vec ℝ P.numRandom), lmeFromXY exTab (some ![26, 20]) none exTabLabels true true none none = .ok P ∧ lmeGroups P = .ok D ∧
    lmeFitProblem (lmeFixedModel step maxIter) none P {} = (.ok Lf, some c) ∧ Lf.get "converged" = .ok (.atom (.bool true)) ∧ c.beta = List.ofFn b ∧ c.gamma = List.ofFn g ∧
    ∀ (b' : Vec ℝ P.numFixed) (g' : Vec ℝ P.numRandom), (∀ j, 0 ≤ g' j) → ∀ d, d = √(∑ i, (b' i - b i) ^ 2 + ∑ j, (g' j - g j) ^ 2) →
      lmeObjective D 1e-4 ((LmeReg.l1 2).penalty fun _ => 1) b g ≤ lmeObjective D 1e-4 ((LmeReg.l1 2).penalty fun _ => 1) b' g' + 1e-5 / step * d + 0 / 2 * d ^ 2
          + (D.map fun g => ∑ j, (∑ i, g.z i j ^ 2 / g.l i) ^ 2).sum / 2 * (d + 1e-5) ^ 2 + L / 2 * 1e-5 ^ 2 := by
  obtain ⟨P, hP⟩ := exTab_ok' true true ![26, 20]
  obtain ⟨_, _, feW, reW, -, -, hlen, -, -, -, -, -, hf, hr', hPe⟩ := lmeFromXY_ok exTab (some ![26, 20]) none exTabLabels
    true true none none P hP
  have e1 : P.feWeights = [1, 1] := by rw [hPe]; cases hf; rfl
  have e2 : P.reWeights = [1, 1] := by rw [hPe]; cases hr'; rfl
  have hF : P.numFixed = 2 := (numFixed_eq P true true (by rw [hPe])).trans (by rw [show P.columnLabels = exTabLabels by rw [hPe]]; decide)
  have hR : P.numRandom = 2 := (numRandom_eq P true true (by rw [hPe])).trans (by rw [show P.columnLabels = exTabLabels by rw [hPe]]; decide)
  obtain ⟨gr, v, -, hv, -, hD⟩ := lmeGroups_table hP
  obtain ⟨D, hDe⟩ : ∃ D, D = (uniqueLabels fun r => exTab r gr).map (tableGroup exTab ![26, 20] exTabLabels true true gr v P.numFixed P.numRandom) := ⟨_, rfl⟩
  rw [← hDe] at hD
  have hDp : PosVar D := by
    have hvl : v = 3 := by
      have h3 : labelIdx (p := 4) exTabLabels (· = VARIANCE) = [3] := by decide
      rw [h3] at hv
      exact (List.singleton_injective hv).symm
    intro g hg i
    rw [hDe] at hg
    obtain ⟨l, -, rfl⟩ := List.mem_map.1 hg
    exact exTab_positive v (by rw [hvl]; rfl) _
  obtain ⟨F0, hF0⟩ : ∃ F0, F0 = lmeObjective D 1e-4 ((LmeReg.l1 2).penalty fun _ => 1) (fun _ => 1) (fun _ => 1) := ⟨_, rfl⟩
  obtain ⟨L, hL⟩ : ∃ L, L = max 1 ((D.map fun g => ∑ i, (∑ k, g.x i k ^ 2) / g.l i).sum
      + 2 * (F0 - 1 / 2 * (D.map fun g => ∑ i, Real.log (g.l i)).sum) * (D.map fun g => ∑ j, (∑ i, g.z i j ^ 2 / g.l i) ^ 2).sum) := ⟨_, rfl⟩
  have hL0 : 0 < L := by rw [hL]; exact lt_of_lt_of_le one_pos (le_max_left _ _)
  obtain ⟨m, hm⟩ := exists_nat_gt (1 + 2 * (1 / L) * (F0 - 1 / 2 * (D.map fun g => ∑ i, Real.log (g.l i)).sum) / ((1e-5 : ℝ) ^ 2 * (1 - 1 / L * 0)))
  have hs0 : 0 < 1 / L := one_div_pos.2 hL0
  have hstep := lmeFixedModel_step hs0.ne' (m : ℤ)
  have hrob := lmeFixedModel_robust hs0 (m : ℤ)
  have hone : ∀ n : ℕ, List.ofFn (fun _ : Fin n => (1 : ℝ)) = List.replicate n 1 := fun n => List.ofFn_const n 1
  have hw : List.ofFn (fun _ : Fin (P.numFixed + P.numRandom) => (1 : ℝ)) = P.feWeights ++ P.reWeights := by
    rw [e1, e2, hF, hR, hone]
    rfl
  obtain ⟨Lf, c, b, g, hfit, hconv, hb, hg, -⟩ := C124_stops (lmeFixedModel (1 / L) m) hrob rfl rfl (by norm_num [lmeFixedModel, exModel]) none exTab ![26, 20] none exTabLabels true true none none P hP
    exTab_positive {} (by rintro w rfl; simp only [Option.getD_none, e1]; exact ⟨rfl, by simp⟩) (by rintro w rfl; simp only [Option.getD_none, e2]; exact ⟨rfl, by simp⟩)
    D hD (fun _ => 1) (fun _ => 1) (hone _) (hone _) (fun _ => zero_le_one) (fun _ => 1) hw 0 le_rfl (by rw [mul_zero]; exact one_pos) L hL0 (by
      rw [if_neg (by simp [lmeFixedModel])]
      exact hstep.le) (by
      change _ + 2 * (lmeObjective D 1e-4 ((LmeReg.l1 2).penalty fun _ => 1) (fun _ => 1) (fun _ => 1) - _) * _ ≤ L
      rw [← hF0, hL]
      exact le_max_right _ _) (by
      rw [hstep]
      change 1 + 2 * (1 / L) * (lmeObjective D 1e-4 ((LmeReg.l1 2).penalty fun _ => 1) (fun _ => 1) (fun _ => 1) - _) / _ < ((m : ℤ) : ℝ)
      rw [← hF0, Int.cast_natCast]
      exact hm)
  obtain ⟨coef, b', g', hc, hb', hg', -, hcert⟩ := C125_stationary (lmeFixedModel (1 / L) m) hrob.adm rfl rfl (by simp [lmeFixedModel, exModel]) none P {} D hD hDp (by omega) (fun _ => 1) (fun _ => 1)
    (hone _) (hone _) (fun _ => zero_le_one) (fun _ => 1) hw (fun _ => zero_le_one) 0 le_rfl (by rw [mul_zero]; exact one_pos) L hL0 (by
      rw [if_neg (by simp [lmeFixedModel])]
      exact hstep.le) (by
      change _ + 2 * (lmeObjective D 1e-4 ((LmeReg.l1 2).penalty fun _ => 1) (fun _ => 1) (fun _ => 1) - _) * _ ≤ L
      rw [← hF0, hL]
      exact le_max_right _ _) Lf (some c) hfit hconv
  cases hc
  refine ⟨P, D, 1 / L, L, m, Lf, c, b', g', hP, hD, hfit, hconv, hb', hg', fun b'' g'' hg'' d hd => ?_⟩
  have := hcert b'' g'' hg'' d hd
  rw [if_neg (by simp [lmeFixedModel]), hstep] at this
  exact this

end Verif
