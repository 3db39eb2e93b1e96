import Mathlib.Topology.Order.Compact
import Verif.Props.LmeGammaSolve
import Verif.Props.LmeBarrier

/-!
# C164: `optimal_gamma_pgd` goes downhill and stops at nearly stationary variances
-/

open Matrix Filter Topology

namespace Verif

variable {p q : ℕ}

/-- The loss is jointly differentiable. -/
theorem lossAt_diff {D : List (LmeGroup p q)} {gamma : Vec ℝ q} (hd : InDomain D gamma) (P : LmeInstPrior ℝ p q) (beta : Vec ℝ p) :
    DifferentiableAt ℝ (fun w : Vec ℝ p × Vec ℝ q => marginalNLL D w.1 w.2 + P.loss w.1 w.2) (beta, gamma) := by
  refine DifferentiableAt.fun_add ?_ (prior_diff P _).1
  unfold marginalNLL
  exact differentiableAt_list_sum D fun g hgD => groupNLL_diff (w := (beta, gamma)) (hd g hgD)

/-- The loss as a function of the variances, on a line. -/
theorem gammaLoss_line {D : List (LmeGroup p q)} {P : LmeInstPrior ℝ p q} (hP : P.Reachable) {gamma : Vec ℝ q} {beta : Vec ℝ p} {G : Vec ℝ q}
    (hG : lmeGradientGamma D P beta gamma = .ok G) (d : Vec ℝ q) :
    HasDerivAt (fun a : ℝ => marginalNLL D beta (gamma + a • d) + P.loss beta (gamma + a • d)) (∑ j, G j * d j) 0 := by
  obtain ⟨hd, hG⟩ := lmeGradientGamma_ok'.1 hG
  obtain ⟨⟨f, G', H, k1, -, -, k4, -⟩, -⟩ := C55_beta_derivatives D P hP ⟨0, 0⟩ gamma hd beta gamma
  have e : f = fun b => marginalNLL D b gamma + P.loss b gamma := by
    funext b
    exact (lmeLoss_ok.1 (k1 b)).2
  rw [e] at k4
  obtain ⟨L, hL, hLd⟩ := hasFDerivAt_of_partials (gb := G' beta) (gg := G) (lossAt_diff hd P beta) (fun i => k4.hasDerivAt beta i) fun j => lmeLoss_deriv hP hd beta j hG
  have hl : HasDerivAt (fun t : ℝ => (beta, gamma) + t • ((0, d) : Vec ℝ p × Vec ℝ q)) (0, d) 0 := by
    have := ((hasDerivAt_id (0 : ℝ)).smul_const ((0, d) : Vec ℝ p × Vec ℝ q)).const_add ((beta, gamma) : Vec ℝ p × Vec ℝ q)
    simpa using this
  have hL' : HasFDerivAt (fun w : Vec ℝ p × Vec ℝ q => marginalNLL D w.1 w.2 + P.loss w.1 w.2) L ((beta, gamma) + (0 : ℝ) • ((0, d) : Vec ℝ p × Vec ℝ q)) := by
    rw [zero_smul, add_zero]
    exact hL
  have h := hL'.comp_hasDerivAt 0 hl
  have e1 : L (0, d) = ∑ j, G j * d j := by
    rw [hLd]
    simp
  have e2 : (fun w : Vec ℝ p × Vec ℝ q => marginalNLL D w.1 w.2 + P.loss w.1 w.2) ∘ (fun t : ℝ => (beta, gamma) + t • ((0, d) : Vec ℝ p × Vec ℝ q))
      = fun a : ℝ => marginalNLL D beta (gamma + a • d) + P.loss beta (gamma + a • d) := by
    funext a
    simp only [Function.comp_apply, Prod.smul_mk, smul_zero, Prod.mk_add_mk, add_zero]
  rw [e1, e2] at h
  exact h

theorem gammaLoss_line_cont {D : List (LmeGroup p q)} {P : LmeInstPrior ℝ p q} {gamma : Vec ℝ q} (beta : Vec ℝ p) (d : Vec ℝ q) {a : ℝ} (hd : InDomain D (gamma + a • d)) :
    ContinuousAt (fun a : ℝ => marginalNLL D beta (gamma + a • d) + P.loss beta (gamma + a • d)) a := by
  have h := (lossAt_diff hd P beta).continuousAt
  have hc : ContinuousAt (fun a : ℝ => ((beta, gamma + a • d) : Vec ℝ p × Vec ℝ q)) a := by fun_prop
  exact ContinuousAt.comp (g := fun w : Vec ℝ p × Vec ℝ q => marginalNLL D w.1 w.2 + P.loss w.1 w.2) (f := fun a : ℝ => ((beta, gamma + a • d) : Vec ℝ p × Vec ℝ q)) (x := a) h hc

theorem pgdDirection_ok {D : List (LmeGroup p q)} {P : LmeInstPrior ℝ p q} {beta : Vec ℝ p} {gamma d : Vec ℝ q} :
    pgdDirection (lmeGradientGamma D P beta) gamma = .ok d ↔ ∃ G, lmeGradientGamma D P beta gamma = .ok G ∧ d = projectDirection gamma (-G) := by
  unfold pgdDirection
  constructor
  · intro h
    obtain ⟨G, hG, h⟩ := ebind_ok.1 h
    cases h
    exact ⟨G, hG, rfl⟩
  · rintro ⟨G, hG, rfl⟩
    rw [hG]
    rfl

theorem projectDirection_neg (gamma G : Vec ℝ q) (j : Fin q) : projectDirection gamma (-G) j = if gamma j = 0 then max (-G j) 0 else -G j := by
  classical
  unfold projectDirection
  rw [Pi.neg_apply]
  by_cases h : gamma j = 0
  · rw [if_pos h]
    by_cases h1 : -G j < 0
    · rw [if_pos ⟨h1, h⟩, max_eq_right h1.le]
    · rw [if_neg fun hc => h1 hc.1, max_eq_left (not_lt.1 h1)]
  · rw [if_neg h, if_neg fun hc => h hc.2]

theorem projectDirection_dot (gamma G : Vec ℝ q) : ∑ j, G j * projectDirection gamma (-G) j = -∑ j, projectDirection gamma (-G) j ^ 2 := by
  rw [← Finset.sum_neg_distrib]
  refine Finset.sum_congr rfl fun j _ => ?_
  rw [projectDirection_neg]
  split_ifs
  · rcases le_total (-G j) 0 with h | h
    · rw [max_eq_right h]; ring
    · rw [max_eq_left h]; ring
  · ring

/-- **C164**, one direction: with positive observation variances and nonnegative `gamma` the gradient `G` evaluates; the direction is `-G` at positive variances and `max (-G) 0` at zero ones. On the whole interval given to the
line search the loss evaluates, and its derivative along the direction, at the start of the interval, is minus the squared length of the direction. -/
theorem C164_direction (D : List (LmeGroup p q)) (hD : PosVar D) (P : LmeInstPrior ℝ p q) (hP : P.Reachable) (beta : Vec ℝ p) (gamma : Vec ℝ q) (hg : ∀ j, 0 ≤ gamma j) :
    ∃ (G d : Vec ℝ q) (f : ℝ → ℝ), lmeGradientGamma D P beta gamma = .ok G ∧ pgdDirection (lmeGradientGamma D P beta) gamma = .ok d ∧
      (∀ j, d j = if gamma j = 0 then max (-G j) 0 else -G j) ∧
      (∀ a, 0 ≤ a → a ≤ maxStepLen (stepPairs gamma d) → lmeLoss D P beta (gamma + a • d) = .ok (f a)) ∧ HasDerivAt f (-∑ j, d j ^ 2) 0 := by
  have hG : lmeGradientGamma D P beta gamma = .ok _ := lmeGradientGamma_ok'.2 ⟨inDomain_of_nonneg hD hg, rfl⟩
  refine ⟨_, _, _, hG, pgdDirection_ok.2 ⟨_, hG, rfl⟩, projectDirection_neg _ _, fun a h0 h1 => lmeLoss_ok.2 ⟨inDomain_of_nonneg hD fun j => step_nonneg (mem_stepPairs _ _ j) (hg j) h0 h1, rfl⟩, ?_⟩
  rw [← projectDirection_dot]
  exact gammaLoss_line hP hG _

/-- Running on with a larger iteration limit. -/
theorem pgdGammaLoop_more (grad : Vec ℝ q → Except PyErr (Vec ℝ q)) (ls : LineSearch) (tol : ℝ) {N N' : ℤ} (hN : N ≤ N') :
    ∀ (n : ℕ) (s r : PgdState q), (N - s.iteration).toNat = n → pgdGammaLoop grad ls N tol s = .ok r → pgdGammaLoop grad ls N' tol s = pgdGammaLoop grad ls N' tol r := by
  intro n
  induction n using Nat.strong_induction_on with
  | _ n ih =>
    intro s r hn h
    unfold pgdGammaLoop at h
    split_ifs at h with h1
    · rw [pgdGammaLoop, dif_pos ⟨h1.1, h1.2.1.trans_le hN, h1.2.2⟩]
      cases hl : ls s.iteration (maxStepLen (stepPairs s.gamma s.direction)) with
      | error e => rw [hl] at h; cases h
      | ok step =>
        rw [hl] at h
        simp only at h ⊢
        cases hd : pgdDirection grad (killZeros (s.gamma + step • s.direction)) with
        | error e => rw [hd] at h; cases h
        | ok d =>
          rw [hd] at h
          refine ih _ ?_ _ r rfl h
          rw [← hn]
          simp only
          have := h1.2.1
          push_cast
          omega
    · cases h; rfl

/-- The state from which the line search is called in iteration `N`: the loop stopped only because of the iteration limit. -/
def PgdAsked (grad : Vec ℝ q → Except PyErr (Vec ℝ q)) (ls : LineSearch) (tol : ℝ) (gamma : Vec ℝ q) (N : ℕ) (s : PgdState q) : Prop :=
  (∃ d, pgdDirection grad gamma = .ok d ∧ pgdGammaLoop grad ls N tol ⟨gamma, d, 1, 0⟩ = .ok s) ∧ s.iteration = N ∧ 0 < s.stepLen ∧ tol < npNorm s.direction

theorem pgdAsked_dir {grad : Vec ℝ q → Except PyErr (Vec ℝ q)} {ls : LineSearch} {tol : ℝ} {gamma : Vec ℝ q} (hg : ∀ j, 0 ≤ gamma j) {N : ℤ} {d : Vec ℝ q} {s : PgdState q}
    (hd : pgdDirection grad gamma = .ok d) (hs : pgdGammaLoop grad ls N tol ⟨gamma, d, 1, 0⟩ = .ok s) : (∀ j, 0 ≤ s.gamma j) ∧ pgdDirection grad s.gamma = .ok s.direction :=
  pgdGammaLoop_inv grad ls N tol (fun s => (∀ j, 0 ≤ s.gamma j) ∧ pgdDirection grad s.gamma = .ok s.direction)
    (fun _ _ _ _ _ _ hd' => ⟨fun j => killZeros_nonneg _ j, hd'⟩) _ _ s rfl ⟨hg, hd⟩ hs

theorem npNorm_pos_sum {n : ℕ} {d : Vec ℝ n} (h : 0 < npNorm d) : 0 < ∑ j, d j ^ 2 := by
  unfold npNorm at h
  exact Real.sqrt_pos.1 h

theorem abs_le_npNorm {n : ℕ} (d : Vec ℝ n) (j : Fin n) : |d j| ≤ npNorm d := by
  unfold npNorm
  exact Real.abs_le_sqrt (Finset.single_le_sum (f := fun i => d i ^ 2) (fun i _ => sq_nonneg _) (Finset.mem_univ j))

/-- Along a direction of negative slope the loss falls somewhere in the interval. -/
theorem exists_lower {f : ℝ → ℝ} {c m : ℝ} (hf : HasDerivAt f (-c) 0) (hc : 0 < c) (hm : 0 < m) : ∃ a, 0 ≤ a ∧ a ≤ m ∧ f a < f 0 := by
  have h := hasDerivAt_iff_tendsto_slope.1 hf
  have h1 : ∀ᶠ a in 𝓝[≠] (0 : ℝ), slope f 0 a < 0 := h.eventually (gt_mem_nhds (by linarith))
  have h2 : ∀ᶠ a in 𝓝[>] (0 : ℝ), slope f 0 a < 0 := h1.filter_mono (nhdsWithin_mono _ fun x hx => ne_of_gt hx)
  have h3 : ∀ᶠ a in 𝓝[>] (0 : ℝ), a < m := nhdsWithin_le_nhds (gt_mem_nhds hm)
  obtain ⟨a, ha1, ha2, ha3⟩ := (h2.and (h3.and self_mem_nhdsWithin)).exists
  have ha0 : 0 < a := ha3
  refine ⟨a, ha0.le, ha2.le, ?_⟩
  rw [slope_def_field, sub_zero, div_neg_iff] at ha1
  rcases ha1 with h | h
  · linarith
  · linarith

/-- **C164**: let the line search return, in every state in which it is asked, a step of its interval at which the loss is smallest. From nonnegative variances, with positive observation variances, `optimal_gamma_pgd` then
never fails; the loss at the point found by each line search is strictly smaller than the loss at its start; and if the method returns before the iteration limit, the result is a nearly stationary point of the loss on the
nonnegative variances: the derivative is at most `tol_inner` in absolute value for positive variances and at least `-tol_inner` for zero ones. -/
theorem C164_pgd (D : List (LmeGroup p q)) (hD : PosVar D) (P : LmeInstPrior ℝ p q) (hP : P.Reachable) (beta : Vec ℝ p) (gamma : Vec ℝ q) (hg : ∀ j, 0 ≤ gamma j) (ls : LineSearch) (nIter : ℤ) (tol : ℝ)
    (htol : 0 ≤ tol)
    (hls : ∀ (N : ℕ) s, (N : ℤ) < nIter → PgdAsked (lmeGradientGamma D P beta) ls tol gamma N s → ∃ step, ls N (maxStepLen (stepPairs s.gamma s.direction)) = .ok step ∧ 0 ≤ step ∧
      step ≤ maxStepLen (stepPairs s.gamma s.direction) ∧ ∀ a, 0 ≤ a → a ≤ maxStepLen (stepPairs s.gamma s.direction) → ∀ u v, lmeLoss D P beta (s.gamma + step • s.direction) = .ok u →
        lmeLoss D P beta (s.gamma + a • s.direction) = .ok v → u ≤ v) :
    (∀ (N : ℕ) s step, (N : ℤ) < nIter → PgdAsked (lmeGradientGamma D P beta) ls tol gamma N s → ls N (maxStepLen (stepPairs s.gamma s.direction)) = .ok step →
      ∃ u v, lmeLoss D P beta (s.gamma + step • s.direction) = .ok u ∧ lmeLoss D P beta s.gamma = .ok v ∧ u < v) ∧
    ∃ r k, lmeOptimalGammaPgd (lmeGradientGamma D P beta) ls nIter tol gamma = .ok (r, k) ∧ (∀ j, 0 ≤ r j) ∧
      ((k : ℤ) < nIter → ∃ G, lmeGradientGamma D P beta r = .ok G ∧ (∀ j, 0 < r j → |G j| ≤ tol) ∧ ∀ j, r j = 0 → -tol ≤ G j) := by
  -- one call of the line search
  have one : ∀ (N : ℕ) s step, (N : ℤ) < nIter → PgdAsked (lmeGradientGamma D P beta) ls tol gamma N s → ls N (maxStepLen (stepPairs s.gamma s.direction)) = .ok step →
      0 < step ∧ ∃ u v, lmeLoss D P beta (s.gamma + step • s.direction) = .ok u ∧ lmeLoss D P beta s.gamma = .ok v ∧ u < v := by
    intro N s step hN hA hst
    obtain ⟨step', hst', h0, h1, hmin⟩ := hls N s hN hA
    rw [hst] at hst'
    cases hst'
    obtain ⟨⟨d, hd, hs⟩, -, -, hnorm⟩ := hA
    obtain ⟨hsg, hsd⟩ := pgdAsked_dir hg hd hs
    obtain ⟨G, d', f, -, hd', -, hf, hder⟩ := C164_direction D hD P hP beta s.gamma hsg
    rw [hsd] at hd'
    cases hd'
    have hproj : Projected s.gamma s.direction := by
      obtain ⟨G, -, e⟩ := pgdDirection_ok.1 hsd
      rw [e]
      exact projectDirection_projected _ _
    obtain ⟨a, ha0, ha1, ha⟩ := exists_lower hder (npNorm_pos_sum (htol.trans_lt hnorm)) (maxStepLen_pos' (maxStepLen_pos_of_projected hsg hproj))
    have hu := hf step h0 h1
    have hle := hmin a ha0 ha1 _ _ hu (hf a ha0 ha1)
    have hz := hf 0 le_rfl (h0.trans h1)
    rw [zero_smul, add_zero] at hz
    refine ⟨lt_of_le_of_ne h0 ?_, _, _, hu, hz, hle.trans_lt ha⟩
    rintro rfl
    exact absurd hle (not_le.2 ha)
  refine ⟨fun N s step hN hA hst => (one N s step hN hA hst).2, ?_⟩
  have hd0 : pgdDirection (lmeGradientGamma D P beta) gamma = .ok _ := pgdDirection_ok.2 ⟨_, lmeGradientGamma_ok'.2 ⟨inDomain_of_nonneg hD hg, rfl⟩, rfl⟩
  obtain ⟨d0, hd0'⟩ : ∃ d, pgdDirection (lmeGradientGamma D P beta) gamma = .ok d := ⟨_, hd0⟩
  -- the run with limit `N`
  have run : ∀ N : ℕ, (N : ℤ) ≤ max nIter 0 → ∃ s, pgdGammaLoop (lmeGradientGamma D P beta) ls N tol ⟨gamma, d0, 1, 0⟩ = .ok s ∧ 0 < s.stepLen ∧ s.iteration ≤ N ∧
      (s.iteration < N → npNorm s.direction ≤ tol) := by
    intro N
    induction N with
    | zero =>
      intro _
      refine ⟨⟨gamma, d0, 1, 0⟩, ?_, one_pos, le_rfl, fun h => absurd h (lt_irrefl _)⟩
      unfold pgdGammaLoop
      rw [dif_neg (by simp)]
    | succ N ih =>
      intro hN
      have hN' : (N : ℤ) < nIter := by
        push_cast at hN
        omega
      obtain ⟨s, hs, hpos, hit, hlt⟩ := ih (by push_cast at hN ⊢; omega)
      have hmore := pgdGammaLoop_more (lmeGradientGamma D P beta) ls tol (N := (N : ℤ)) (N' := ((N + 1 : ℕ) : ℤ)) (by push_cast; omega) _ _ _ rfl hs
      rw [hmore]
      by_cases hn : tol < npNorm s.direction
      · have hiN : s.iteration = N := by
          rcases hit.lt_or_eq with h | h
          · exact absurd (hlt h) (not_le.2 hn)
          · exact h
        have hA : PgdAsked (lmeGradientGamma D P beta) ls tol gamma N s := ⟨⟨d0, hd0', hs⟩, hiN, hpos, hn⟩
        obtain ⟨step, hst, -⟩ := hls N s hN' hA
        obtain ⟨hstep, -⟩ := one N s step hN' hA hst
        obtain ⟨hsg, hsd⟩ := pgdAsked_dir hg hd0' hs
        obtain ⟨d1, hd1⟩ : ∃ d1, pgdDirection (lmeGradientGamma D P beta) (killZeros (s.gamma + step • s.direction)) = .ok d1 :=
          ⟨_, pgdDirection_ok.2 ⟨_, lmeGradientGamma_ok'.2 ⟨inDomain_of_nonneg hD fun j => killZeros_nonneg _ j, rfl⟩, rfl⟩⟩
        refine ⟨⟨killZeros (s.gamma + step • s.direction), d1, step, N + 1⟩, ?_, hstep, le_rfl, fun h => absurd h (lt_irrefl _)⟩
        rw [pgdGammaLoop, dif_pos ⟨hpos, by push_cast; omega, hn⟩, hiN, hst]
        simp only [hd1]
        rw [pgdGammaLoop, dif_neg (by simp)]
      · refine ⟨s, ?_, hpos, by omega, fun _ => not_lt.1 hn⟩
        rw [pgdGammaLoop, dif_neg fun h => hn h.2.2]
  obtain ⟨s, hs, hpos, hit, hlt⟩ := run nIter.toNat (by omega)
  have hs' : pgdGammaLoop (lmeGradientGamma D P beta) ls nIter tol ⟨gamma, d0, 1, 0⟩ = .ok s := by
    rcases le_or_gt 0 nIter with h | h
    · rwa [Int.toNat_of_nonneg h] at hs
    · have e : nIter.toNat = 0 := by omega
      rw [e] at hs
      unfold pgdGammaLoop at hs ⊢
      rw [dif_neg (by simp)] at hs
      rw [dif_neg (by simp; omega)]
      exact hs
  obtain ⟨hsg, hsd⟩ := pgdAsked_dir hg hd0' hs'
  refine ⟨s.gamma, s.iteration, ?_, hsg, fun hk => ?_⟩
  · unfold lmeOptimalGammaPgd
    rw [hd0']
    change (pgdGammaLoop _ _ _ _ _ >>= _) = _
    rw [hs']
    rfl
  · have hnorm := hlt (by omega)
    obtain ⟨G, hG, e⟩ := pgdDirection_ok.1 hsd
    refine ⟨G, hG, fun j hj => ?_, fun j hj => ?_⟩
    · have := (abs_le_npNorm s.direction j).trans hnorm
      rwa [e, projectDirection_neg, if_neg hj.ne', abs_neg] at this
    · have := (le_abs_self _).trans ((abs_le_npNorm s.direction j).trans hnorm)
      rw [e, projectDirection_neg, if_pos hj] at this
      linarith [le_max_left (-G j) 0]

/-- **C164**: there is such a line search for every problem and start. -/
theorem C164_lineSearch_exists (D : List (LmeGroup p q)) (hD : PosVar D) (P : LmeInstPrior ℝ p q) (beta : Vec ℝ p) (gamma : Vec ℝ q) (hg : ∀ j, 0 ≤ gamma j) (tol : ℝ) :
    ∃ ls : LineSearch, ∀ (N : ℕ) s, PgdAsked (lmeGradientGamma D P beta) ls tol gamma N s → ∃ step, ls N (maxStepLen (stepPairs s.gamma s.direction)) = .ok step ∧ 0 ≤ step ∧
      step ≤ maxStepLen (stepPairs s.gamma s.direction) ∧ ∀ a, 0 ≤ a → a ≤ maxStepLen (stepPairs s.gamma s.direction) → ∀ u v, lmeLoss D P beta (s.gamma + step • s.direction) = .ok u →
        lmeLoss D P beta (s.gamma + a • s.direction) = .ok v → u ≤ v := by
  have hmin : ∀ s : PgdState q, ∃ step, (∀ j, 0 ≤ s.gamma j) → Projected s.gamma s.direction → 0 ≤ step ∧ step ≤ maxStepLen (stepPairs s.gamma s.direction) ∧
      ∀ a, 0 ≤ a → a ≤ maxStepLen (stepPairs s.gamma s.direction) → ∀ u v, lmeLoss D P beta (s.gamma + step • s.direction) = .ok u → lmeLoss D P beta (s.gamma + a • s.direction) = .ok v → u ≤ v := by
    intro s
    by_cases h : (∀ j, 0 ≤ s.gamma j) ∧ Projected s.gamma s.direction
    · obtain ⟨h1, h2⟩ := h
      have hm := maxStepLen_pos' (maxStepLen_pos_of_projected h1 h2)
      obtain ⟨a, ha, hamin⟩ := isCompact_Icc.exists_isMinOn (Set.nonempty_Icc.2 hm.le)
        (f := fun a : ℝ => marginalNLL D beta (s.gamma + a • s.direction) + P.loss beta (s.gamma + a • s.direction))
        fun a ha => (gammaLoss_line_cont beta s.direction (inDomain_of_nonneg hD fun j => step_nonneg (mem_stepPairs _ _ j) (h1 j) ha.1 ha.2)).continuousWithinAt
      refine ⟨a, fun _ _ => ⟨ha.1, ha.2, fun a' h0 h1 u v hu hv => ?_⟩⟩
      rw [(lmeLoss_ok.1 hu).2, (lmeLoss_ok.1 hv).2]
      exact hamin ⟨h0, h1⟩
    · exact ⟨0, fun h1 h2 => absurd ⟨h1, h2⟩ h⟩
  choose σ hσ using hmin
  obtain ⟨d0, hd0⟩ : ∃ d, pgdDirection (lmeGradientGamma D P beta) gamma = .ok d :=
    ⟨_, pgdDirection_ok.2 ⟨_, lmeGradientGamma_ok'.2 ⟨inDomain_of_nonneg hD hg, rfl⟩, rfl⟩⟩
  have hdir : ∀ g : Vec ℝ q, ∃ d, ∀ d', pgdDirection (lmeGradientGamma D P beta) g = .ok d' → d' = d := fun g => by
    cases h : pgdDirection (lmeGradientGamma D P beta) g with
    | error e => exact ⟨0, fun d' h' => by cases h'⟩
    | ok d => exact ⟨d, fun d' h' => by cases h'; rfl⟩
  choose δ hδ using hdir
  let next : PgdState q → PgdState q := fun s => ⟨killZeros (s.gamma + σ s • s.direction), δ (killZeros (s.gamma + σ s • s.direction)), σ s, s.iteration + 1⟩
  let seq : ℕ → PgdState q := fun N => next^[N] ⟨gamma, d0, 1, 0⟩
  have hseq : ∀ N, seq (N + 1) = next (seq N) := fun N => Function.iterate_succ_apply' _ _ _
  refine ⟨fun N _ => .ok (σ (seq N)), fun N s hA => ?_⟩
  obtain ⟨⟨d, hd, hs⟩, hit, -⟩ := hA
  rw [hd0] at hd
  cases hd
  have hin : s = seq s.iteration :=
    pgdGammaLoop_inv _ _ _ tol (fun s => s = seq s.iteration) (fun s step d hI _ hl hd => by
      have hl' : Except.ok (σ (seq s.iteration)) = (Except.ok step : Except PyErr ℝ) := hl
      rw [← hI] at hl'
      cases hl'
      have := hδ _ _ hd
      simp only
      rw [hseq, ← hI, this]) _ _ s rfl rfl hs
  obtain ⟨hsg, hsd⟩ := pgdAsked_dir hg hd0 hs
  have hproj : Projected s.gamma s.direction := by
    obtain ⟨G, -, e⟩ := pgdDirection_ok.1 hsd
    rw [e]
    exact projectDirection_projected _ _
  obtain ⟨h1, h2, h3⟩ := hσ s hsg hproj
  refine ⟨σ s, ?_, h1, h2, h3⟩
  rw [← hit]
  change Except.ok (σ (seq s.iteration)) = _
  rw [← hin]

/-- With the line search of `C164_lineSearch_exists` the theorem applies to the example group from the variance `1`, for any limit and tolerance. -/
example (nIter : ℤ) (tol : ℝ) (htol : 0 ≤ tol) : ∃ (ls : LineSearch) (r : Vec ℝ 1) (k : ℕ), lmeOptimalGammaPgd (lmeGradientGamma [exGroup] .nonInformative ![1]) ls nIter tol ![1] = .ok (r, k) ∧ 0 ≤ r 0 ∧
    ((k : ℤ) < nIter → ∃ G, lmeGradientGamma [exGroup] .nonInformative ![1] r = .ok G ∧ (0 < r 0 → |G 0| ≤ tol) ∧ (r 0 = 0 → -tol ≤ G 0)) := by
  have h1 : ∀ j, 0 ≤ (![1] : Vec ℝ 1) j := by intro j; fin_cases j; simp
  obtain ⟨ls, hls⟩ := C164_lineSearch_exists [exGroup] exGroup_posVar .nonInformative ![1] ![1] h1 tol
  obtain ⟨-, r, k, h2, h3, h4⟩ := C164_pgd [exGroup] exGroup_posVar .nonInformative trivial ![1] ![1] h1 ls nIter tol htol fun N s _ => hls N s
  exact ⟨ls, r, k, h2, h3 0, fun hk => (h4 hk).imp fun G hG => ⟨hG.1, hG.2.1 0, hG.2.2 0⟩⟩

/-- At the variance `0` of the example group the derivative is `5/8`, so the direction is `0`; started from there the method stops at once. -/
example (ls : LineSearch) (nIter : ℤ) : lmeOptimalGammaPgd (lmeGradientGamma [exGroup] .nonInformative ![1]) ls nIter 0 ![0] = .ok (![0], 0) := by
  have hG : lmeGradientGamma [exGroup] .nonInformative ![1] ![0] = .ok ![5 / 8] := exGroup_grad_zero
  have hd : pgdDirection (lmeGradientGamma [exGroup] .nonInformative ![1]) ![0] = .ok ![0] := by
    refine pgdDirection_ok.2 ⟨_, hG, ?_⟩
    funext j
    rw [projectDirection_neg]
    fin_cases j
    simp
    norm_num
  unfold lmeOptimalGammaPgd
  rw [hd]
  change (pgdGammaLoop _ _ _ _ _ >>= _) = _
  rw [pgdGammaLoop, dif_neg]
  · rfl
  · intro h
    have h3 := h.2.2
    unfold npNorm at h3
    simp at h3

end Verif
