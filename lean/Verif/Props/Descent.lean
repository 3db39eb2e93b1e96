import Verif.Props.Solver

/-!
# C20 (descent), C21 (fixed points), C22 (the loss log)
-/

namespace Verif

variable {K : Type} [Field K] [LinearOrder K] [IsStrictOrderedRing K] {n : ℕ} {σ : Type}

/-! ## C20: one step -/

/-- **C20**, one step: if `z` is the exact prox at `x + t d` and the step satisfies the sufficient-decrease test, the objective does not
increase. No assumption on `f`, nor on the direction. -/
theorem C20_step_descent (f : Vec K n → K) (g : Vec K n → WithTop K) (x d z : Vec K n) (t : K) (ht : 0 < t)
    (hz : IsProxOf g t (fun i => x i + t * d i) z) (hsd : SufficientDecrease f d t x z) :
    (f z : WithTop K) + g z ≤ (f x : WithTop K) + g x := by
  obtain ⟨gz, hgz, hmin⟩ := hz
  cases hgx : g x with
  | top => simp
  | coe gx =>
    rw [hgz]
    have h1 := hmin x gx hgx
    unfold SufficientDecrease at hsd
    have e1 : normSq (x - fun i => x i + t * d i) = t ^ 2 * normSq d := by
      simp only [normSq, Pi.sub_apply, Finset.mul_sum]
      exact Finset.sum_congr rfl fun i _ => by ring
    have e2 : normSq (z - fun i => x i + t * d i) =
        (∑ i, (z i - x i) ^ 2) - 2 * t * (∑ i, d i * (z i - x i)) + t ^ 2 * normSq d := by
      simp only [normSq, Pi.sub_apply, Finset.mul_sum, ← Finset.sum_sub_distrib, ← Finset.sum_add_distrib]
      exact Finset.sum_congr rfl fun i _ => by ring
    rw [e1, e2] at h1
    have h2 : t * gz + (∑ i, (z i - x i) ^ 2) / 2 - t * (∑ i, d i * (z i - x i)) ≤ t * gx := by linarith
    have h3 : gz + (∑ i, (z i - x i) ^ 2) / (2 * t) - (∑ i, d i * (z i - x i)) ≤ gx := by
      have : gz + (∑ i, (z i - x i) ^ 2) / (2 * t) - (∑ i, d i * (z i - x i)) =
          (t * gz + (∑ i, (z i - x i) ^ 2) / 2 - t * (∑ i, d i * (z i - x i))) / t := by field_simp
      rw [this, div_le_iff₀ ht]; linarith
    have h4 : f z + gz ≤ f x + gx := by linarith
    exact_mod_cast h4

/-- Non-vacuity of C20: the trial step of C19's example. -/
example : IsProxOf (fun _ : Vec ℚ 1 => 0) 1 (fun i => ![3] i + 1 * ![-3] i) ![0] ∧
    SufficientDecrease (fun x : Vec ℚ 1 => x 0 ^ 2 / 2) ![-3] 1 ![3] ![0] := by
  refine ⟨⟨0, rfl, fun u gu hu => ?_⟩, by simp [SufficientDecrease]; norm_num⟩
  have : gu = 0 := (WithTop.coe_eq_zero.1 hu.symm)
  subst this
  simp [normSq]
  positivity

/-! ## C22: the loss log -/

section
variable [FloorSemiring K]

/-- What the run visited and logged (used for C20 and C22). -/
theorem optimize_log_trace (o : Oracle K n σ) (R : Regularizer K n) (f : Vec K n → K) (g : Vec K n → WithTop K) (hf : o.Values f)
    (hg : ∀ x, R.value x = .ok (g x)) (cfg : PGDCfg K) (x0 : Vec K n) (keys : List String) (hk : keys.Nodup) (hloss : "loss" ∈ keys)
    (s s' : σ) (x : Vec K n) (Lf : Logger (PyVal K n))
    (h : pgdOptimize o R cfg x0 (Logger.init .tuple keys) s = .ok ((x, Lf), s')) :
    ∃ (k : ℕ) (X : ℕ → Vec K n), X 0 = x0 ∧ X k = x ∧
      (∀ i < k, ∃ gr step s1 s2 s3, o.grad (X i) s1 = .ok (gr, s2) ∧ chooseStep o R cfg (X i) (-gr) s2 = .ok (step, s3) ∧
        R.prox (fun j => X i j - step * gr j) step = .ok (X (i + 1))) ∧
      Lf.get "iteration" = .ok (.atom (.int k)) ∧
      Lf.get "loss" = .ok (.list ((List.range (k + 1)).map fun i => PyVal.num ((f (X i) : WithTop K) + g (X i)))) := by
  obtain ⟨k, X, Ls, s1, L1, hl0, h0, hkx, hc, hit, hsteps, hguards, hend⟩ := pgdOptimize_trace o R cfg x0 (Logger.init .tuple keys)
    (fun x L x' L' => (∃ gr step s1 s2 s3, o.grad x s1 = .ok (gr, s2) ∧ chooseStep o R cfg x (-gr) s2 = .ok (step, s3) ∧
        R.prox (fun j => x j - step * gr j) step = .ok x') ∧
      (L.Good → "loss" ∈ L.keys → L'.Good ∧ "loss" ∈ L'.keys ∧
        L'.dict "loss" = (L.dict "loss").map (logEffect (some (PyVal.num ((f x' : WithTop K) + g x'))))))
    (fun x it L s x' L' s' hb => by
      obtain ⟨gr, s1, step, s2, hgr, hst, hp, hlog⟩ := pgdBody_ok _ _ _ _ _ _ _ _ _ _ _ hb
      refine ⟨⟨gr, step, s, s1, s2, hgr, hst, hp⟩, fun hgood hl => ?_⟩
      obtain ⟨L2, s3, hL2, hg2, hk2, hd2⟩ := logBlock_returns o R f g hf hg L hgood x' _ s2
      rw [hL2] at hlog
      cases hlog
      exact ⟨hg2, by rw [hk2]; exact hl, hd2 hl⟩) s s' x Lf h
  refine ⟨k, X, h0, hkx, fun i hi => (hsteps i hi).1, (Logger.add_get hit).1, ?_⟩
  have hgood0 := Logger.good_init (V := PyVal K n) keys hk
  obtain ⟨L2, s3, hL2, hg2, hk2, hd2⟩ := logBlock_returns o R f g hf hg _ hgood0 x0 (localsInit x0) s
  rw [hL2] at hl0
  obtain ⟨rfl, rfl⟩ := Prod.mk.inj (Except.ok.inj hl0)
  have hinv : ∀ i ≤ k, (Ls i).Good ∧ "loss" ∈ (Ls i).keys ∧
      (Ls i).dict "loss" = some (.list ((List.range (i + 1)).map fun i => PyVal.num ((f (X i) : WithTop K) + g (X i)))) := by
    intro i
    induction i with
    | zero =>
      intro _
      refine ⟨hg2, by rw [hk2]; exact hloss, ?_⟩
      rw [hd2 hloss]
      simp [Logger.init, hloss, logEffect, h0, List.range_succ]
    | succ i ih =>
      intro hi
      obtain ⟨h1, h2, h3⟩ := ih (by omega)
      obtain ⟨h4, h5, h6⟩ := (hsteps i (by omega)).2 h1 h2
      refine ⟨h4, h5, ?_⟩
      rw [h6, h3, List.range_succ (n := i + 1)]
      simp [logEffect]
  have hfin := (hinv k le_rfl).2.2
  rw [(Logger.add_get hit).2 _ (by decide), (Logger.add_get hc).2 _ (by decide), Logger.get, hfin]

/-- **C22.** With `'loss'` among the (distinct) keys, the logged loss list has `iteration + 1` entries: the objective at the starting point and after
every prox-gradient step, the last one at the returned point. -/
theorem C22_loss_log (o : Oracle K n σ) (R : Regularizer K n) (f : Vec K n → K) (g : Vec K n → WithTop K) (hf : o.Values f)
    (hg : ∀ x, R.value x = .ok (g x)) (cfg : PGDCfg K) (x0 : Vec K n) (keys : List String) (hk : keys.Nodup) (hloss : "loss" ∈ keys)
    (s s' : σ) (x : Vec K n) (Lf : Logger (PyVal K n))
    (h : pgdOptimize o R cfg x0 (Logger.init .tuple keys) s = .ok ((x, Lf), s')) :
    ∃ (k : ℕ) (X : ℕ → Vec K n), X 0 = x0 ∧ X k = x ∧ (∀ i < k, ∃ step, ProxGradStep o R step (X i) (X (i + 1))) ∧
      Lf.get "iteration" = .ok (.atom (.int k)) ∧
      ∃ losses : List (PyVal K n), Lf.get "loss" = .ok (.list losses) ∧ losses.length = k + 1 ∧
        ∀ i (hi : i < losses.length), losses[i] = PyVal.num ((f (X i) : WithTop K) + g (X i)) := by
  obtain ⟨k, X, h0, hkx, hsteps, hit, hl⟩ := optimize_log_trace o R f g hf hg cfg x0 keys hk hloss s s' x Lf h
  refine ⟨k, X, h0, hkx, fun i hi => ?_, hit, _, hl, by simp, fun i hi => by simp⟩
  obtain ⟨gr, step, s1, s2, s3, hgr, _, hp⟩ := hsteps i hi
  exact ⟨step, s1, gr, s2, hgr, hp⟩

/-- Non-vacuity of C22: the hypotheses hold for a concrete run with other keys present. -/
example : ∃ x Lf s', pgdOptimize exOracle dummyRegularizer ⟨1/1000, 100, "fixed", 1/2⟩ ![3] (Logger.init .tuple ["x", "loss", "step_len"]) ()
    = .ok ((x, Lf), s') :=
  C16_returns exOracle dummyRegularizer _ _ (fun _ => 0) exOracle_values exOracle_grads (fun _ => rfl) (fun y _ => ⟨y, rfl⟩) _ _ _
    (Logger.good_init _ (by decide)) ()

/-! ## C20: the whole run -/

/-- At `x`, with the direction against the gradient, some step the solver may try is acceptable: the fixed one, or one of the halvings above the line
search's floor. -/
def StepAcceptable (f : Vec K n → K) (gr : Vec K n → Vec K n) (prox : Vec K n → K → Vec K n) (cfg : PGDCfg K) (x : Vec K n) : Prop :=
  let sd := fun t : K => SufficientDecrease f (fun i => - gr x i) t x (prox (fun i => x i - t * gr x i) t)
  if cfg.stepping = "line-search" then ∃ j : ℕ, sd (cfg.fixedStepLen / 2 ^ j) ∧ 1 / 10 ^ 14 < cfg.fixedStepLen / 2 ^ j
  else sd cfg.fixedStepLen

theorem chooseStep_accepts (o : Oracle K n σ) (R : Regularizer K n) (f : Vec K n → K) (hf : o.Values f) (gr : Vec K n → Vec K n)
    (prox : Vec K n → K → Vec K n) (hp : ∀ y t, R.prox y t = .ok (prox y t)) (cfg : PGDCfg K) (x : Vec K n)
    (hacc : StepAcceptable f gr prox cfg x) (s s' : σ) (t : K) (h : chooseStep o R cfg x (-(gr x)) s = .ok (t, s')) :
    SufficientDecrease f (fun i => - gr x i) t x (prox (fun i => x i - t * gr x i) t) := by
  unfold StepAcceptable at hacc
  dsimp only at hacc
  unfold chooseStep at h
  split_ifs at h hacc with hls
  · obtain ⟨j0, hsd0, hfl0⟩ := hacc
    obtain ⟨j, s1, hr, hor, hmin⟩ := C19_line_search o R f hf prox hp x (-(gr x)) cfg.fixedStepLen s
    rw [h] at hr
    obtain ⟨rfl, rfl⟩ := Prod.mk.inj (Except.ok.inj hr)
    simp only [Pi.neg_apply, mul_neg, ← sub_eq_add_neg] at hor hmin
    have hj : j ≤ j0 := by
      by_contra hc
      exact (hmin j0 (by omega)).1 hsd0
    rcases hor with hor | hor
    · exact hor
    · exfalso
      rcases le_or_gt cfg.fixedStepLen 0 with hneg | hpos
      · have h1 : cfg.fixedStepLen / 2 ^ j0 ≤ 0 := div_nonpos_of_nonpos_of_nonneg hneg (by positivity)
        have h2 : (0 : K) < 1 / 10 ^ 14 := by positivity
        linarith
      · have : cfg.fixedStepLen / 2 ^ j0 ≤ cfg.fixedStepLen / 2 ^ j :=
          div_le_div_of_nonneg_left hpos.le (by positivity) (pow_le_pow_right₀ (by norm_num) hj)
        linarith
  · obtain ⟨rfl, _⟩ := pure_ok.1 h
    exact hacc

/-- **C20**, the whole run: with an exact prox, and if at every point some step the solver may try is acceptable, the logged losses never
increase. -/
theorem C20_losses_nonincreasing (o : Oracle K n σ) (R : Regularizer K n) (f : Vec K n → K) (gr : Vec K n → Vec K n)
    (g : Vec K n → WithTop K) (hf : o.Values f) (hgr : o.Grads gr) (hg : ∀ x, R.value x = .ok (g x))
    (prox : Vec K n → K → Vec K n) (hp : ∀ y t, R.prox y t = .ok (prox y t))
    (hexact : ∀ y t, 0 < t → IsProxOf g t y (prox y t)) (cfg : PGDCfg K) (hstep : 0 < cfg.fixedStepLen)
    (hacc : ∀ x, StepAcceptable f gr prox cfg x) (x0 : Vec K n) (keys : List String) (hk : keys.Nodup) (hloss : "loss" ∈ keys)
    (s s' : σ) (x : Vec K n) (Lf : Logger (PyVal K n))
    (h : pgdOptimize o R cfg x0 (Logger.init .tuple keys) s = .ok ((x, Lf), s')) :
    ∃ losses : List (WithTop K), Lf.get "loss" = .ok (.list (losses.map PyVal.num)) ∧ losses.Pairwise (· ≥ ·) := by
  obtain ⟨k, X, h0, hkx, hsteps, hit, hl⟩ := optimize_log_trace o R f g hf hg cfg x0 keys hk hloss s s' x Lf h
  have hdec : ∀ i < k, (f (X (i + 1)) : WithTop K) + g (X (i + 1)) ≤ (f (X i) : WithTop K) + g (X i) := by
    intro i hi
    obtain ⟨gv, t, s1, s2, s3, hgv, hst, hprox⟩ := hsteps i hi
    obtain ⟨s2', hgv'⟩ := hgr (X i) s1
    rw [hgv'] at hgv
    obtain ⟨rfl, rfl⟩ := Prod.mk.inj (Except.ok.inj hgv)
    have hpos := chooseStep_pos o R cfg _ _ _ _ _ hstep hst
    have hsd := chooseStep_accepts o R f hf gr prox hp cfg (X i) (hacc _) _ _ _ hst
    rw [hp] at hprox
    rw [← Except.ok.inj hprox]
    refine C20_step_descent f g (X i) (fun j => - gr (X i) j) _ t hpos ?_ hsd
    simp only [mul_neg, ← sub_eq_add_neg]
    exact hexact _ _ hpos
  refine ⟨(List.range (k + 1)).map fun i => (f (X i) : WithTop K) + g (X i), by rw [hl]; simp [List.map_map], ?_⟩
  rw [List.pairwise_map]
  have hmono : ∀ i j, i ≤ j → j ≤ k → (f (X j) : WithTop K) + g (X j) ≤ (f (X i) : WithTop K) + g (X i) := by
    intro i j hij
    induction hij with
    | refl => intro _; exact le_rfl
    | step _ ih => intro hj; exact (hdec _ (by omega)).trans (ih (by omega))
  have hp := List.pairwise_lt_range (n := k + 1)
  refine hp.imp_of_mem ?_
  intro a b ha hb hab
  exact hmono a b hab.le (by have := List.mem_range.1 hb; omega)

end

/-- Non-vacuity of C20: for `f(x) = x²/2`, no regularizer, first trial step `4`: the halving to `1` is acceptable everywhere. -/
example (x : Vec ℚ 1) : StepAcceptable (fun x : Vec ℚ 1 => x 0 ^ 2 / 2) (fun x => x) (fun y _ => y) ⟨1/1000, 100, "line-search", 4⟩ x := by
  unfold StepAcceptable
  refine ⟨2, ?_, by norm_num⟩
  simp [SufficientDecrease]
  nlinarith

/-! ## C21: fixed points -/

/-- `gr` is the gradient of `f` at `x`: directional derivatives (in the ordered field, without limits). -/
def IsGradAt (f : Vec K n → K) (gr x : Vec K n) : Prop :=
  ∀ h : Vec K n, ∀ ε > 0, ∃ δ > 0, ∀ s, 0 < s → s < δ → |f (fun i => x i + s * h i) - f x - s * (∑ i, gr i * h i)| ≤ s * ε

/-- `f` lies above its tangent plane at `x`. -/
def AboveTangent (f : Vec K n → K) (gr x : Vec K n) : Prop := ∀ v, f x + ∑ i, gr i * (v i - x i) ≤ f v

/-- Convexity of an extended-valued penalty. -/
def ConvexPenalty (g : Vec K n → WithTop K) : Prop :=
  ∀ (u v : Vec K n) (a b s : K), g u = a → g v = b → 0 ≤ s → s ≤ 1 →
    g (fun i => u i + s * (v i - u i)) ≤ ((a + s * (b - a) : K) : WithTop K)

/-- `x` is a global minimiser of `f + g` with finite penalty. -/
def IsGlobalMin (f : Vec K n → K) (g : Vec K n → WithTop K) (x : Vec K n) : Prop :=
  g x ≠ ⊤ ∧ ∀ v, (f x : WithTop K) + g x ≤ (f v : WithTop K) + g v

/-- **C21**, fixed points are minimisers: if a prox-gradient step maps `x` to itself, `x` minimises `f + g`. -/
theorem C21_fixed_point_is_min (f : Vec K n → K) (g : Vec K n → WithTop K) (gr x : Vec K n) (t : K) (ht : 0 < t)
    (hf : AboveTangent f gr x) (hg : ConvexPenalty g) (hfix : IsProxOf g t (fun i => x i - t * gr i) x) : IsGlobalMin f g x := by
  obtain ⟨gx, hgx, hmin⟩ := hfix
  refine ⟨by rw [hgx]; exact WithTop.coe_ne_top, fun v => ?_⟩
  cases hgv : g v with
  | top => simp
  | coe gv =>
    rw [hgx]
    have key : 0 ≤ gv - gx + ∑ i, gr i * (v i - x i) := by
      by_contra hneg
      push Not at hneg
      set A := ∑ i, gr i * (v i - x i) with hA
      set B := ∑ i, (v i - x i) ^ 2 with hB
      have hBnn : 0 ≤ B := Finset.sum_nonneg fun i _ => sq_nonneg _
      -- the prox inequality along the segment
      have hs : ∀ s, 0 < s → s ≤ 1 → 0 ≤ t * (gv - gx + A) + s * B / 2 := by
        intro s hs0 hs1
        have hc := hg x v gx gv s hgx hgv hs0.le hs1
        obtain ⟨gu, hgu⟩ : ∃ gu : K, g (fun i => x i + s * (v i - x i)) = gu := by
          cases hh : g (fun i => x i + s * (v i - x i)) with
          | top => rw [hh] at hc; exact absurd (top_le_iff.1 hc) (WithTop.coe_ne_top)
          | coe r => exact ⟨r, rfl⟩
        rw [hgu] at hc
        have hc' : gu ≤ gx + s * (gv - gx) := by exact_mod_cast hc
        have h1 := hmin _ gu hgu
        have e1 : normSq (x - fun i => x i - t * gr i) = t ^ 2 * ∑ i, gr i ^ 2 := by
          simp only [normSq, Pi.sub_apply, Finset.mul_sum]
          exact Finset.sum_congr rfl fun i _ => by ring
        have e2 : normSq ((fun i => x i + s * (v i - x i)) - fun i => x i - t * gr i) =
            s ^ 2 * B + 2 * s * t * A + t ^ 2 * ∑ i, gr i ^ 2 := by
          simp only [normSq, Pi.sub_apply, Finset.mul_sum, hA, hB, ← Finset.sum_add_distrib]
          exact Finset.sum_congr rfl fun i _ => by ring
        rw [e1, e2] at h1
        have h2 : t * gu ≤ t * (gx + s * (gv - gx)) := mul_le_mul_of_nonneg_left hc' ht.le
        have h3 : 0 ≤ s * (t * (gv - gx + A) + s * B / 2) := by nlinarith
        exact nonneg_of_mul_nonneg_right h3 hs0
      set C := -(t * (gv - gx + A)) with hC
      have hCpos : 0 < C := by rw [hC]; nlinarith
      rcases hBnn.lt_or_eq with hBp | hB0
      · have h1 := hs (min 1 (C / B)) (lt_min one_pos (div_pos hCpos hBp)) (min_le_left _ _)
        have h2 : min 1 (C / B) * B ≤ C := by
          calc min 1 (C / B) * B ≤ C / B * B := mul_le_mul_of_nonneg_right (min_le_right _ _) hBnn
            _ = C := div_mul_cancel₀ _ hBp.ne'
        linarith
      · have h1 := hs 1 one_pos le_rfl
        rw [← hB0] at h1
        linarith
    have h1 := hf v
    have : f x + gx ≤ f v + gv := by linarith
    exact_mod_cast this

/-- **C21**, converse: a global minimiser is left unchanged by every exact prox-gradient step. -/
theorem C21_min_is_fixed_point (f : Vec K n → K) (g : Vec K n → WithTop K) (gr x z : Vec K n) (t : K) (ht : 0 < t)
    (hf : IsGradAt f gr x) (hg : ConvexPenalty g) (hx : IsGlobalMin f g x) (hz : IsProxOf g t (fun i => x i - t * gr i) z) : z = x := by
  obtain ⟨gz, hgz, hmin⟩ := hz
  obtain ⟨hfin, hglob⟩ := hx
  obtain ⟨gx, hgx⟩ : ∃ gx : K, g x = gx := by
    cases hh : g x with
    | top => exact absurd hh hfin
    | coe r => exact ⟨r, rfl⟩
  set B := ∑ i, (z i - x i) ^ 2 with hB
  set A := ∑ i, gr i * (z i - x i) with hA
  have hBnn : 0 ≤ B := Finset.sum_nonneg fun i _ => sq_nonneg _
  suffices hB0 : B = 0 by
    funext i
    have := (Finset.sum_eq_zero_iff_of_nonneg (fun i _ => sq_nonneg (z i - x i))).1 hB0 i (Finset.mem_univ i)
    have := pow_eq_zero_iff (two_ne_zero) |>.1 this
    linarith
  by_contra hne
  have hBp : 0 < B := lt_of_le_of_ne hBnn (Ne.symm hne)
  have h1 := hmin x gx hgx
  have e1 : normSq (x - fun i => x i - t * gr i) = t ^ 2 * ∑ i, gr i ^ 2 := by
    simp only [normSq, Pi.sub_apply, Finset.mul_sum]
    exact Finset.sum_congr rfl fun i _ => by ring
  have e2 : normSq (z - fun i => x i - t * gr i) = B + 2 * t * A + t ^ 2 * ∑ i, gr i ^ 2 := by
    simp only [normSq, Pi.sub_apply, Finset.mul_sum, hA, hB, ← Finset.sum_add_distrib]
    exact Finset.sum_congr rfl fun i _ => by ring
  rw [e1, e2] at h1
  have h2 : t * (gz - gx + A) ≤ -(B / 2) := by nlinarith
  have h3 : gz - gx + A ≤ -(B / (2 * t)) := by
    have : B / (2 * t) * t = B / 2 := by field_simp
    have h4 : (gz - gx + A + B / (2 * t)) * t ≤ 0 := by nlinarith
    have h5 := nonpos_of_mul_nonpos_left h4 ht
    linarith
  have hε : 0 < B / (4 * t) := by positivity
  obtain ⟨δ, hδ, hder⟩ := hf (fun i => z i - x i) _ hε
  set s := min 1 (δ / 2) with hs
  have hs0 : 0 < s := lt_min one_pos (by positivity)
  have hs1 : s ≤ 1 := min_le_left _ _
  have hsδ : s < δ := lt_of_le_of_lt (min_le_right _ _) (by linarith)
  have h4 := (abs_le.1 (hder s hs0 hsδ)).2
  have hc := hg x z gx gz s hgx hgz hs0.le hs1
  have hgl := hglob (fun i => x i + s * (z i - x i))
  obtain ⟨gu, hgu⟩ : ∃ gu : K, g (fun i => x i + s * (z i - x i)) = gu := by
    cases hh : g (fun i => x i + s * (z i - x i)) with
    | top => rw [hh] at hc; exact absurd (top_le_iff.1 hc) (WithTop.coe_ne_top)
    | coe r => exact ⟨r, rfl⟩
  rw [hgu] at hc hgl
  rw [hgx] at hgl
  have hc' : gu ≤ gx + s * (gz - gx) := by exact_mod_cast hc
  have hgl' : f x + gx ≤ f (fun i => x i + s * (z i - x i)) + gu := by exact_mod_cast hgl
  have h5 : s * (gz - gx + A) ≤ s * (-(B / (2 * t))) := mul_le_mul_of_nonneg_left h3 hs0.le
  have h6 : B / (2 * t) = 2 * (B / (4 * t)) := by field_simp; ring
  have h7 : 0 < s * (B / (4 * t)) := mul_pos hs0 hε
  rw [h6] at h5
  nlinarith

/-- Non-vacuity of C21: least squares in one variable with an L1 penalty: the soft-thresholded point is fixed, hence the minimiser (lasso). -/
example : IsGlobalMin (fun x : Vec ℚ 1 => (x 0 - 3) ^ 2 / 2) (l1Penalty 1 fun _ => 1) ![2] := by
  refine C21_fixed_point_is_min _ _ (fun _ => -1) _ 1 one_pos ?_ ?_ ?_
  · intro v
    simp
    nlinarith [sq_nonneg (v 0 - 2)]
  · intro u v a b s hu hv hs0 hs1
    simp only [l1Penalty, WithTop.coe_inj, WithTop.coe_le_coe] at hu hv ⊢
    subst hu hv
    simp only [one_mul, Fin.sum_univ_one]
    have h1 : |u 0 + s * (v 0 - u 0)| ≤ |(1 - s) * u 0| + |s * v 0| := by
      rw [show u 0 + s * (v 0 - u 0) = (1 - s) * u 0 + s * v 0 by ring]; exact abs_add_le _ _
    rw [abs_mul, abs_mul, abs_of_nonneg hs0, abs_of_nonneg (by linarith : 0 ≤ 1 - s)] at h1
    linarith
  · obtain ⟨_, z, hz, hp⟩ := C03_l1_prox_unique_min (1 : ℚ) (fun _ : Fin 1 => 1) ![3] 1 zero_le_one (fun _ => zero_le_one) zero_le_one
    have : z = ![2] := by
      simp only [l1Regularizer, Except.ok.injEq] at hz
      rw [← hz]; funext i; fin_cases i; norm_num [soft, clip0]
    subst this
    have e : (fun i => ![2] i - 1 * (-1 : ℚ)) = ![3] := by funext i; fin_cases i; norm_num
    rw [e]
    exact hp.isProxOf

end Verif
