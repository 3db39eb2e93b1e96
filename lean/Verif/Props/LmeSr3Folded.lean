import Verif.Props.LmeSr3Last
import Verif.Props.LinFolded
import Verif.Props.LmeKktScad

/-!
# C171: converged SR3 mixed-effects fits with CAD, SCAD and L0 penalties
-/

open Matrix

namespace Verif

/-- The CAD prox in one coordinate. -/
theorem cadLme_step {t lam u q1 rho v z : ℝ} (ht : 0 < t) (hlam : 0 ≤ lam) (hu : 0 ≤ u) (hq1 : 0 < q1) (hz : z = (if |v / q1| ≤ rho ∧ 0 < u then soft (u * (t / q1) * lam) (v / q1) else v / q1)) :
    (rho < |z| → z * q1 = v) ∧ (0 < z → z ≤ rho → z * q1 + t * (lam * u) = v) ∧ (z < 0 → -rho ≤ z → z * q1 - t * (lam * u) = v) ∧ (z = 0 → |v| ≤ t * (lam * u)) ∧ (0 ≤ v → 0 ≤ z) := by
  have hτ : 0 ≤ u * (t / q1) * lam := by positivity
  have e1 : v / q1 * q1 = v := div_mul_cancel₀ _ hq1.ne'
  have e2 : u * (t / q1) * lam * q1 = t * (lam * u) := by field_simp
  have htu : 0 ≤ t * (lam * u) := by positivity
  split_ifs at hz with hif
  · rcases soft_cases (v / q1) hτ with ⟨h1, h2⟩ | ⟨h1, h2⟩ | ⟨h1, h2⟩
    · have hz' : z = v / q1 - u * (t / q1) * lam := hz.trans h2
      have hz0 : 0 < z := by linarith
      have hv0 : 0 < v / q1 := by linarith
      have hle := hif.1
      rw [abs_of_pos hv0] at hle
      refine ⟨fun h3 => ?_, fun _ _ => ?_, fun h3 => absurd h3 (by linarith), fun h3 => absurd h3 hz0.ne', fun _ => hz0.le⟩
      · rw [abs_of_pos hz0] at h3
        linarith
      · rw [hz', sub_mul, e1, e2]
        ring
    · have hz' : z = v / q1 + u * (t / q1) * lam := hz.trans h2
      have hz0 : z < 0 := by linarith
      have hv0 : v / q1 < 0 := by linarith
      have hle := hif.1
      rw [abs_of_neg hv0] at hle
      refine ⟨fun h3 => ?_, fun h3 => absurd h3 (by linarith), fun _ _ => ?_, fun h3 => absurd h3 hz0.ne, fun hv => absurd (div_nonneg hv hq1.le) (by linarith)⟩
      · rw [abs_of_neg hz0] at h3
        linarith
      · rw [hz', add_mul, e1, e2]
        ring
    · have hz' : z = 0 := hz.trans h2
      refine ⟨fun h3 => ?_, fun h3 => absurd h3 (by linarith), fun h3 => absurd h3 (by linarith), fun _ => ?_, fun _ => hz'.ge⟩
      · rw [hz', abs_zero] at h3
        linarith [abs_nonneg (v / q1), hif.1]
      · rw [← e1, abs_mul, abs_of_pos hq1, ← e2]
        exact mul_le_mul_of_nonneg_right h1 hq1.le
  · have hzv : z * q1 = v := by rw [hz, e1]
    have hu0 : |z| ≤ rho → t * (lam * u) = 0 := by
      intro h3
      have : u = 0 := by
        by_contra hne
        exact hif ⟨by rw [← hz]; exact h3, lt_of_le_of_ne hu (Ne.symm hne)⟩
      rw [this, mul_zero, mul_zero]
    refine ⟨fun _ => hzv, fun h3 h4 => ?_, fun h3 h4 => ?_, fun h3 => ?_, fun hv => by rw [hz]; exact div_nonneg hv hq1.le⟩
    · rw [hzv, hu0 (by rwa [abs_of_pos h3]), add_zero]
    · rw [hzv, hu0 (by rw [abs_of_neg h3]; linarith), sub_zero]
    · rw [← hzv, h3, zero_mul, abs_zero]
      exact htu

/-- The SCAD prox in one coordinate. -/
theorem scadLme_step {t lam u q1 rho sigma v z : ℝ} (hr : 1 < rho) (hs : 0 ≤ sigma) (ht : 0 < t) (hlam : 0 ≤ lam) (hu : 0 ≤ u) (hq1 : 1 ≤ q1) (hstep : t * (lam * u) < rho - 1)
    (hz : scadProx1 rho sigma u (t / q1 * lam * u) (v / q1) = .ok z) :
    (0 < z → z * q1 + t * (lam * u * scadTaper rho sigma z) = v) ∧ (z < 0 → z * q1 - t * (lam * u * scadTaper rho sigma (-z)) = v) ∧ (z = 0 → |v| ≤ t * (lam * u * sigma)) := by
  have hq0 : 0 < q1 := lt_of_lt_of_le one_pos hq1
  have hae : 0 ≤ t / q1 * lam * u := by positivity
  have hlt : t / q1 * lam * u < rho - 1 := by
    refine lt_of_le_of_lt ?_ hstep
    rw [mul_assoc]
    exact mul_le_mul_of_nonneg_right (div_le_self ht.le hq1) (mul_nonneg hlam hu)
  obtain ⟨h1, h2, h3, h4, h5⟩ := scadProx1_slope hr hs hae hlt (fun h0 => by rw [h0, mul_zero]) hz
  have e1 : v / q1 * q1 = v := div_mul_cancel₀ _ hq0.ne'
  have e2 : ∀ y, t / q1 * lam * u * y * q1 = t * (lam * u * y) := fun y => by field_simp
  have hm : z ≠ 0 → |v / q1 - z| = t / q1 * lam * u * scadTaper rho sigma (|z|) := by
    intro h0
    unfold scadTaper
    split_ifs with h6 h7
    · rw [h3 (abs_pos.2 h0) h6]
      ring
    · exact h4 (not_le.1 h6).le h7
    · rw [h5 (not_le.1 h7), abs_zero, mul_zero]
  refine ⟨fun h0 => ?_, fun h0 => ?_, fun h0 => ?_⟩
  · have h6 : 0 ≤ v / q1 - z := nonneg_of_mul_nonneg_left h2 h0
    have h7 := hm h0.ne'
    rw [abs_of_nonneg h6, abs_of_pos h0] at h7
    rw [← e2, ← h7, sub_mul, e1]
    ring
  · have h6 : v / q1 - z ≤ 0 := nonpos_of_mul_nonneg_left h2 h0
    have h7 := hm h0.ne
    rw [abs_of_nonpos h6, abs_of_neg h0] at h7
    rw [← e2, ← h7, neg_mul, sub_mul, e1]
    ring
  · rw [h0, sub_zero] at h1
    rw [← e1, abs_mul, abs_of_pos hq0]
    refine (mul_le_mul_of_nonneg_right h1 hq0.le).trans (le_of_eq ?_)
    rw [← e2]
    ring

/-- The L0 prox: what the last step says of the gradient it followed. -/
theorem l0Lme_step {p q : ℕ} {nb ng : Option ℤ} {sort : NpSort} {m : List ℤ} {wb b b' Hb : Vec ℝ p} {wg g g' Hg : Vec ℝ q} {eps t δ : ℝ} (heps : 0 ≤ eps) (ht : 0 < t)
    (hdb : ∀ i, |b i - b' i| ≤ δ) (hdg : ∀ j, |g j - g' j| ≤ δ)
    (hpx : (l0LmeRegularizer ⟨some (nb.getD p), some (ng.getD q), false⟩ (fun i => mapEntry q m i) (some ⟨xBeta (joinX wb wg), xGamma (joinX wb wg), sort.sub p (xBeta (joinX wb wg)), sort.sub q (xGamma (joinX wb wg))⟩) (sort.all p)).prox
      (joinX (fun i => (b' i - t * Hb i) / (1 + t * eps)) fun j => max (g' j - t * Hg j) 0 / (1 + t * eps)) (t / (1 + t * eps)) = .ok (joinX b g)) :
    (∀ i, (b i ≠ 0 ∨ wb i = 0 → |Hb i + eps * b i| ≤ δ / t) ∧ (b i = 0 → ∀ k, wb k ≠ 0 → b k ≠ 0 → |Hb i| ≤ (1 / t + eps) * |b k| + δ / t) ∧
      ((∀ n, nb = some n → (Set.ncard {k | wb k ≠ 0 ∧ b k ≠ 0} : ℤ) + Set.ncard {k | wb k = 0} < n) → |Hb i + eps * b i| ≤ δ / t)) ∧
    ∀ j, (0 < g j → |Hg j + eps * g j| ≤ δ / t) ∧ (wg j = 0 → -(δ / t) ≤ Hg j + eps * g j) ∧
      (g j = 0 → (∀ i : Fin p, m[(i : ℕ)]? = some ((j : ℕ) : ℤ) → b i ≠ 0) →
        (∀ k, wg k ≠ 0 → 0 < g k → -((1 / t + eps) * g k) - δ / t ≤ Hg j) ∧
        ((∀ n, ng = some n → (Set.ncard {k | wg k ≠ 0 ∧ g k ≠ 0} : ℤ) + Set.ncard {k | wg k = 0} < n) → -(δ / t) ≤ Hg j)) := by
  set q1 : ℝ := 1 + t * eps with hq
  have hq1 : 0 < q1 := by positivity
  set yb : Vec ℝ p := fun i => (b' i - t * Hb i) / q1 with hyb
  set yg : Vec ℝ q := fun j => max (g' j - t * Hg j) 0 / q1 with hyg
  set asB := sort.sub p (xBeta (joinX wb wg)) with hasB
  set asG := sort.sub q (xGamma (joinX wb wg)) with hasG
  have hpartb : ∀ i, participation (xBeta (joinX wb wg)) i = decide (wb i ≠ 0) := fun i => by rw [xBeta_join]; rfl
  have hpartg : ∀ i, participation (xGamma (joinX wb wg)) i = decide (wg i ≠ 0) := fun i => by rw [xGamma_join]; rfl
  obtain ⟨hbx, hgx⟩ := l0Lme_prox_parts hpx
  have ebj : xBeta (joinX b g) = b := xBeta_join _ _
  have egj : xGamma (joinX b g) = g := xGamma_join _ _
  rw [ebj] at hbx hgx
  rw [egj] at hgx
  simp only at hbx hgx
  have hyb' : ∀ i, yb i * q1 = b' i - t * Hb i := fun i => div_mul_cancel₀ _ hq1.ne'
  have hyg' : ∀ j, yg j * q1 = max (g' j - t * Hg j) 0 := fun j => div_mul_cancel₀ _ hq1.ne'
  have hyg0 : ∀ j, 0 ≤ yg j := fun j => div_nonneg (le_max_right _ _) hq1.le
  -- kept entries
  have hkb : ∀ i, b i = yb i → |Hb i + eps * b i| ≤ δ / t := by
    intro i hi
    have := step_coord (l := 0) (eps := eps) (G := Hb i) ht (hdb i) (by
      rw [mul_zero, add_zero, ← hyb', ← hi])
    rwa [add_zero] at this
  have hkg : ∀ j, g j = yg j → (0 < g j → |Hg j + eps * g j| ≤ δ / t) ∧
      -(δ / t) ≤ Hg j + eps * g j := by
    intro j hj
    have hpos : 0 < g j → |Hg j + eps * g j| ≤ δ / t := by
      intro hj0
      have h1 : 0 < yg j * q1 := mul_pos (hj ▸ hj0) hq1
      have h2 := hyg' j
      rw [h2] at h1
      have h3 : max (g' j - t * Hg j) 0 = g' j - t * Hg j := by
        refine max_eq_left ?_
        by_contra hc
        rw [max_eq_right (not_le.1 hc).le] at h1
        exact lt_irrefl _ h1
      have := step_coord (l := 0) (eps := eps) (G := Hg j) ht (hdg j) (by
        rw [mul_zero, add_zero, ← h3, ← h2, ← hj])
      rwa [add_zero] at this
    refine ⟨hpos, ?_⟩
    rcases (hj ▸ hyg0 j : 0 ≤ g j).lt_or_eq with hlt | h0
    · exact (abs_le.1 (hpos hlt)).1
    · have h2 := hyg' j
      rw [← hj, ← h0, zero_mul] at h2
      have h3 : g' j - t * Hg j ≤ t * 0 := by
        rw [mul_zero, h2]
        exact le_max_left _ _
      have := step_zero_up (δ := δ) ht (by
        have := hdg j
        rwa [show g j = 0 from h0.symm] at this) h3
      rw [← h0]
      linarith
  have hset : ∀ {n : ℕ} (w u : Vec ℝ n), {i | participation w i = true ∧ u i ≠ 0} = {i | w i ≠ 0 ∧ u i ≠ 0} := by
    intro n w u; ext i; simp [participation]
  have hset0 : ∀ {n : ℕ} (w : Vec ℝ n), {i | participation w i = false} = {i | w i = 0} := by
    intro n w; ext i; simp [participation]
  -- slack budgets
  have hslack : ∀ {n : ℕ} (w y : Vec ℝ n) (as : ArgSort {i // participation w i = true} ℝ) (nk : Option ℤ),
      (∀ k, nk = some k → (Set.ncard {i | w i ≠ 0 ∧ maskedKMax (participation w) as y (nk.getD n) i ≠ 0} : ℤ) + Set.ncard {i | w i = 0} < k) →
      ∀ i, maskedKMax (participation w) as y (nk.getD n) i = y i := by
    intro n w y as nk hk i
    cases nk with
    | none => rw [Option.getD_none, maskedKMax_full]
    | some k =>
      refine maskedKMax_slack _ as y _ ?_ i
      rw [hset, hset0]
      exact hk k rfl
  have ewb : xBeta (joinX wb wg) = wb := xBeta_join _ _
  have ewg : xGamma (joinX wb wg) = wg := xGamma_join _ _
  have hcases : ∀ {n : ℕ} (w y : Vec ℝ n) (as : ArgSort {i // participation w i = true} ℝ) (k : ℤ) (i : Fin n), maskedKMax (participation w) as y k i ≠ 0 ∨ w i = 0 →
      maskedKMax (participation w) as y k i = y i := by
    intro n w y as k i hi
    rcases hi with hi | hi
    · exact (maskedKMax_cases _ as y k i).resolve_right hi
    · exact maskedKMax_off _ as y k i (by simp [participation, hi])
  refine ⟨fun i => ?_, fun j => ?_⟩
  · have e := congrFun hbx i
    refine ⟨fun hi => hkb i ?_, fun hi k hk hk0 => ?_, fun hb => hkb i ?_⟩
    · rw [e] at hi ⊢
      exact hcases _ yb asB _ i (hi.imp_right fun h => (congrFun ewb i).trans h)
    · have e2 := congrFun hbx k
      rw [e] at hi
      rw [e2] at hk0
      have h1 := maskedKMax_dom _ asB yb _ (by simp [hpartb, hk]) hk0 hi
      have h2 := hcases _ yb asB _ k (.inl hk0)
      rw [← e2] at h2
      rw [← e] at hi
      have h3 : |b' i - t * Hb i| ≤ t * ((1 / t + eps) * |b k|) := by
        rw [← hyb', abs_mul, abs_of_pos hq1, h2]
        have : t * ((1 / t + eps) * |yb k|) = |yb k| * q1 := by
          rw [hq]
          field_simp
        rw [this]
        exact mul_le_mul_of_nonneg_right h1 hq1.le
      exact step_zero ht (by
        have := hdb i
        rwa [show b i = 0 from hi] at this) h3
    · rw [hbx]
      refine hslack _ yb asB nb (fun n hn => ?_) i
      rw [← hbx, ewb]
      exact hb n hn
  · set pre : Vec ℝ q := fun i => if (∃ j, b j = 0 ∧ mapEntry q m j = some i) ∧ participation (xGamma (joinX wb wg)) i = true then 0 else yg i with hpre
    have e := congrFun hgx j
    have hpn : ∀ k, pre k ≠ 0 → pre k = yg k := by
      intro k hk
      rw [hpre] at hk ⊢
      simp only at hk ⊢
      split_ifs at hk ⊢ with h1
      · exact absurd rfl hk
      · rfl
    refine ⟨fun hj => (hkg j ?_).1 hj, fun hj => (hkg j ?_).2, fun hj hl => ⟨fun k hk hk0 => ?_, fun hb => ?_⟩⟩
    · have h1 := hcases _ pre asG _ j (.inl (by rw [← e]; exact hj.ne'))
      rw [e, h1]
      refine hpn j ?_
      rw [← h1, ← e]
      exact hj.ne'
    · have h1 := hcases _ pre asG (ng.getD q) j (.inr (by rw [ewg]; exact hj))
      rw [e, h1]
      refine if_neg fun h2 => ?_
      have := h2.2
      rw [hpartg, hj] at this
      simp at this
    all_goals
      have hl' : pre j = yg j := by
        refine if_neg fun h2 => ?_
        obtain ⟨⟨i, hi0, hi⟩, -⟩ := h2
        refine hl i ?_ hi0
        unfold mapEntry at hi
        split at hi
        · cases hi
        · rename_i z hz
          split_ifs at hi with h3
          rw [hz]
          have h4 := congrArg Fin.val (Option.some.inj hi)
          simp only at h4
          rw [← h4, Int.toNat_of_nonneg h3.1]
    · have e2 := congrFun hgx k
      have hk1 : g k ≠ 0 := hk0.ne'
      rw [e] at hj
      rw [e2] at hk1
      have h1 := maskedKMax_dom _ asG pre _ (by simp [hpartg, hk]) hk1 hj
      have h2 := hcases _ pre asG _ k (.inl hk1)
      rw [← e2] at h2
      rw [← e] at hj
      rw [hl', ← h2, abs_of_pos hk0, abs_of_nonneg (hyg0 j)] at h1
      have h3 : g' j - t * Hg j ≤ t * ((1 / t + eps) * g k) := by
        have h4 := mul_le_mul_of_nonneg_right h1 hq1.le
        rw [hyg'] at h4
        have : t * ((1 / t + eps) * g k) = g k * q1 := by
          rw [hq]
          field_simp
        rw [this]
        exact (le_max_left _ _).trans h4
      exact step_zero_up ht (by
        have := hdg j
        rwa [show g j = 0 from hj] at this) h3
    · have h1 : g j = yg j := by
        rw [e, hslack _ pre asG ng (fun n hn => ?_) j, hl']
        rw [← hgx, ewg]
        exact hb n hn
      have := (hkg j h1).2
      rwa [hj, mul_zero, add_zero] at this


/-- The last step of a converged SR3 fit and the final state of its inner solver. -/
theorem lmeSr3Fit_inner (M : LmeModelCfg) (s : LmeSr3Cfg) (hreg : M.reg.Admissible) (hne : M.reg ≠ .dummy) (heps : 0 ≤ M.elasticEps) (hs : 0 < M.step) (hsr : M.sr3 = some s)
    (hprac : s.practical = false) (hpr : M.prior = none) (hinit : M.initializer ≠ some "EM") (st : LmeState) (P : LmeProblem ℝ) (a : LmeFitArgs)
    (D : List (LmeGroup P.numFixed P.numRandom)) (hD : lmeGroups P = .ok D) (hpos : PosVar D) (hq : P.numRandom ≠ 0)
    (g0 : Vec ℝ P.numRandom) (hg0 : List.ofFn g0 = a.gamma.getD (List.replicate P.numRandom 1)) (hg0p : ∀ j, 0 < g0 j)
    (wb : Vec ℝ P.numFixed) (wg : Vec ℝ P.numRandom) (hwb : List.ofFn wb = a.feWeights.getD P.feWeights) (hwg : List.ofFn wg = a.reWeights.getD P.reWeights)
    (hwb0 : ∀ i, 0 ≤ wb i) (hwg0 : ∀ j, 0 ≤ wg j)
    (Lf : Logger (PyVal ℝ (P.numFixed + P.numRandom))) (c : LmeState) (h : lmeFitProblem M st P a = (.ok Lf, c)) (hconv : Lf.get "converged" = .ok (.atom (.bool true))) :
    ∃ (coef : LmeCoef) (b b' : Vec ℝ P.numFixed) (g g' : Vec ℝ P.numRandom) (t : ℝ) (o : IpOracle P.numFixed P.numRandom) (sI : IpState P.numFixed P.numRandom) (Gb : Vec ℝ P.numFixed)
      (Gg : Vec ℝ P.numRandom) (r : ℝ) (Hb : Vec ℝ P.numFixed) (Hg : Vec ℝ P.numRandom) (m : List ℤ)
      (base : Regularizer ℝ (P.numFixed + P.numRandom)),
      c = some coef ∧ coef.beta = List.ofFn b ∧ coef.gamma = List.ofFn g ∧ 0 < t ∧ (M.stepping ≠ "line-search" → t = M.step) ∧
      ∑ i, (b i - b' i) ^ 2 + ∑ j, (g j - g' j) ^ 2 ≤ M.tol ^ 2 ∧ (∀ j, 0 ≤ g j) ∧
      ipLoop D .nonInformative (s.ip _ _) (ipInit (s.ip _ _) o ((2 : ℝ) • b') ((2 : ℝ) • g') b' g') = .ok sI ∧ (∀ j, 0 ≤ sI.gamma j) ∧ (∀ j, 0 < sI.v j) ∧
      (∀ i, HasDerivAt (fun τ => marginalNLL D (sI.beta + Pi.single i τ) sI.gamma) (Gb i) 0) ∧
      (∀ j, HasDerivAt (fun τ => marginalNLL D sI.beta (sI.gamma + Pi.single j τ)) (Gg j) 0) ∧
      r = √(∑ j, (sI.v j * sI.gamma j - sI.mu) ^ 2 + (∑ i, (Gb i + s.ell * (sI.beta i - b' i)) ^ 2 + ∑ j, (Gg j + s.ell * (sI.gamma j - g' j) - sI.v j) ^ 2)) ∧
      (s.warmStartOracle = true → s.maxIterOracle ≤ sI.iteration ∨ (r ≤ s.tolOracle ∧ sI.mu ≤ s.tolOracle) ∨
        ∃ pb pg ptb ptg, sI.prev = some (pb, pg, ptb, ptg) ∧ npNorm (sI.beta - pb) ≤ s.tolOracle ∧ npNorm (sI.gamma - pg) ≤ s.tolOracle) ∧
      t ≤ M.step ∧ betaToGammaMap P = .ok m ∧ M.reg.build P.numFixed P.numRandom m (joinX wb wg) = .ok base ∧ (∀ i, |b i - b' i| ≤ M.tol) ∧ (∀ j, |g j - g' j| ≤ M.tol) ∧
      base.prox (joinX (fun i => (b' i - t * Hb i) / (1 + t * M.elasticEps)) fun j => max (g' j - t * Hg j) 0 / (1 + t * M.elasticEps)) (t / (1 + t * M.elasticEps)) = .ok (joinX b g) ∧
      (∀ i, |Gb i - Hb i| ≤ r) ∧ ∀ j, |Gg j - sI.v j - Hg j| ≤ r := by
  have hW : ∀ w, M.reg.weights P.numFixed P.numRandom (a.feWeights.getD P.feWeights ++ a.reWeights.getD P.reWeights) = .ok w → w = joinX wb wg := by
    intro w hw
    rcases LmeReg.weights_mem hw with ⟨h0, -⟩ | ⟨hlen, hw'⟩
    · exact absurd h0 hne
    · refine List.ofFn_injective (hw'.trans ?_)
      unfold joinX
      rw [List.ofFn_fin_append, ← hwb, ← hwg, List.take_of_length_le (by simp)]
  have hw0 : ∀ i, 0 ≤ joinX wb wg i := by
    intro i
    refine Fin.addCases (fun i => ?_) (fun j => ?_) i
    · simpa only [joinX, Fin.append_left] using hwb0 i
    · simpa only [joinX, Fin.append_right] using hwg0 j
  have hq1 : ∀ {t : ℝ}, 0 < t → 0 < 1 + t * M.elasticEps := fun ht => by positivity
  obtain ⟨m, w, base, x, xp, t, coef, o, o', R, hm, hw, hbase, hc, hcb, hcg, ht, htM, hts, htol, hsq, hxn, hf, hoS, hst0, hst1, hpx⟩ := lmeSr3Fit_last hs hsr hprac hpr hinit hD hq hg0 hg0p
    (fun m w base y t z hw hbase ht hz j => by
      obtain rfl := hW w hw
      rw [wrapReg_prox_eq] at hz
      refine LibReg.nonneg (LmeReg.build_lib hreg hw0 hbase) (div_nonneg ht.le (hq1 ht).le) hz (Fin.natAdd _ j) ?_
      rw [joinX, Fin.append_right]
      exact div_nonneg (le_max_right _ _) (hq1 ht).le) h hconv
  obtain rfl := hW w hw
  unfold lmeFindIp at hf
  rw [if_neg hq] at hf
  obtain ⟨sI, hsI, hf⟩ := ebind_ok.1 hf
  cases hf
  obtain ⟨hv, hg, hgp⟩ := ipLoop_signs (c := s.ip _ _) rfl (fun _ => one_pos) hst0 hsI
  obtain ⟨etb, etg, eS⟩ := ipLoop_relaxed (c := s.ip _ _) rfl rfl hsI
  have eS' : sI.S = ⟨s.ell, s.ell⟩ := eS.trans hoS
  have hdom := inDomain_of_nonneg hpos hg
  obtain ⟨Gb, hGb⟩ : ∃ Gb : Vec ℝ P.numFixed, Gb = (D.map fun g => -(g.xᵀ *ᵥ ((margCov g sI.gamma)⁻¹ *ᵥ residual g sI.beta))).sum := ⟨_, rfl⟩
  obtain ⟨Gg, hGg⟩ : ∃ Gg : Vec ℝ P.numRandom, Gg = (D.map fun g => nllGradGamma g sI.beta sI.gamma).sum := ⟨_, rfl⟩
  have hF : ipF D .nonInformative sI = .ok (Sum.elim (fun j => sI.v j * sI.gamma j - sI.mu)
      (Sum.elim (Gb + s.ell • (sI.beta - xBeta xp)) (Gg + s.ell • (sI.gamma - xGamma xp) - sI.v))) := by
    unfold ipF lmeSr3GradientBeta lmeSr3GradientGamma
    have h1 : lmeGradientBeta D .nonInformative sI.beta sI.gamma = .ok Gb := lmeGradientBeta_ok.2 ⟨hdom, by rw [hGb]; exact (add_zero _).symm⟩
    have h2 : lmeGradientGamma D .nonInformative sI.beta sI.gamma = .ok Gg := lmeGradientGamma_ok'.2 ⟨hdom, by rw [hGg]; exact (add_zero _).symm⟩
    rw [h1, h2, etb, etg, eS']
    rfl
  set F : Fin P.numRandom ⊕ (Fin P.numFixed ⊕ Fin P.numRandom) → ℝ := Sum.elim (fun j => sI.v j * sI.gamma j - sI.mu)
      (Sum.elim (Gb + s.ell • (sI.beta - xBeta xp)) (Gg + s.ell • (sI.gamma - xGamma xp) - sI.v)) with hFdef
  have hd : ∀ i, |x i - xp i| ≤ M.tol := by
    intro i
    refine abs_le_of_sq_le_sq ?_ htol
    exact (Finset.single_le_sum (f := fun i => (x i - xp i) ^ 2) (fun i _ => sq_nonneg _) (Finset.mem_univ i)).trans hsq
  refine ⟨coef, xBeta x, xBeta xp, xGamma x, xGamma xp, t, o, sI, Gb, Gg, npNorm F, -(s.ell • (sI.beta - xBeta xp)), -(s.ell • (sI.gamma - xGamma xp)), m, base, hc, hcb, hcg, ht, hts, ?_, hxn, hsI, hg, hv,
    fun i => ?_, fun j => ?_, ?_, fun hws => ?_, htM, hm, hbase, fun i => hd _, fun j => hd _, ?_, fun i => ?_, fun j => ?_⟩
  · rw [Fin.sum_univ_add] at hsq
    exact hsq
  · rw [hGb]
    exact (marginalNLL_expansion D sI.gamma).hasDerivAt sI.beta i
  · rw [hGg, list_sum_apply]
    exact marginalNLL_deriv hdom sI.beta j
  · unfold npNorm
    rw [Fintype.sum_sum_type, Fintype.sum_sum_type]
    rfl
  · rcases ipLoop_exit D _ _ _ _ sI rfl hsI with h1 | h1 | ⟨F', hF', h1⟩
    · exact absurd h1 (hgp (hst1 hws) one_ne_zero).2
    · exact .inl h1
    · cases hF.symm.trans hF'
      by_cases h2 : (s.ip P.numFixed P.numRandom).tol < npNorm F ∨ (s.ip P.numFixed P.numRandom).tol < sI.mu
      · refine .inr (.inr ?_)
        have h3 : ¬ ipMoved (s.ip P.numFixed P.numRandom).tol sI := fun h3 => h1 ⟨h2, h3⟩
        unfold ipMoved at h3
        split at h3
        · exact absurd trivial h3
        · rename_i pb pg ptb ptg hprev
          push Not at h3
          exact ⟨pb, pg, ptb, ptg, hprev, h3.2.2.1, h3.2.2.2.1⟩
      · push Not at h2
        exact .inr (.inl h2)
  · rw [wrapReg_prox_eq] at hpx
    rw [show joinX (xBeta x) (xGamma x) = x from Fin.append_castAdd_natAdd]
    refine Eq.trans ?_ hpx
    congr 2
    · funext i
      simp [xBeta, joinX]
    · funext j
      simp [xGamma, joinX]
  · have hr : |Gb i + s.ell * (sI.beta i - xBeta xp i)| ≤ npNorm F := coord_le_npNorm F (.inr (.inl i))
    refine le_trans (le_of_eq ?_) hr
    simp [sub_neg_eq_add]
  · have hr : |Gg j + s.ell * (sI.gamma j - xGamma xp j) - sI.v j| ≤ npNorm F := coord_le_npNorm F (.inr (.inr j))
    refine le_trans (le_of_eq ?_) hr
    congr 1
    simp only [Pi.neg_apply, Pi.smul_apply, Pi.sub_apply, smul_eq_mul]
    ring

theorem abs_up_to {G H X A r : ℝ} (h1 : |H + X| ≤ A) (h2 : |G - H| ≤ r) : |G + X| ≤ A + r := by
  have := abs_add_le (H + X) (G - H)
  rw [show H + X + (G - H) = G + X by ring] at this
  linarith

theorem max_pos_eq {a v : ℝ} (ha : 0 < a) (h : a = max v 0) : a = v := by
  rcases le_total v 0 with h1 | h1
  · rw [max_eq_right h1] at h
    exact absurd h ha.ne'
  · rw [h, max_eq_left h1]

/-- **C171** (CAD): let an SR3 CAD mixed-effects model (not practical, without prior and EM initializer) be fitted from positive variances to data with positive observation variances, and let the fit log
`converged = True`. With `b, g` the result, `t` the last step, `b', g'` the point before it (within `tol`), `sI` the final state of the inner solver called at `b', g'`, `Gb, Gg` the derivatives of the negative
log-likelihood at its coefficients and `r` its residual as in C169, and `T = tol / t + r`:
every coefficient `v` beyond `rho` has `|G + eps v| ≤ T` (no shrinkage; `G` less the multiplier for variances), every other nonzero one `G + eps v` within `T` of `-lam w sign(v)`; every zero fixed effect
`|Gb| ≤ lam w + T`, every zero variance `Gg - v ≥ -lam w - T`. -/
theorem C171_cad (M : LmeModelCfg) (s : LmeSr3Cfg) (rho lam : ℝ) (hreg : M.reg = .cad rho lam)  (hlam : 0 ≤ lam) (heps : 0 ≤ M.elasticEps) (hs : 0 < M.step) (hsr : M.sr3 = some s)
    (hprac : s.practical = false) (hpr : M.prior = none) (hinit : M.initializer ≠ some "EM") (st : LmeState) (P : LmeProblem ℝ) (a : LmeFitArgs)
    (D : List (LmeGroup P.numFixed P.numRandom)) (hD : lmeGroups P = .ok D) (hpos : PosVar D) (hq : P.numRandom ≠ 0)
    (g0 : Vec ℝ P.numRandom) (hg0 : List.ofFn g0 = a.gamma.getD (List.replicate P.numRandom 1)) (hg0p : ∀ j, 0 < g0 j)
    (wb : Vec ℝ P.numFixed) (wg : Vec ℝ P.numRandom) (hwb : List.ofFn wb = a.feWeights.getD P.feWeights) (hwg : List.ofFn wg = a.reWeights.getD P.reWeights)
    (hwb0 : ∀ i, 0 ≤ wb i) (hwg0 : ∀ j, 0 ≤ wg j)
    (Lf : Logger (PyVal ℝ (P.numFixed + P.numRandom))) (c : LmeState) (h : lmeFitProblem M st P a = (.ok Lf, c)) (hconv : Lf.get "converged" = .ok (.atom (.bool true))) :
    ∃ (coef : LmeCoef) (b b' : Vec ℝ P.numFixed) (g g' : Vec ℝ P.numRandom) (t : ℝ) (o : IpOracle P.numFixed P.numRandom) (sI : IpState P.numFixed P.numRandom) (Gb : Vec ℝ P.numFixed)
      (Gg : Vec ℝ P.numRandom) (r : ℝ),
      c = some coef ∧ coef.beta = List.ofFn b ∧ coef.gamma = List.ofFn g ∧ 0 < t ∧ (M.stepping ≠ "line-search" → t = M.step) ∧
      ∑ i, (b i - b' i) ^ 2 + ∑ j, (g j - g' j) ^ 2 ≤ M.tol ^ 2 ∧ (∀ j, 0 ≤ g j) ∧
      ipLoop D .nonInformative (s.ip _ _) (ipInit (s.ip _ _) o ((2 : ℝ) • b') ((2 : ℝ) • g') b' g') = .ok sI ∧ (∀ j, 0 ≤ sI.gamma j) ∧ (∀ j, 0 < sI.v j) ∧
      (∀ i, HasDerivAt (fun τ => marginalNLL D (sI.beta + Pi.single i τ) sI.gamma) (Gb i) 0) ∧
      (∀ j, HasDerivAt (fun τ => marginalNLL D sI.beta (sI.gamma + Pi.single j τ)) (Gg j) 0) ∧
      r = √(∑ j, (sI.v j * sI.gamma j - sI.mu) ^ 2 + (∑ i, (Gb i + s.ell * (sI.beta i - b' i)) ^ 2 + ∑ j, (Gg j + s.ell * (sI.gamma j - g' j) - sI.v j) ^ 2)) ∧
      (s.warmStartOracle = true → s.maxIterOracle ≤ sI.iteration ∨ (r ≤ s.tolOracle ∧ sI.mu ≤ s.tolOracle) ∨
        ∃ pb pg ptb ptg, sI.prev = some (pb, pg, ptb, ptg) ∧ npNorm (sI.beta - pb) ≤ s.tolOracle ∧ npNorm (sI.gamma - pg) ≤ s.tolOracle) ∧
      (∀ i, (rho < |b i| → |Gb i + M.elasticEps * b i| ≤ M.tol / t + r) ∧ (0 < b i → b i ≤ rho → |Gb i + M.elasticEps * b i + lam * wb i| ≤ M.tol / t + r) ∧
        (b i < 0 → -rho ≤ b i → |Gb i + M.elasticEps * b i - lam * wb i| ≤ M.tol / t + r) ∧ (b i = 0 → |Gb i| ≤ lam * wb i + (M.tol / t + r))) ∧
      ∀ j, (0 < g j → rho < g j → |Gg j - sI.v j + M.elasticEps * g j| ≤ M.tol / t + r) ∧ (0 < g j → g j ≤ rho → |Gg j - sI.v j + M.elasticEps * g j + lam * wg j| ≤ M.tol / t + r) ∧
        (g j = 0 → -(lam * wg j) - (M.tol / t + r) ≤ Gg j - sI.v j) := by
  obtain ⟨coef, b, b', g, g', t, o, sI, Gb, Gg, r, Hb, Hg, m, base, c1, c2, c3, ht, c5, c6, c7, c8, c9, c10, c11, c12, c13, c14, htM, hm, hbase, hdb, hdg, hpx, hGb, hGg⟩ :=
    lmeSr3Fit_inner M s (by rw [hreg]; exact hlam) (by rw [hreg]; simp) heps hs hsr hprac hpr hinit st P a D hD hpos hq g0 hg0 hg0p wb wg hwb hwg hwb0 hwg0 Lf c h hconv
  refine ⟨coef, b, b', g, g', t, o, sI, Gb, Gg, r, c1, c2, c3, ht, c5, c6, c7, c8, c9, c10, c11, c12, c13, c14, fun i => ?_, fun j => ?_⟩
  · have hz : b i = if |(b' i - t * Hb i) / (1 + t * M.elasticEps)| ≤ rho ∧ 0 < wb i then soft (wb i * (t / (1 + t * M.elasticEps)) * lam) ((b' i - t * Hb i) / (1 + t * M.elasticEps))
        else (b' i - t * Hb i) / (1 + t * M.elasticEps) := by
      rw [hreg] at hbase
      cases hbase
      have := congrFun (Except.ok.inj hpx) (Fin.castAdd _ i)
      simp only [joinX, Fin.append_left] at this
      exact this.symm
    obtain ⟨h1, h2, h3, h4, -⟩ := cadLme_step ht hlam (hwb0 i) (by positivity) hz
    refine ⟨fun hi => ?_, fun hi hi' => ?_, fun hi hi' => ?_, fun hi => ?_⟩
    · have := step_coord (l := 0) (eps := M.elasticEps) (G := Hb i) ht (hdb i) (by rw [mul_zero, add_zero]; exact h1 hi)
      rw [add_zero] at this
      exact abs_up_to this (hGb i)
    · have := step_coord (l := lam * wb i) ht (hdb i) (h2 hi hi')
      rw [add_assoc] at this ⊢
      exact abs_up_to this (hGb i)
    · have := step_coord (eps := M.elasticEps) (l := -(lam * wb i)) ht (hdb i) (by rw [← h3 hi hi']; ring)
      rw [add_assoc] at this
      rw [add_sub_assoc, sub_eq_add_neg]
      exact abs_up_to this (hGb i)
    · have := step_zero (δ := M.tol) ht (by have := hdb i; rwa [hi] at this) (h4 hi)
      have h5 := abs_up_to (X := 0) ((congrArg abs (add_zero _)).trans_le this) (hGb i)
      rw [add_zero] at h5
      linarith
  · have hz : g j = if |max (g' j - t * Hg j) 0 / (1 + t * M.elasticEps)| ≤ rho ∧ 0 < wg j then soft (wg j * (t / (1 + t * M.elasticEps)) * lam) (max (g' j - t * Hg j) 0 / (1 + t * M.elasticEps))
        else max (g' j - t * Hg j) 0 / (1 + t * M.elasticEps) := by
      rw [hreg] at hbase
      cases hbase
      have := congrFun (Except.ok.inj hpx) (Fin.natAdd _ j)
      simp only [joinX, Fin.append_right] at this
      exact this.symm
    obtain ⟨h1, h2, -, h4, -⟩ := cadLme_step ht hlam (hwg0 j) (by positivity) hz
    have hpos' : ∀ l, 0 ≤ l → 0 < g j → g j * (1 + t * M.elasticEps) + t * l = max (g' j - t * Hg j) 0 → g j * (1 + t * M.elasticEps) + t * l = g' j - t * Hg j := fun l hl hj he => max_pos_eq (by positivity) he
    refine ⟨fun hj hj' => ?_, fun hj hj' => ?_, fun hj => ?_⟩
    · have h6 := hpos' 0 le_rfl hj (by rw [mul_zero, add_zero]; exact h1 (by rwa [abs_of_pos hj]))
      have := step_coord (l := 0) (eps := M.elasticEps) ht (hdg j) h6
      rw [add_zero] at this
      exact abs_up_to this (hGg j)
    · have := step_coord (l := lam * wg j) ht (hdg j) (hpos' _ (mul_nonneg hlam (hwg0 j)) hj (h2 hj hj'))
      rw [add_assoc] at this ⊢
      exact abs_up_to this (hGg j)
    · have h5 := h4 hj
      rw [abs_of_nonneg (le_max_right _ _)] at h5
      have h6 := step_zero_up (δ := M.tol) ht (by have := hdg j; rwa [hj] at this) ((le_max_left _ _).trans h5)
      have h7 := (abs_le.1 (hGg j)).1
      linarith

/-- **C171** (SCAD): let an SR3 SCAD mixed-effects model (not practical, without prior and EM initializer) be fitted from positive variances to data with positive observation variances, and let the fit log
`converged = True`. With `b, g` the result, `t` the last step, `b', g'` the point before it (within `tol`), `sI` the final state of the inner solver called at `b', g'`, `Gb, Gg` the derivatives of the negative
log-likelihood at its coefficients and `r` its residual as in C169, and `T = tol / t + r`:
with `m a` the slope of the SCAD penalty at distance `a` from zero (`sigma` up to `sigma`, then falling linearly, zero from `rho sigma` on) every nonzero coefficient `v` has `G + eps v` within `T` of
`-lam w m(|v|) sign(v)` (`G` less the multiplier for variances), every zero fixed effect `|Gb| ≤ lam w sigma + T`, every zero variance `Gg - v ≥ -lam w sigma - T`. The step must satisfy `step lam w < rho - 1`. -/
theorem C171_scad (M : LmeModelCfg) (s : LmeSr3Cfg) (rho sigma lam : ℝ) (hreg : M.reg = .scad rho sigma lam) (hrho : 1 < rho) (hsig : 0 ≤ sigma) (hlam : 0 ≤ lam) (heps : 0 ≤ M.elasticEps) (hs : 0 < M.step) (hsr : M.sr3 = some s)
    (hprac : s.practical = false) (hpr : M.prior = none) (hinit : M.initializer ≠ some "EM") (st : LmeState) (P : LmeProblem ℝ) (a : LmeFitArgs)
    (D : List (LmeGroup P.numFixed P.numRandom)) (hD : lmeGroups P = .ok D) (hpos : PosVar D) (hq : P.numRandom ≠ 0)
    (g0 : Vec ℝ P.numRandom) (hg0 : List.ofFn g0 = a.gamma.getD (List.replicate P.numRandom 1)) (hg0p : ∀ j, 0 < g0 j)
    (wb : Vec ℝ P.numFixed) (wg : Vec ℝ P.numRandom) (hwb : List.ofFn wb = a.feWeights.getD P.feWeights) (hwg : List.ofFn wg = a.reWeights.getD P.reWeights)
    (hwb0 : ∀ i, 0 ≤ wb i) (hwg0 : ∀ j, 0 ≤ wg j)
    (hsb : ∀ i, M.step * (lam * wb i) < rho - 1) (hsg : ∀ j, M.step * (lam * wg j) < rho - 1)
    (m : ℝ → ℝ) (hm : ∀ a, m a = if a ≤ sigma then sigma else if a ≤ rho * sigma then (rho * sigma - a) / (rho - 1) else 0)
    (Lf : Logger (PyVal ℝ (P.numFixed + P.numRandom))) (c : LmeState) (h : lmeFitProblem M st P a = (.ok Lf, c)) (hconv : Lf.get "converged" = .ok (.atom (.bool true))) :
    ∃ (coef : LmeCoef) (b b' : Vec ℝ P.numFixed) (g g' : Vec ℝ P.numRandom) (t : ℝ) (o : IpOracle P.numFixed P.numRandom) (sI : IpState P.numFixed P.numRandom) (Gb : Vec ℝ P.numFixed)
      (Gg : Vec ℝ P.numRandom) (r : ℝ),
      c = some coef ∧ coef.beta = List.ofFn b ∧ coef.gamma = List.ofFn g ∧ 0 < t ∧ (M.stepping ≠ "line-search" → t = M.step) ∧
      ∑ i, (b i - b' i) ^ 2 + ∑ j, (g j - g' j) ^ 2 ≤ M.tol ^ 2 ∧ (∀ j, 0 ≤ g j) ∧
      ipLoop D .nonInformative (s.ip _ _) (ipInit (s.ip _ _) o ((2 : ℝ) • b') ((2 : ℝ) • g') b' g') = .ok sI ∧ (∀ j, 0 ≤ sI.gamma j) ∧ (∀ j, 0 < sI.v j) ∧
      (∀ i, HasDerivAt (fun τ => marginalNLL D (sI.beta + Pi.single i τ) sI.gamma) (Gb i) 0) ∧
      (∀ j, HasDerivAt (fun τ => marginalNLL D sI.beta (sI.gamma + Pi.single j τ)) (Gg j) 0) ∧
      r = √(∑ j, (sI.v j * sI.gamma j - sI.mu) ^ 2 + (∑ i, (Gb i + s.ell * (sI.beta i - b' i)) ^ 2 + ∑ j, (Gg j + s.ell * (sI.gamma j - g' j) - sI.v j) ^ 2)) ∧
      (s.warmStartOracle = true → s.maxIterOracle ≤ sI.iteration ∨ (r ≤ s.tolOracle ∧ sI.mu ≤ s.tolOracle) ∨
        ∃ pb pg ptb ptg, sI.prev = some (pb, pg, ptb, ptg) ∧ npNorm (sI.beta - pb) ≤ s.tolOracle ∧ npNorm (sI.gamma - pg) ≤ s.tolOracle) ∧
      (∀ i, (0 < b i → |Gb i + M.elasticEps * b i + lam * wb i * m (b i)| ≤ M.tol / t + r) ∧ (b i < 0 → |Gb i + M.elasticEps * b i - lam * wb i * m (-b i)| ≤ M.tol / t + r) ∧
        (b i = 0 → |Gb i| ≤ lam * wb i * sigma + (M.tol / t + r))) ∧
      ∀ j, (0 < g j → |Gg j - sI.v j + M.elasticEps * g j + lam * wg j * m (g j)| ≤ M.tol / t + r) ∧ (g j = 0 → -(lam * wg j * sigma) - (M.tol / t + r) ≤ Gg j - sI.v j) := by
  obtain rfl : m = scadTaper rho sigma := funext fun a => hm a
  obtain ⟨coef, b, b', g, g', t, o, sI, Gb, Gg, r, Hb, Hg, mm, base, c1, c2, c3, ht, c5, c6, c7, c8, c9, c10, c11, c12, c13, c14, htM, -, hbase, hdb, hdg, hpx, hGb, hGg⟩ :=
    lmeSr3Fit_inner M s (by rw [hreg]; exact ⟨hrho, hsig, hlam⟩) (by rw [hreg]; simp) heps hs hsr hprac hpr hinit st P a D hD hpos hq g0 hg0 hg0p wb wg hwb hwg hwb0 hwg0 Lf c h hconv
  rw [hreg] at hbase
  unfold LmeReg.build scadInit at hbase
  simp only at hbase
  rw [if_pos hrho] at hbase
  cases hbase
  have hpx' := (collect_ok_iff _ _).1 hpx
  have hq1 : 1 ≤ 1 + t * M.elasticEps := le_add_of_nonneg_right (by positivity)
  have hle : ∀ {u}, 0 ≤ u → t * (lam * u) ≤ M.step * (lam * u) := fun hu => mul_le_mul_of_nonneg_right htM (mul_nonneg hlam hu)
  refine ⟨coef, b, b', g, g', t, o, sI, Gb, Gg, r, c1, c2, c3, ht, c5, c6, c7, c8, c9, c10, c11, c12, c13, c14, fun i => ?_, fun j => ?_⟩
  · have hz := hpx' (Fin.castAdd _ i)
    simp only [joinX, Fin.append_left, weightsOrOnes, Option.getD_some] at hz
    obtain ⟨h1, h2, h3⟩ := scadLme_step hrho hsig ht hlam (hwb0 i) hq1 ((hle (hwb0 i)).trans_lt (hsb i)) hz
    refine ⟨fun hi => ?_, fun hi => ?_, fun hi => ?_⟩
    · have := step_coord (l := lam * wb i * scadTaper rho sigma (b i)) ht (hdb i) (h1 hi)
      rw [add_assoc] at this ⊢
      exact abs_up_to this (hGb i)
    · have := step_coord (eps := M.elasticEps) (l := -(lam * wb i * scadTaper rho sigma (-b i))) ht (hdb i) (by rw [← h2 hi]; ring)
      rw [add_assoc] at this
      rw [add_sub_assoc, sub_eq_add_neg]
      exact abs_up_to this (hGb i)
    · have := step_zero (δ := M.tol) ht (by have := hdb i; rwa [hi] at this) (h3 hi)
      have h5 := abs_up_to (X := 0) ((congrArg abs (add_zero _)).trans_le this) (hGb i)
      rw [add_zero] at h5
      linarith
  · have hz := hpx' (Fin.natAdd _ j)
    simp only [joinX, Fin.append_right, weightsOrOnes, Option.getD_some] at hz
    obtain ⟨h1, -, h3⟩ := scadLme_step hrho hsig ht hlam (hwg0 j) hq1 ((hle (hwg0 j)).trans_lt (hsg j)) hz
    refine ⟨fun hj => ?_, fun hj => ?_⟩
    · have hl : 0 ≤ lam * wg j * scadTaper rho sigma (g j) := mul_nonneg (mul_nonneg hlam (hwg0 j)) (scadTaper_nonneg hrho hsig _)
      have := step_coord (l := lam * wg j * scadTaper rho sigma (g j)) ht (hdg j) (max_pos_eq (by positivity) (h1 hj))
      rw [add_assoc] at this ⊢
      exact abs_up_to this (hGg j)
    · have h5 := h3 hj
      rw [abs_of_nonneg (le_max_right _ _)] at h5
      have h6 := step_zero_up (δ := M.tol) ht (by have := hdg j; rwa [hj] at this) ((le_max_left _ _).trans h5)
      have h7 := (abs_le.1 (hGg j)).1
      linarith

/-- **C171** (L0): let an SR3 L0 mixed-effects model (not practical, without prior and EM initializer) be fitted from positive variances to data with positive observation variances, and let the fit log
`converged = True`. With `b, g` the result, `t` the last step, `b', g'` the point before it (within `tol`), `sI` the final state of the inner solver called at `b', g'`, `Gb, Gg` the derivatives of the negative
log-likelihood at its coefficients and `r` its residual as in C169, and `T = tol / t + r`:
fixed effects — `|Gb + eps v| ≤ T` for every nonzero effect `v` and every effect with weight zero, and for all of them if the budget is not used up; for every zero effect `|Gb| ≤ (1/t + eps) |v| + T` for
all penalised nonzero effects `v`; variances — `|Gg - v + eps g| ≤ T` for every positive one; `≥ -T` for those with weight zero; and for zero variances all of whose fixed effects are nonzero
`Gg - v ≥ -(1/t + eps) g_k - T` for all penalised positive variances, and `Gg - v ≥ -T` if the budget is not used up. -/
theorem C171_l0 (M : LmeModelCfg) (s : LmeSr3Cfg) (nb ng : Option ℤ) (sort : NpSort) (hreg : M.reg = .l0 nb ng sort) (heps : 0 ≤ M.elasticEps) (hs : 0 < M.step) (hsr : M.sr3 = some s)
    (hprac : s.practical = false) (hpr : M.prior = none) (hinit : M.initializer ≠ some "EM") (st : LmeState) (P : LmeProblem ℝ) (a : LmeFitArgs)
    (D : List (LmeGroup P.numFixed P.numRandom)) (hD : lmeGroups P = .ok D) (hpos : PosVar D) (hq : P.numRandom ≠ 0)
    (g0 : Vec ℝ P.numRandom) (hg0 : List.ofFn g0 = a.gamma.getD (List.replicate P.numRandom 1)) (hg0p : ∀ j, 0 < g0 j)
    (wb : Vec ℝ P.numFixed) (wg : Vec ℝ P.numRandom) (hwb : List.ofFn wb = a.feWeights.getD P.feWeights) (hwg : List.ofFn wg = a.reWeights.getD P.reWeights)
    (hwb0 : ∀ i, 0 ≤ wb i) (hwg0 : ∀ j, 0 ≤ wg j)
    (m : List ℤ) (hm : betaToGammaMap P = .ok m)
    (Lf : Logger (PyVal ℝ (P.numFixed + P.numRandom))) (c : LmeState) (h : lmeFitProblem M st P a = (.ok Lf, c)) (hconv : Lf.get "converged" = .ok (.atom (.bool true))) :
    ∃ (coef : LmeCoef) (b b' : Vec ℝ P.numFixed) (g g' : Vec ℝ P.numRandom) (t : ℝ) (o : IpOracle P.numFixed P.numRandom) (sI : IpState P.numFixed P.numRandom) (Gb : Vec ℝ P.numFixed)
      (Gg : Vec ℝ P.numRandom) (r : ℝ),
      c = some coef ∧ coef.beta = List.ofFn b ∧ coef.gamma = List.ofFn g ∧ 0 < t ∧ (M.stepping ≠ "line-search" → t = M.step) ∧
      ∑ i, (b i - b' i) ^ 2 + ∑ j, (g j - g' j) ^ 2 ≤ M.tol ^ 2 ∧ (∀ j, 0 ≤ g j) ∧
      ipLoop D .nonInformative (s.ip _ _) (ipInit (s.ip _ _) o ((2 : ℝ) • b') ((2 : ℝ) • g') b' g') = .ok sI ∧ (∀ j, 0 ≤ sI.gamma j) ∧ (∀ j, 0 < sI.v j) ∧
      (∀ i, HasDerivAt (fun τ => marginalNLL D (sI.beta + Pi.single i τ) sI.gamma) (Gb i) 0) ∧
      (∀ j, HasDerivAt (fun τ => marginalNLL D sI.beta (sI.gamma + Pi.single j τ)) (Gg j) 0) ∧
      r = √(∑ j, (sI.v j * sI.gamma j - sI.mu) ^ 2 + (∑ i, (Gb i + s.ell * (sI.beta i - b' i)) ^ 2 + ∑ j, (Gg j + s.ell * (sI.gamma j - g' j) - sI.v j) ^ 2)) ∧
      (s.warmStartOracle = true → s.maxIterOracle ≤ sI.iteration ∨ (r ≤ s.tolOracle ∧ sI.mu ≤ s.tolOracle) ∨
        ∃ pb pg ptb ptg, sI.prev = some (pb, pg, ptb, ptg) ∧ npNorm (sI.beta - pb) ≤ s.tolOracle ∧ npNorm (sI.gamma - pg) ≤ s.tolOracle) ∧
      (∀ i, (b i ≠ 0 ∨ wb i = 0 → |Gb i + M.elasticEps * b i| ≤ M.tol / t + r) ∧
        (b i = 0 → ∀ k, wb k ≠ 0 → b k ≠ 0 → |Gb i| ≤ (1 / t + M.elasticEps) * |b k| + (M.tol / t + r)) ∧
        ((∀ n, nb = some n → (Set.ncard {k | wb k ≠ 0 ∧ b k ≠ 0} : ℤ) + Set.ncard {k | wb k = 0} < n) → |Gb i + M.elasticEps * b i| ≤ M.tol / t + r)) ∧
      ∀ j, (0 < g j → |Gg j - sI.v j + M.elasticEps * g j| ≤ M.tol / t + r) ∧ (wg j = 0 → -(M.tol / t + r) ≤ Gg j - sI.v j + M.elasticEps * g j) ∧
        (g j = 0 → (∀ i : Fin P.numFixed, m[(i : ℕ)]? = some ((j : ℕ) : ℤ) → b i ≠ 0) →
          (∀ k, wg k ≠ 0 → 0 < g k → -((1 / t + M.elasticEps) * g k) - (M.tol / t + r) ≤ Gg j - sI.v j) ∧
          ((∀ n, ng = some n → (Set.ncard {k | wg k ≠ 0 ∧ g k ≠ 0} : ℤ) + Set.ncard {k | wg k = 0} < n) → -(M.tol / t + r) ≤ Gg j - sI.v j)) := by
  obtain ⟨coef, b, b', g, g', t, o, sI, Gb, Gg, r, Hb, Hg, mm, base, c1, c2, c3, ht, c5, c6, c7, c8, c9, c10, c11, c12, c13, c14, -, hmm, hbase, hdb, hdg, hpx, hGb, hGg⟩ :=
    lmeSr3Fit_inner M s (by rw [hreg]; exact trivial) (by rw [hreg]; simp) heps hs hsr hprac hpr hinit st P a D hD hpos hq g0 hg0 hg0p wb wg hwb hwg hwb0 hwg0 Lf c h hconv
  obtain rfl : m = mm := Except.ok.inj (hm.symm.trans hmm)
  rw [hreg] at hbase
  cases hbase
  obtain ⟨hB, hG⟩   := l0Lme_step heps ht hdb hdg hpx
  refine ⟨coef, b, b', g, g', t, o, sI, Gb, Gg, r, c1, c2, c3, ht, c5, c6, c7, c8, c9, c10, c11, c12, c13, c14, fun i => ?_, fun j => ?_⟩
  · obtain ⟨h1, h2, h3⟩ := hB i
    refine ⟨fun hi => abs_up_to (h1 hi) (hGb i), fun hi k hk hk0 => ?_, fun hn => abs_up_to (h3 hn) (hGb i)⟩
    have h5 := abs_up_to (X := 0) ((congrArg abs (add_zero _)).trans_le (h2 hi k hk hk0)) (hGb i)
    rw [add_zero] at h5
    linarith
  · obtain ⟨h1, h2, h3⟩ := hG j
    have h7 := (abs_le.1 (hGg j)).1
    refine ⟨fun hj => abs_up_to (h1 hj) (hGg j), fun hj => ?_, fun hj hl => ⟨fun k hk hk0 => ?_, fun hn => ?_⟩⟩
    · have := h2 hj
      linarith
    · have := (h3 hj hl).1 k hk hk0
      linarith
    · have := (h3 hj hl).2 hn
      linarith

/-- An SR3 model with fixed steps, the warm start of the inner solver and no logged losses. -/
noncomputable def sr3Fold (reg : LmeReg) (tol : ℝ) : LmeModelCfg :=
  { exModel (some { exSr3 false with warmStartOracle := true }) 1000 reg with stepping := "fixed", tol := tol, loggerKeys := ["converged"] }

theorem sr3Fold_step (reg : LmeReg) (tol : ℝ) : (sr3Fold reg tol).step = 1 / 40 := by
  unfold LmeModelCfg.step sr3Fold exModel
  simp only [exSr3]
  norm_num

theorem sr3Fold_robust {reg : LmeReg} (hr : reg.Admissible) (hstep : reg.StepOk 1e-4 (1 / 40)) (tol : ℝ) : (sr3Fold reg tol).Robust where
  adm := ⟨hr, by norm_num [sr3Fold, exModel], (fun s hs => by cases hs), fun s h => by cases h; norm_num [exSr3]⟩
  init := by simp [sr3Fold, exModel]
  kind := rfl
  keys := by change ["converged"].Nodup; decide
  vaida := by change _ ∉ ["converged"]; decide
  flip := fun h => absurd h (by change _ ∉ ["converged"]; decide)
  sr3 := fun s h => by cases h; exact ⟨by norm_num [exSr3], rfl⟩
  scad := fun t ht => by
    change t = (sr3Fold reg tol).step at ht
    rw [ht, sr3Fold_step]
    exact hstep

/-- Converged SR3 fits of the example table, with two fixed and two random effects, from the default start. -/
theorem sr3Fold_fit (reg : LmeReg) (hr : reg.Admissible) (hne : reg ≠ .dummy) (hstep : reg.StepOk 1e-4 (1 / 40)) :
    ∃ (P : LmeProblem ℝ) (D : List (LmeGroup P.numFixed P.numRandom)) (m : List ℤ) (tol : ℝ) (Lf : Logger (PyVal ℝ (P.numFixed + P.numRandom))) (c : LmeCoef),
      lmeFromXY exTab (some ![26, 20]) none exTabLabels true true none none = .ok P ∧ lmeGroups P = .ok D ∧ PosVar D ∧ P.numFixed = 2 ∧ P.numRandom = 2 ∧ betaToGammaMap P = .ok m ∧
      List.ofFn (fun _ : Fin P.numFixed => (1 : ℝ)) = P.feWeights ∧ List.ofFn (fun _ : Fin P.numRandom => (1 : ℝ)) = P.reWeights ∧
      lmeFitProblem (sr3Fold reg tol) none P {} = (.ok Lf, some c) ∧ Lf.get "converged" = .ok (.atom (.bool true)) := by
  obtain ⟨P, hP⟩ := exTab_ok' true true ![26, 20]
  obtain ⟨_, _, feW, reW, -, -, hlen, -, -, -, -, -, hf, hr', hPe⟩ := lmeFromXY_ok exTab (some ![26, 20]) none exTabLabels
    true true none none P hP
  have e1 : P.feWeights = [1, 1] := by rw [hPe]; cases hf; rfl
  have e2 : P.reWeights = [1, 1] := by rw [hPe]; cases hr'; rfl
  have hF : P.numFixed = 2 := (numFixed_eq P true true (by rw [hPe])).trans (by rw [show P.columnLabels = exTabLabels by rw [hPe]]; decide)
  have hR : P.numRandom = 2 := (numRandom_eq P true true (by rw [hPe])).trans (by rw [show P.columnLabels = exTabLabels by rw [hPe]]; decide)
  obtain ⟨gr, v, -, hv, -, hD⟩ := lmeGroups_table hP
  obtain ⟨D, hDe⟩ : ∃ D, D = (uniqueLabels fun r => exTab r gr).map (tableGroup exTab ![26, 20] exTabLabels true true gr v P.numFixed P.numRandom) := ⟨_, rfl⟩
  rw [← hDe] at hD
  have hDp : PosVar D := by
    have hvl : v = 3 := by
      have h3 : labelIdx (p := 4) exTabLabels (· = VARIANCE) = [3] := by decide
      rw [h3] at hv
      exact (List.singleton_injective hv).symm
    intro g hg i
    rw [hDe] at hg
    obtain ⟨l, -, rfl⟩ := List.mem_map.1 hg
    exact exTab_positive v (by rw [hvl]; rfl) _
  have hone : ∀ n : ℕ, List.ofFn (fun _ : Fin n => (1 : ℝ)) = List.replicate n 1 := fun n => List.ofFn_const n 1
  have hwb : List.ofFn (fun _ : Fin P.numFixed => (1 : ℝ)) = P.feWeights := by rw [e1, hF, hone]; rfl
  have hwg : List.ofFn (fun _ : Fin P.numRandom => (1 : ℝ)) = P.reWeights := by rw [e2, hR, hone]; rfl
  have hfits : ∀ tol, ∃ Lf c, lmeFitProblem (sr3Fold reg tol) none P {} = (.ok Lf, some c) := fun tol => by
    obtain ⟨Lf, c, hfit, -, -⟩ := C83_fit_problem_returns (sr3Fold reg tol) (sr3Fold_robust hr hstep tol) none exTab ![26, 20] none exTabLabels true true none none P hP exTab_positive ⟨.nonInformative, rfl⟩ {}
      (by simp) (by simp) (by rintro w rfl; simp only [Option.getD_none, e1]; exact ⟨rfl, by simp⟩) (by rintro w rfl; simp only [Option.getD_none, e2]; exact ⟨rfl, by simp⟩)
    exact ⟨Lf, c, hfit⟩
  obtain ⟨m, hm⟩ : ∃ m, betaToGammaMap P = .ok m := by
    obtain ⟨Lf, c, hfit⟩ := hfits 0
    unfold lmeFitProblem at hfit
    split at hfit
    · cases hfit
    rename_i r hr0
    obtain ⟨coef, x, L0⟩ := r
    obtain ⟨m, Pr', w, base, D', b0, g0', us, per, hm, -⟩ := lmeFitCore_ok hr0
    exact ⟨m, hm⟩
  -- the first step
  obtain ⟨s, hs⟩ : ∃ s : LmeSr3Cfg, s = { exSr3 false with warmStartOracle := true } := ⟨_, rfl⟩
  obtain ⟨x0, hx0⟩ : ∃ x0 : Vec ℝ (P.numFixed + P.numRandom), x0 = joinX (fun _ => 1) (fun _ => 1) := ⟨_, rfl⟩
  obtain ⟨w, hw⟩ : ∃ w : Vec ℝ (P.numFixed + P.numRandom), w = joinX (fun _ => 1) (fun _ => 1) := ⟨_, rfl⟩
  obtain ⟨base, hbase⟩ := LmeReg.build_ok hr m w
  obtain ⟨T, hT⟩ : ∃ T : ℝ, ∀ x1 g o, (lmeSr3Oracle D .nonInformative (s.ip _ _)).grad x0 ⟨⟨s.ell, s.ell⟩, none⟩ = .ok (g, o) →
      (wrapReg P.numFixed P.numRandom 1e-4 base).prox (fun i => x0 i - 1 / 40 * g i) (1 / 40) = .ok x1 → normSq (x1 - x0) ≤ T := by
    by_cases hex : ∃ x1 g o, (lmeSr3Oracle D .nonInformative (s.ip _ _)).grad x0 ⟨⟨s.ell, s.ell⟩, none⟩ = .ok (g, o) ∧
        (wrapReg P.numFixed P.numRandom 1e-4 base).prox (fun i => x0 i - 1 / 40 * g i) (1 / 40) = .ok x1
    · obtain ⟨x1, g, o, h1, h2⟩ := hex
      refine ⟨normSq (x1 - x0), fun x1' g' o' h3 h4 => ?_⟩
      cases h1.symm.trans h3
      cases h2.symm.trans h4
      exact le_rfl
    · exact ⟨0, fun x1 g o h1 h2 => absurd ⟨x1, g, o, h1, h2⟩ hex⟩
  obtain ⟨tol, htol⟩ : ∃ tol, tol = √(max T 0) := ⟨_, rfl⟩
  obtain ⟨Lf, c, hfit⟩ := hfits tol
  have hconv := lmeSr3Fit_first (M := sr3Fold reg tol) (s := s) (by simp [sr3Fold]) (by rw [hs]; rfl) (by rw [hs]; rfl) rfl (by simp [sr3Fold, exModel]) (by norm_num [sr3Fold, exModel])
    (by change "loss" ∉ ["converged"]; decide) hD (b0 := fun _ => 1) (g0 := fun _ => 1) (hone _) (hone _)
    (by rw [show (sr3Fold reg tol).tol = tol from rfl, htol]; exact Real.sqrt_nonneg _) (fun m' w' base' x1 g o hm' hw' hbase' hg hpx => by
      obtain rfl : w' = w := by
        rcases LmeReg.weights_mem hw' with ⟨h0, -⟩ | ⟨hlen, hw'⟩
        · exact absurd h0 hne
        · refine List.ofFn_injective (hw'.trans ?_)
          rw [hw]
          unfold joinX
          rw [List.ofFn_fin_append, hwb, hwg]
          change List.take _ (P.feWeights ++ P.reWeights) = _
          rw [List.take_of_length_le (by rw [e1, e2, hF, hR]; simp)]
      cases hm.symm.trans hm'
      cases hbase.symm.trans hbase'
      rw [sr3Fold_step, ← hx0] at hpx
      rw [← hx0] at hg
      rw [← hx0, show (sr3Fold reg tol).tol = tol from rfl, htol, Real.sq_sqrt (le_max_right _ _)]
      exact (hT x1 g o hg hpx).trans (le_max_left _ _)) hfit
  exact ⟨P, D, m, tol, Lf, c, hP, hD, hDp, hF, hR, hm, hwb, hwg, hfit, hconv⟩

/-- Non-vacuity of C171_cad: a converged fit of the example table. -/
example : ∃ (P : LmeProblem ℝ) (D : List (LmeGroup P.numFixed P.numRandom)) (tol : ℝ) (Lf : Logger (PyVal ℝ (P.numFixed + P.numRandom))) (c : LmeCoef) (b Gb : Vec ℝ P.numFixed) (r : ℝ),
    lmeFromXY exTab (some ![26, 20]) none exTabLabels true true none none = .ok P ∧ lmeGroups P = .ok D ∧ P.numFixed = 2 ∧ P.numRandom = 2 ∧
    lmeFitProblem (sr3Fold (.cad (3 / 10) 2) tol) none P {} = (.ok Lf, some c) ∧ Lf.get "converged" = .ok (.atom (.bool true)) ∧ c.beta = List.ofFn b ∧ ∀ i, 3 / 10 < |b i| → |Gb i + 1e-4 * b i| ≤ tol / (1 / 40) + r := by
  obtain ⟨P, D, m, tol, Lf, c, hP, hD, hDp, hF, hR, hm, hwb, hwg, hfit, hconv⟩ := sr3Fold_fit (.cad (3 / 10) 2) (show (0 : ℝ) ≤ 2 by norm_num) (by simp) trivial
  have hone : ∀ n : ℕ, List.ofFn (fun _ : Fin n => (1 : ℝ)) = List.replicate n 1 := fun n => List.ofFn_const n 1
  obtain ⟨coef, b, b', g, g', t, o, sI, Gb, Gg, r, hc, hb, -, -, ht, -, -, -, -, -, -, -, -, -, hopt, -⟩ := C171_cad (sr3Fold (.cad (3 / 10) 2) tol) { exSr3 false with warmStartOracle := true } (3 / 10) 2 rfl (by norm_num) (by norm_num [sr3Fold, exModel])
    (by rw [sr3Fold_step]; norm_num) rfl rfl rfl (by simp [sr3Fold, exModel]) none P {} D hD hDp (by omega) (fun _ => 1) (hone _) (fun _ => one_pos)
    (fun _ => 1) (fun _ => 1) hwb hwg (fun _ => zero_le_one) (fun _ => zero_le_one)  Lf (some c) hfit hconv
  cases hc
  have hts : t = 1 / 40 := (ht (by simp [sr3Fold])).trans (sr3Fold_step _ _)
  subst hts
  exact ⟨P, D, tol, Lf, c, b, Gb, r, hP, hD, hF, hR, hfit, hconv, hb, fun i => (hopt i).1⟩

/-- Non-vacuity of C171_scad: a converged fit of the example table. -/
example : ∃ (P : LmeProblem ℝ) (D : List (LmeGroup P.numFixed P.numRandom)) (tol : ℝ) (Lf : Logger (PyVal ℝ (P.numFixed + P.numRandom))) (c : LmeCoef) (b Gb : Vec ℝ P.numFixed) (r : ℝ),
    lmeFromXY exTab (some ![26, 20]) none exTabLabels true true none none = .ok P ∧ lmeGroups P = .ok D ∧ P.numFixed = 2 ∧ P.numRandom = 2 ∧
    lmeFitProblem (sr3Fold (.scad (37 / 10) (1 / 2) 2) tol) none P {} = (.ok Lf, some c) ∧ Lf.get "converged" = .ok (.atom (.bool true)) ∧ c.beta = List.ofFn b ∧ ∀ i, b i = 0 → |Gb i| ≤ 2 * 1 * (1 / 2) + (tol / (1 / 40) + r) := by
  obtain ⟨P, D, m, tol, Lf, c, hP, hD, hDp, hF, hR, hm, hwb, hwg, hfit, hconv⟩ := sr3Fold_fit (.scad (37 / 10) (1 / 2) 2) ⟨by norm_num, by norm_num, by norm_num⟩ (by simp) (show (1 / 40 : ℝ) / (1 + 1 / 40 * 1e-4) * 2 ≠ 37 / 10 - 1 by norm_num)
  have hone : ∀ n : ℕ, List.ofFn (fun _ : Fin n => (1 : ℝ)) = List.replicate n 1 := fun n => List.ofFn_const n 1
  obtain ⟨coef, b, b', g, g', t, o, sI, Gb, Gg, r, hc, hb, -, -, ht, -, -, -, -, -, -, -, -, -, hopt, -⟩ := C171_scad (sr3Fold (.scad (37 / 10) (1 / 2) 2) tol) { exSr3 false with warmStartOracle := true } (37 / 10) (1 / 2) 2 rfl (by norm_num) (by norm_num) (by norm_num) (by norm_num [sr3Fold, exModel])
    (by rw [sr3Fold_step]; norm_num) rfl rfl rfl (by simp [sr3Fold, exModel]) none P {} D hD hDp (by omega) (fun _ => 1) (hone _) (fun _ => one_pos)
    (fun _ => 1) (fun _ => 1) hwb hwg (fun _ => zero_le_one) (fun _ => zero_le_one) (fun _ => by rw [sr3Fold_step]; norm_num) (fun _ => by rw [sr3Fold_step]; norm_num) _ (fun _ => rfl) Lf (some c) hfit hconv
  cases hc
  have hts : t = 1 / 40 := (ht (by simp [sr3Fold])).trans (sr3Fold_step _ _)
  subst hts
  exact ⟨P, D, tol, Lf, c, b, Gb, r, hP, hD, hF, hR, hfit, hconv, hb, fun i => (hopt i).2.2⟩

/-- Non-vacuity of C171_l0: a converged fit of the example table. -/
example : ∃ (P : LmeProblem ℝ) (D : List (LmeGroup P.numFixed P.numRandom)) (tol : ℝ) (Lf : Logger (PyVal ℝ (P.numFixed + P.numRandom))) (c : LmeCoef) (b Gb : Vec ℝ P.numFixed) (r : ℝ),
    lmeFromXY exTab (some ![26, 20]) none exTabLabels true true none none = .ok P ∧ lmeGroups P = .ok D ∧ P.numFixed = 2 ∧ P.numRandom = 2 ∧
    lmeFitProblem (sr3Fold (.l0 (some 1) (some 1) exSort) tol) none P {} = (.ok Lf, some c) ∧ Lf.get "converged" = .ok (.atom (.bool true)) ∧ c.beta = List.ofFn b ∧ ∀ i, b i ≠ 0 ∨ (1 : ℝ) = 0 → |Gb i + 1e-4 * b i| ≤ tol / (1 / 40) + r := by
  obtain ⟨P, D, m, tol, Lf, c, hP, hD, hDp, hF, hR, hm, hwb, hwg, hfit, hconv⟩ := sr3Fold_fit (.l0 (some 1) (some 1) exSort) trivial (by simp) trivial
  have hone : ∀ n : ℕ, List.ofFn (fun _ : Fin n => (1 : ℝ)) = List.replicate n 1 := fun n => List.ofFn_const n 1
  obtain ⟨coef, b, b', g, g', t, o, sI, Gb, Gg, r, hc, hb, -, -, ht, -, -, -, -, -, -, -, -, -, hopt, -⟩ := C171_l0 (sr3Fold (.l0 (some 1) (some 1) exSort) tol) { exSr3 false with warmStartOracle := true } (some 1) (some 1) exSort rfl (by norm_num [sr3Fold, exModel])
    (by rw [sr3Fold_step]; norm_num) rfl rfl rfl (by simp [sr3Fold, exModel]) none P {} D hD hDp (by omega) (fun _ => 1) (hone _) (fun _ => one_pos)
    (fun _ => 1) (fun _ => 1) hwb hwg (fun _ => zero_le_one) (fun _ => zero_le_one) m hm Lf (some c) hfit hconv
  cases hc
  have hts : t = 1 / 40 := (ht (by simp [sr3Fold])).trans (sr3Fold_step _ _)
  subst hts
  exact ⟨P, D, tol, Lf, c, b, Gb, r, hP, hD, hF, hR, hfit, hconv, hb, fun i => (hopt i).1⟩

end Verif
