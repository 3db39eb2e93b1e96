import Verif.Props.LmeKkt

/-!
# C166: converged SCAD mixed-effects fits satisfy the optimality conditions, and keep only effects that are hardly shrunk
-/

open Matrix

namespace Verif

/-- The slope of the SCAD penalty (weight one, `lam = 1`) at distance `a` from zero: `sigma` up to `sigma`, falling linearly to zero at `rho * sigma`. -/
noncomputable def scadTaper (rho sigma a : ℝ) : ℝ := if a ≤ sigma then sigma else if a ≤ rho * sigma then (rho * sigma - a) / (rho - 1) else 0

theorem scadTerm_abs' (rho sigma w u : ℝ) : scadTerm rho sigma w |u| = scadTerm rho sigma w u := by
  unfold scadTerm
  rw [abs_abs, sq_abs]

/-- The SCAD penalty is concave on each side of zero: it lies below its tangents. -/
theorem scadTerm_tangent {rho sigma a b : ℝ} (hrho : 1 < rho) (hs : 0 ≤ sigma) (ha : 0 ≤ a) (hb : 0 ≤ b) :
    scadTerm rho sigma 1 b ≤ scadTerm rho sigma 1 a + scadTaper rho sigma a * (b - a) := by
  have hr : 0 < 2 * (rho - 1) := by linarith
  have hr1 : 0 < rho - 1 := by linarith
  have hrs : sigma ≤ rho * sigma := by nlinarith
  -- the value as a piecewise function with closed pieces
  have hv : ∀ {v : ℝ}, 0 ≤ v → (v ≤ sigma ∧ scadTerm rho sigma 1 v = sigma * v) ∨
      (sigma ≤ v ∧ v ≤ rho * sigma ∧ 2 * (rho - 1) * scadTerm rho sigma 1 v = -v ^ 2 + 2 * rho * sigma * v - sigma ^ 2) ∨ (rho * sigma < v ∧ scadTerm rho sigma 1 v = sigma ^ 2 * (rho + 1) / 2) := by
    intro v hv
    unfold scadTerm
    rw [abs_of_nonneg hv]
    split_ifs with h1 h2
    · exact .inl ⟨h1.le, by ring⟩
    · exact .inr (.inl ⟨h2.1, h2.2, by field_simp⟩)
    · refine .inr (.inr ⟨?_, by ring⟩)
      by_contra hc
      exact h2 ⟨not_lt.1 h1, not_lt.1 hc⟩
  have hm : ∀ {v : ℝ}, sigma < v → v ≤ rho * sigma → (rho - 1) * ((rho * sigma - v) / (rho - 1)) = rho * sigma - v := fun _ _ => mul_div_cancel₀ _ hr1.ne'
  rw [← mul_le_mul_iff_right₀ hr]
  unfold scadTaper
  split_ifs with h1 h2
  · have hA : scadTerm rho sigma 1 a = sigma * a := by
      rcases hv ha with ⟨-, h⟩ | ⟨h3, -, h⟩ | ⟨h3, -⟩
      · exact h
      · obtain rfl : a = sigma := le_antisymm h1 h3
        have : 2 * (rho - 1) * (scadTerm rho a 1 a - a * a) = 0 := by linear_combination h
        have := (mul_eq_zero.1 this).resolve_left hr.ne'
        linarith
      · linarith
    rw [hA]
    rcases hv hb with ⟨-, h⟩ | ⟨h3, h4, h⟩ | ⟨h3, h⟩
    · rw [h]; exact le_of_eq (by ring)
    · rw [h]; nlinarith [sq_nonneg (b - sigma)]
    · rw [h]; nlinarith [mul_nonneg hr1.le (mul_nonneg hs (sub_nonneg.2 h3.le)), mul_nonneg hr1.le (mul_nonneg hr1.le (mul_nonneg hs hs))]
  · rw [not_le] at h1
    have hA : 2 * (rho - 1) * scadTerm rho sigma 1 a = -a ^ 2 + 2 * rho * sigma * a - sigma ^ 2 := by
      rcases hv ha with ⟨h3, -⟩ | ⟨-, -, h⟩ | ⟨h3, -⟩
      · linarith
      · exact h
      · linarith
    have e : 2 * (rho - 1) * (scadTerm rho sigma 1 a + (rho * sigma - a) / (rho - 1) * (b - a)) = -a ^ 2 + 2 * rho * sigma * a - sigma ^ 2 + 2 * (rho * sigma - a) * (b - a) := by
      rw [mul_add, hA]
      field_simp
    rw [e]
    rcases hv hb with ⟨h3, h⟩ | ⟨h3, h4, h⟩ | ⟨h3, h⟩
    · rw [h]; nlinarith [mul_nonneg (sub_nonneg.2 h1.le) (sub_nonneg.2 h3), sq_nonneg (a - sigma)]
    · rw [h]; nlinarith [sq_nonneg (b - a)]
    · rw [h]; nlinarith [mul_nonneg (sub_nonneg.2 h2) (sub_nonneg.2 h3.le), sq_nonneg (rho * sigma - a)]
  · rw [not_le] at h1 h2
    have hA : scadTerm rho sigma 1 a = sigma ^ 2 * (rho + 1) / 2 := by
      rcases hv ha with ⟨h3, -⟩ | ⟨-, h3, -⟩ | ⟨-, h⟩
      · linarith
      · linarith
      · exact h
    rw [hA]
    rcases hv hb with ⟨h3, h⟩ | ⟨h3, h4, h⟩ | ⟨h3, h⟩
    · rw [h]; nlinarith [mul_nonneg hr1.le (mul_nonneg hs (sub_nonneg.2 h3)), mul_nonneg hr1.le (mul_nonneg hr1.le (mul_nonneg hs hs))]
    · rw [h]; nlinarith [sq_nonneg (rho * sigma - b)]
    · rw [h]; exact le_of_eq (by ring)

theorem scadTaper_nonneg {rho sigma : ℝ} (hrho : 1 < rho) (hs : 0 ≤ sigma) (a : ℝ) : 0 ≤ scadTaper rho sigma a := by
  unfold scadTaper
  split_ifs with h1 h2
  · exact hs
  · exact div_nonneg (by linarith) (by linarith)
  · exact le_rfl

/-- Where the slope is `s ≤ sigma` at most, the point is at least `rho sigma - (rho - 1) s`. -/
theorem scadTaper_far {rho sigma a s : ℝ} (hrho : 1 < rho) (h : scadTaper rho sigma a ≤ s) (hs : s < sigma) : rho * sigma - (rho - 1) * s ≤ a := by
  unfold scadTaper at h
  split_ifs at h with h1 h2
  · linarith
  · rw [div_le_iff₀ (by linarith)] at h
    linarith
  · nlinarith

section Coord

variable {n : ℕ}

/-- A coordinate away from zero: only moves keeping its sign are used. -/
theorem coord_scad {xi xpi gi t eps C κ m δ σ : ℝ} (ht : 0 < t) (hd : |xi - xpi| ≤ δ) (hx : 0 < xi ∧ σ = 1 ∨ xi < 0 ∧ σ = -1) (φ : ℝ → ℝ)
    (hφ : ∀ s, |s| ≤ |xi| → φ (xi + s) - φ xi ≤ C * m * (σ * s))
    (h : ∀ s, |s| ≤ |xi| → 0 ≤ t * (eps / 2 * ((xi + s) ^ 2 - xi ^ 2) + (φ (xi + s) - φ xi)) + (xi - xpi + t * gi) * s + t * κ / 2 * s ^ 2) :
    |gi + eps * xi + C * m * σ| ≤ δ / t := by
  have hx0 : xi ≠ 0 := by
    rcases hx with ⟨h, -⟩ | ⟨h, -⟩
    · exact h.ne'
    · exact h.ne
  set a := t * (gi + eps * xi + C * m * σ) + (xi - xpi) with ha
  have hq : ∀ s, |s| ≤ |xi| → 0 ≤ a * s + (t * eps / 2 + t * κ / 2) * s ^ 2 := by
    intro s hs
    have h1 := h s hs
    have h2 := mul_le_mul_of_nonneg_left (hφ s hs) ht.le
    rw [ha]
    nlinarith
  have h1 : 0 ≤ a := slope_nonneg (abs_pos.2 hx0) fun s hs0 hs => hq s (by rwa [abs_of_nonneg hs0])
  have h2 : 0 ≤ -a := slope_nonneg (b := t * eps / 2 + t * κ / 2) (abs_pos.2 hx0) fun s hs0 hs => by
    have := hq (-s) (by rwa [abs_neg, abs_of_nonneg hs0])
    rw [neg_sq] at this
    linarith
  have h0 : t * (gi + eps * xi + C * m * σ) = -(xi - xpi) := by linarith
  rw [le_div_iff₀ ht, ← abs_of_pos ht, ← abs_mul, mul_comm, h0, abs_neg]
  exact hd

/-- A coordinate at zero, from above. -/
theorem coord_scad_up {xpi gi t eps C κ δ : ℝ} (ht : 0 < t) (hd : |0 - xpi| ≤ δ) (φ : ℝ → ℝ) (hφ : ∀ s, 0 ≤ s → φ s ≤ C * s)
    (h : ∀ s, 0 ≤ s → s ≤ 1 → 0 ≤ t * (eps / 2 * s ^ 2 + φ s) + (0 - xpi + t * gi) * s + t * κ / 2 * s ^ 2) :
    -C - δ / t ≤ gi := by
  have h1 : 0 ≤ t * C + (-xpi + t * gi) := slope_nonneg (b := t * eps / 2 + t * κ / 2) one_pos fun s hs0 hs => by
    have h1 := h s hs0 hs
    have h2 := mul_le_mul_of_nonneg_left (hφ s hs0) ht.le
    nlinarith
  have h2 : -xpi ≤ δ := by
    rw [zero_sub] at hd
    exact (abs_le.1 hd).2
  have h3 : -C - gi ≤ δ / t := by
    rw [le_div_iff₀ ht]
    linarith
  linarith

end Coord

/-- What the theorems below share. -/
theorem lmeFit_kkt_scad {M : LmeModelCfg} (hM : M.Admissible) {rho sigma lam : ℝ} (hreg : M.reg = .scad rho sigma lam) (hsr : M.sr3 = none) (hpr : M.prior = none)
    (hinit : M.initializer ≠ some "EM") {st : LmeState}
    {P : LmeProblem ℝ} {a : LmeFitArgs} {D : List (LmeGroup P.numFixed P.numRandom)} (hD : lmeGroups P = .ok D) (hDp : PosVar D) (hn : 0 < P.numFixed + P.numRandom) {b0 : Vec ℝ P.numFixed}
    {g0 : Vec ℝ P.numRandom} (hb : List.ofFn b0 = a.beta.getD (List.replicate P.numFixed 1)) (hg : List.ofFn g0 = a.gamma.getD (List.replicate P.numRandom 1)) (hg0 : ∀ j, 0 ≤ g0 j)
    {w : Vec ℝ (P.numFixed + P.numRandom)} (hw : List.ofFn w = a.feWeights.getD P.feWeights ++ a.reWeights.getD P.reWeights) (hw0 : ∀ i, 0 ≤ w i)
    (hstep : ∀ i, M.step * (lam * w i) < rho - 1) {L : ℝ} (hrule : StepRule M.solver L)
    (hL : fixedCurvature D + 2 * (lmeObjective D M.elasticEps (fun i v => lam * scadTerm rho sigma (w i) v) b0 g0 - noiseFloor D) * relaxationNeeded D ≤ L)
    {Lf : Logger (PyVal ℝ (P.numFixed + P.numRandom))} {c : LmeState} (h : lmeFitProblem M st P a = (.ok Lf, c)) (hconv : Lf.get "converged" = .ok (.atom (.bool true))) :
    ∃ (x xp : Vec ℝ (P.numFixed + P.numRandom)) (coef : LmeCoef), c = some coef ∧ coef.beta = List.ofFn (xBeta x) ∧ coef.gamma = List.ofFn (xGamma x) ∧ (∀ j, 0 ≤ xGamma x j) ∧
      (∀ j, 0 ≤ xGamma xp j) ∧ marginalNLL D (xBeta xp) (xGamma xp) ≤ lmeObjective D M.elasticEps (fun i v => lam * scadTerm rho sigma (w i) v) b0 g0 ∧ ∑ i, (x i - xp i) ^ 2 ≤ M.tol ^ 2 ∧
      (∀ i, 0 < x i → |nllGradient D xp i + M.elasticEps * x i + lam * w i * scadTaper rho sigma (|x i|)| ≤ M.tol / stepFloor M.solver L) ∧
      (∀ i, x i < 0 → |nllGradient D xp i + M.elasticEps * x i - lam * w i * scadTaper rho sigma (|x i|)| ≤ M.tol / stepFloor M.solver L) ∧
      (∀ i, x i = 0 → -(lam * w i * sigma) - M.tol / stepFloor M.solver L ≤ nllGradient D xp i) ∧
      (∀ i : Fin P.numFixed, xBeta x i = 0 → nllGradient D xp (Fin.castAdd _ i) ≤ lam * w (Fin.castAdd _ i) * sigma + M.tol / stepFloor M.solver L) := by
  obtain ⟨hrho, hsig, hlam⟩ : 1 < rho ∧ 0 ≤ sigma ∧ 0 ≤ lam := by
    have := hM.reg
    rw [hreg] at this
    exact this
  have epen : M.reg.penalty w = fun i v => lam * scadTerm rho sigma (w i) v := by rw [hreg]; rfl
  rw [← epen] at hL
  have hr1 : 0 < rho - 1 := by linarith
  -- the largest weight gives the curvature
  obtain ⟨κ, hκ0, hκ, hκs⟩ : ∃ κ : ℝ, 0 ≤ κ ∧ (∀ i, lam * w i ≤ κ * (rho - 1)) ∧ M.step * κ < 1 := by
    haveI : Nonempty (Fin (P.numFixed + P.numRandom)) := ⟨⟨0, hn⟩⟩
    obtain ⟨i, hi⟩ := Finite.exists_max fun i => lam * w i
    refine ⟨lam * w i / (rho - 1), div_nonneg (mul_nonneg hlam (hw0 i)) hr1.le, fun j => ?_, ?_⟩
    · rw [div_mul_cancel₀ _ hr1.ne']
      exact hi j
    · rw [← mul_div_assoc, div_lt_one hr1]
      exact hstep i
  obtain ⟨k, x, coef, hc, hcb, hcg, hcv, hnn, -, -, -, hlast⟩ := lmeFit_converge hM hsr hpr hinit hD hDp hb hg hg0 hw hw0 (κ := κ) (by rw [hreg]; exact ⟨hκ0, hκ⟩)
    hκs hrule hL h
  rw [hconv] at hcv
  have hk : (k : ℤ) < M.maxIter := by simpa using hcv
  obtain ⟨xp, t, hxp, hF, htol, hsq, hlo, htp, hvi⟩ := hlast hk hn
  have hfl := stepFloor_pos hrule
  have hle : M.tol / t ≤ M.tol / stepFloor M.solver L := div_le_div_of_nonneg_left htol hfl hlo
  have hd : ∀ i, |x i - xp i| ≤ M.tol := by
    intro i
    refine abs_le_of_sq_le_sq ?_ htol
    exact (Finset.single_le_sum (f := fun i => (x i - xp i) ^ 2) (fun i _ => sq_nonneg _) (Finset.mem_univ i)).trans hsq
  -- moves of one coordinate
  have hmove : ∀ i s, (∀ j, 0 ≤ xGamma (Function.update x i (x i + s)) j) →
      0 ≤ t * (M.elasticEps / 2 * ((x i + s) ^ 2 - x i ^ 2) + (lam * scadTerm rho sigma (w i) (x i + s) - lam * scadTerm rho sigma (w i) (x i)))
        + (x i - xp i + t * nllGradient D xp i) * s + t * κ / 2 * s ^ 2 := by
    intro i s hu
    have h := hvi _ hu
    rw [epen] at h
    simp only at h
    rw [sum_update_coord (fun _ v => v ^ 2), sum_update_coord (fun k v => lam * scadTerm rho sigma (w k) v),
      sum_update_coord (fun k v => (x k - (xp k - t * nllGradient D xp k)) * (v - x k)), sum_update_coord (fun k v => (v - x k) ^ 2)] at h
    simp only [sub_self, mul_zero, Finset.sum_const_zero, zero_add, sub_zero, ne_eq, OfNat.ofNat_ne_zero, not_false_eq_true, zero_pow, add_sub_cancel_left] at h
    convert h using 1
    ring
  have hup : ∀ i s, 0 ≤ x i + s → ∀ j, 0 ≤ xGamma (Function.update x i (x i + s)) j := by
    intro i s hs j
    unfold xGamma
    by_cases hij : Fin.natAdd P.numFixed j = i
    · rw [hij, Function.update_self]
      exact hs
    · rw [Function.update_of_ne hij]
      exact hnn j
  have hbeta : ∀ (i : Fin P.numFixed) s, ∀ j, 0 ≤ xGamma (Function.update x (Fin.castAdd _ i) (x (Fin.castAdd _ i) + s)) j := by
    intro i s j
    unfold xGamma
    rw [Function.update_of_ne (by
      intro h
      have := congrArg Fin.val h
      simp only [Fin.val_natAdd, Fin.val_castAdd] at this
      omega)]
    exact hnn j
  have hneg : ∀ i, x i < 0 → ∃ i', i = Fin.castAdd _ i' := by
    intro i hi
    refine Fin.addCases (fun i' _ => ⟨i', rfl⟩) (fun j hj => ?_) i hi
    exact absurd (hnn j) (not_le.2 hj)
  have hobj : marginalNLL D (xBeta xp) (xGamma xp) ≤ lmeObjective D M.elasticEps (M.reg.penalty w) (xBeta xp) (xGamma xp) := by
    rw [lmeObjective_join]
    have h1 : 0 ≤ M.elasticEps / 2 * ∑ i, xp i ^ 2 := mul_nonneg (by linarith [hM.eps]) (Finset.sum_nonneg fun _ _ => sq_nonneg _)
    have h2 : 0 ≤ ∑ i, M.reg.penalty w i (xp i) := Finset.sum_nonneg fun i _ => LmeReg.penalty_nonneg hM.reg hw0 i _
    linarith
  have hlw : ∀ i, 0 ≤ lam * w i := fun i => mul_nonneg hlam (hw0 i)
  -- tangents of the penalty
  have htan : ∀ i {u v : ℝ}, 0 ≤ u → 0 ≤ v → lam * scadTerm rho sigma (w i) v - lam * scadTerm rho sigma (w i) u ≤ lam * w i * scadTaper rho sigma u * (v - u) := by
    intro i u v hu hv
    have := mul_le_mul_of_nonneg_left (scadTerm_tangent hrho hsig hu hv) (hlw i)
    rw [scadTerm_weight rho sigma (w i) v, scadTerm_weight rho sigma (w i) u]
    linarith
  have hz0 : ∀ i, lam * scadTerm rho sigma (w i) 0 = 0 := by
    intro i
    rw [scadTerm_weight]
    have h1 : scadTerm rho sigma 1 0 = 0 := by
      unfold scadTerm
      rw [abs_zero]
      rcases hsig.lt_or_eq with hs | rfl
      · rw [if_pos hs]; ring
      · rw [if_neg (lt_irrefl _), if_pos ⟨le_rfl, by rw [mul_zero]⟩]; ring
    rw [h1, mul_zero, mul_zero]
  have hsl0 : scadTaper rho sigma 0 = sigma := if_pos hsig
  refine ⟨x, xp, coef, hc, hcb, hcg, hnn, hxp, ?_, hsq, fun i hi => ?_, fun i hi => ?_, fun i hi => ?_, fun i hi => ?_⟩
  · rw [← epen]
    exact hobj.trans hF
  · have := coord_scad (C := lam * w i) (m := scadTaper rho sigma |x i|) htp (hd i) (.inl ⟨hi, rfl⟩) (fun v => lam * scadTerm rho sigma (w i) v) (fun s hs => by
        rw [abs_of_pos hi] at hs ⊢
        have h0 : 0 ≤ x i + s := by linarith [(abs_le.1 hs).1]
        have := htan i hi.le h0
        rw [add_sub_cancel_left] at this
        simpa using this) fun s hs => hmove i s (hup i s (by
      rw [abs_of_pos hi] at hs
      linarith [(abs_le.1 hs).1]))
    rw [mul_one] at this
    exact this.trans hle
  · obtain ⟨i', rfl⟩ := hneg i hi
    have := coord_scad (C := lam * w (Fin.castAdd _ i')) (m := scadTaper rho sigma |x (Fin.castAdd _ i')|) htp (hd _) (.inr ⟨hi, rfl⟩) (fun v => lam * scadTerm rho sigma (w (Fin.castAdd _ i')) v)
      (fun s hs => by
        have h0 : x (Fin.castAdd _ i') + s ≤ 0 := by
          rw [abs_of_neg hi] at hs
          linarith [(abs_le.1 hs).2]
        have := htan (Fin.castAdd _ i') (abs_nonneg (x (Fin.castAdd _ i'))) (abs_nonneg (x (Fin.castAdd _ i') + s))
        rw [scadTerm_abs', scadTerm_abs', abs_of_nonpos h0, abs_of_neg hi] at this
        rw [abs_of_neg hi]
        refine this.trans (le_of_eq ?_)
        ring) fun s _ => hmove _ s (hbeta i' s)
    rw [mul_neg_one, ← sub_eq_add_neg] at this
    exact this.trans hle
  · have := coord_scad_up (xpi := xp i) (gi := nllGradient D xp i) (eps := M.elasticEps) (C := lam * w i * sigma) (κ := κ) (δ := M.tol) htp (by
        have := hd i
        rwa [hi] at this) (fun v => lam * scadTerm rho sigma (w i) v) (fun s hs => by
        have := htan i le_rfl hs
        rw [hz0, hsl0, sub_zero, sub_zero] at this
        exact this) fun s hs _ => by
      have := hmove i s (hup i s (by rw [hi]; linarith))
      rw [hi, hz0, zero_add] at this
      simpa using this
    linarith
  · have hi' : x (Fin.castAdd _ i) = 0 := hi
    have := coord_scad_up (xpi := -xp (Fin.castAdd _ i)) (gi := -nllGradient D xp (Fin.castAdd _ i)) (eps := M.elasticEps) (C := lam * w (Fin.castAdd _ i) * sigma) (κ := κ) (δ := M.tol) htp (by
        have := hd (Fin.castAdd _ i)
        rw [hi', zero_sub, abs_neg] at this
        rwa [zero_sub, neg_neg]) (fun v => lam * scadTerm rho sigma (w (Fin.castAdd _ i)) v) (fun s hs => by
        have := htan (Fin.castAdd _ i) le_rfl hs
        rw [hz0, hsl0, sub_zero, sub_zero] at this
        exact this) fun s hs _ => by
      have := hmove _ (-s) (hbeta i (-s))
      rw [hi', hz0, zero_add, ← scadTerm_abs', abs_neg, scadTerm_abs', neg_sq] at this
      convert this using 1
      ring
    linarith

/-- The SCAD penalty written with closed pieces. -/
theorem scadTerm_eq {rho sigma : ℝ} (hrho : 1 < rho) (w u : ℝ) : scadTerm rho sigma w u
    = w * (if |u| ≤ sigma then sigma * |u| else if |u| ≤ rho * sigma then (2 * rho * sigma * |u| - u ^ 2 - sigma ^ 2) / (2 * (rho - 1)) else sigma ^ 2 * (rho + 1) / 2) := by
  have hr : rho - 1 ≠ 0 := by linarith
  rw [scadTerm_weight]
  congr 1
  unfold scadTerm
  rcases lt_trichotomy |u| sigma with h | h | h
  · rw [if_pos h, if_pos h.le]; ring
  · rw [if_neg h.not_lt, if_pos h.le]
    have h2 : sigma ≤ rho * sigma := by
      have := abs_nonneg u
      nlinarith
    rw [if_pos ⟨h.ge, by rw [h]; exact h2⟩, ← sq_abs, h]
    field_simp
    ring
  · rw [if_neg h.not_gt, if_neg (not_le.2 h)]
    by_cases h2 : |u| ≤ rho * sigma
    · rw [if_pos ⟨h.le, h2⟩, if_pos h2]; ring
    · rw [if_neg (fun h3 => h2 h3.2), if_neg h2]; ring

/-- **C166** (optimality conditions): let a plain SCAD mixed-effects model without prior be fitted to a table with positive observation variances, with a step as in C124 and `step lam w < rho - 1` for
all weights. Let `m a` be the slope of the SCAD penalty at distance `a` from zero: `sigma` up to `sigma`, then falling linearly, and zero from `rho sigma` on. If the fit logs `converged = True`, then some
coefficients `b', g'` (nonnegative variances, at Euclidean distance at most `tol` from the result) have these derivatives `G` of the negative log-likelihood: for every nonzero coefficient `v` of the result,
`G + eps v` is within `tol / t₀` of `-lam w m(|v|) sign(v)`, so coefficients beyond `rho sigma` are not shrunk at all; for every zero fixed effect `|G| ≤ lam w sigma + tol / t₀`; for every zero variance
`G ≥ -lam w sigma - tol / t₀`. -/
theorem C166_optimality (M : LmeModelCfg) (hM : M.Admissible) (rho sigma lam : ℝ) (hreg : M.reg = .scad rho sigma lam) (hsr : M.sr3 = none) (hpr : M.prior = none) (hinit : M.initializer ≠ some "EM") (st : LmeState)
    (P : LmeProblem ℝ) (a : LmeFitArgs) (D : List (LmeGroup P.numFixed P.numRandom)) (hD : lmeGroups P = .ok D) (hDp : PosVar D) (hn : 0 < P.numFixed + P.numRandom) (b0 : Vec ℝ P.numFixed)
    (g0 : Vec ℝ P.numRandom) (hb : List.ofFn b0 = a.beta.getD (List.replicate P.numFixed 1)) (hg : List.ofFn g0 = a.gamma.getD (List.replicate P.numRandom 1)) (hg0 : ∀ j, 0 ≤ g0 j)
    (wb : Vec ℝ P.numFixed) (wg : Vec ℝ P.numRandom) (hwb : List.ofFn wb = a.feWeights.getD P.feWeights) (hwg : List.ofFn wg = a.reWeights.getD P.reWeights)
    (hwb0 : ∀ i, 0 ≤ wb i) (hwg0 : ∀ j, 0 ≤ wg j)
    (hsb : ∀ i, M.step * (lam * wb i) < rho - 1) (hsg : ∀ j, M.step * (lam * wg j) < rho - 1)
    (s m : ℝ → ℝ) (hs : ∀ u, s u = if |u| ≤ sigma then sigma * |u| else if |u| ≤ rho * sigma then (2 * rho * sigma * |u| - u ^ 2 - sigma ^ 2) / (2 * (rho - 1)) else sigma ^ 2 * (rho + 1) / 2)
    (hm : ∀ a, m a = if a ≤ sigma then sigma else if a ≤ rho * sigma then (rho * sigma - a) / (rho - 1) else 0) (L : ℝ) (hL0 : 0 < L) (hrule : if M.stepping = "line-search" then L ≤ 10 ^ 14 else M.step ≤ 1 / L)
    (hL : (D.map fun g => ∑ i, (∑ k, g.x i k ^ 2) / g.l i).sum
      + 2 * (marginalNLL D b0 g0 + M.elasticEps / 2 * (∑ i, b0 i ^ 2 + ∑ j, g0 j ^ 2) + lam * (∑ i, wb i * s (b0 i) + ∑ j, wg j * s (g0 j)) - 1 / 2 * (D.map fun g => ∑ i, Real.log (g.l i)).sum)
        * (D.map fun g => ∑ j, (∑ i, g.z i j ^ 2 / g.l i) ^ 2).sum ≤ L)
    (t₀ : ℝ) (ht₀ : t₀ = if M.stepping = "line-search" then min M.step (1 / (2 * L)) else M.step)
    (Lf : Logger (PyVal ℝ (P.numFixed + P.numRandom))) (c : LmeState) (h : lmeFitProblem M st P a = (.ok Lf, c)) (hconv : Lf.get "converged" = .ok (.atom (.bool true))) :
    ∃ coef b g b' g', c = some coef ∧ coef.beta = List.ofFn b ∧ coef.gamma = List.ofFn g ∧ (∀ j, 0 ≤ g j) ∧ (∀ j, 0 ≤ g' j) ∧
      ∑ i, (b i - b' i) ^ 2 + ∑ j, (g j - g' j) ^ 2 ≤ M.tol ^ 2 ∧
      (∀ i : Fin P.numFixed, ∃ G : ℝ, HasDerivAt (fun t => marginalNLL D (b' + Pi.single i t) g') G 0 ∧
        (0 < b i → |G + M.elasticEps * b i + lam * wb i * m (b i)| ≤ M.tol / t₀) ∧ (b i < 0 → |G + M.elasticEps * b i - lam * wb i * m (-b i)| ≤ M.tol / t₀) ∧
        (b i = 0 → |G| ≤ lam * wb i * sigma + M.tol / t₀)) ∧
      (∀ j : Fin P.numRandom, ∃ G : ℝ, HasDerivAt (fun t => marginalNLL D b' (g' + Pi.single j t)) G 0 ∧
        (0 < g j → |G + M.elasticEps * g j + lam * wg j * m (g j)| ≤ M.tol / t₀) ∧ (g j = 0 → -(lam * wg j * sigma) - M.tol / t₀ ≤ G)) := by
  have hrho : 1 < rho := by
    have := hM.reg
    rw [hreg] at this
    exact this.1
  have es : ∀ w u, scadTerm rho sigma w u = w * s u := fun w u => by rw [scadTerm_eq hrho, hs]
  obtain rfl : m = scadTaper rho sigma := funext fun a => hm a
  have eobj : lmeObjective D M.elasticEps (fun i v => lam * scadTerm rho sigma (joinX wb wg i) v) b0 g0
      = marginalNLL D b0 g0 + M.elasticEps / 2 * (∑ i, b0 i ^ 2 + ∑ j, g0 j ^ 2) + lam * (∑ i, wb i * s (b0 i) + ∑ j, wg j * s (g0 j)) := by
    unfold lmeObjective
    rw [← Finset.mul_sum, Fin.sum_univ_add]
    simp only [joinX, Fin.append_left, Fin.append_right, es]
  obtain ⟨x, xp, coef, hc, hcb, hcg, hnn, hxp, -, hsq, h1, h2, h3, h4⟩ := lmeFit_kkt_scad hM hreg hsr hpr hinit hD hDp hn hb hg hg0 (w := joinX wb wg) (by
      unfold joinX
      rw [List.ofFn_fin_append, hwb, hwg]) (by
      intro i
      refine Fin.addCases (fun i => ?_) (fun j => ?_) i
      · simpa only [joinX, Fin.append_left] using hwb0 i
      · simpa only [joinX, Fin.append_right] using hwg0 j) (by
      intro i
      refine Fin.addCases (fun i => ?_) (fun j => ?_) i
      · simpa only [joinX, Fin.append_left] using hsb i
      · simpa only [joinX, Fin.append_right] using hsg j) (L := L) ⟨hM.step_pos, hL0, hrule⟩ (by rw [eobj]; exact hL) h hconv
  have hst : stepFloor M.solver L = t₀ := ht₀.symm
  rw [hst] at h1 h2 h3 h4
  have eb : ∀ i, nllGradient D xp (Fin.castAdd _ i) = (D.map fun g => -(g.xᵀ *ᵥ ((margCov g (xGamma xp))⁻¹ *ᵥ residual g (xBeta xp)))).sum i := fun i => Fin.append_left _ _ _
  have eg : ∀ j, nllGradient D xp (Fin.natAdd _ j) = (D.map fun g => nllGradGamma g (xBeta xp) (xGamma xp)).sum j := fun j => Fin.append_right _ _ _
  have wbe : ∀ i, joinX wb wg (Fin.castAdd _ i) = wb i := fun i => Fin.append_left _ _ _
  have wge : ∀ j, joinX wb wg (Fin.natAdd _ j) = wg j := fun j => Fin.append_right _ _ _
  refine ⟨coef, xBeta x, xGamma x, xBeta xp, xGamma xp, hc, hcb, hcg, hnn, hxp, ?_, fun i => ⟨_, (marginalNLL_expansion D (xGamma xp)).hasDerivAt (xBeta xp) i, ?_, ?_, ?_⟩,
    fun j => ⟨_, marginalNLL_deriv (inDomain_of_nonneg hDp hxp) (xBeta xp) j, ?_, ?_⟩⟩
  · rw [Fin.sum_univ_add] at hsq
    exact hsq
  · intro hi
    have := h1 (Fin.castAdd _ i) hi
    rw [abs_of_pos (show 0 < x (Fin.castAdd _ i) from hi), eb, wbe] at this
    exact this
  · intro hi
    have := h2 (Fin.castAdd _ i) hi
    rw [abs_of_neg (show x (Fin.castAdd _ i) < 0 from hi), eb, wbe] at this
    exact this
  · intro hi
    have h5 := h3 (Fin.castAdd _ i) hi
    have h6 := h4 i hi
    rw [eb, wbe] at h5 h6
    exact abs_le.2 ⟨by linarith, h6⟩
  · intro hj
    have := h1 (Fin.natAdd _ j) hj
    rw [abs_of_pos (show 0 < x (Fin.natAdd _ j) from hj), eg, wge, list_sum_apply] at this
    exact this
  · intro hj
    have := h3 (Fin.natAdd _ j) hj
    rw [eg, wge, list_sum_apply] at this
    exact this

/-- **C166** (no small effects): let `F₀` be the objective at the start and `N = 1/2 Σ log l`. In the result of a converged fit as above, a fixed effect whose penalty is strong,
`lam w sigma > B = √(2 (F₀ - N) Σ x²/l) + tol / t₀`, is exactly zero or at least `rho sigma - (rho - 1) B / (lam w)` in size (more than `sigma`, and the closer to `rho sigma`, where it is not shrunk, the
stronger the penalty); the same for variances with `B = (F₀ - N) Σ z²/l + tol / t₀`. -/
theorem C166_gap (M : LmeModelCfg) (hM : M.Admissible) (rho sigma lam : ℝ) (hreg : M.reg = .scad rho sigma lam) (hsr : M.sr3 = none) (hpr : M.prior = none) (hinit : M.initializer ≠ some "EM") (st : LmeState)
    (P : LmeProblem ℝ) (a : LmeFitArgs) (D : List (LmeGroup P.numFixed P.numRandom)) (hD : lmeGroups P = .ok D) (hDp : PosVar D) (b0 : Vec ℝ P.numFixed)
    (g0 : Vec ℝ P.numRandom) (hb : List.ofFn b0 = a.beta.getD (List.replicate P.numFixed 1)) (hg : List.ofFn g0 = a.gamma.getD (List.replicate P.numRandom 1)) (hg0 : ∀ j, 0 ≤ g0 j)
    (wb : Vec ℝ P.numFixed) (wg : Vec ℝ P.numRandom) (hwb : List.ofFn wb = a.feWeights.getD P.feWeights) (hwg : List.ofFn wg = a.reWeights.getD P.reWeights)
    (hwb0 : ∀ i, 0 ≤ wb i) (hwg0 : ∀ j, 0 ≤ wg j)
    (hsb : ∀ i, M.step * (lam * wb i) < rho - 1) (hsg : ∀ j, M.step * (lam * wg j) < rho - 1)
    (s : ℝ → ℝ) (hs : ∀ u, s u = if |u| ≤ sigma then sigma * |u| else if |u| ≤ rho * sigma then (2 * rho * sigma * |u| - u ^ 2 - sigma ^ 2) / (2 * (rho - 1)) else sigma ^ 2 * (rho + 1) / 2) (E : ℝ)
    (hE : E = marginalNLL D b0 g0 + M.elasticEps / 2 * (∑ i, b0 i ^ 2 + ∑ j, g0 j ^ 2) + lam * (∑ i, wb i * s (b0 i) + ∑ j, wg j * s (g0 j)) - 1 / 2 * (D.map fun g => ∑ i, Real.log (g.l i)).sum)
    (L : ℝ) (hL0 : 0 < L) (hrule : if M.stepping = "line-search" then L ≤ 10 ^ 14 else M.step ≤ 1 / L)
    (hL : (D.map fun g => ∑ i, (∑ k, g.x i k ^ 2) / g.l i).sum + 2 * E * (D.map fun g => ∑ j, (∑ i, g.z i j ^ 2 / g.l i) ^ 2).sum ≤ L)
    (t₀ : ℝ) (ht₀ : t₀ = if M.stepping = "line-search" then min M.step (1 / (2 * L)) else M.step)
    (Lf : Logger (PyVal ℝ (P.numFixed + P.numRandom))) (c : LmeState) (h : lmeFitProblem M st P a = (.ok Lf, c)) (hconv : Lf.get "converged" = .ok (.atom (.bool true))) :
    ∃ coef b g, c = some coef ∧ coef.beta = List.ofFn b ∧ coef.gamma = List.ofFn g ∧
      (∀ (i : Fin P.numFixed) (B : ℝ), B = √(2 * E * (D.map fun g => ∑ r, g.x r i ^ 2 / g.l r).sum) + M.tol / t₀ → B < lam * wb i * sigma →
        b i = 0 ∨ rho * sigma - (rho - 1) * (B / (lam * wb i)) ≤ |b i|) ∧
      (∀ (j : Fin P.numRandom) (B : ℝ), B = E * (D.map fun g => ∑ r, g.z r j ^ 2 / g.l r).sum + M.tol / t₀ → B < lam * wg j * sigma →
        g j = 0 ∨ rho * sigma - (rho - 1) * (B / (lam * wg j)) ≤ g j) := by
  obtain ⟨hrho, hsig, hlam⟩ : 1 < rho ∧ 0 ≤ sigma ∧ 0 ≤ lam := by
    have := hM.reg
    rw [hreg] at this
    exact this
  have es : ∀ w u, scadTerm rho sigma w u = w * s u := fun w u => by rw [scadTerm_eq hrho, hs]
  have eobj : lmeObjective D M.elasticEps (fun i v => lam * scadTerm rho sigma (joinX wb wg i) v) b0 g0 - noiseFloor D = E := by
    unfold lmeObjective
    rw [← Finset.mul_sum, Fin.sum_univ_add, hE]
    simp only [joinX, Fin.append_left, Fin.append_right, es]
    rfl
  rcases Nat.eq_zero_or_pos (P.numFixed + P.numRandom) with hz | hn
  · have hF : P.numFixed = 0 := by omega
    have hR : P.numRandom = 0 := by omega
    unfold lmeFitProblem at h
    split at h
    · cases h
    rename_i r hr
    obtain ⟨coef, x, L0⟩ := r
    simp only [Prod.mk.injEq] at h
    obtain ⟨m, Pr', w', base, D', b0', g0', us, per, -, -, -, -, -, -, -, -, -, -, hcoef⟩ := lmeFitCore_ok hr
    exact ⟨coef, xBeta x, xGamma x, h.2.symm, by rw [hcoef], by rw [hcoef], fun i => absurd i.2 (by omega), fun j => absurd j.2 (by omega)⟩
  obtain ⟨x, xp, coef, hc, hcb, hcg, hnn, hxp, hF, hsq, h1, h2, -, -⟩ := lmeFit_kkt_scad hM hreg hsr hpr hinit hD hDp hn hb hg hg0 (w := joinX wb wg) (by
      unfold joinX
      rw [List.ofFn_fin_append, hwb, hwg]) (by
      intro i
      refine Fin.addCases (fun i => ?_) (fun j => ?_) i
      · simpa only [joinX, Fin.append_left] using hwb0 i
      · simpa only [joinX, Fin.append_right] using hwg0 j) (by
      intro i
      refine Fin.addCases (fun i => ?_) (fun j => ?_) i
      · simpa only [joinX, Fin.append_left] using hsb i
      · simpa only [joinX, Fin.append_right] using hsg j) (L := L) ⟨hM.step_pos, hL0, hrule⟩ (by rw [eobj]; exact hL) h hconv
  have hst : stepFloor M.solver L = t₀ := ht₀.symm
  rw [hst] at h1 h2
  have eb : ∀ i, nllGradient D xp (Fin.castAdd _ i) = (D.map fun g => -(g.xᵀ *ᵥ ((margCov g (xGamma xp))⁻¹ *ᵥ residual g (xBeta xp)))).sum i := fun i => Fin.append_left _ _ _
  have eg : ∀ j, nllGradient D xp (Fin.natAdd _ j) = (D.map fun g => nllGradGamma g (xBeta xp) (xGamma xp)).sum j := fun j => Fin.append_right _ _ _
  have wbe : ∀ i, joinX wb wg (Fin.castAdd _ i) = wb i := fun i => Fin.append_left _ _ _
  have wge : ∀ j, joinX wb wg (Fin.natAdd _ j) = wg j := fun j => Fin.append_right _ _ _
  have hfar : ∀ {v B a : ℝ}, 0 < v * sigma → v * scadTaper rho sigma a ≤ B → B < v * sigma → 0 ≤ v → rho * sigma - (rho - 1) * (B / v) ≤ a := by
    intro v B a h0 h1 h2 hv
    have hv' : 0 < v := lt_of_le_of_ne hv fun h => by rw [← h, zero_mul] at h0; exact lt_irrefl _ h0
    exact scadTaper_far hrho (by rw [le_div_iff₀ hv']; linarith) (by rw [div_lt_iff₀ hv']; linarith)
  have htp : ∀ v a : ℝ, 0 ≤ v → 0 ≤ v * scadTaper rho sigma a := fun v a hv => mul_nonneg hv (scadTaper_nonneg hrho hsig a)
  refine ⟨coef, xBeta x, xGamma x, hc, hcb, hcg, fun i B hB hi => ?_, fun j B hB hj => ?_⟩
  · have hG := nll_beta_bound hDp hxp (xBeta xp) i hF
    rw [eobj, ← eb] at hG
    have hG' := abs_le.1 hG
    have hlw := mul_nonneg hlam (hwb0 i)
    have hx : x (Fin.castAdd _ i) = xBeta x i := rfl
    rcases lt_trichotomy (xBeta x i) 0 with hlt | h0 | hgt
    · right
      have h3 := abs_le.1 (h2 (Fin.castAdd _ i) hlt)
      rw [wbe, hx] at h3
      have h5 : M.elasticEps * xBeta x i ≤ 0 := mul_nonpos_of_nonneg_of_nonpos hM.eps hlt.le
      have h6 := htp (lam * wb i) |xBeta x i| hlw
      have h7 : lam * wb i * scadTaper rho sigma |xBeta x i| ≤ B := by linarith
      exact hfar (by linarith) h7 hi hlw
    · exact .inl h0
    · right
      have h3 := abs_le.1 (h1 (Fin.castAdd _ i) hgt)
      rw [wbe, hx] at h3
      have h5 : 0 ≤ M.elasticEps * xBeta x i := mul_nonneg hM.eps hgt.le
      have h6 := htp (lam * wb i) |xBeta x i| hlw
      have h7 : lam * wb i * scadTaper rho sigma |xBeta x i| ≤ B := by linarith
      exact hfar (by linarith) h7 hi hlw
  · have hG := nll_gamma_bound hDp hxp (xBeta xp) j hF
    rw [eobj, ← eg] at hG
    have hlw := mul_nonneg hlam (hwg0 j)
    have hx : x (Fin.natAdd _ j) = xGamma x j := rfl
    rcases (hnn j).lt_or_eq with hgt | h0
    · right
      have h3 := abs_le.1 (h1 (Fin.natAdd _ j) hgt)
      rw [wge, hx, abs_of_pos hgt] at h3
      have h5 : 0 ≤ M.elasticEps * xGamma x j := mul_nonneg hM.eps hgt.le
      have h6 := htp (lam * wg j) (xGamma x j) hlw
      have h7 : lam * wg j * scadTaper rho sigma (xGamma x j) ≤ B := by linarith
      exact hfar (by linarith) h7 hj hlw
    · exact .inl h0.symm

/-- A SCAD model of any strength with fixed steps. -/
noncomputable def scadModel (rho lam step : ℝ) (maxIter : ℤ) : LmeModelCfg :=
  { exModel none maxIter (.scad rho 1 lam) with stepping := "fixed", fixedStepLen := some step }

theorem scadModel_step {step : ℝ} (rho lam : ℝ) (h : step ≠ 0) (maxIter : ℤ) : (scadModel rho lam step maxIter).step = step := if_neg h

theorem scadModel_robust {rho lam step : ℝ} (hr : 1 < rho) (hl : 0 ≤ lam) (h : 0 < step) (hs : step * lam < rho - 1) (maxIter : ℤ) : (scadModel rho lam step maxIter).Robust where
  adm := ⟨⟨hr, zero_le_one, hl⟩, by norm_num [scadModel, exModel], (fun s hs => by cases hs; exact h.le), fun s h => by cases h⟩
  init := by simp [scadModel, exModel]
  kind := rfl
  keys := by change ["converged", "loss", "jones_bic", "muller_ic"].Nodup; decide
  vaida := by change _ ∉ ["converged", "loss", "jones_bic", "muller_ic"]; decide
  flip := fun h => absurd h (by change _ ∉ ["converged", "loss", "jones_bic", "muller_ic"]; decide)
  sr3 := fun s h => by cases h
  scad := by
    intro t ht
    have ht : t = step := by
      have h1 : t = (scadModel rho lam step maxIter).step := by
        simpa [LmeModelCfg.UsedStep, scadModel, exModel] using ht
      rw [h1, scadModel_step rho lam h.ne']
    change t / (1 + t * 1e-4) * lam ≠ rho - 1
    rw [ht]
    refine ne_of_lt (lt_of_le_of_lt (mul_le_mul_of_nonneg_right ?_ hl) hs)
    exact div_le_self h.le (by nlinarith)

/-- Non-vacuity of both parts of C166: the example table is fitted from a zero start with a strong SCAD penalty; the fit converges, and every fixed effect and every variance of the result is exactly zero
or larger than one (the threshold `sigma`). -/
example : ∃ (P : LmeProblem ℝ) (D : List (LmeGroup P.numFixed P.numRandom)) (rho lam step : ℝ) (maxIter : ℤ) (a : LmeFitArgs) (Lf : Logger (PyVal ℝ (P.numFixed + P.numRandom))) (c : LmeCoef)
    (b b' : Vec ℝ P.numFixed) (g g' : Vec ℝ P.numRandom), lmeFromXY exTab (some ![26, 20]) none exTabLabels true true none none = .ok P ∧ lmeGroups P = .ok D ∧
    lmeFitProblem (scadModel rho lam step maxIter) none P a = (.ok Lf, some c) ∧ Lf.get "converged" = .ok (.atom (.bool true)) ∧
    P.numFixed = 2 ∧ P.numRandom = 2 ∧ c.beta = List.ofFn b ∧ c.gamma = List.ofFn g ∧ (∀ i, b i = 0 ∨ 1 < |b i|) ∧ (∀ j, g j = 0 ∨ 1 < g j) ∧
    ∀ i : Fin P.numFixed, ∃ G : ℝ, HasDerivAt (fun t => marginalNLL D (b' + Pi.single i t) g') G 0 ∧ (b i = 0 → |G| ≤ lam * 1 * 1 + 1e-5 / step) := by
  obtain ⟨P, hP⟩ := exTab_ok' true true ![26, 20]
  obtain ⟨_, _, feW, reW, -, -, hlen, -, -, -, -, -, hf, hr', hPe⟩ := lmeFromXY_ok exTab (some ![26, 20]) none exTabLabels
    true true none none P hP
  have e1 : P.feWeights = [1, 1] := by rw [hPe]; cases hf; rfl
  have e2 : P.reWeights = [1, 1] := by rw [hPe]; cases hr'; rfl
  have hF : P.numFixed = 2 := (numFixed_eq P true true (by rw [hPe])).trans (by rw [show P.columnLabels = exTabLabels by rw [hPe]]; decide)
  have hR : P.numRandom = 2 := (numRandom_eq P true true (by rw [hPe])).trans (by rw [show P.columnLabels = exTabLabels by rw [hPe]]; decide)
  obtain ⟨gr, v, -, hv, -, hD⟩ := lmeGroups_table hP
  obtain ⟨D, hDe⟩ : ∃ D, D = (uniqueLabels fun r => exTab r gr).map (tableGroup exTab ![26, 20] exTabLabels true true gr v P.numFixed P.numRandom) := ⟨_, rfl⟩
  rw [← hDe] at hD
  have hDp : PosVar D := by
    have hvl : v = 3 := by
      have h3 : labelIdx (p := 4) exTabLabels (· = VARIANCE) = [3] := by decide
      rw [h3] at hv
      exact (List.singleton_injective hv).symm
    intro g hg i
    rw [hDe] at hg
    obtain ⟨l, -, rfl⟩ := List.mem_map.1 hg
    exact exTab_positive v (by rw [hvl]; rfl) _
  obtain ⟨E, hE⟩ : ∃ E, E = marginalNLL D 0 0 - 1 / 2 * (D.map fun g => ∑ i, Real.log (g.l i)).sum := ⟨_, rfl⟩
  obtain ⟨L, hL⟩ : ∃ L, L = max 1 ((D.map fun g => ∑ i, (∑ k, g.x i k ^ 2) / g.l i).sum + 2 * E * (D.map fun g => ∑ j, (∑ i, g.z i j ^ 2 / g.l i) ^ 2).sum) := ⟨_, rfl⟩
  have hL0 : 0 < L := by rw [hL]; exact lt_of_lt_of_le one_pos (le_max_left _ _)
  have hs0 : 0 < 1 / L := one_div_pos.2 hL0
  -- a penalty above all the thresholds
  obtain ⟨lam, hlam⟩ : ∃ lam : ℝ, lam = 1 + ∑ i, |√(2 * E * (D.map fun g => ∑ r, g.x r i ^ 2 / g.l r).sum) + 1e-5 / (1 / L)| + ∑ j, |E * (D.map fun g => ∑ r, g.z r j ^ 2 / g.l r).sum + 1e-5 / (1 / L)| := ⟨_, rfl⟩
  have hS1 : 0 ≤ ∑ i, |√(2 * E * (D.map fun g => ∑ r, g.x r i ^ 2 / g.l r).sum) + 1e-5 / (1 / L)| := Finset.sum_nonneg fun _ _ => abs_nonneg _
  have hS2 : 0 ≤ ∑ j, |E * (D.map fun g => ∑ r, g.z r j ^ 2 / g.l r).sum + 1e-5 / (1 / L)| := Finset.sum_nonneg fun _ _ => abs_nonneg _
  have hlam0 : 0 ≤ lam := by rw [hlam]; linarith
  have hbig1 : ∀ i, √(2 * E * (D.map fun g => ∑ r, g.x r i ^ 2 / g.l r).sum) + 1e-5 / (1 / L) < lam * 1 := by
    intro i
    have h1 := Finset.single_le_sum (f := fun i => |√(2 * E * (D.map fun g => ∑ r, g.x r i ^ 2 / g.l r).sum) + 1e-5 / (1 / L)|) (fun i _ => abs_nonneg _) (Finset.mem_univ i)
    have h2 := le_abs_self (√(2 * E * (D.map fun g => ∑ r, g.x r i ^ 2 / g.l r).sum) + 1e-5 / (1 / L))
    rw [hlam]
    linarith
  have hbig2 : ∀ j, E * (D.map fun g => ∑ r, g.z r j ^ 2 / g.l r).sum + 1e-5 / (1 / L) < lam * 1 := by
    intro j
    have h1 := Finset.single_le_sum (f := fun j => |E * (D.map fun g => ∑ r, g.z r j ^ 2 / g.l r).sum + 1e-5 / (1 / L)|) (fun i _ => abs_nonneg _) (Finset.mem_univ j)
    have h2 := le_abs_self (E * (D.map fun g => ∑ r, g.z r j ^ 2 / g.l r).sum + 1e-5 / (1 / L))
    rw [hlam]
    linarith
  obtain ⟨rho, hrho⟩ : ∃ rho, rho = 1 / L * lam + 2 := ⟨_, rfl⟩
  have hsl : 0 ≤ 1 / L * lam := mul_nonneg hs0.le hlam0
  have hr1 : 0 < rho - 1 := by rw [hrho]; linarith
  have hκ1 : 1 / L * (lam / (rho - 1)) < 1 := by
    rw [← mul_div_assoc, div_lt_one hr1, hrho]
    linarith
  obtain ⟨m, hm⟩ := exists_nat_gt (1 + 2 * (1 / L) * E / ((1e-5 : ℝ) ^ 2 * (1 - 1 / L * (lam / (rho - 1)))))
  have hstep := scadModel_step rho lam hs0.ne' (m : ℤ)
  have hrob := scadModel_robust (rho := rho) (by linarith) hlam0 hs0 (by rw [hrho]; linarith) (m : ℤ)
  have hone : ∀ n : ℕ, List.ofFn (fun _ : Fin n => (1 : ℝ)) = List.replicate n 1 := fun n => List.ofFn_const n 1
  have hwb : List.ofFn (fun _ : Fin P.numFixed => (1 : ℝ)) = P.feWeights := by rw [e1, hF, hone]; rfl
  have hwg : List.ofFn (fun _ : Fin P.numRandom => (1 : ℝ)) = P.reWeights := by rw [e2, hR, hone]; rfl
  have hw : List.ofFn (fun _ : Fin (P.numFixed + P.numRandom) => (1 : ℝ)) = P.feWeights ++ P.reWeights := by
    rw [e1, e2, hF, hR, hone]
    rfl
  let a : LmeFitArgs := { beta := some (List.ofFn (0 : Vec ℝ P.numFixed)), gamma := some (List.ofFn (0 : Vec ℝ P.numRandom)) }
  have eF : lmeObjective D 1e-4 ((LmeReg.scad rho 1 lam).penalty fun _ => 1) 0 0 - 1 / 2 * (D.map fun g => ∑ i, Real.log (g.l i)).sum = E := by
    unfold lmeObjective
    have e0 : ∀ i, joinX (0 : Vec ℝ P.numFixed) (0 : Vec ℝ P.numRandom) i = 0 := by
      intro i
      refine Fin.addCases (fun i => ?_) (fun j => ?_) i
      · simp only [joinX, Fin.append_left, Pi.zero_apply]
      · simp only [joinX, Fin.append_right, Pi.zero_apply]
    simp [LmeReg.penalty, scadTerm, e0, hE]
  have hLe : (D.map fun g => ∑ i, (∑ k, g.x i k ^ 2) / g.l i).sum + 2 * E * (D.map fun g => ∑ j, (∑ i, g.z i j ^ 2 / g.l i) ^ 2).sum ≤ L := by
    rw [hL]
    exact le_max_right _ _
  have hrule : if (scadModel rho lam (1 / L) m).stepping = "line-search" then L ≤ 10 ^ 14 else (scadModel rho lam (1 / L) m).step ≤ 1 / L := by
    rw [if_neg (by simp [scadModel])]
    exact hstep.le
  obtain ⟨Lf, c, b, g, hfit, hconv, hb, hg, -⟩ := C124_stops (scadModel rho lam (1 / L) m) hrob rfl rfl (by norm_num [scadModel, exModel]) none exTab ![26, 20] none exTabLabels true true none none P hP
    exTab_positive a (by rintro w rfl; simp only [a, Option.getD_none, e1]; exact ⟨rfl, by simp⟩) (by rintro w rfl; simp only [a, Option.getD_none, e2]; exact ⟨rfl, by simp⟩)
    D hD 0 0 rfl rfl (fun _ => le_rfl) (fun _ => 1) hw (lam / (rho - 1)) ⟨div_nonneg hlam0 hr1.le, fun i => by rw [div_mul_cancel₀ _ hr1.ne', mul_one]⟩ (by rw [hstep]; exact hκ1) L hL0 hrule (by
      change _ + 2 * (lmeObjective D 1e-4 ((LmeReg.scad rho 1 lam).penalty fun _ => 1) 0 0 - _) * _ ≤ L
      rw [eF]
      exact hLe) (by
      rw [hstep]
      change 1 + 2 * (1 / L) * (lmeObjective D 1e-4 ((LmeReg.scad rho 1 lam).penalty fun _ => 1) 0 0 - _) / _ < ((m : ℤ) : ℝ)
      rw [eF, Int.cast_natCast]
      exact hm)
  obtain ⟨s, hs⟩ : ∃ s : ℝ → ℝ, ∀ u, s u = if |u| ≤ 1 then 1 * |u| else if |u| ≤ rho * 1 then (2 * rho * 1 * |u| - u ^ 2 - 1 ^ 2) / (2 * (rho - 1)) else 1 ^ 2 * (rho + 1) / 2 := ⟨_, fun _ => rfl⟩
  obtain ⟨sl, hsl'⟩ : ∃ sl : ℝ → ℝ, ∀ a, sl a = if a ≤ 1 then 1 else if a ≤ rho * 1 then (rho * 1 - a) / (rho - 1) else 0 := ⟨_, fun _ => rfl⟩
  have hs00 : s 0 = 0 := by rw [hs]; simp
  have hEs : E = marginalNLL D 0 0 + (scadModel rho lam (1 / L) m).elasticEps / 2 * (∑ i : Fin P.numFixed, (0 : Vec ℝ P.numFixed) i ^ 2 + ∑ j : Fin P.numRandom, (0 : Vec ℝ P.numRandom) j ^ 2)
      + lam * (∑ i : Fin P.numFixed, 1 * s ((0 : Vec ℝ P.numFixed) i) + ∑ j : Fin P.numRandom, 1 * s ((0 : Vec ℝ P.numRandom) j)) - 1 / 2 * (D.map fun g => ∑ i, Real.log (g.l i)).sum := by
    simp [hE, hs00]
  have hsw : (scadModel rho lam (1 / L) m).step * (lam * 1) < rho - 1 := by
    rw [hstep, hrho]
    linarith
  have ht : 1 / L = if (scadModel rho lam (1 / L) m).stepping = "line-search" then min (scadModel rho lam (1 / L) m).step (1 / (2 * L)) else (scadModel rho lam (1 / L) m).step := by
    rw [if_neg (by simp [scadModel])]
    exact hstep.symm
  obtain ⟨coef, bd, gd, hc, hbd, hgd, hz1, hz2⟩ := C166_gap (scadModel rho lam (1 / L) m) hrob.adm rho 1 lam rfl rfl rfl (by simp [scadModel, exModel]) none P a D hD hDp 0 0 rfl rfl (fun _ => le_rfl)
    (fun _ => 1) (fun _ => 1) hwb hwg (fun _ => zero_le_one) (fun _ => zero_le_one) (fun _ => hsw) (fun _ => hsw) s hs E hEs L hL0 hrule hLe (1 / L) ht Lf (some c) hfit hconv
  obtain ⟨coef', b1, g1, b', g', hc', hb1, hg1, -, -, -, hopt, -⟩ := C166_optimality (scadModel rho lam (1 / L) m) hrob.adm rho 1 lam rfl rfl rfl (by simp [scadModel, exModel]) none P a D hD hDp (by omega) 0 0
    rfl rfl (fun _ => le_rfl) (fun _ => 1) (fun _ => 1) hwb hwg (fun _ => zero_le_one) (fun _ => zero_le_one) (fun _ => hsw) (fun _ => hsw) s sl hs hsl' L hL0 hrule (by rw [← hEs]; exact hLe) (1 / L) ht Lf (some c) hfit hconv
  cases hc
  cases hc'
  obtain rfl : bd = b1 := List.ofFn_injective (hbd.symm.trans hb1)
  have hlp : 0 < lam := by rw [hlam]; linarith
  -- the thresholds exceed `sigma = 1`
  have hgt : ∀ {B v : ℝ}, B < lam * 1 → rho * 1 - (rho - 1) * (B / (lam * 1)) ≤ v → 1 < v := by
    intro B v h1 h2
    have h3 : B / (lam * 1) < 1 := by rw [div_lt_one (by linarith)]; exact h1
    nlinarith
  refine ⟨P, D, rho, lam, 1 / L, m, a, Lf, c, bd, b', gd, g', hP, hD, hfit, hconv, hF, hR, hbd, hgd, fun i => ?_, fun j => ?_, fun i => ?_⟩
  · exact (hz1 i _ rfl (by rw [mul_one lam, mul_one]; have := hbig1 i; rw [mul_one] at this; exact this)).imp_right (hgt (hbig1 i))
  · exact (hz2 j _ rfl (by rw [mul_one lam, mul_one]; have := hbig2 j; rw [mul_one] at this; exact this)).imp_right (hgt (hbig2 j))
  · obtain ⟨G, hG, -, -, h0⟩ := hopt i
    exact ⟨G, hG, h0⟩

end Verif
