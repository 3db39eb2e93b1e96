import Verif.Spec.Prox
import Verif.Spec.RegTree
import Verif.Lemmas.Vector
import Verif.Lemmas.Scalar
import Verif.Props.Regularizers
import Mathlib.Tactic.FieldSimp

/-!
# Properties of the composite regularizers: C08, C09, C10, C14, C15
-/

namespace Verif

variable {K : Type*} [Field K] [LinearOrder K] [IsStrictOrderedRing K] {n : ℕ}

theorem IsUniqueProxOf.isProxOf {g : Vec K n → WithTop K} {alpha : K} {x z : Vec K n} (h : IsUniqueProxOf g alpha x z) :
    IsProxOf g alpha x z := by
  obtain ⟨gz, hgz, hmin⟩ := h
  refine ⟨gz, hgz, fun u gu hu => ?_⟩
  by_cases he : u = z
  · subst he
    rw [hgz] at hu
    rw [WithTop.coe_inj.1 hu]
  · exact (hmin u gu he hu).le

theorem Regularizer.UniquelyExactAt.exactAt {R : Regularizer K n} {alpha : K} {x : Vec K n} (h : R.UniquelyExactAt alpha x) :
    R.ExactAt alpha x := by
  obtain ⟨g, hg, z, hz, hp⟩ := h
  exact ⟨g, hg, z, hz, hp.isProxOf⟩

/-! ## C08: elastic wrapper -/

omit [LinearOrder K] [IsStrictOrderedRing K] in
theorem normSq_sub_expand (u x : Vec K n) : normSq (u - x) = normSq u - 2 * (∑ i, u i * x i) + normSq x := by
  simp only [normSq, Pi.sub_apply, sub_sq, Finset.sum_add_distrib, Finset.sum_sub_distrib, Finset.mul_sum, mul_assoc]

omit [LinearOrder K] [IsStrictOrderedRing K] in
theorem elastic_identity (alpha eps r : K) (x u : Vec K n) (hc : 1 + alpha * eps ≠ 0) :
    alpha * (eps / 2 * normSq u + r) + normSq (u - x) / 2 =
      (1 + alpha * eps) * (alpha / (1 + alpha * eps) * r + normSq (u - fun i => x i / (1 + alpha * eps)) / 2) +
        (normSq x / 2 - normSq x / (2 * (1 + alpha * eps))) := by
  have e1 : normSq (fun i => x i / (1 + alpha * eps)) = normSq x / (1 + alpha * eps) ^ 2 := by
    simp only [normSq, div_pow, Finset.sum_div]
  have e2 : ∑ i, u i * (x i / (1 + alpha * eps)) = (∑ i, u i * x i) / (1 + alpha * eps) := by
    rw [Finset.sum_div]; exact Finset.sum_congr rfl fun i _ => by rw [mul_div_assoc]
  rw [normSq_sub_expand, normSq_sub_expand, e1, e2]
  field_simp
  ring

/-- **C08.** If the wrapped regularizer's prox exactly minimises its own penalty (at every point and positive step), so does the prox of the
elastic wrapper for `eps/2 ||.||^2 + penalty`. -/
theorem C08_elastic_exact (R : Regularizer K n) (eps alpha : K) (heps : 0 ≤ eps) (ha : 0 < alpha)
    (hR : ∀ (a : K) (x : Vec K n), 0 < a → R.ExactAt a x) (x : Vec K n) :
    (elastic eps (some R)).ExactAt alpha x ∧
      ∀ u v, R.value u = .ok v → (elastic eps (some R)).value u = .ok (((eps / 2 * normSq u : K) : WithTop K) + v) := by
  have hval : ∀ u v, R.value u = .ok v →
      (elastic eps (some R)).value u = .ok (((eps / 2 * normSq u : K) : WithTop K) + v) := by
    intro u v h; simp [elastic, h, bind, Except.bind, pure, Except.pure]
  refine ⟨?_, hval⟩
  have hc : 0 < 1 + alpha * eps := by positivity
  obtain ⟨g, hg, z, hz, gz, hgz, hmin⟩ := hR (alpha / (1 + alpha * eps)) (fun i => x i / (1 + alpha * eps)) (by positivity)
  refine ⟨fun u => ((eps / 2 * normSq u : K) : WithTop K) + g u, fun u => hval u _ (hg u), z, hz,
    eps / 2 * normSq z + gz, by simp [hgz], fun u gu hu => ?_⟩
  obtain ⟨r, hr⟩ : ∃ r : K, g u = r := by
    cases h : g u with
    | top => simp [h] at hu
    | coe r => exact ⟨r, rfl⟩
  have hgu : eps / 2 * normSq u + r = gu := by
    simp only [hr] at hu; exact_mod_cast hu
  rw [← hgu, elastic_identity _ _ _ _ _ hc.ne', elastic_identity _ _ _ _ _ hc.ne']
  have := mul_le_mul_of_nonneg_left (hmin u r hr) hc.le
  linarith

/-- **C08**, nothing wrapped: the prox minimises the ridge objective. -/
theorem C08_ridge_exact (eps alpha : K) (heps : 0 ≤ eps) (ha : 0 < alpha) (x : Vec K n) :
    (elastic eps none).ExactAt alpha x := by
  have hc : 0 < 1 + alpha * eps := by positivity
  refine ⟨fun u => ((eps / 2 * normSq u : K) : WithTop K), fun u => rfl, _, rfl, _, rfl, fun u gu hu => ?_⟩
  rw [← WithTop.coe_inj.1 hu]
  have h1 := elastic_identity alpha eps 0 x u hc.ne'
  have h2 := elastic_identity alpha eps 0 x (fun i => x i / (1 + alpha * eps)) hc.ne'
  simp only [add_zero, mul_zero, zero_add, sub_self] at h1 h2
  rw [h1, h2]
  have h3 : normSq (0 : Vec K n) = 0 := by simp [normSq]
  have h4 : 0 ≤ normSq (u - fun i => x i / (1 + alpha * eps)) := Finset.sum_nonneg fun i _ => sq_nonneg _
  rw [h3]
  have := mul_nonneg hc.le (div_nonneg h4 (by norm_num : (0:K) ≤ 2))
  linarith

/-- Non-vacuity of C08: the hypothesis holds for the L1 penalty, and the elastic net prox moves the point. -/
example : (∀ (a : ℚ) (x : Vec ℚ 2), 0 < a → (l1Regularizer (1 : ℚ) none).ExactAt a x) ∧
    (elastic (1 : ℚ) (some (l1Regularizer (1 : ℚ) none))).prox ![4, 1] 1 = .ok ![3/2, 0] := by
  constructor
  · intro a x ha
    exact (C04_l1_value_partial 1 (fun _ => 1) x a zero_le_one (fun _ => zero_le_one) ha.le).1.exactAt
  · simp only [elastic, l1Regularizer, Except.ok.injEq]
    funext i; fin_cases i <;> norm_num [soft, clip0]

/-! ## C09: positivity -/

/-- SCAD's prox keeps non-negative coordinates non-negative, in every regime. -/
theorem scadProx1_nonneg (rho sigma w ae x z : K) (hr : 1 < rho) (hs : 0 ≤ sigma) (hae : 0 ≤ ae) (hx : 0 ≤ x)
    (h : scadProx1 rho sigma w ae x = .ok z) : 0 ≤ z := by
  unfold scadProx1 at h
  rw [abs_of_nonneg hx] at h
  split_ifs at h with h1 h2 h3 h4
  · cases h; exact hx
  · cases h; exact hx
  · cases h
    rcases hx.lt_or_eq with hx0 | hx0
    · simp only [npSign, hx0, if_true, one_mul]
      rcases lt_or_gt_of_ne h4 with hneg | hpos
      · have hmax : max rho (1 + ae) = 1 + ae := max_eq_right (by linarith)
        rw [hmax] at h3
        have hxe : x = sigma * (1 + ae) := le_antisymm (by linarith [h3.2, mul_comm (1 + ae) sigma]) h3.1
        have : (rho - 1) * x - rho * sigma * ae = sigma * (rho - 1 - ae) := by rw [hxe]; ring
        rw [this, mul_div_assoc, div_self h4, mul_one]
        exact hs
      · refine div_nonneg ?_ hpos.le
        have : (rho - 1) * (sigma * (1 + ae)) ≤ (rho - 1) * x := mul_le_mul_of_nonneg_left h3.1 (by linarith)
        have h5 : 0 ≤ sigma * (rho - 1 - ae) := mul_nonneg hs hpos.le
        nlinarith
    · rw [← hx0]; simp [npSign]
  · cases h
    exact (soft_shrinks x (mul_nonneg hs hae)).nonneg hx

theorem optimalTbeta_cases {p q : ℕ} (c : L0LmeCfg) (ws : Option (L0LmeWeights K p q)) (asAll : ArgSort (Fin p) K)
    (beta tbeta : Vec K p) (h : optimalTbeta c ws asAll beta = .ok tbeta) (i : Fin p) : tbeta i = beta i ∨ tbeta i = 0 := by
  unfold optimalTbeta at h
  split at h
  · cases h
  · split at h
    · cases h; exact maskedKMax_cases _ _ _ _ _
    · cases h; exact takeOnlyKMax_cases _ _ _ _

theorem optimalTgamma_cases {p q : ℕ} (c : L0LmeCfg) (b2g : Fin p → Option (Fin q)) (ws : Option (L0LmeWeights K p q))
    (tbeta : Vec K p) (gamma tgamma : Vec K q) (h : optimalTgamma c b2g ws tbeta gamma = .ok tgamma) (i : Fin q) :
    tgamma i = gamma i ∨ tgamma i = 0 := by
  unfold optimalTgamma at h
  split at h
  · cases h
  · rename_i ws
    dsimp only at h
    split at h
    · cases h
    · cases h
      rcases maskedKMax_cases (participation ws.wg) ws.asG _ _ i with h | h
      · rw [h]
        by_cases h1 : c.independent = false
        · rw [if_pos h1]
          show (if _ then _ else _) = _ ∨ (if _ then _ else _) = _
          split_ifs
          · exact Or.inr rfl
          · exact Or.inl rfl
        · rw [if_neg h1]; exact Or.inl rfl
      · exact Or.inr h

theorem l0Lme_prox_inv {p q : ℕ} (c : L0LmeCfg) (b2g : Fin p → Option (Fin q)) (ws : Option (L0LmeWeights K p q))
    (asAll : ArgSort (Fin p) K) (x z : Vec K (p + q)) (alpha : K)
    (h : (l0LmeRegularizer c b2g ws asAll).prox x alpha = .ok z) :
    ∃ tb tg, optimalTbeta c ws asAll (xBeta x) = .ok tb ∧ optimalTgamma c b2g ws tb (xGamma x) = .ok tg ∧ z = joinX tb tg := by
  simp only [l0LmeRegularizer, bind, Except.bind] at h
  split at h
  · cases h
  · rename_i tb htb
    split at h
    · cases h
    · rename_i tg htg
      cases h
      exact ⟨tb, tg, htb, htg, rfl⟩

theorem BaseReg.nonneg {R : Regularizer K n} (hR : BaseReg R) {x z : Vec K n} {alpha : K} (ha : 0 ≤ alpha)
    (h : R.prox x alpha = .ok z) (i : Fin n) (hx : 0 ≤ x i) : 0 ≤ z i := by
  cases hR with
  | dummy => cases h; exact hx
  | l0 nnz asAll ws =>
    have := C12_prox_shrinks none 0 0 0 alpha x z ha le_rfl (fun _ => by simp [weightsOrOnes])
      (Or.inr (Or.inr (Or.inr ⟨nnz, asAll, ws, h⟩))) i
    rcases hx.lt_or_eq with h1 | h1
    · exact nonneg_of_mul_nonneg_right this.2 h1
    · have h2 := this.1
      rw [← h1, abs_zero] at h2
      rw [abs_nonpos_iff.1 h2]
  | l0lme c b2g ws asAll =>
    rename_i p q
    obtain ⟨tb, tg, htb, htg, rfl⟩ := l0Lme_prox_inv c b2g ws asAll x z alpha h
    induction i using Fin.addCases with
    | left i =>
      simp only [joinX, Fin.append_left]
      rcases optimalTbeta_cases c ws asAll _ _ htb i with h | h <;> rw [h]
      exact hx
    | right i =>
      simp only [joinX, Fin.append_right]
      rcases optimalTgamma_cases c b2g ws _ _ _ htg i with h | h <;> rw [h]
      exact hx
  | l1 lam w hlam hw =>
    have := C12_prox_shrinks w lam 0 0 alpha x z ha hlam hw (Or.inl h) i
    rcases hx.lt_or_eq with h1 | h1
    · exact nonneg_of_mul_nonneg_right this.2 h1
    · have h2 := this.1
      rw [← h1, abs_zero] at h2
      rw [abs_nonpos_iff.1 h2]
  | cad rho lam w hlam hw =>
    have := C12_prox_shrinks w lam rho 0 alpha x z ha hlam hw (Or.inr (Or.inl h)) i
    rcases hx.lt_or_eq with h1 | h1
    · exact nonneg_of_mul_nonneg_right this.2 h1
    · have h2 := this.1
      rw [← h1, abs_zero] at h2
      rw [abs_nonpos_iff.1 h2]
  | scad rho sigma lam w hr hs hlam hw =>
    exact scadProx1_nonneg _ _ _ _ _ _ hr hs (mul_nonneg (mul_nonneg ha hlam) (hw i)) hx ((collect_ok_iff _ _).1 h i)

theorem LibReg.nonneg {R : Regularizer K n} (hR : LibReg R) : ∀ {x z : Vec K n} {alpha : K}, 0 ≤ alpha →
    R.prox x alpha = .ok z → ∀ i, 0 ≤ x i → 0 ≤ z i := by
  induction hR with
  | base h => intro x z alpha ha hz i hx; exact h.nonneg ha hz i hx
  | elastic eps heps _ ih =>
    intro x z alpha ha hz i hx
    exact ih (div_nonneg ha (by positivity)) hz i (div_nonneg hx (by positivity))
  | ridge eps heps =>
    intro x z alpha ha hz i hx
    cases hz
    exact div_nonneg hx (by positivity)

/-- **C09.** Whatever regularizer of the library is wrapped, the prox of the positive-quadrant wrapper returns non-negative
random-effect coordinates, so the indicator part of its own value is finite (`0`) there. -/
theorem C09_positive_quadrant {p q : ℕ} (R : Option (Regularizer K (p + q))) (hR : ∀ r, R = some r → LibReg r)
    (x z : Vec K (p + q)) (alpha : K) (ha : 0 ≤ alpha) (hz : (positiveQuadrant (positiveMask p q) R).prox x alpha = .ok z) :
    (∀ j : Fin q, 0 ≤ z (Fin.natAdd p j)) ∧ (positiveQuadrant (positiveMask p q) none).value z = .ok 0 := by
  have key : ∀ i : Fin (p + q), p ≤ i.val → 0 ≤ z i := by
    intro i hi
    have hpos : positiveMask p q i = true := by simp [positiveMask, hi]
    cases R with
    | none => cases hz; simp [hpos, clip0]
    | some r => exact (hR r rfl).nonneg ha hz i (by simp [hpos, clip0])
  refine ⟨fun j => key _ (by simp), ?_⟩
  have : ¬ ∃ i, positiveMask p q i = true ∧ z i < 0 := by
    rintro ⟨i, h1, h2⟩
    simp only [positiveMask, decide_eq_true_eq] at h1
    exact absurd (key i h1) (not_le.2 h2)
  simp [positiveQuadrant, this]

/-- Non-vacuity of C09: one fixed effect (stays negative), two random effects, one of them clipped, one thresholded. -/
example : (positiveQuadrant (positiveMask 1 2) (some (elastic (1 : ℚ) (some (l1Regularizer 1 none))))).prox ![-4, -3, 6] 1
    = .ok ![-3/2, 0, 5/2] := by
  simp only [positiveQuadrant, elastic, l1Regularizer, Except.ok.injEq]
  funext i; fin_cases i <;> norm_num [soft, clip0, positiveMask]

/-! ## C10: exact constrained prox -/

/-- **C10.** If the wrapped penalty is a sum of even functions which do not decrease in `|z_i|`, and the wrapped prox is an exact minimiser at
the clipped point, then the wrapper's prox exactly minimises penalty plus the indicator of the constraint. -/
theorem C10_positive_quadrant_exact (pos : Fin n → Bool) (R : Regularizer K n) (g : Fin n → K → K)
    (hval : ∀ u, R.value u = .ok ((∑ i, g i (u i) : K) : WithTop K))
    (hmono : ∀ i a b, |a| ≤ |b| → g i a ≤ g i b) (alpha : K) (ha : 0 ≤ alpha)
    (x : Vec K n) (hR : R.ExactAt alpha fun i => if pos i = true then clip0 (x i) else x i) :
    (positiveQuadrant pos (some R)).ExactAt alpha x ∧
    ∃ z, (positiveQuadrant pos (some R)).prox x alpha = .ok z ∧ (∀ i, pos i = true → 0 ≤ z i) ∧
      ∀ u : Vec K n, (∀ i, pos i = true → 0 ≤ u i) →
        alpha * (∑ i, g i (z i)) + normSq (z - x) / 2 ≤ alpha * (∑ i, g i (u i)) + normSq (u - x) / 2 := by
  have main : ∃ z, (positiveQuadrant pos (some R)).prox x alpha = .ok z ∧ (∀ i, pos i = true → 0 ≤ z i) ∧
      ∀ u : Vec K n, (∀ i, pos i = true → 0 ≤ u i) →
        alpha * (∑ i, g i (z i)) + normSq (z - x) / 2 ≤ alpha * (∑ i, g i (u i)) + normSq (u - x) / 2 := by
    obtain ⟨g', hg', z, hz, hprox⟩ := hR
    have hgg : g' = fun u => ((∑ i, g i (u i) : K) : WithTop K) := by
      funext u
      have h1 := hg' u
      rw [hval u] at h1
      exact (Except.ok.inj h1).symm
    rw [hgg] at hprox
    have hco := coord_of_isProxOf g alpha _ z hprox
    refine ⟨z, hz, ?_, ?_⟩
    · intro i hi
      have h1 := hco i
      simp only [hi, if_true] at h1
      by_contra hneg
      push Not at hneg
      have h2 := h1 (-(z i))
      have h3 : g i (-(z i)) = g i (z i) := le_antisymm (hmono i _ _ (by simp)) (hmono i _ _ (by simp))
      rw [h3] at h2
      have hy : 0 ≤ clip0 (x i) := by simp [clip0]
      rcases hy.lt_or_eq with h4 | h4
      · nlinarith
      · have h5 := h1 0
        rw [← h4] at h5
        have h6 : alpha * g i 0 ≤ alpha * g i (z i) := mul_le_mul_of_nonneg_left (hmono i _ _ (by simp)) ha
        nlinarith [sq_pos_of_neg hneg]
    · intro u hu
      rw [obj_sum, obj_sum]
      refine Finset.sum_le_sum fun i _ => ?_
      have h1 := hco i
      by_cases hi : pos i = true
      · simp only [hi, if_true] at h1
        by_cases hx : 0 ≤ x i
        · rw [show clip0 (x i) = x i by simp [clip0, hx]] at h1
          exact h1 (u i)
        · push Not at hx
          rw [show clip0 (x i) = 0 by simp [clip0, hx.le]] at h1
          have h2 := h1 0
          have h6 : alpha * g i 0 ≤ alpha * g i (z i) := mul_le_mul_of_nonneg_left (hmono i _ _ (by simp)) ha
          have hz0 : z i = 0 := by
            have : (z i) ^ 2 ≤ 0 := by nlinarith
            exact pow_eq_zero_iff (two_ne_zero) |>.1 (le_antisymm this (sq_nonneg _))
          have h7 : alpha * g i 0 ≤ alpha * g i (u i) := mul_le_mul_of_nonneg_left (hmono i _ _ (by simp)) ha
          rw [hz0]
          have h8 := hu i hi
          nlinarith
      · have h1 := h1 (u i)
        simp only [hi] at h1
        simpa using h1
  refine ⟨?_, main⟩
  obtain ⟨z, hz, hzpos, hmin⟩ := main
  refine ⟨fun u => (if ∃ i, pos i = true ∧ u i < 0 then ⊤ else 0) + ((∑ i, g i (u i) : K) : WithTop K), fun u => ?_, z, hz,
    ∑ i, g i (z i), ?_, fun u gu hgu => ?_⟩
  · simp [positiveQuadrant, hval, bind, Except.bind, pure, Except.pure]
  · have : ¬ ∃ i, pos i = true ∧ z i < 0 := fun ⟨i, h1, h2⟩ => absurd (hzpos i h1) (not_le.2 h2)
    simp only [if_neg this, zero_add]
  · by_cases h : ∃ i, pos i = true ∧ u i < 0
    · simp [h] at hgu
    · simp only [if_neg h, zero_add] at hgu
      rw [← WithTop.coe_inj.1 hgu]
      refine hmin u fun i hi => ?_
      by_contra h2
      exact h ⟨i, hi, not_le.1 h2⟩

/-- Non-vacuity of C10: the hypotheses hold for the L1 penalty (`g_i = |.|`), and the conclusion constrains a genuinely clipped point. -/
example : (positiveQuadrant (positiveMask 1 2) (some (l1Regularizer (1 : ℚ) none))).ExactAt 1 ![-4, -3, 6] :=
  (C10_positive_quadrant_exact (positiveMask 1 2) (l1Regularizer (1 : ℚ) none) (fun _ a => |a|)
    (fun u => by simp [l1Regularizer]) (fun _ _ _ h => h) 1 (by norm_num) _
    (C04_l1_value_partial 1 (fun _ => 1) _ 1 zero_le_one (fun _ => zero_le_one) zero_le_one).1.exactAt).1

/-! ## C14: the mixed-model L0 prox -/

/-- **C14.** Budgets, must-include coefficients, "only zeroing", and the hierarchy. -/
theorem C14_l0lme_budget_hierarchy {p q : ℕ} (kb kg : ℤ) (indep : Bool) (b2g : Fin p → Option (Fin q)) (ws : L0LmeWeights K p q)
    (asAll : ArgSort (Fin p) K) (x : Vec K (p + q)) (alpha : K) :
    ∃ z, (l0LmeRegularizer ⟨some kb, some kg, indep⟩ b2g (some ws) asAll).prox x alpha = .ok z ∧
      -- at most the budgeted number of fixed and random effects
      ((numNonzero (fun i : Fin p => z (Fin.castAdd q i)) : ℤ) ≤
        max (kb - (Set.ncard {i | ws.wb i = 0} : ℤ)) 0 + Set.ncard {i | ws.wb i = 0}) ∧
      ((numNonzero (fun i : Fin q => z (Fin.natAdd p i)) : ℤ) ≤
        max (kg - (Set.ncard {i | ws.wg i = 0} : ℤ)) 0 + Set.ncard {i | ws.wg i = 0}) ∧
      -- must-include coefficients are untouched
      (∀ i : Fin p, ws.wb i = 0 → z (Fin.castAdd q i) = x (Fin.castAdd q i)) ∧
      (∀ i : Fin q, ws.wg i = 0 → z (Fin.natAdd p i) = x (Fin.natAdd p i)) ∧
      -- the rest is kept or zeroed
      (∀ i, z i = x i ∨ z i = 0) ∧
      -- hierarchy
      (indep = false → ∀ (j : Fin p) (i : Fin q), b2g j = some i → ws.wg i ≠ 0 → z (Fin.castAdd q j) = 0 → z (Fin.natAdd p i) = 0) := by
  have hoff : ∀ {m : ℕ} (w : Vec K m), {i | participation w i = false} = {i | w i = 0} := by
    intro m w; ext i; simp [participation]
  have hbud : ∀ {m : ℕ} (w : Vec K m) (as : ArgSort {i // participation w i = true} K) (y : Vec K m) (k : ℤ),
      ((numNonzero (maskedKMax (participation w) as y k) : ℕ) : ℤ) ≤
        max (k - (Set.ncard {i | w i = 0} : ℤ)) 0 + Set.ncard {i | w i = 0} := by
    intro m w as y k
    have h1 := maskedKMax_nnzOn (participation w) as y k
    have h2 := nnz_split (participation w) (maskedKMax (participation w) as y k)
    rw [hoff] at h1 h2
    have h2' : (numNonzero (maskedKMax (participation w) as y k) : ℤ) ≤
      nnzOn (participation w) (maskedKMax (participation w) as y k) + Set.ncard {i | w i = 0} := by exact_mod_cast h2
    omega
  set c : L0LmeCfg := ⟨some kb, some kg, indep⟩ with hcdef
  set tb := maskedKMax (participation ws.wb) ws.asB (xBeta x) kb with htb
  have e1 : optimalTbeta c (some ws) asAll (xBeta x) = .ok tb := rfl
  set pre : Vec K q := if indep = false then
        fun i => if (∃ j, tb j = 0 ∧ b2g j = some i) ∧ participation ws.wg i = true then 0 else xGamma x i
      else xGamma x with hpre
  set tg := maskedKMax (participation ws.wg) ws.asG pre kg with htg
  have e2 : optimalTgamma c b2g (some ws) tb (xGamma x) = .ok tg := rfl
  have hz : (l0LmeRegularizer c b2g (some ws) asAll).prox x alpha = .ok (joinX tb tg) := by
    simp only [l0LmeRegularizer, bind, Except.bind, e1, e2]
    rfl
  have hL : ∀ i, joinX tb tg (Fin.castAdd q i) = tb i := fun i => by simp [joinX]
  have hR : ∀ i, joinX tb tg (Fin.natAdd p i) = tg i := fun i => by simp [joinX]
  refine ⟨_, hz, ?_, ?_, ?_, ?_, ?_, ?_⟩
  · simp only [hL]; exact hbud _ _ _ _
  · simp only [hR]; exact hbud _ _ _ _
  · intro i hi
    rw [hL, htb, maskedKMax_off _ _ _ _ _ (by simp [participation, hi])]; rfl
  · intro i hi
    rw [hR, htg, maskedKMax_off _ _ _ _ _ (by simp [participation, hi]), hpre]
    split_ifs with h
    · simp [participation, hi, xGamma]
    · rfl
  · intro i
    induction i using Fin.addCases with
    | left i => rw [hL]; exact optimalTbeta_cases c (some ws) asAll _ _ e1 i
    | right i => rw [hR]; exact optimalTgamma_cases c b2g (some ws) _ _ _ e2 i
  · intro hin j i hji hw h0
    rw [hL] at h0
    rw [hR]
    have : pre i = 0 := by
      rw [hpre, if_pos hin]
      have : (∃ j, tb j = 0 ∧ b2g j = some i) ∧ participation ws.wg i = true := ⟨⟨j, h0, hji⟩, by simp [participation, hw]⟩
      simp only [this, and_self, if_true]
    rcases maskedKMax_cases (participation ws.wg) ws.asG pre kg i with h | h
    · rw [htg, h, this]
    · rw [htg, h]

/-- Non-vacuity of C14: there are weights with and without must-include effects for all sizes; here two fixed and two random effects, the
first fixed effect must-include. -/
example : ∃ ws : L0LmeWeights ℚ 2 2, ws.wb 0 = 0 ∧ ws.wb 1 = 1 ∧ ws.wg = fun _ => 1 :=
  ⟨⟨![0, 1], fun _ => 1, Classical.choice (argSort_nonempty _ _), Classical.choice (argSort_nonempty _ _)⟩, rfl, rfl, rfl⟩

/-! ## C15: reuse -/

/-- The persistent configuration after a history of `instantiate(problem of size (p, q)); forget()` rounds. -/
def afterHistory (c : L0LmeCfg) (hist : List (ℕ × ℕ)) : L0LmeCfg :=
  hist.foldl (fun c s => (c.instantiate s.1 s.2).forget) c

/-- A fresh `L0RegularizerLME()` (no budgets) keeps every fixed effect of the problem it is attached to, and, when
`independent_beta_and_gamma`, every coefficient. -/
theorem C15_fresh_keeps_all {p q : ℕ} (indep : Bool) (b2g : Fin p → Option (Fin q)) (ws : L0LmeWeights K p q)
    (asAll : ArgSort (Fin p) K) (x : Vec K (p + q)) (alpha : K) :
    ∃ z, (l0LmeRegularizer (L0LmeCfg.instantiate ⟨none, none, indep⟩ p q) b2g (some ws) asAll).prox x alpha = .ok z ∧
      (∀ i : Fin p, z (Fin.castAdd q i) = x (Fin.castAdd q i)) ∧ (indep = true → z = x) := by
  have hfull : ∀ {m : ℕ} (w : Vec K m) (as : ArgSort {i // participation w i = true} K) (y : Vec K m),
      maskedKMax (participation w) as y m = y := by
    intro m w as y
    funext i
    by_cases h : participation w i = true
    · rw [maskedKMax_on (participation w) as y m ⟨i, h⟩, takeOnlyKMax_full]
      have h1 : Fintype.card {i // participation w i = true} + Fintype.card {i // participation w i = false} = m := by
        have := Fintype.card_subtype_compl (fun i => participation w i = true)
        have h3 : Fintype.card {i // participation w i = true} ≤ Fintype.card (Fin m) := Fintype.card_subtype_le _
        simp only [Bool.not_eq_true, Fintype.card_fin] at this h3
        omega
      have h2 : (Fintype.card {i // participation w i = true} : ℤ) + Fintype.card {i // participation w i = false} = m := by
        exact_mod_cast h1
      omega
    · exact maskedKMax_off _ _ _ _ i (by simpa using h)
  have e1 : optimalTbeta (L0LmeCfg.instantiate ⟨none, none, indep⟩ p q) (some ws) asAll (xBeta x) = .ok (xBeta x) := by
    simp only [optimalTbeta, L0LmeCfg.instantiate, Option.getD_none, hfull]
  simp only [l0LmeRegularizer, bind, Except.bind, e1]
  refine ⟨_, rfl, fun i => by simp [joinX, xBeta], fun hin => ?_⟩
  simp only [L0LmeCfg.instantiate, hin, Option.getD_none, Bool.true_eq_false, if_false, hfull]
  funext i
  induction i using Fin.addCases with
  | left i => simp [joinX, xBeta]
  | right i => simp [joinX, xGamma]

/-- **C15 is violated by the code**: after one round on a problem with one fixed and one random effect, a regularizer created without
budgets drops coefficients of a problem with two of each, whatever the weights, whereas a fresh one keeps all of them. -/
theorem C15_reuse_violated (b2g : Fin 2 → Option (Fin 2)) (ws : L0LmeWeights K 2 2) (hw : ws.wb = fun _ => 1)
    (asAll : ArgSort (Fin 2) K) (alpha : K) :
    ∃ (x z z' : Vec K (2 + 2)),
      (l0LmeRegularizer ((afterHistory ⟨none, none, true⟩ [(1, 1)]).instantiate 2 2) b2g (some ws) asAll).prox x alpha = .ok z ∧
      (l0LmeRegularizer (L0LmeCfg.instantiate ⟨none, none, true⟩ 2 2) b2g (some ws) asAll).prox x alpha = .ok z' ∧
      z' = x ∧ z ≠ z' := by
  have h1 := C15_fresh_keeps_all (p := 2) (q := 2) true b2g ws asAll (fun _ => 1) alpha
  obtain ⟨z', hz', _, hz'x⟩ := h1
  obtain ⟨z, hz, hb, _⟩ := C14_l0lme_budget_hierarchy (p := 2) (q := 2) 1 1 true b2g ws asAll (fun _ => 1) alpha
  refine ⟨fun _ => 1, z, z', hz, hz', hz'x rfl, ?_⟩
  rintro rfl
  rw [hz'x rfl, hw] at hb
  have e : Set.ncard {i : Fin 2 | (fun _ : Fin 2 => (1 : K)) i = 0} = 0 := by simp
  rw [e, numNonzero_eq, nnzCount_eq_card] at hb
  simp at hb

/-- **C15**, what does hold: with explicit budgets, or when all problems had the size of the new one, the reused regularizer is the fresh one. Missing
for the full claim: budgets left at `None` and problems of different sizes (false, see `C15_reuse_violated`). -/
theorem C15_reuse_partial (c : L0LmeCfg) (hist : List (ℕ × ℕ)) (p q : ℕ)
    (h : (c.nnzTbeta.isSome ∨ ∀ s ∈ hist, s.1 = p) ∧ (c.nnzTgamma.isSome ∨ ∀ s ∈ hist, s.2 = q)) :
    (afterHistory c hist).instantiate p q = c.instantiate p q := by
  induction hist generalizing c with
  | nil => rfl
  | cons s hist ih =>
    have hrec : afterHistory c (s :: hist) = afterHistory (c.instantiate s.1 s.2) hist := rfl
    rw [hrec, ih (c.instantiate s.1 s.2) ⟨Or.inl rfl, Or.inl rfl⟩]
    obtain ⟨nb, ng, ind⟩ := c
    obtain ⟨h1, h2⟩ := h
    simp only [L0LmeCfg.instantiate, Option.getD_some, L0LmeCfg.mk.injEq, Option.some.injEq, and_true]
    constructor
    · cases nb with
      | some b => rfl
      | none => have := (h1.resolve_left (by simp)) s (by simp); simp [this]
    · cases ng with
      | some b => rfl
      | none => have := (h2.resolve_left (by simp)) s (by simp); simp [this]

/-- Non-vacuity of C15_reuse_partial: mixed case, explicit fixed budget, varying number of fixed effects. -/
example : (afterHistory ⟨some 3, none, false⟩ [(5, 2), (7, 2)]).instantiate 9 2 = ⟨some 3, some 2, false⟩ :=
  C15_reuse_partial _ _ 9 2 ⟨Or.inl rfl, Or.inr (by simp)⟩

end Verif
