import Verif.Props.Wrappers
import Verif.Props.Exact

/-!
# Property C156: how far the mixed-model L0 prox is from a projection
-/

namespace Verif

variable {K : Type*} [Field K] [LinearOrder K] [IsStrictOrderedRing K] {p q : ℕ}

/-- What the documentation of `L0RegularizerLME` asks of a pair of coefficient vectors near the point `x` (`regularizers.py:208-240`, `280-338`): must-include
coefficients (weight 0) as in `x`, budgets respected on the others, and, unless fixed and random effects are independent, no variance for a selectable random
effect whose matching fixed effect is absent. -/
structure L0LmeAdmissible (kb kg : ℤ) (indep : Bool) (b2g : Fin p → Option (Fin q)) (wb : Vec K p) (wg : Vec K q)
    (x y : Vec K (p + q)) : Prop where
  keepB : ∀ i : Fin p, wb i = 0 → y (Fin.castAdd q i) = x (Fin.castAdd q i)
  keepG : ∀ i : Fin q, wg i = 0 → y (Fin.natAdd p i) = x (Fin.natAdd p i)
  budgetB : (Set.ncard {i : Fin p | wb i ≠ 0 ∧ y (Fin.castAdd q i) ≠ 0} : ℤ) ≤ max (kb - (Set.ncard {i | wb i = 0} : ℤ)) 0
  budgetG : (Set.ncard {i : Fin q | wg i ≠ 0 ∧ y (Fin.natAdd p i) ≠ 0} : ℤ) ≤ max (kg - (Set.ncard {i | wg i = 0} : ℤ)) 0
  hier : indep = false → ∀ (j : Fin p) (i : Fin q), b2g j = some i → wg i ≠ 0 → y (Fin.castAdd q j) = 0 → y (Fin.natAdd p i) = 0

/-- The selectable random effects whose matching fixed effect is absent from `z`. -/
def orphaned (b2g : Fin p → Option (Fin q)) (wg : Vec K q) (z : Vec K (p + q)) : Set (Fin q) :=
  {i | wg i ≠ 0 ∧ ∃ j, b2g j = some i ∧ z (Fin.castAdd q j) = 0}

private theorem sum_split (x y : Vec K (p + q)) :
    ∑ i, (y i - x i) ^ 2 = ∑ i : Fin p, (y (Fin.castAdd q i) - x (Fin.castAdd q i)) ^ 2 +
      ∑ i : Fin q, (y (Fin.natAdd p i) - x (Fin.natAdd p i)) ^ 2 := Fin.sum_univ_add _

open Classical in
/-- **C156**, what does hold. The result `z` is admissible; its fixed effects are at least as close to those of `x` as those of any admissible point; it is at
least as close to `x` as every admissible point that keeps none of the fixed effects with a selectable variance which `z` dropped; and its squared distance exceeds that of any
admissible point by at most the sum of the squared variances dropped because their fixed effect was. So it is a nearest admissible point when fixed and random
effects are independent, or when the dropped fixed effects have no (or a zero) variance. Missing for the full claim: a non-zero variance whose fixed effect is
dropped (false, see `C156_violated`), and `value`, which only looks at the total count (`C156_value_violated`). -/
theorem C156_prox_partial (kb kg : ℤ) (indep : Bool) (b2g : Fin p → Option (Fin q)) (ws : L0LmeWeights K p q)
    (asAll : ArgSort (Fin p) K) (x : Vec K (p + q)) (alpha : K) :
    ∃ z, (l0LmeRegularizer ⟨some kb, some kg, indep⟩ b2g (some ws) asAll).prox x alpha = .ok z ∧
      L0LmeAdmissible kb kg indep b2g ws.wb ws.wg x z ∧
      (∀ y, L0LmeAdmissible kb kg indep b2g ws.wb ws.wg x y →
        ∑ i : Fin p, (z (Fin.castAdd q i) - x (Fin.castAdd q i)) ^ 2 ≤ ∑ i : Fin p, (y (Fin.castAdd q i) - x (Fin.castAdd q i)) ^ 2 ∧
        ((∀ (j : Fin p) (i : Fin q), b2g j = some i → ws.wg i ≠ 0 → z (Fin.castAdd q j) = 0 → y (Fin.castAdd q j) = 0) → ∑ i, (z i - x i) ^ 2 ≤ ∑ i, (y i - x i) ^ 2) ∧
        (indep = true → ∑ i, (z i - x i) ^ 2 ≤ ∑ i, (y i - x i) ^ 2) ∧
        ∑ i, (z i - x i) ^ 2 ≤ ∑ i, (y i - x i) ^ 2 +
          ∑ i : Fin q, if i ∈ orphaned b2g ws.wg z then x (Fin.natAdd p i) ^ 2 else 0) := by
  have hoff : ∀ {m : ℕ} (w : Vec K m), {i | participation w i = false} = {i | w i = 0} := by
    intro m w; ext i; simp [participation]
  have hon : ∀ {m : ℕ} (w u : Vec K m), nnzOn (participation w) u = Set.ncard {i | w i ≠ 0 ∧ u i ≠ 0} := by
    intro m w u; unfold nnzOn; congr 1; ext i; simp [participation]
  set c : L0LmeCfg := ⟨some kb, some kg, indep⟩ with hcdef
  set tb := maskedKMax (participation ws.wb) ws.asB (xBeta x) kb with htb
  have e1 : optimalTbeta c (some ws) asAll (xBeta x) = .ok tb := rfl
  set pre : Vec K q := if indep = false then
        fun i => if (∃ j, tb j = 0 ∧ b2g j = some i) ∧ participation ws.wg i = true then 0 else xGamma x i
      else xGamma x with hpre
  set tg := maskedKMax (participation ws.wg) ws.asG pre kg with htg
  have e2 : optimalTgamma c b2g (some ws) tb (xGamma x) = .ok tg := by
    simp only [optimalTgamma, hcdef, htg, hpre]
  have hz : (l0LmeRegularizer c b2g (some ws) asAll).prox x alpha = .ok (joinX tb tg) := by
    simp only [l0LmeRegularizer, bind, Except.bind, e1, e2]
    rfl
  have hL : ∀ i, joinX tb tg (Fin.castAdd q i) = tb i := fun i => by simp [joinX]
  have hR : ∀ i, joinX tb tg (Fin.natAdd p i) = tg i := fun i => by simp [joinX]
  -- the forced zeros
  set D : Set (Fin q) := {i | indep = false ∧ i ∈ orphaned b2g ws.wg (joinX tb tg)} with hD
  have hpreD : ∀ i, pre i = if i ∈ D then 0 else x (Fin.natAdd p i) := by
    intro i
    have hmem : i ∈ D ↔ indep = false ∧ (∃ j, tb j = 0 ∧ b2g j = some i) ∧ participation ws.wg i = true := by
      simp only [hD, orphaned, Set.mem_ofPred_eq, hL, participation, decide_eq_true_eq, ne_eq]
      constructor
      · rintro ⟨h1, h2, j, h3, h4⟩; exact ⟨h1, ⟨j, h4, h3⟩, by simpa using h2⟩
      · rintro ⟨h1, ⟨j, h4, h3⟩, h2⟩; exact ⟨h1, by simpa using h2, j, h3, h4⟩
    rw [hpre]
    by_cases hi : indep = false
    · rw [if_pos hi]
      by_cases h : i ∈ D
      · rw [if_pos h]
        exact if_pos (hmem.1 h).2
      · rw [if_neg h]
        exact if_neg fun h' => h (hmem.2 ⟨hi, h'⟩)
    · rw [if_neg hi, if_neg fun h => hi h.1]; rfl
  have hDw : ∀ i ∈ D, ws.wg i ≠ 0 := fun i hi => hi.2.1
  have htgD : ∀ i ∈ D, tg i = 0 := by
    intro i hi
    rcases maskedKMax_cases (participation ws.wg) ws.asG pre kg i with h | h
    · rw [htg, h, hpreD, if_pos hi]
    · rw [htg, h]
  have hadm : L0LmeAdmissible kb kg indep b2g ws.wb ws.wg x (joinX tb tg) := by
    refine ⟨fun i hi => ?_, fun i hi => ?_, ?_, ?_, ?_⟩
    · rw [hL, htb, maskedKMax_off _ _ _ _ _ (by simp [participation, hi])]; rfl
    · rw [hR, htg, maskedKMax_off _ _ _ _ _ (by simp [participation, hi]), hpreD, if_neg fun h => hDw i h hi]
    · simp only [hL]
      rw [← hon, ← hoff]; exact maskedKMax_nnzOn _ _ _ _
    · simp only [hR]
      rw [← hon, ← hoff]; exact maskedKMax_nnzOn _ _ _ _
    · intro hin j i hji hw h0
      rw [hR]
      exact htgD i ⟨hin, hw, j, hji, h0⟩
  refine ⟨_, hz, hadm, fun y hy => ?_⟩
  have hbeta : ∑ i : Fin p, (joinX tb tg (Fin.castAdd q i) - x (Fin.castAdd q i)) ^ 2 ≤
      ∑ i : Fin p, (y (Fin.castAdd q i) - x (Fin.castAdd q i)) ^ 2 := by
    simp only [hL]
    refine maskedKMax_best (participation ws.wb) ws.asB (xBeta x) kb (fun i => y (Fin.castAdd q i)) (fun i hi => ?_) ?_
    · exact hy.keepB i (by simpa [participation] using hi)
    · rw [hon, hoff]; exact hy.budgetB
  -- the distance of the variances to the masked ones, against the masked competitor
  have hgam0 : ∑ i : Fin q, (tg i - pre i) ^ 2 ≤ ∑ i : Fin q, ((if i ∈ D then 0 else y (Fin.natAdd p i)) - pre i) ^ 2 := by
    refine maskedKMax_best (participation ws.wg) ws.asG pre kg (fun i => if i ∈ D then 0 else y (Fin.natAdd p i)) (fun i hi => ?_) ?_
    · have hw : ws.wg i = 0 := by simpa [participation] using hi
      have hn : i ∉ D := fun h => hDw i h hw
      simp only [hn, if_false, hpreD]
      exact hy.keepG i hw
    · rw [hon, hoff]
      refine le_trans ?_ hy.budgetG
      refine Int.ofNat_le.2 (Set.ncard_le_ncard ?_ (Set.toFinite _))
      rintro i ⟨h1, h2⟩
      refine ⟨h1, fun h3 => h2 ?_⟩
      rw [h3]; simp
  have hgam1 : ∑ i : Fin q, (tg i - x (Fin.natAdd p i)) ^ 2 =
      ∑ i : Fin q, (tg i - pre i) ^ 2 + ∑ i : Fin q, (if i ∈ D then x (Fin.natAdd p i) ^ 2 else 0) := by
    rw [← Finset.sum_add_distrib]
    refine Finset.sum_congr rfl fun i _ => ?_
    rw [hpreD]
    by_cases h : i ∈ D
    · simp [h, htgD i h]
    · simp [h]
  have hgam2 : ∑ i : Fin q, ((if i ∈ D then 0 else y (Fin.natAdd p i)) - pre i) ^ 2 +
      ∑ i : Fin q, (if i ∈ D then (y (Fin.natAdd p i) - x (Fin.natAdd p i)) ^ 2 else 0) =
      ∑ i : Fin q, (y (Fin.natAdd p i) - x (Fin.natAdd p i)) ^ 2 := by
    rw [← Finset.sum_add_distrib]
    refine Finset.sum_congr rfl fun i _ => ?_
    rw [hpreD]
    by_cases h : i ∈ D <;> simp [h]
  have hpos : 0 ≤ ∑ i : Fin q, (if i ∈ D then (y (Fin.natAdd p i) - x (Fin.natAdd p i)) ^ 2 else 0) :=
    Finset.sum_nonneg fun i _ => by split_ifs <;> positivity
  have hDle : ∑ i : Fin q, (if i ∈ D then x (Fin.natAdd p i) ^ 2 else 0) ≤
      ∑ i : Fin q, (if i ∈ orphaned b2g ws.wg (joinX tb tg) then x (Fin.natAdd p i) ^ 2 else 0) := by
    refine Finset.sum_le_sum fun i _ => ?_
    by_cases h : i ∈ D
    · rw [if_pos h, if_pos h.2]
    · rw [if_neg h]; split_ifs <;> positivity
  refine ⟨hbeta, fun hsub => ?_, fun hin => ?_, ?_⟩
  · rw [sum_split, sum_split]
    refine add_le_add hbeta ?_
    simp only [hR]
    have e : ∑ i : Fin q, (if i ∈ D then (y (Fin.natAdd p i) - x (Fin.natAdd p i)) ^ 2 else 0) =
        ∑ i : Fin q, (if i ∈ D then x (Fin.natAdd p i) ^ 2 else 0) := by
      refine Finset.sum_congr rfl fun i _ => ?_
      by_cases h : i ∈ D
      · obtain ⟨hin, hw, j, hji, h0⟩ := h
        have : y (Fin.natAdd p i) = 0 := hy.hier hin j i hji hw (hsub j i hji hw h0)
        simp [this]
      · simp [h]
    linarith
  · rw [sum_split, sum_split]
    refine add_le_add hbeta ?_
    simp only [hR]
    have e : ∑ i : Fin q, (if i ∈ D then x (Fin.natAdd p i) ^ 2 else 0) = 0 := by
      refine Finset.sum_eq_zero fun i _ => if_neg fun h => ?_
      have := h.1
      rw [hin] at this; simp at this
    linarith
  · rw [sum_split x (joinX tb tg), sum_split x y]
    simp only [hR]
    linarith

private theorem joinL (b : Vec K p) (g : Vec K q) (i : Fin p) : joinX b g (Fin.castAdd q i) = b i := Fin.append_left _ _ _

private theorem joinR (b : Vec K p) (g : Vec K q) (i : Fin q) : joinX b g (Fin.natAdd p i) = g i := Fin.append_right _ _ _

/-- Two fixed and two random effects, all selectable, the `i`-th variance belonging to the `i`-th fixed effect. -/
private def pairMap : Fin 2 → Option (Fin 2) := some

private theorem ncard_le_one {w y : Fin 2 → K} (hw : ∀ i, w i ≠ 0)
    (h : (Set.ncard {i : Fin 2 | w i ≠ 0 ∧ y i ≠ 0} : ℤ) ≤ max (1 - (Set.ncard {i | w i = 0} : ℤ)) 0) : y 0 = 0 ∨ y 1 = 0 := by
  by_contra hc
  push Not at hc
  have e : {i : Fin 2 | w i ≠ 0 ∧ y i ≠ 0} = Set.univ := by
    ext i; fin_cases i <;> simp [hw, hc.1, hc.2]
  have e0 : {i : Fin 2 | w i = 0} = ∅ := by ext i; simp [hw]
  rw [e, e0, Set.ncard_univ] at h
  simp at h

private theorem one_le {w y : Fin 2 → K} (hw : ∀ i, w i ≠ 0) (hy : y 0 = 0) :
    (Set.ncard {i : Fin 2 | w i ≠ 0 ∧ y i ≠ 0} : ℤ) ≤ max (1 - (Set.ncard {i | w i = 0} : ℤ)) 0 := by
  have e0 : {i : Fin 2 | w i = 0} = ∅ := by ext i; simp [hw]
  have h : Set.ncard {i : Fin 2 | w i ≠ 0 ∧ y i ≠ 0} ≤ Set.ncard ({1} : Set (Fin 2)) := by
    refine Set.ncard_le_ncard ?_ (Set.toFinite _)
    rintro i ⟨-, h⟩
    fin_cases i
    · exact absurd hy h
    · simp
  rw [Set.ncard_singleton] at h
  rw [e0]
  simp only [Set.ncard_empty]
  omega

/-- **C156 is violated by the code**: choosing the fixed effects first and then dropping the variances that belong to dropped ones can be arbitrarily worse than
the nearest admissible point. With one fixed and one random effect to keep out of two, for every factor `c` there is a point `x` whose prox is more than `c` times as far
(in squared distance) as another admissible point, whatever the non-zero weights and however ties are broken. -/
theorem C156_violated (ws : L0LmeWeights K 2 2) (hb : ∀ i, ws.wb i ≠ 0) (hg : ∀ i, ws.wg i ≠ 0) (asAll : ArgSort (Fin 2) K)
    (alpha c : K) (hc : 0 ≤ c) :
    ∃ x y z : Vec K (2 + 2), (l0LmeRegularizer ⟨some 1, some 1, false⟩ pairMap (some ws) asAll).prox x alpha = .ok z ∧
      L0LmeAdmissible 1 1 false pairMap ws.wb ws.wg x y ∧ 0 < ∑ i, (y i - x i) ^ 2 ∧
      c * ∑ i, (y i - x i) ^ 2 < ∑ i, (z i - x i) ^ 2 := by
  set x : Vec K (2 + 2) := joinX ![2, 1] ![0, 4 * c + 1] with hx
  obtain ⟨z, hz, hadm, hall⟩ := C156_prox_partial 1 1 false pairMap ws asAll x alpha
  have x0 : x (Fin.castAdd 2 0) = 2 := (joinL _ _ _).trans rfl
  have x1 : x (Fin.castAdd 2 1) = 1 := (joinL _ _ _).trans rfl
  have x2 : x (Fin.natAdd 2 0) = 0 := (joinR _ _ _).trans rfl
  have x3 : x (Fin.natAdd 2 1) = 4 * c + 1 := (joinR _ _ _).trans rfl
  have hy : L0LmeAdmissible 1 1 false pairMap ws.wb ws.wg x (joinX ![0, 1] ![0, 4 * c + 1]) := by
    refine ⟨fun i hi => absurd hi (hb i), fun i hi => absurd hi (hg i), ?_, ?_, ?_⟩
    · exact one_le hb (joinL _ _ _)
    · exact one_le hg (joinR _ _ _)
    · intro _ j i hji _ h0
      have : j = i := Option.some.inj hji
      subst this
      rw [joinL] at h0
      rw [joinR]
      fin_cases j
      · rfl
      · exact absurd h0 one_ne_zero
  -- a competitor keeping the larger fixed effect
  have hy' : L0LmeAdmissible 1 1 false pairMap ws.wb ws.wg x (joinX ![2, 0] ![0, 0]) := by
    refine ⟨fun i hi => absurd hi (hb i), fun i hi => absurd hi (hg i), ?_, ?_, ?_⟩
    · have e0 : {i : Fin 2 | ws.wb i = 0} = ∅ := by ext i; simp [hb]
      have h : Set.ncard {i : Fin 2 | ws.wb i ≠ 0 ∧ joinX (![2, 0] : Vec K 2) ![0, 0] (Fin.castAdd 2 i) ≠ 0} ≤ Set.ncard ({0} : Set (Fin 2)) := by
        refine Set.ncard_le_ncard ?_ (Set.toFinite _)
        rintro i ⟨-, h⟩
        rw [joinL] at h
        fin_cases i
        · simp
        · exact absurd rfl h
      rw [Set.ncard_singleton] at h
      rw [e0]
      simp only [Set.ncard_empty]
      omega
    · exact one_le hg (joinR _ _ _)
    · intro _ j i _ _ _
      rw [joinR]
      fin_cases i <;> rfl
  have hbet := (hall _ hy').1
  simp only [Fin.sum_univ_two, x0, x1] at hbet
  have c0 : joinX (![2, 0] : Vec K 2) ![0, 0] (Fin.castAdd 2 0) = 2 := (joinL _ _ _).trans rfl
  have c1 : joinX (![2, 0] : Vec K 2) ![0, 0] (Fin.castAdd 2 1) = 0 := (joinL _ _ _).trans rfl
  rw [c0, c1] at hbet
  have z1 : z (Fin.castAdd 2 1) = 0 := by
    rcases ncard_le_one hb hadm.budgetB with h | h
    · rw [h] at hbet
      nlinarith [sq_nonneg (z (Fin.castAdd 2 1) - 1)]
    · exact h
  have z3 : z (Fin.natAdd 2 1) = 0 := hadm.hier rfl 1 1 rfl (hg 1) z1
  have dy : ∑ i, (joinX (![0, 1] : Vec K 2) ![0, 4 * c + 1] i - x i) ^ 2 = 4 := by
    rw [sum_split, Fin.sum_univ_two, Fin.sum_univ_two, x0, x1, x2, x3, joinL, joinL, joinR, joinR]
    simp; norm_num
  refine ⟨x, _, z, hz, hy, ?_, ?_⟩
  · rw [dy]; norm_num
  · rw [dy, sum_split, Fin.sum_univ_two, Fin.sum_univ_two, x0, x1, x2, x3, z1, z3]
    nlinarith [sq_nonneg (z (Fin.castAdd 2 0) - 2), sq_nonneg (z (Fin.natAdd 2 0) - 0)]

/-- Non-vacuity: such weights exist. -/
example : ∃ ws : L0LmeWeights ℚ 2 2, (∀ i, ws.wb i ≠ 0) ∧ ∀ i, ws.wg i ≠ 0 :=
  ⟨⟨fun _ => 1, fun _ => 1, Classical.choice (argSort_nonempty _ _), Classical.choice (argSort_nonempty _ _)⟩,
    fun _ => one_ne_zero, fun _ => one_ne_zero⟩

/-- Non-vacuity of both: a prox more than twice as far as an admissible point. -/
example : ∃ (ws : L0LmeWeights ℚ 2 2) (asAll : ArgSort (Fin 2) ℚ) (x y z : Vec ℚ (2 + 2)),
    (l0LmeRegularizer ⟨some 1, some 1, false⟩ pairMap (some ws) asAll).prox x 1 = .ok z ∧
      L0LmeAdmissible 1 1 false pairMap ws.wb ws.wg x y ∧ L0LmeAdmissible 1 1 false pairMap ws.wb ws.wg x z ∧
      2 * ∑ i, (y i - x i) ^ 2 < ∑ i, (z i - x i) ^ 2 := by
  obtain ⟨x, y, z, h1, h2, -, h3⟩ := C156_violated (K := ℚ)
    ⟨fun _ => 1, fun _ => 1, Classical.choice (argSort_nonempty _ _), Classical.choice (argSort_nonempty _ _)⟩
    (fun _ => one_ne_zero) (fun _ => one_ne_zero) (Classical.choice (argSort_nonempty _ _)) 1 2 (by norm_num)
  obtain ⟨z', hz', hadm, -⟩ := C156_prox_partial 1 1 false pairMap _ _ x 1
  rw [h1] at hz'
  cases hz'
  exact ⟨_, _, x, y, z, h1, h2, hadm, h3⟩

/-- **C156 is violated by the code**, second half: `prox` does not minimise `alpha * value(u) + 1/2 ||u - x||^2`, even with independent effects, because `value` only
compares the total number of non-zeros with the sum of the budgets. -/
theorem C156_value_violated (indep : Bool) (b2g : Fin 2 → Option (Fin 2)) (ws : L0LmeWeights K 2 2) (hb : ∀ i, ws.wb i ≠ 0)
    (asAll : ArgSort (Fin 2) K) (alpha : K) :
    ¬ (l0LmeRegularizer ⟨some 1, some 1, indep⟩ b2g (some ws) asAll).ExactAt alpha (joinX ![2, 1] ![0, 0]) := by
  rintro ⟨g, hg, z, hz, gz, hgz, hmin⟩
  set x : Vec K (2 + 2) := joinX ![2, 1] ![0, 0] with hx
  obtain ⟨z', hz', hadm, -⟩ := C156_prox_partial 1 1 indep b2g ws asAll x alpha
  obtain rfl : z = z' := by rw [hz] at hz'; exact Except.ok.inj hz'
  have hcard : ∀ u : Vec K (2 + 2), u (Fin.natAdd 2 0) = 0 → u (Fin.natAdd 2 1) = 0 → (numNonzero u : ℤ) ≤ 1 + 1 := by
    intro u h2 h3
    have h : numNonzero u ≤ Set.ncard ({Fin.castAdd 2 0, Fin.castAdd 2 1} : Set (Fin (2 + 2))) := by
      refine Set.ncard_le_ncard ?_ (Set.toFinite _)
      intro i hi
      induction i using Fin.addCases with
      | left i => fin_cases i <;> simp
      | right i =>
        fin_cases i
        · exact absurd h2 hi
        · exact absurd h3 hi
    have := Set.ncard_insert_le (Fin.castAdd 2 0 : Fin (2 + 2)) {Fin.castAdd 2 1}
    rw [Set.ncard_singleton] at this
    omega
  have hval := fun u h2 h3 => (C14_l0lme_value 1 1 indep b2g (some ws) asAll u).1 (hcard u h2 h3)
  obtain ⟨z'', hz'', -, -, -, -, hcases, -⟩ := C14_l0lme_budget_hierarchy 1 1 indep b2g ws asAll x alpha
  obtain rfl : z = z'' := by rw [hz] at hz''; exact Except.ok.inj hz''
  have x2 : x (Fin.natAdd 2 0) = 0 := (joinR _ _ _).trans rfl
  have x3 : x (Fin.natAdd 2 1) = 0 := (joinR _ _ _).trans rfl
  have hgx : g x = ((0 : K) : WithTop K) := by
    have := hval x x2 x3
    rw [hg] at this; exact Except.ok.inj this
  have z2 : z (Fin.natAdd 2 0) = 0 := (hcases (Fin.natAdd 2 0)).elim (fun h => h.trans x2) id
  have z3 : z (Fin.natAdd 2 1) = 0 := (hcases (Fin.natAdd 2 1)).elim (fun h => h.trans x3) id
  have hgz0 : g z = ((0 : K) : WithTop K) := by
    have := hval z z2 z3
    rw [hg] at this; exact Except.ok.inj this
  have hz0 : gz = 0 := WithTop.coe_injective (hgz.symm.trans hgz0)
  have := hmin x 0 hgx
  rw [hz0] at this
  have hxx : normSq (x - x) = 0 := by simp [normSq]
  rw [hxx] at this
  have hsum : normSq (z - x) = ∑ i, (z i - x i) ^ 2 := rfl
  rw [hsum, sum_split, Fin.sum_univ_two, Fin.sum_univ_two] at this
  have x0 : x (Fin.castAdd 2 0) = 2 := (joinL _ _ _).trans rfl
  have x1 : x (Fin.castAdd 2 1) = 1 := (joinL _ _ _).trans rfl
  rw [x0, x1, x2, x3, z2, z3] at this
  rcases ncard_le_one hb hadm.budgetB with h | h <;> rw [h] at this
  · nlinarith [sq_nonneg (z (Fin.castAdd 2 1) - 1)]
  · nlinarith [sq_nonneg (z (Fin.castAdd 2 0) - 2)]

end Verif
