import Verif.Lemmas.Vector
import Mathlib.Tactic.NormNum
import Mathlib.Tactic.FinCases
import Mathlib.Data.Rat.Defs
import Mathlib.Algebra.Order.Ring.Rat

/-!
# Properties C01–C07, C11–C13: regularizers, value and prox
-/

namespace Verif

variable {K : Type*} [Field K] [LinearOrder K] [IsStrictOrderedRing K] {n : ℕ}

/-! ## C01 -/

/-- **C01.** `L0Regularizer(nnz=k).prox(x, alpha)` without weights is a best `k`-sparse approximation of `x`, for every tie-breaking
of the sort. -/
theorem C01_l0_prox_best_sparse (k : ℤ) (as : ArgSort (Fin n) K) (x : Vec K n) (alpha : K) :
    ∃ b, (l0Regularizer (some k) as none).prox x alpha = .ok b ∧
      (∀ i, b i = x i ∨ b i = 0) ∧
      (numNonzero b : ℤ) ≤ max k 0 ∧
      (∃ S : Finset (Fin n), (S.card : ℤ) = min (max k 0) n ∧ (∀ i ∈ S, b i = x i) ∧ (∀ i ∉ S, b i = 0) ∧
        ∀ i ∈ S, ∀ j ∉ S, |x j| ≤ |x i|) ∧
      (∀ u : Vec K n, (numNonzero u : ℤ) ≤ max k 0 → ∑ i, (b i - x i) ^ 2 ≤ ∑ i, (u i - x i) ^ 2) ∧
      ((n : ℤ) ≤ k → b = x) := by
  classical
  refine ⟨takeOnlyKMax as x k, rfl, takeOnlyKMax_cases as x k, ?_, ⟨keptSet as x k, ?_, ?_, ?_, ?_⟩, ?_, ?_⟩
  · rw [numNonzero_eq]
    have := takeOnlyKMax_nnz as x k
    omega
  · have := keptSet_card as x k
    rw [Fintype.card_fin] at this
    omega
  · intro i hi; rw [takeOnlyKMax_eq]; simp [hi]
  · intro i hi; rw [takeOnlyKMax_eq]; simp [hi]
  · intro i hi j hj; exact keptSet_dom as x k hi hj
  · intro u hu
    rw [numNonzero_eq] at hu
    exact takeOnlyKMax_best as x k u (by omega)
  · intro h
    exact takeOnlyKMax_full as x k (by simpa using h)

/-- Non-vacuity of C01: for `x = (3, -5, 1)`, `k = 1`, whatever the sort, only `-5` survives. -/
example (as : ArgSort (Fin 3) ℚ) :
    (l0Regularizer (some 1) as none).prox ![3, -5, 1] 1 = .ok ![0, -5, 0] := by
  obtain ⟨b, hb, _, _, ⟨S, hS, h1, h2, h3⟩, _⟩ := C01_l0_prox_best_sparse 1 as ![3, -5, 1] 1
  rw [hb]
  have hc : S.card = 1 := by
    have : (S.card : ℤ) = 1 := by rw [hS]; decide
    exact_mod_cast this
  obtain ⟨a, rfl⟩ := Finset.card_eq_one.1 hc
  have ha : a = 1 := by
    by_contra hne
    have := h3 a (by simp) 1 (by simpa using Ne.symm hne)
    fin_cases a <;> simp at this hne
    norm_num [abs_of_pos] at this
  subst ha
  congr 1
  funext i
  fin_cases i
  · exact h2 0 (by decide)
  · exact h1 1 (by decide)
  · exact h2 2 (by decide)

/-! ## C02 -/

/-- **C02.** With weights attached, the `L0Regularizer` prox never changes a coordinate of weight `0`, keeps at most
`max(nnz - m, 0)` nonzeros among the others (`m` = number of weight-0 coordinates), hence at most `nnz` overall if `m ≤ nnz`, and is
the closest vector to `x` with these two constraints. -/
theorem C02_l0_prox_weights (k : ℤ) (asAll : ArgSort (Fin n) K) (ws : L0Weights K n) (x : Vec K n) (alpha : K) :
    ∃ b, (l0Regularizer (some k) asAll (some ws)).prox x alpha = .ok b ∧
      (∀ i, ws.w i = 0 → b i = x i) ∧
      (∀ i, b i = x i ∨ b i = 0) ∧
      (Set.ncard {i | ws.w i ≠ 0 ∧ b i ≠ 0} : ℤ) ≤ max (k - (Set.ncard {i | ws.w i = 0} : ℤ)) 0 ∧
      ((Set.ncard {i | ws.w i = 0} : ℤ) ≤ k → (numNonzero b : ℤ) ≤ k) ∧
      (∀ u : Vec K n, (∀ i, ws.w i = 0 → u i = x i) →
        (Set.ncard {i | ws.w i ≠ 0 ∧ u i ≠ 0} : ℤ) ≤ max (k - (Set.ncard {i | ws.w i = 0} : ℤ)) 0 →
        ∑ i, (b i - x i) ^ 2 ≤ ∑ i, (u i - x i) ^ 2) := by
  have e1 : {i | ws.w i = 0} = {i | participation ws.w i = false} := by ext i; simp [participation]
  have e2 : ∀ u : Vec K n, Set.ncard {i | ws.w i ≠ 0 ∧ u i ≠ 0} = nnzOn (participation ws.w) u := by
    intro u; unfold nnzOn; congr 1; ext i; simp [participation]
  refine ⟨maskedKMax (participation ws.w) ws.as x k, rfl, ?_, maskedKMax_cases _ _ x k, ?_, ?_, ?_⟩
  · intro i hi
    exact maskedKMax_off _ _ x k i (by simp [participation, hi])
  · rw [e1, e2]; exact maskedKMax_nnzOn _ _ x k
  · intro hm
    rw [e1] at hm
    have h1 := maskedKMax_nnzOn (participation ws.w) ws.as x k
    have h2 := nnz_split (participation ws.w) (maskedKMax (participation ws.w) ws.as x k)
    omega
  · intro u hu hn
    rw [e1, e2] at hn
    exact maskedKMax_best _ _ x k u (fun i hi => hu i (by simpa [participation] using hi)) hn

/-- **C02**, `nnz=None`: with or without weights, prox returns its argument. -/
theorem C02_l0_prox_none (asAll : ArgSort (Fin n) K) (ws : Option (L0Weights K n)) (x : Vec K n) (alpha : K) :
    (l0Regularizer none asAll ws).prox x alpha = .ok x := by
  cases ws with
  | none =>
    simp only [l0Regularizer]
    rw [takeOnlyKMax_full _ _ _ (by simp)]
  | some ws =>
    simp only [l0Regularizer, Except.ok.injEq]
    funext i
    by_cases h : participation ws.w i = true
    · rw [maskedKMax_on _ _ _ _ ⟨i, h⟩, takeOnlyKMax_full]
      have h1 := Fintype.card_subtype_compl (fun i => participation ws.w i = true)
      have h2 : Fintype.card {i // participation ws.w i = true} ≤ Fintype.card (Fin n) := Fintype.card_subtype_le _
      have h3 : Fintype.card {i // participation ws.w i = false} = Fintype.card {i // ¬ participation ws.w i = true} :=
        Fintype.card_congr (Equiv.subtypeEquivRight fun i => by simp)
      rw [Fintype.card_fin] at h1 h2
      omega
    · exact maskedKMax_off _ _ _ _ i (by simpa using h)

/-- Non-vacuity of C02: weights `(1, 0, 1)` and budget 2 satisfy the hypothesis `m ≤ nnz` with `m = 1`. -/
example : (Set.ncard {i : Fin 3 | (![1, 0, 1] : Vec ℚ 3) i = 0} : ℤ) ≤ 2 := by
  have : {i : Fin 3 | (![1, 0, 1] : Vec ℚ 3) i = 0} = {1} := by
    ext i; fin_cases i <;> simp
  rw [this]; simp

/-! ## C03, C13: L1 -/

/-- **C03.** The L1 prox is the unique minimiser of `alpha * lam * sum w_i |z_i| + 1/2 ||z - x||^2`. -/
theorem C03_l1_prox_unique_min (lam : K) (w : Vec K n) (x : Vec K n) (alpha : K)
    (hlam : 0 ≤ lam) (hw : ∀ i, 0 ≤ w i) (ha : 0 ≤ alpha) :
    (∃ z, (l1Regularizer lam (some w)).prox x alpha = .ok z ∧ IsUniqueProxOf (l1Penalty lam w) alpha x z) ∧
    (∃ z, (l1Regularizer lam none).prox x alpha = .ok z ∧ IsUniqueProxOf (l1Penalty lam fun _ => 1) alpha x z) := by
  have aux : ∀ v : Vec K n, (∀ i, 0 ≤ v i) →
      IsUniqueProxOf (l1Penalty lam v) alpha x (fun i => soft (alpha * v i * lam) (x i)) := by
    intro v hv
    have h := isUniqueProxOf_of_coord (fun i u => lam * (v i * |u|)) alpha x
      (fun i => soft (alpha * v i * lam) (x i)) (fun i u hne => by
        have ht : 0 ≤ alpha * v i * lam := mul_nonneg (mul_nonneg ha (hv i)) hlam
        have := soft_strong (alpha * v i * lam) (x i) u ht
        have hp : 0 < (u - soft (alpha * v i * lam) (x i)) ^ 2 := by
          have := sub_ne_zero.2 hne; positivity
        have e : ∀ y : K, alpha * (lam * (v i * |y|)) = alpha * v i * lam * |y| := fun y => by ring
        rw [e, e]; linarith)
    have e : (fun u : Vec K n => ((∑ i, lam * (v i * |u i|) : K) : WithTop K)) = l1Penalty lam v := by
      funext u; rw [← Finset.mul_sum]; rfl
    rw [← e]; exact h
  refine ⟨⟨_, rfl, aux w hw⟩, ⟨_, rfl, ?_⟩⟩
  have := aux (fun _ => 1) (fun _ => zero_le_one)
  simpa using this

/-- Non-vacuity of C03: a case with a zero, a shrunk and an unregularized coordinate. -/
example : (l1Regularizer (2 : ℚ) (some ![1, 1, 0])).prox ![3, -1, 5] 1 = .ok ![1, 0, 5] := by
  simp only [l1Regularizer, Except.ok.injEq]
  funext i; fin_cases i <;> norm_num [soft, clip0]

/-- **C13.** The L1 prox is firmly nonexpansive, hence nonexpansive. -/
theorem C13_l1_prox_firmly_nonexpansive (lam : K) (weights : Option (Vec K n)) (alpha : K) (x y zx zy : Vec K n)
    (ha : 0 ≤ alpha) (hlam : 0 ≤ lam) (hw : ∀ w, weights = some w → ∀ i, 0 ≤ w i)
    (hx : (l1Regularizer lam weights).prox x alpha = .ok zx) (hy : (l1Regularizer lam weights).prox y alpha = .ok zy) :
    ∑ i, (zx i - zy i) ^ 2 ≤ ∑ i, (zx i - zy i) * (x i - y i) ∧
    ∑ i, (zx i - zy i) ^ 2 ≤ ∑ i, (x i - y i) ^ 2 := by
  have key : ∀ i, ∃ t : K, 0 ≤ t ∧ zx i = soft t (x i) ∧ zy i = soft t (y i) := by
    intro i
    cases weights with
    | none =>
      simp only [l1Regularizer, Except.ok.injEq] at hx hy
      exact ⟨alpha * lam, mul_nonneg ha hlam, by rw [← hx], by rw [← hy]⟩
    | some w =>
      simp only [l1Regularizer, Except.ok.injEq] at hx hy
      exact ⟨alpha * w i * lam, mul_nonneg (mul_nonneg ha (hw w rfl i)) hlam, by rw [← hx], by rw [← hy]⟩
  have h1 : ∀ i, (zx i - zy i) ^ 2 ≤ (zx i - zy i) * (x i - y i) := by
    intro i
    obtain ⟨t, ht, h1, h2⟩ := key i
    rw [h1, h2]; exact soft_firm _ _ ht
  refine ⟨Finset.sum_le_sum fun i _ => h1 i, Finset.sum_le_sum fun i _ => ?_⟩
  have h2 := h1 i
  have h3 := sq_nonneg ((zx i - zy i) - (x i - y i))
  nlinarith

/-- Non-vacuity of C13: two inputs with distinct outputs. -/
example : ∃ zx zy, (l1Regularizer (1 : ℚ) none).prox ![3] 1 = .ok zx ∧ (l1Regularizer (1 : ℚ) none).prox ![0] 1 = .ok zy ∧
    zx ≠ zy := by
  refine ⟨_, _, rfl, rfl, fun h => ?_⟩
  have := congrFun h 0
  norm_num [soft, clip0] at this

/-! ## C04: value and prox of L1 -/

/-- **C04** (the part that holds): without weights, or with weights when `lam = 1`, the L1 prox minimises the regularizer's own `value`.
Missing: weights attached and `lam ≠ 1`, where the property is false (`C04_l1_value_violated`). -/
theorem C04_l1_value_partial (lam : K) (w : Vec K n) (x : Vec K n) (alpha : K)
    (hlam : 0 ≤ lam) (hw : ∀ i, 0 ≤ w i) (ha : 0 ≤ alpha) :
    (l1Regularizer lam none).UniquelyExactAt alpha x ∧ (l1Regularizer 1 (some w)).UniquelyExactAt alpha x := by
  constructor
  · obtain ⟨_, z, hz, hp⟩ := C03_l1_prox_unique_min lam w x alpha hlam hw ha
    refine ⟨l1Penalty lam fun _ => 1, fun u => ?_, z, hz, hp⟩
    simp [l1Regularizer, l1Penalty]
  · obtain ⟨⟨z, hz, hp⟩, _⟩ := C03_l1_prox_unique_min 1 w x alpha zero_le_one hw ha
    refine ⟨l1Penalty 1 w, fun u => ?_, z, hz, hp⟩
    simp [l1Regularizer, l1Penalty]

/-- **C04 is violated by the code** for every strength `lam ≠ 1` once weights (here: all ones, the default of every model) are
attached: `value` drops `lam`, so prox does not minimise it. -/
theorem C04_l1_value_violated (lam : K) (h0 : 0 ≤ lam) (h1 : lam ≠ 1) :
    ¬ (l1Regularizer lam (some (fun _ : Fin 1 => 1))).ExactAt 1 (fun _ => lam + 2) := by
  rintro ⟨g, hg, z, hz, gz, hgz, hmin⟩
  simp only [l1Regularizer, Except.ok.injEq] at hz
  have hz0 : z 0 = 2 := by
    rw [← hz]
    have : soft (1 * 1 * lam) (lam + 2) = lam + 2 - 1 * 1 * lam := soft_of_ge (by simpa using h0) (by linarith)
    rw [this]; ring
  have hgz' : gz = 2 := by
    have := hg z
    rw [hgz] at this
    simp only [l1Regularizer, Except.ok.injEq, WithTop.coe_inj] at this
    rw [← this]
    simp [hz0]
  have hgu : g (fun _ => lam + 1) = ((lam + 1 : K) : WithTop K) := by
    have := hg (fun _ => lam + 1)
    simp only [l1Regularizer, Except.ok.injEq] at this
    rw [← this]
    simp [abs_of_nonneg (by linarith : 0 ≤ lam + 1)]
  have := hmin (fun _ => lam + 1) (lam + 1) hgu
  simp only [normSq, Fin.sum_univ_one, Pi.sub_apply, Fin.sum_univ_zero, hz0, hgz', Fin.isValue] at this
  have hpos : 0 < (lam - 1) ^ 2 := by
    have := sub_ne_zero.2 h1; positivity
  nlinarith

/-! ## C05: CAD -/

/-- **C05** (the part that holds): with weights in `{0,1}` (or none) the CAD prox is exact at every `x` none of whose
regularized coordinates lies in the band `rho < |x_i| < rho + alpha*lam/2`. Missing: the band (`C05_cad_violated`) and general weights. -/
theorem C05_cad_exact_partial (rho lam alpha : K) (x : Vec K n) (hrho : 0 ≤ rho) (hlam : 0 ≤ lam) (ha : 0 ≤ alpha) :
    (∀ w : Vec K n, (∀ i, w i = 0 ∨ w i = 1) →
      (∀ i, w i = 1 → |x i| ≤ rho ∨ rho + alpha * lam / 2 ≤ |x i|) →
      (cadRegularizer rho lam (some w)).ExactAt alpha x) ∧
    ((∀ i, |x i| ≤ rho ∨ rho + alpha * lam / 2 ≤ |x i|) → (cadRegularizer rho lam none).ExactAt alpha x) := by
  have ht : 0 ≤ alpha * lam := mul_nonneg ha hlam
  have one : ∀ y : K, (|y| ≤ rho ∨ rho + alpha * lam / 2 ≤ |y|) →
      IsProx1 (fun u => lam * min |u| rho) alpha y (if |y| ≤ rho then soft (alpha * lam) y else y) := by
    intro y hy u
    have e : ∀ v : K, alpha * (lam * min |v| rho) = alpha * lam * min |v| rho := fun v => by ring
    simp only [e]
    by_cases h : |y| ≤ rho
    · rw [if_pos h]; exact cad_small _ _ _ _ ht h
    · rw [if_neg h]
      exact cad_large _ _ _ _ ht (hy.resolve_left h)
  constructor
  · intro w hw hx
    refine ⟨fun u => ((∑ i, lam * min (w i * |u i|) rho : K) : WithTop K), fun u => ?_, _, rfl, ?_⟩
    · simp [cadRegularizer, Finset.mul_sum]
    · refine isProxOf_of_coord (fun i u => lam * min (w i * |u|) rho) alpha x _ fun i => ?_
      rcases hw i with h | h
      · intro u
        have : ¬ (|x i| ≤ rho ∧ 0 < w i) := by rw [h]; simp
        rw [if_neg this, h]
        have := sq_nonneg (u - x i)
        simp [hrho]; linarith
      · have := one (x i) (hx i h)
        simp only [h, zero_lt_one, and_true, one_mul]
        exact this
  · intro hx
    refine ⟨fun u => ((∑ i, lam * min (|u i|) rho : K) : WithTop K), fun u => ?_, _, rfl, ?_⟩
    · simp [cadRegularizer, Finset.mul_sum]
    · exact isProxOf_of_coord (fun _ u => lam * min |u| rho) alpha x _ fun i => one (x i) (hx i)

/-- Non-vacuity of C05: one coordinate below the cut-off, one beyond the band, one must-include coordinate inside the band. -/
example : (cadRegularizer (1 : ℚ) 1 (some ![1, 1, 0])).ExactAt 1 ![1/2, 2, 5/4] := by
  refine (C05_cad_exact_partial 1 1 1 _ (by norm_num) (by norm_num) (by norm_num)).1 _ ?_ ?_
  · intro i; fin_cases i <;> simp
  · intro i hi; fin_cases i
    · left; norm_num [abs_of_pos]
    · right; norm_num [abs_of_pos]
    · simp at hi

/-- **C05 is violated by the code** for every coordinate in the band: the CAD prox keeps `x`, but soft-thresholding it is strictly better.
(Second hypothesis `alpha*lam ≤ |x|`: soft-thresholding does not clip.) -/
theorem C05_cad_violated (rho lam alpha x : K) (h1 : rho < |x|) (h2 : |x| < rho + alpha * lam / 2) (h3 : alpha * lam ≤ |x|) :
    ¬ (cadRegularizer rho lam none).ExactAt alpha (fun _ : Fin 1 => x) := by
  rintro ⟨g, hg, z, hz, gz, hgz, hmin⟩
  simp only [cadRegularizer, Except.ok.injEq] at hz
  have hz0 : z 0 = x := by rw [← hz]; simp [not_le.2 h1]
  have hv : ∀ y : K, g (fun _ => y) = ((lam * min |y| rho : K) : WithTop K) := by
    intro y
    have := hg (fun _ => y)
    simp only [cadRegularizer, Except.ok.injEq] at this
    rw [← this]; simp
  have hzc : z = fun _ => x := by funext i; rw [Subsingleton.elim i 0, hz0]
  rw [hzc, hv, WithTop.coe_inj] at hgz
  have := hmin (fun _ => soft (alpha * lam) x) _ (hv _)
  simp only [normSq, Fin.sum_univ_one, Pi.sub_apply, hz0, ← hgz] at this
  have hb := cad_band (alpha * lam) rho x h1 h2 h3
  have e : ∀ v : K, alpha * (lam * min |v| rho) = alpha * lam * min |v| rho := fun v => by ring
  rw [e, e] at this
  linarith

/-- Concrete witness for `C05_cad_violated`: `rho = 1`, `lam = alpha = 1`, `x = 5/4`. -/
example : ¬ (cadRegularizer (1 : ℚ) 1 none).ExactAt 1 (fun _ : Fin 1 => 5/4) :=
  C05_cad_violated 1 1 1 (5/4) (by norm_num [abs_of_pos]) (by norm_num [abs_of_pos]) (by norm_num [abs_of_pos])

/-! ## C06: SCAD -/

/-- **C06** (strongly convex regime): whenever `alpha*lam*w_i < rho - 1` for all coordinates, the SCAD prox never produces a NaN
and is an exact minimiser for the regularizer's own `value`, the only one. Missing: the regime `alpha*lam*w_i ≥ rho - 1`, where the
property is false (`C06_scad_nan`, `C06_scad_violated`). -/
theorem C06_scad_exact_partial (rho sigma lam alpha : K) (weights : Option (Vec K n)) (x : Vec K n)
    (hrho : 1 < rho) (hs : 0 ≤ sigma) (hlam : 0 ≤ lam) (ha : 0 ≤ alpha)
    (hw : ∀ i, 0 ≤ weightsOrOnes weights i) (hreg : ∀ i, alpha * lam * weightsOrOnes weights i < rho - 1) :
    (scadRegularizer rho sigma lam weights).ExactAt alpha x ∧
    ((∀ i, weightsOrOnes weights i ≠ 0) → (scadRegularizer rho sigma lam weights).UniquelyExactAt alpha x) := by
  set w := weightsOrOnes weights
  have hr0 : 0 < rho - 1 := by linarith
  have hval : ∀ u : Vec K n, (scadRegularizer rho sigma lam weights).value u =
      .ok ((∑ i, lam * scadTerm rho sigma (w i) (u i) : K) : WithTop K) := by
    intro u; simp [scadRegularizer, Finset.mul_sum, w]
  have coord : ∀ i, ∃ z, scadProx1 rho sigma (w i) (alpha * lam * w i) (x i) = .ok z ∧
      IsProx1 (fun u => lam * scadTerm rho sigma (w i) u) alpha (x i) z ∧
      (w i ≠ 0 → IsUniqueProx1 (fun u => lam * scadTerm rho sigma (w i) u) alpha (x i) z) := by
    intro i
    by_cases h0 : w i = 0
    · refine ⟨x i, by simp [scadProx1, h0], fun u => ?_, fun h => absurd h0 h⟩
      have e : ∀ v : K, scadTerm rho sigma (w i) v = 0 := fun v => by rw [scadTerm_weight, h0, zero_mul]
      have := sq_nonneg (u - x i)
      simp only [e]; simp; linarith
    · obtain ⟨z, hz, _, hstrong⟩ := scadProx1_strong rho sigma (w i) (alpha * lam * w i) (x i) hrho hs
        (mul_nonneg (mul_nonneg ha hlam) (hw i)) (hreg i) h0
      have e : ∀ v : K, alpha * (lam * scadTerm rho sigma (w i) v) = alpha * lam * w i * scadTerm rho sigma 1 v := by
        intro v; rw [scadTerm_weight]; ring
      have hd : 0 < rho - 1 - alpha * lam * w i := by linarith [hreg i]
      refine ⟨z, hz, fun u => ?_, fun _ u hne => ?_⟩
      · simp only [e]
        have h1 := hstrong u
        have h2 := mul_nonneg hd.le (sq_nonneg (u - z))
        have h3 : 2 * (rho - 1) * (alpha * lam * w i * scadTerm rho sigma 1 z + (z - x i) ^ 2 / 2) ≤
          2 * (rho - 1) * (alpha * lam * w i * scadTerm rho sigma 1 u + (u - x i) ^ 2 / 2) := by linarith
        exact le_of_mul_le_mul_left h3 (by linarith)
      · simp only [e]
        have h1 := hstrong u
        have h2 : 0 < (rho - 1 - alpha * lam * w i) * (u - z) ^ 2 := by
          have := sub_ne_zero.2 hne; positivity
        have h3 : 2 * (rho - 1) * (alpha * lam * w i * scadTerm rho sigma 1 z + (z - x i) ^ 2 / 2) <
          2 * (rho - 1) * (alpha * lam * w i * scadTerm rho sigma 1 u + (u - x i) ^ 2 / 2) := by linarith
        exact lt_of_mul_lt_mul_left h3 (by linarith)
  choose z hz hp hu using coord
  have hprox : (scadRegularizer rho sigma lam weights).prox x alpha = .ok z := (collect_ok_iff _ _).2 hz
  refine ⟨⟨_, hval, z, hprox, isProxOf_of_coord (fun i u => lam * scadTerm rho sigma (w i) u) alpha x z hp⟩, fun hne =>
    ⟨_, hval, z, hprox, isUniqueProxOf_of_coord (fun i u => lam * scadTerm rho sigma (w i) u) alpha x z fun i => hu i (hne i)⟩⟩

/-- Non-vacuity of C06: the default `rho = 3.7`, `sigma = 1/2`, with all three branches of the prox taken. -/
example : (scadRegularizer (37/10 : ℚ) (1/2) 1 none).UniquelyExactAt (1/2) ![1/10, 1, 3] :=
  (C06_scad_exact_partial (37/10) (1/2) 1 (1/2) none _ (by norm_num) (by norm_num) (by norm_num) (by norm_num)
    (fun _ => by norm_num [weightsOrOnes]) (fun _ => by norm_num [weightsOrOnes])).2 (fun _ => by norm_num [weightsOrOnes])

/-- **C06 is violated by the code**: when `alpha*lam*w = rho - 1` the prox computes `0/0` at `|x| = rho*sigma`. -/
theorem C06_scad_nan (rho sigma lam alpha : K) (hrho : 1 < rho) (hs : 0 ≤ sigma) (heq : alpha * lam = rho - 1) :
    (scadRegularizer rho sigma lam none).prox (fun _ : Fin 1 => rho * sigma) alpha = .error .nan ∧
    (rho - 1) * (rho * sigma) - npSign (rho * sigma) * rho * sigma * (alpha * lam) = 0 := by
  have hx : 0 ≤ rho * sigma := mul_nonneg (by linarith) hs
  constructor
  · have e1 : max rho (1 + (rho - 1)) = rho := by rw [max_eq_left]; linarith
    have e2 : sigma * (1 + (rho - 1)) = rho * sigma := by ring
    have : scadProx1 rho sigma 1 (alpha * lam * 1) (rho * sigma) = .error .nan := by
      unfold scadProx1
      rw [mul_one, heq, e1, e2, abs_of_nonneg hx]
      simp
    have hc : ∀ f : Fin 1 → Except PyErr K, f 0 = .error .nan → collect f = .error .nan := by
      intro f hf; simp [collect, hf, bind, Except.bind]
    simp only [scadRegularizer]
    apply hc
    simpa [weightsOrOnes] using this
  · rw [heq]
    rcases hx.lt_or_eq with h | h
    · simp [npSign, h]; ring
    · have hs0 : sigma = 0 := by
        rcases mul_eq_zero.1 h.symm with h' | h'
        · linarith
        · exact h'
      simp [hs0]

/-- **C06 is violated by the code** beyond the strongly convex regime: with `rho = 2`, `sigma = 1`, `alpha*lam = 2` the prox at `11/4`
soft-thresholds to `3/4`, although keeping `11/4` has a smaller objective (`3` instead of `7/2`). -/
theorem C06_scad_violated : ¬ (scadRegularizer (2 : ℚ) 1 2 none).ExactAt 1 (fun _ : Fin 1 => 11/4) := by
  rintro ⟨g, hg, z, hz, gz, hgz, hmin⟩
  have hz' := (collect_ok_iff _ _).1 hz 0
  have hz0 : z 0 = 3/4 := by
    norm_num [scadProx1, weightsOrOnes, soft, clip0, abs_of_pos] at hz'
    exact hz'.symm
  have hv : ∀ y : ℚ, g (fun _ => y) = ((2 * scadTerm 2 1 1 y : ℚ) : WithTop ℚ) := by
    intro y
    have := hg (fun _ => y)
    simp only [scadRegularizer, Except.ok.injEq] at this
    rw [← this]; simp [weightsOrOnes]
  have hzc : z = fun _ => 3/4 := by funext i; rw [Subsingleton.elim i 0, hz0]
  rw [hzc, hv, WithTop.coe_inj] at hgz
  have := hmin (fun _ => 11/4) _ (hv _)
  simp only [normSq, Fin.sum_univ_one, Pi.sub_apply, hz0, ← hgz] at this
  norm_num [scadTerm, abs_of_pos] at this

/-! ## C07: shape of the penalties -/

theorem scadTerm_mono (rho sigma w : K) (hr : 1 < rho) (hs : 0 ≤ sigma) (hw : 0 ≤ w) {a b : K} (h : |a| ≤ |b|) :
    scadTerm rho sigma w a ≤ scadTerm rho sigma w b := by
  rw [scadTerm_weight rho sigma w a, scadTerm_weight rho sigma w b]
  refine mul_le_mul_of_nonneg_left ?_ hw
  rw [← scadTerm_abs rho sigma 1 a, ← scadTerm_abs rho sigma 1 b]
  have ha := abs_nonneg a
  have hb := abs_nonneg b
  generalize |a| = a at *
  generalize |b| = b at *
  have hr0 : 0 < 2 * (rho - 1) := by linarith
  rcases scad_pieces rho sigma a hr hs ha with ⟨a1, a2, _⟩ | ⟨a1, a2, a3, _⟩ | ⟨a1, a2, a3, _⟩ <;>
  rcases scad_pieces rho sigma b hr hs hb with ⟨b1, b2, b3⟩ | ⟨b1, b2, b3, b4⟩ | ⟨b1, b2, b3, b4⟩
  · rw [a2, b2]; exact mul_le_mul_of_nonneg_left h hs
  · refine le_of_mul_le_mul_right ?_ hr0
    rw [b3, a2]; nlinarith
  · rw [a2, b3]; nlinarith
  · linarith
  · refine le_of_mul_le_mul_right ?_ hr0
    rw [b3, a3]; nlinarith
  · refine le_of_mul_le_mul_right ?_ hr0
    rw [a3, b3]; nlinarith [sq_nonneg (a - rho * sigma)]
  · linarith
  · linarith
  · rw [a3, b3]

/-- One coordinate of SCAD is Lipschitz with constant `w * sigma`; in particular there is no jump at the knots. -/
theorem scadTerm_lipschitz (rho sigma w : K) (hr : 1 < rho) (hs : 0 ≤ sigma) (hw : 0 ≤ w) (a b : K) :
    |scadTerm rho sigma w a - scadTerm rho sigma w b| ≤ w * sigma * |a - b| := by
  have main : ∀ a b : K, |a| ≤ |b| → scadTerm rho sigma 1 b - scadTerm rho sigma 1 a ≤ sigma * (|b| - |a|) := by
    intro a b h
    rw [← scadTerm_abs rho sigma 1 a, ← scadTerm_abs rho sigma 1 b]
    have ha := abs_nonneg a
    have hb := abs_nonneg b
    generalize |a| = a at *
    generalize |b| = b at *
    have hr0 : 0 < 2 * (rho - 1) := by linarith
    rcases scad_pieces rho sigma a hr hs ha with ⟨a1, a2, _⟩ | ⟨a1, a2, a3, _⟩ | ⟨a1, a2, a3, _⟩ <;>
    rcases scad_pieces rho sigma b hr hs hb with ⟨b1, b2, b3⟩ | ⟨b1, b2, b3, b4⟩ | ⟨b1, b2, b3, b4⟩
    · rw [a2, b2]; linarith
    · refine le_of_mul_le_mul_right ?_ hr0
      rw [sub_mul, b3, a2]; nlinarith [sq_nonneg (b - sigma)]
    · rw [a2, b3]; nlinarith [sq_nonneg (rho * sigma - sigma)]
    · linarith
    · refine le_of_mul_le_mul_right ?_ hr0
      rw [sub_mul, b3, a3]; nlinarith
    · refine le_of_mul_le_mul_right ?_ hr0
      rw [sub_mul, a3, b3]; nlinarith [sq_nonneg (a - sigma), mul_nonneg hs hr0.le]
    · linarith
    · linarith
    · rw [a3, b3]; nlinarith
  have key : ∀ a b : K, |a| ≤ |b| →
      |scadTerm rho sigma w a - scadTerm rho sigma w b| ≤ w * sigma * |a - b| := by
    intro a b h
    rw [abs_sub_comm, abs_of_nonneg (sub_nonneg.2 (scadTerm_mono rho sigma w hr hs hw h)),
      scadTerm_weight rho sigma w a, scadTerm_weight rho sigma w b]
    have h1 := mul_le_mul_of_nonneg_left (main a b h) hw
    have h2 : |b| - |a| ≤ |a - b| := by rw [abs_sub_comm]; exact abs_sub_abs_le_abs_sub b a
    have h3 := mul_le_mul_of_nonneg_left h2 (mul_nonneg hw hs)
    nlinarith
  rcases le_total |a| |b| with h | h
  · exact key a b h
  · rw [abs_sub_comm, abs_sub_comm a b]; exact key b a h

/-- **C07**, L1: for weights `≥ 0` and `lam ≥ 0` the value is finite, `≥ 0`, vanishes at `0`, and is monotone in absolute values. -/
theorem C07_l1_shape (lam : K) (weights : Option (Vec K n)) (hlam : 0 ≤ lam) (hw : ∀ i, 0 ≤ weightsOrOnes weights i) :
    ∃ g, (l1Regularizer lam weights).WellShaped g := by
  cases weights with
  | none =>
    refine ⟨fun u => lam * ∑ i, |u i|, fun u => rfl, fun u => ?_, by simp, fun u v h => ?_⟩
    · exact mul_nonneg hlam (Finset.sum_nonneg fun i _ => abs_nonneg _)
    · exact mul_le_mul_of_nonneg_left (Finset.sum_le_sum fun i _ => h i) hlam
  | some w =>
    refine ⟨fun u => ∑ i, w i * |u i|, fun u => rfl, fun u => ?_, by simp, fun u v h => ?_⟩
    · exact Finset.sum_nonneg fun i _ => mul_nonneg (hw i) (abs_nonneg _)
    · exact Finset.sum_le_sum fun i _ => mul_le_mul_of_nonneg_left (h i) (hw i)

/-- **C07**, CAD: additionally, the value is constant (`lam * rho * n`) once every weighted coordinate reaches `rho`. -/
theorem C07_cad_shape (rho lam : K) (weights : Option (Vec K n)) (hr : 0 ≤ rho) (hlam : 0 ≤ lam)
    (hw : ∀ i, 0 ≤ weightsOrOnes weights i) :
    ∃ g, (cadRegularizer rho lam weights).WellShaped g ∧
      ∀ u : Vec K n, (∀ i, rho ≤ weightsOrOnes weights i * |u i|) → g u = lam * (n * rho) := by
  have hval : ∀ u, (cadRegularizer rho lam weights).value u =
      .ok ((lam * ∑ i, min (weightsOrOnes weights i * |u i|) rho : K) : WithTop K) := by
    intro u; cases weights <;> simp [cadRegularizer, weightsOrOnes]
  refine ⟨fun u => lam * ∑ i, min (weightsOrOnes weights i * |u i|) rho, ⟨hval, fun u => ?_, ?_, fun u v h => ?_⟩, fun u h => ?_⟩
  · exact mul_nonneg hlam (Finset.sum_nonneg fun i _ => le_min (mul_nonneg (hw i) (abs_nonneg _)) hr)
  · simp [hr]
  · exact mul_le_mul_of_nonneg_left (Finset.sum_le_sum fun i _ =>
      min_le_min_right _ (mul_le_mul_of_nonneg_left (h i) (hw i))) hlam
  · simp [min_eq_right (h _)]

/-- **C07**, SCAD: additionally, the value is constant once every coordinate is past `rho * sigma`, and it is Lipschitz (no jumps at the
knots). -/
theorem C07_scad_shape (rho sigma lam : K) (weights : Option (Vec K n)) (hr : 1 < rho) (hs : 0 ≤ sigma) (hlam : 0 ≤ lam)
    (hw : ∀ i, 0 ≤ weightsOrOnes weights i) :
    ∃ g, (scadRegularizer rho sigma lam weights).WellShaped g ∧
      (∀ u : Vec K n, (∀ i, rho * sigma < |u i|) →
        g u = lam * (∑ i, weightsOrOnes weights i) * (sigma ^ 2 * (rho + 1) / 2)) ∧
      (∀ u v : Vec K n, |g u - g v| ≤ ∑ i, lam * weightsOrOnes weights i * sigma * |u i - v i|) := by
  set w := weightsOrOnes weights with hwdef
  have hz : ∀ v : K, scadTerm rho sigma v 0 = 0 := by
    intro v
    unfold scadTerm
    rcases hs.lt_or_eq with h | h
    · simp [h]
    · simp [← h]
  have hmono := fun i {a b : K} (h : |a| ≤ |b|) => scadTerm_mono rho sigma (w i) hr hs (hw i) h
  refine ⟨fun u => lam * ∑ i, scadTerm rho sigma (w i) (u i), ⟨fun u => rfl, fun u => ?_, ?_, fun u v h => ?_⟩, fun u h => ?_,
    fun u v => ?_⟩
  · refine mul_nonneg hlam (Finset.sum_nonneg fun i _ => ?_)
    rw [← hz (w i)]
    exact hmono i (by simp)
  · simp [hz]
  · exact mul_le_mul_of_nonneg_left (Finset.sum_le_sum fun i _ => hmono i (h i)) hlam
  · have : ∀ i, scadTerm rho sigma (w i) (u i) = w i * (sigma ^ 2 * (rho + 1) / 2) := by
      intro i
      have h1 : ¬ |u i| < sigma := by
        have := h i; nlinarith
      have h2 : ¬ (sigma ≤ |u i| ∧ |u i| ≤ rho * sigma) := fun hh => absurd hh.2 (not_le.2 (h i))
      rw [scadTerm, if_neg h1, if_neg h2]; ring
    simp only [this]
    rw [← Finset.sum_mul]; ring
  · rw [← mul_sub, ← Finset.sum_sub_distrib, abs_mul, abs_of_nonneg hlam]
    refine (mul_le_mul_of_nonneg_left (Finset.abs_sum_le_sum_abs _ _) hlam).trans ?_
    rw [Finset.mul_sum]
    refine Finset.sum_le_sum fun i _ => ?_
    have := mul_le_mul_of_nonneg_left (scadTerm_lipschitz rho sigma (w i) hr hs (hw i) (u i) (v i)) hlam
    linarith

/-- Non-vacuity of C07: SCAD with default constants is strictly positive somewhere. -/
example : (scadRegularizer (37/10 : ℚ) (1/2) 1 none).value (fun _ : Fin 1 => 5) = .ok ((47/80 : ℚ) : WithTop ℚ) := by
  simp only [scadRegularizer, Except.ok.injEq, WithTop.coe_inj]
  norm_num [weightsOrOnes, scadTerm, abs_of_pos]

/-! ## C11: weight zero -/

/-- **C11.** A coordinate of weight `0` comes out of every prox exactly as it went in (whenever the prox returns). -/
theorem C11_weight_zero_untouched (w : Vec K n) (i : Fin n) (hi : w i = 0) (lam rho sigma alpha : K) (x z : Vec K n) :
    ((l1Regularizer lam (some w)).prox x alpha = .ok z → z i = x i) ∧
    ((cadRegularizer rho lam (some w)).prox x alpha = .ok z → z i = x i) ∧
    ((scadRegularizer rho sigma lam (some w)).prox x alpha = .ok z → z i = x i) ∧
    (∀ (nnz : Option ℤ) (asAll : ArgSort (Fin n) K) (as : ArgSort {i // participation w i = true} K),
      (l0Regularizer nnz asAll (some ⟨w, as⟩)).prox x alpha = .ok z → z i = x i) := by
  refine ⟨fun h => ?_, fun h => ?_, fun h => ?_, fun nnz asAll as h => ?_⟩
  · simp only [l1Regularizer, Except.ok.injEq] at h
    rw [← h]; simp [hi, soft_zero]
  · simp only [cadRegularizer, Except.ok.injEq] at h
    rw [← h]; simp [hi]
  · have := (collect_ok_iff _ _).1 h i
    simp only [weightsOrOnes, Option.getD_some, scadProx1, hi, if_true, Except.ok.injEq] at this
    exact this.symm
  · simp only [l0Regularizer, Except.ok.injEq] at h
    rw [← h]
    exact maskedKMax_off _ _ _ _ i (by simp [participation, hi])

/-- Non-vacuity of C11: SCAD with a must-include coordinate which would otherwise be thresholded to zero. -/
example : ∃ z, (scadRegularizer (37/10 : ℚ) 1 1 (some ![0, 1])).prox ![1/2, 1/2] 1 = .ok z ∧ z 0 = 1/2 ∧ z 1 = 0 := by
  refine ⟨![1/2, 0], (collect_ok_iff _ _).2 ?_, rfl, rfl⟩
  intro i; fin_cases i <;> norm_num [weightsOrOnes, scadProx1, soft, clip0, abs_of_pos]

/-! ## C12: no sign flips, no inflation -/

/-- **C12.** Every coordinate of a prox output has the sign of the input (or is `0`) and is no larger in absolute value; SCAD in the regime
`alpha*lam*w_i < rho - 1`. -/
theorem C12_prox_shrinks (weights : Option (Vec K n)) (lam rho sigma alpha : K) (x z : Vec K n)
    (ha : 0 ≤ alpha) (hlam : 0 ≤ lam) (hw : ∀ i, 0 ≤ weightsOrOnes weights i)
    (hz : (l1Regularizer lam weights).prox x alpha = .ok z ∨ (cadRegularizer rho lam weights).prox x alpha = .ok z ∨
      (1 < rho ∧ 0 ≤ sigma ∧ (∀ i, alpha * lam * weightsOrOnes weights i < rho - 1) ∧
        (scadRegularizer rho sigma lam weights).prox x alpha = .ok z) ∨
      ∃ nnz asAll ws, (l0Regularizer nnz asAll ws).prox x alpha = .ok z) :
    ∀ i, |z i| ≤ |x i| ∧ 0 ≤ x i * z i := by
  intro i
  suffices h : Shrinks (x i) (z i) from ⟨h.abs_le, h.sign⟩
  rcases hz with h | h | ⟨hr, hs, hreg, h⟩ | ⟨nnz, asAll, ws, h⟩
  · cases weights with
    | none =>
      simp only [l1Regularizer, Except.ok.injEq] at h
      rw [← h]; exact soft_shrinks _ (mul_nonneg ha hlam)
    | some w =>
      simp only [l1Regularizer, Except.ok.injEq] at h
      rw [← h]; exact soft_shrinks _ (mul_nonneg (mul_nonneg ha (hw i)) hlam)
  · cases weights with
    | none =>
      simp only [cadRegularizer, Except.ok.injEq] at h
      rw [← h]
      show Shrinks _ (if _ then _ else _)
      split_ifs
      · exact soft_shrinks _ (mul_nonneg ha hlam)
      · exact Shrinks.refl _
    | some w =>
      simp only [cadRegularizer, Except.ok.injEq] at h
      rw [← h]
      show Shrinks _ (if _ then _ else _)
      split_ifs
      · exact soft_shrinks _ (mul_nonneg (mul_nonneg (hw i) ha) hlam)
      · exact Shrinks.refl _
  · have h1 := (collect_ok_iff _ _).1 h i
    by_cases h0 : weightsOrOnes weights i = 0
    · simp only [scadProx1, h0, if_true, Except.ok.injEq] at h1
      rw [← h1]; exact Shrinks.refl _
    · obtain ⟨z', hz', hsh, _⟩ := scadProx1_strong rho sigma (weightsOrOnes weights i)
        (alpha * lam * weightsOrOnes weights i) (x i) hr hs (mul_nonneg (mul_nonneg ha hlam) (hw i)) (hreg i) h0
      rw [h1] at hz'
      cases hz'
      exact hsh
  · have hcase : ∀ {a : K}, (a = x i ∨ a = 0) → Shrinks (x i) a := by
      rintro a (h | h)
      · rw [h]; exact Shrinks.refl _
      · rw [h]; exact Shrinks.zero _
    cases ws with
    | none =>
      simp only [l0Regularizer, Except.ok.injEq] at h
      rw [← h]
      exact hcase (takeOnlyKMax_cases asAll x _ i)
    | some ws =>
      simp only [l0Regularizer, Except.ok.injEq] at h
      rw [← h]
      exact hcase (maskedKMax_cases (participation ws.w) ws.as x _ i)

/-- **C12**, exact zeros of L1: a coordinate is zeroed iff it is at most its threshold `alpha*lam*w_i`. -/
theorem C12_l1_zero_iff (w : Vec K n) (lam alpha : K) (x z : Vec K n) (ha : 0 ≤ alpha) (hlam : 0 ≤ lam) (hw : ∀ i, 0 ≤ w i)
    (hz : (l1Regularizer lam (some w)).prox x alpha = .ok z) (i : Fin n) : z i = 0 ↔ |x i| ≤ alpha * lam * w i := by
  simp only [l1Regularizer, Except.ok.injEq] at hz
  rw [← hz, soft_eq_zero_iff (mul_nonneg (mul_nonneg ha (hw i)) hlam)]
  have : alpha * w i * lam = alpha * lam * w i := by ring
  rw [this]

/-- Non-vacuity of C12: one coordinate kept, one shrunk with its sign, one zeroed. -/
example : (cadRegularizer (2 : ℚ) 1 none).prox ![3, -3/2, 1/2] 1 = .ok ![3, -1/2, 0] := by
  simp only [cadRegularizer, Except.ok.injEq]
  funext i; fin_cases i <;> norm_num [soft, clip0, abs_of_pos, abs_of_neg]

end Verif
