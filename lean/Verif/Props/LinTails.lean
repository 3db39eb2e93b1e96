import Verif.Props.LinFolded
import Verif.Props.LinSupport
import Mathlib.Probability.Moments.SubGaussian
import Mathlib.Probability.Distributions.Gaussian.Real
import Mathlib.MeasureTheory.OuterMeasure.BorelCantelli

/-!
# C162: with independent normal (or sub-Gaussian) errors sparse linear fits find the true features except with exponentially small probability
-/

open MeasureTheory ProbabilityTheory
open scoped NNReal ENNReal

namespace Verif

noncomputable section

variable {m n : ℕ} {Ω : Type*} [MeasurableSpace Ω] {μ : Measure Ω} [IsProbabilityMeasure μ]

/-- Normal errors are sub-Gaussian with their variance. -/
theorem gaussian_subgaussian {X : Ω → ℝ} {v : ℝ≥0} (h : μ.map X = gaussianReal 0 v) : HasSubgaussianMGF X v μ := by
  refine ⟨fun t => ?_, fun t => ?_⟩
  · rw [← mgf_pos_iff, mgf_gaussianReal h]
    exact Real.exp_pos _
  · rw [mgf_gaussianReal h, zero_mul, zero_add]

/-- The correlations of the errors with the features all stay below `t`, except with probability `2 n exp(-t²/(2V))`. -/
theorem corr_tail (A : Matrix (Fin m) (Fin n) ℝ) (e : Ω → Vec ℝ m) (v : Fin m → ℝ≥0) (hind : iIndepFun (fun r ω => e ω r) μ) (he : ∀ r, HasSubgaussianMGF (fun ω => e ω r) (v r) μ)
    (V : ℝ≥0) (hV : ∀ j, ∑ r, A r j ^ 2 * v r ≤ V) (t : ℝ) (ht : 0 ≤ t) :
    μ {ω | ∃ j, t ≤ |∑ r, A r j * e ω r|} ≤ ENNReal.ofReal (2 * n * Real.exp (-t ^ 2 / (2 * V))) := by
  have hsub : ∀ j, HasSubgaussianMGF (fun ω => ∑ r, A r j * e ω r) V μ := by
    intro j
    have h1 := HasSubgaussianMGF.sum_of_iIndepFun (s := Finset.univ) (X := fun r ω => A r j * e ω r) (c := fun r => ⟨A r j ^ 2, sq_nonneg _⟩ * v r)
      (hind.comp (fun r y => A r j * y) fun r => measurable_const_mul _) fun r _ => (he r).const_mul (A r j)
    refine ⟨h1.integrable_exp_mul, fun s => (h1.mgf_le s).trans (Real.exp_le_exp.2 ?_)⟩
    have h2 : ∀ c : Fin m → ℝ≥0, (∀ r, (c r : ℝ) = A r j ^ 2 * v r) → ((∑ r, c r : ℝ≥0) : ℝ) * s ^ 2 / 2 ≤ V * s ^ 2 / 2 := by
      intro c hc
      rw [NNReal.coe_sum, Finset.sum_congr rfl fun r _ => hc r]
      have h3 := mul_le_mul_of_nonneg_right (hV j) (sq_nonneg s)
      linarith
    exact h2 _ fun r => rfl
  have hone : ∀ j, μ {ω | t ≤ |∑ r, A r j * e ω r|} ≤ ENNReal.ofReal (2 * Real.exp (-t ^ 2 / (2 * V))) := by
    intro j
    have h1 := (hsub j).measure_ge_le ht
    have h2 := (hsub j).neg.measure_ge_le ht
    have h3 : {ω | t ≤ |∑ r, A r j * e ω r|} ⊆ {ω | t ≤ ∑ r, A r j * e ω r} ∪ {ω | t ≤ (-fun ω => ∑ r, A r j * e ω r) ω} := by
      intro ω hω
      rcases le_abs.1 (show t ≤ |∑ r, A r j * e ω r| from hω) with h | h
      · exact Or.inl h
      · exact Or.inr h
    refine (measure_mono h3).trans ((measure_union_le _ _).trans ?_)
    rw [two_mul, ENNReal.ofReal_add (Real.exp_pos _).le (Real.exp_pos _).le]
    refine add_le_add ?_ ?_
    · rw [← ofReal_measureReal]
      exact ENNReal.ofReal_le_ofReal h1
    · rw [← ofReal_measureReal]
      exact ENNReal.ofReal_le_ofReal h2
  have hU : {ω | ∃ j, t ≤ |∑ r, A r j * e ω r|} = ⋃ j, {ω | t ≤ |∑ r, A r j * e ω r|} := by
    ext ω
    simp
  rw [hU]
  refine (measure_iUnion_fintype_le μ _).trans ((Finset.sum_le_sum fun j _ => hone j).trans (le_of_eq ?_))
  rw [Finset.sum_const, Finset.card_univ, Fintype.card_fin, ← ENNReal.ofReal_nsmul]
  congr 1
  rw [nsmul_eq_mul]
  ring

/-- The bound for any event that needs a large correlation. -/
theorem bad_tail {A : Matrix (Fin m) (Fin n) ℝ} {e : Ω → Vec ℝ m} {v : Fin m → ℝ≥0} (hind : iIndepFun (fun r ω => e ω r) μ) (he : ∀ r, HasSubgaussianMGF (fun ω => e ω r) (v r) μ)
    {V : ℝ≥0} (hV : ∀ j, ∑ r, A r j ^ 2 * v r ≤ V) {t : ℝ} (ht : 0 ≤ t) (Bad : Ω → Prop) (hbad : ∀ ω, (∀ j, |∑ r, A r j * e ω r| ≤ t) → ¬ Bad ω) :
    μ {ω | Bad ω} ≤ ENNReal.ofReal (2 * n * Real.exp (-t ^ 2 / (2 * V))) := by
  refine (measure_mono fun ω hω => ?_).trans (corr_tail A e v hind he V hV t ht)
  by_contra hcon
  exact hbad ω (fun j => le_of_not_ge fun hj => hcon ⟨j, hj⟩) hω

/-- **C162**, L1: with independent sub-Gaussian errors (for normal errors `v r` is the variance) a converged L1 fit keeps a wrong feature, misses a coefficient by more than `2 lam / c`, or gives a coefficient
larger than that the wrong sign, with probability at most `2 n exp(-t²/(2V))`, where `V` bounds the variances of the correlations and `t` is half the strength less the accuracy of the solver. -/
theorem C162_l1 (M : LinModelCfg) (hs : M.sr3 = none) (hn : 0 < n) (x0 : Option (Vec ℝ n)) (warm : Bool) (A : Matrix (Fin m) (Fin n) ℝ)
    (lam : ℝ) (hlam : 0 < lam) (hreg : LassoLike (M.regularizer n fun _ => 1) lam fun _ => 1)
    (L : ℝ) (hL : ∀ h : Vec ℝ n, ∑ r, (∑ j, A r j * h j) ^ 2 ≤ L * ∑ j, h j ^ 2) (hr : StepRule M.solver L)
    (xs : Vec ℝ n) (S : Finset (Fin n)) (hS : ∀ j, j ∉ S → xs j = 0)
    (c theta : ℝ) (hcp : 0 < c) (hdiag : ∀ j, c ≤ ∑ r, A r j ^ 2) (hoff : ∀ j k, j ≠ k → |∑ r, A r j * A r k| ≤ theta) (hth : 0 ≤ theta) (hcard : 16 * S.card * theta ≤ c)
    (e : Ω → Vec ℝ m) (v : Fin m → ℝ≥0) (hind : iIndepFun (fun r ω => e ω r) μ) (he : ∀ r, HasSubgaussianMGF (fun ω => e ω r) (v r) μ) (V : ℝ≥0) (hV : ∀ j, ∑ r, A r j ^ 2 * v r ≤ V)
    (t : ℝ) (ht : 0 ≤ t) (htl : t + M.tol * (1 / stepFloor M.solver L + L) ≤ lam / 2) :
    μ {ω | ∃ x Lf, linFit M ⟨m, n, A, fun r => (∑ j, A r j * xs j) + e ω r, 1, none, .none⟩ x0 warm none = .ok (x, Lf) ∧ Lf.get "converged" = .ok (.atom (.bool true)) ∧
      ¬ ((∀ j, x j ≠ 0 → j ∈ S) ∧ (∀ j, |x j - xs j| ≤ 2 * lam / c) ∧ ∀ j, 2 * lam / c < |xs j| → 0 < x j * xs j)} ≤ ENNReal.ofReal (2 * n * Real.exp (-t ^ 2 / (2 * V))) := by
  refine bad_tail (A := A) hind he hV ht _ fun ω hω => ?_
  rintro ⟨x, Lf, h, hc, hbad⟩
  obtain ⟨h1, h2, h3⟩ := C151_support M hs ⟨m, n, A, fun r => (∑ j, A r j * xs j) + e ω r, 1, none, .none⟩ hn x0 warm lam hlam hreg L hL hr x Lf h hc xs (e ω) (fun r => rfl) S hS
    c theta hcp hdiag hoff hth hcard (fun j => (add_le_add_left (hω j) _).trans htl)
  refine hbad ⟨fun j hx => ?_, h2, h3⟩
  by_contra hj
  exact hx (h1 j hj)

/-- **C162**, L0: with the right budget, a converged L0 fit keeps other features than the true ones with probability at most `2 n exp(-t²/(2V))`. -/
theorem C162_l0 (M : LinModelCfg) (hs : M.sr3 = none) (hn : 0 < n) (x0 : Option (Vec ℝ n)) (warm : Bool) (w : Option (Vec ℝ n)) (A : Matrix (Fin m) (Fin n) ℝ)
    (k : ℕ) (hk : k ≤ n) (prox : Vec ℝ n → ℝ → Vec ℝ n) (hreg : KeepsLargest k (M.regularizer n (w.getD fun _ => 1)) prox)
    (L : ℝ) (hL : ∀ h : Vec ℝ n, ∑ r, (∑ j, A r j * h j) ^ 2 ≤ L * ∑ j, h j ^ 2) (hr : StepRule M.solver L)
    (xs : Vec ℝ n) (S : Finset (Fin n)) (hS : ∀ j, j ∉ S → xs j = 0) (hSk : S.card = k)
    (c theta : ℝ) (hcp : 0 < c) (hdiag : ∀ j, c ≤ ∑ r, A r j ^ 2) (hoff : ∀ j k, j ≠ k → |∑ r, A r j * A r k| ≤ theta) (hth : 0 ≤ theta)
    (hcard : 16 * k * theta * (1 + 1 / (c * stepFloor M.solver L)) ≤ c)
    (e : Ω → Vec ℝ m) (v : Fin m → ℝ≥0) (hind : iIndepFun (fun r ω => e ω r) μ) (he : ∀ r, HasSubgaussianMGF (fun ω => e ω r) (v r) μ) (V : ℝ≥0) (hV : ∀ j, ∑ r, A r j ^ 2 * v r ≤ V)
    (t : ℝ) (ht : 0 ≤ t) (hmin : ∀ j ∈ S, 8 / 7 * (1 + 1 / (c * stepFloor M.solver L)) * (t + M.tol * (1 / stepFloor M.solver L + L)) / c < |xs j|) :
    μ {ω | ∃ x Lf, linFit M ⟨m, n, A, fun r => (∑ j, A r j * xs j) + e ω r, 1, none, .none⟩ x0 warm w = .ok (x, Lf) ∧ Lf.get "converged" = .ok (.atom (.bool true)) ∧
      ¬ ((∀ j, x j ≠ 0 ↔ j ∈ S) ∧ (∀ j ∈ S, 0 < x j * xs j) ∧ ∀ j, |x j - xs j| ≤ 16 / 15 * (t + M.tol * (1 / stepFloor M.solver L + L)) / c)}
      ≤ ENNReal.ofReal (2 * n * Real.exp (-t ^ 2 / (2 * V))) := by
  refine bad_tail (A := A) hind he hV ht _ fun ω hω => ?_
  rintro ⟨x, Lf, h, hc, hbad⟩
  obtain ⟨h1, h2, h3⟩ := C153_support M hs ⟨m, n, A, fun r => (∑ j, A r j * xs j) + e ω r, 1, none, .none⟩ hn x0 warm w k hk prox hreg L hL hr x Lf h hc xs (e ω) (fun r => rfl) S hS hSk.le
    c theta _ hcp hdiag hoff hth hcard (fun j => add_le_add_left (hω j) _) hmin
  exact hbad ⟨h3 hSk, h2, h1⟩

/-- **C162**, SCAD: a converged SCAD fit keeps exactly the true features and agrees with least squares on them up to the tolerance, except with probability at most `2 n exp(-t²/(2V))`. -/
theorem C162_scad (M : LinModelCfg) (hs : M.sr3 = none) (hn : 0 < n) (x0 : Option (Vec ℝ n)) (warm : Bool) (A : Matrix (Fin m) (Fin n) ℝ) (rho sigma lam : ℝ)
    (hreg : M.regularizer n (fun _ => 1) = scadRegularizer rho sigma lam (some fun _ => 1)) (hrho : 1 < rho) (hsig : 0 < sigma) (hlam : 0 ≤ lam) (hstep : M.step * lam < rho - 1)
    (L : ℝ) (hL : ∀ h : Vec ℝ n, ∑ r, (∑ j, A r j * h j) ^ 2 ≤ L * ∑ j, h j ^ 2) (hr : StepRule M.solver L)
    (xs : Vec ℝ n) (S : Finset (Fin n)) (hS : ∀ j, j ∉ S → xs j = 0) (c theta : ℝ) (hc0 : 0 < c) (hth : 0 ≤ theta)
    (hdiag : ∀ j, c ≤ ∑ r, A r j ^ 2) (hoff : ∀ j k, j ≠ k → |∑ r, A r j * A r k| ≤ theta) (hcard : 16 * n * theta ≤ c)
    (hR0 : 8 * lam ≤ 5 * c) (hmin : ∀ j ∈ S, rho * sigma + 8 * (lam * sigma) / (5 * c) < |xs j|)
    (e : Ω → Vec ℝ m) (v : Fin m → ℝ≥0) (hind : iIndepFun (fun r ω => e ω r) μ) (he : ∀ r, HasSubgaussianMGF (fun ω => e ω r) (v r) μ) (V : ℝ≥0) (hV : ∀ j, ∑ r, A r j ^ 2 * v r ≤ V)
    (t : ℝ) (ht : 0 ≤ t) (htl : t + M.tol * (1 / stepFloor M.solver L + L) ≤ lam * sigma / 2) :
    μ {ω | ∃ x Lf, linFit M ⟨m, n, A, fun r => (∑ j, A r j * xs j) + e ω r, 1, none, .none⟩ x0 warm none = .ok (x, Lf) ∧ Lf.get "converged" = .ok (.atom (.bool true)) ∧
      ¬ ((∀ j, x j ≠ 0 ↔ j ∈ S) ∧ (∀ j ∈ S, 0 < x j * xs j) ∧
        ∀ z : Vec ℝ n, (∀ j, j ∉ S → z j = 0) → (∀ j ∈ S, ∑ r, A r j * ((∑ i, A r i * xs i) + e ω r - ∑ i, A r i * z i) = 0) →
          ∀ j, |x j - z j| ≤ 16 / 15 * (M.tol * (1 / stepFloor M.solver L + L)) / c)} ≤ ENNReal.ofReal (2 * n * Real.exp (-t ^ 2 / (2 * V))) := by
  refine bad_tail (A := A) hind he hV ht _ fun ω hω => ?_
  rintro ⟨x, Lf, h, hc, hbad⟩
  obtain ⟨h1, h2, h3⟩ := C161_scad_support M hs ⟨m, n, A, fun r => (∑ j, A r j * xs j) + e ω r, 1, none, .none⟩ hn x0 warm rho sigma lam hreg hrho hsig hlam hstep L hL hr x Lf h hc xs (e ω) (fun r => rfl) S
    c theta hc0 hth hdiag hoff hcard hS (fun j => (add_le_add_left (hω j) _).trans htl) hR0 hmin
  exact hbad ⟨h1, fun j hj => (h2 j hj).2, h3⟩

/-- **C162**, CAD. -/
theorem C162_cad (M : LinModelCfg) (hs : M.sr3 = none) (hn : 0 < n) (x0 : Option (Vec ℝ n)) (warm : Bool) (A : Matrix (Fin m) (Fin n) ℝ) (rho lam : ℝ)
    (hreg : M.regularizer n (fun _ => 1) = cadRegularizer rho lam (some fun _ => 1)) (hrho : 0 ≤ rho) (hlam : 0 ≤ lam)
    (L : ℝ) (hL : ∀ h : Vec ℝ n, ∑ r, (∑ j, A r j * h j) ^ 2 ≤ L * ∑ j, h j ^ 2) (hr : StepRule M.solver L)
    (xs : Vec ℝ n) (S : Finset (Fin n)) (hS : ∀ j, j ∉ S → xs j = 0) (c theta : ℝ) (hc0 : 0 < c) (hth : 0 ≤ theta)
    (hdiag : ∀ j, c ≤ ∑ r, A r j ^ 2) (hoff : ∀ j k, j ≠ k → |∑ r, A r j * A r k| ≤ theta) (hcard : 16 * n * theta ≤ c)
    (hR0 : 8 * lam ≤ 5 * c * rho) (hmin : ∀ j ∈ S, rho + 8 * lam / (5 * c) < |xs j|)
    (e : Ω → Vec ℝ m) (v : Fin m → ℝ≥0) (hind : iIndepFun (fun r ω => e ω r) μ) (he : ∀ r, HasSubgaussianMGF (fun ω => e ω r) (v r) μ) (V : ℝ≥0) (hV : ∀ j, ∑ r, A r j ^ 2 * v r ≤ V)
    (t : ℝ) (ht : 0 ≤ t) (htl : t + M.tol * (1 / stepFloor M.solver L + L) ≤ lam / 2) :
    μ {ω | ∃ x Lf, linFit M ⟨m, n, A, fun r => (∑ j, A r j * xs j) + e ω r, 1, none, .none⟩ x0 warm none = .ok (x, Lf) ∧ Lf.get "converged" = .ok (.atom (.bool true)) ∧
      ¬ ((∀ j, x j ≠ 0 ↔ j ∈ S) ∧ (∀ j ∈ S, 0 < x j * xs j) ∧
        ∀ z : Vec ℝ n, (∀ j, j ∉ S → z j = 0) → (∀ j ∈ S, ∑ r, A r j * ((∑ i, A r i * xs i) + e ω r - ∑ i, A r i * z i) = 0) →
          ∀ j, |x j - z j| ≤ 16 / 15 * (M.tol * (1 / stepFloor M.solver L + L)) / c)} ≤ ENNReal.ofReal (2 * n * Real.exp (-t ^ 2 / (2 * V))) := by
  refine bad_tail (A := A) hind he hV ht _ fun ω hω => ?_
  rintro ⟨x, Lf, h, hc, hbad⟩
  obtain ⟨h1, h2, h3⟩ := C161_cad_support M hs ⟨m, n, A, fun r => (∑ j, A r j * xs j) + e ω r, 1, none, .none⟩ hn x0 warm rho lam hreg hrho hlam L hL hr x Lf h hc xs (e ω) (fun r => rfl) S
    c theta hc0 hth hdiag hoff hcard hS (fun j => (add_le_add_left (hω j) _).trans htl) hR0 hmin
  exact hbad ⟨h1, fun j hj => (h2 j hj).2, h3⟩

/-- **C162**, growing data (SCAD): a sequence of designs with the same features, error laws and penalties for which the bounds are summable (for example rows, strengths and thresholds that grow in
proportion): with probability one, all converged fits from some point on keep exactly the true features, with the right signs. -/
theorem C162_scad_eventually (M : ℕ → LinModelCfg) (hs : ∀ i, (M i).sr3 = none) (hn : 0 < n) (size : ℕ → ℕ) (A : ∀ i, Matrix (Fin (size i)) (Fin n) ℝ) (rho sigma lam : ℕ → ℝ)
    (hreg : ∀ i, (M i).regularizer n (fun _ => 1) = scadRegularizer (rho i) (sigma i) (lam i) (some fun _ => 1)) (hrho : ∀ i, 1 < rho i) (hsig : ∀ i, 0 < sigma i) (hlam : ∀ i, 0 ≤ lam i)
    (hstep : ∀ i, (M i).step * lam i < rho i - 1)
    (L : ℕ → ℝ) (hL : ∀ i, ∀ h : Vec ℝ n, ∑ r, (∑ j, A i r j * h j) ^ 2 ≤ L i * ∑ j, h j ^ 2) (hr : ∀ i, StepRule (M i).solver (L i))
    (xs : Vec ℝ n) (S : Finset (Fin n)) (hS : ∀ j, j ∉ S → xs j = 0) (c theta : ℕ → ℝ) (hc0 : ∀ i, 0 < c i) (hth : ∀ i, 0 ≤ theta i)
    (hdiag : ∀ i j, c i ≤ ∑ r, A i r j ^ 2) (hoff : ∀ i j k, j ≠ k → |∑ r, A i r j * A i r k| ≤ theta i) (hcard : ∀ i, 16 * n * theta i ≤ c i)
    (hR0 : ∀ i, 8 * lam i ≤ 5 * c i) (hmin : ∀ i, ∀ j ∈ S, rho i * sigma i + 8 * (lam i * sigma i) / (5 * c i) < |xs j|)
    (e : ∀ i, Ω → Vec ℝ (size i)) (v : ∀ i, Fin (size i) → ℝ≥0) (hind : ∀ i, iIndepFun (fun r ω => e i ω r) μ) (he : ∀ i r, HasSubgaussianMGF (fun ω => e i ω r) (v i r) μ)
    (V : ℕ → ℝ≥0) (hV : ∀ i j, ∑ r, A i r j ^ 2 * v i r ≤ V i)
    (t : ℕ → ℝ) (ht : ∀ i, 0 ≤ t i) (htl : ∀ i, t i + (M i).tol * (1 / stepFloor (M i).solver (L i) + L i) ≤ lam i * sigma i / 2)
    (hsum : Summable fun i => Real.exp (-t i ^ 2 / (2 * V i))) :
    ∀ᵐ ω ∂μ, ∃ N, ∀ i, N ≤ i → ∀ x Lf, linFit (M i) ⟨size i, n, A i, fun r => (∑ j, A i r j * xs j) + e i ω r, 1, none, .none⟩ none false none = .ok (x, Lf) →
      Lf.get "converged" = .ok (.atom (.bool true)) → (∀ j, x j ≠ 0 ↔ j ∈ S) ∧ ∀ j ∈ S, 0 < x j * xs j := by
  have hb := fun i => C162_scad (M i) (hs i) hn none false (A i) (rho i) (sigma i) (lam i) (hreg i) (hrho i) (hsig i) (hlam i) (hstep i) (L i) (hL i) (hr i) xs S hS (c i) (theta i) (hc0 i) (hth i)
    (hdiag i) (hoff i) (hcard i) (hR0 i) (hmin i) (e i) (v i) (hind i) (he i) (V i) (hV i) (t i) (ht i) (htl i)
  have hfin := ne_top_of_le_ne_top (ENNReal.ofReal_ne_top (r := ∑' i, 2 * n * Real.exp (-t i ^ 2 / (2 * V i))))
    ((ENNReal.tsum_le_tsum hb).trans (le_of_eq (ENNReal.ofReal_tsum_of_nonneg (fun i => by positivity) (hsum.mul_left _)).symm))
  filter_upwards [ae_eventually_notMem hfin] with ω hω
  obtain ⟨N, hN⟩ := Filter.eventually_atTop.1 hω
  refine ⟨N, fun i hi x Lf h hc => ?_⟩
  by_contra hcon
  exact hN i hi ⟨x, Lf, h, hc, fun hg => hcon ⟨hg.1, hg.2.1⟩⟩

/-! ## Examples -/

/-- Two independent standard normal numbers. -/
abbrev twoNormals : Measure (Fin 2 → ℝ) := Measure.pi fun _ => gaussianReal 0 1

theorem twoNormals_facts (a : ℝ) (v : ℝ≥0) (hv : (v : ℝ) = a ^ 2) :
    iIndepFun (fun r (z : Fin 2 → ℝ) => a * z r) twoNormals ∧ ∀ r : Fin 2, HasSubgaussianMGF (fun z : Fin 2 → ℝ => a * z r) v twoNormals := by
  refine ⟨iIndepFun_pi (X := fun _ y => a * y) fun _ => (measurable_const_mul a).aemeasurable, fun r => ?_⟩
  have h1 : HasSubgaussianMGF (fun z : Fin 2 → ℝ => z r) 1 twoNormals := gaussian_subgaussian (measurePreserving_eval (fun _ : Fin 2 => gaussianReal 0 1) r).map_eq
  have h2 := h1.const_mul a
  refine ⟨h2.integrable_exp_mul, fun s => (h2.mgf_le s).trans (le_of_eq ?_)⟩
  congr 3
  rw [hv]
  exact mul_one (a ^ 2)

theorem two_variances (v : ℝ≥0) (j : Fin 2) : ∑ r : Fin 2, (1 : Matrix (Fin 2) (Fin 2) ℝ) r j ^ 2 * (v : ℝ) ≤ v := by
  have h01 : ∀ j : Fin 2, j = 0 ∨ j = 1 := by decide
  rcases h01 j with rfl | rfl <;> simp [Matrix.one_apply, Fin.sum_univ_two]

theorem two_true (j : Fin 2) (hj : j ∉ ({0} : Finset (Fin 2))) : (![5, 0] : Vec ℝ 2) j = 0 := by
  have h01 : ∀ j : Fin 2, j = 0 ∨ j = 1 := by decide
  rcases h01 j with rfl | rfl
  · exact absurd (Finset.mem_singleton_self _) hj
  · rfl

/-- Non-vacuity of C162: normal errors with variance `1/1000`: SCAD, CAD and L1 fits keep the feature that does not matter with probability at most `4 exp(-5)`. -/
example (N : ℤ) (M : LinModelCfg) (hM : M = foldedScad ∨ M = foldedCad ∨ M = lassoModel N) :
    twoNormals {z | ∃ x Lf, linFit M (twoProblem fun r => √(1 / 1000) * z r) none false none = .ok (x, Lf) ∧ Lf.get "converged" = .ok (.atom (.bool true)) ∧ x (1 : Fin 2) ≠ 0}
      ≤ ENNReal.ofReal (4 * Real.exp (-5)) := by
  have hv : ((1 / 1000 : ℝ≥0) : ℝ) = √(1 / 1000) ^ 2 := by
    rw [Real.sq_sqrt (by norm_num)]
    norm_num
  obtain ⟨h1, h2⟩ := twoNormals_facts (√(1 / 1000)) (1 / 1000) hv
  have hL : ∀ h : Vec ℝ 2, ∑ r, (∑ j, (1 : Matrix (Fin 2) (Fin 2) ℝ) r j * h j) ^ 2 ≤ 1 * ∑ j, h j ^ 2 := fun h => ((two_design h).trans (one_mul _).symm).le
  have he : ENNReal.ofReal (2 * (2 : ℕ) * Real.exp (-(1 / 10 : ℝ) ^ 2 / (2 * ((1 / 1000 : ℝ≥0) : ℝ)))) = ENNReal.ofReal (4 * Real.exp (-5)) := by
    congr 1
    push_cast
    norm_num
  have hno : (1 : Fin 2) ∉ ({0} : Finset (Fin 2)) := by decide
  rcases hM with rfl | rfl | rfl
  · have h := C162_scad (μ := twoNormals) foldedScad rfl two_pos none false (1 : Matrix (Fin 2) (Fin 2) ℝ) (37 / 10) (1 / 2) (1 / 2) rfl (by norm_num) (by norm_num) (by norm_num)
      (by rw [show foldedScad.step = 1 from folded_step _]; norm_num) 1 hL (folded_rule _) ![5, 0] {0} two_true 1 0 one_pos le_rfl (fun j => (folded_design j j).1) (fun j k => (folded_design j k).2.1)
      (by norm_num) (by norm_num) (fun j hj => by
        rw [Finset.mem_singleton.1 hj]
        show (37 / 10 * (1 / 2) + 8 * (1 / 2 * (1 / 2)) / (5 * 1) : ℝ) < |(5 : ℝ)|
        norm_num) (fun z r => √(1 / 1000) * z r) (fun _ => 1 / 1000) h1 h2 (1 / 1000) (two_variances _) (1 / 10) (by norm_num) (by
        rw [show stepFloor foldedScad.solver 1 = 1 from folded_floor _]
        show (1 / 10 + 1 / 10 ^ 5 * (1 / 1 + 1) : ℝ) ≤ _
        norm_num)
    rw [he] at h
    refine le_trans (measure_mono ?_) h
    rintro z ⟨x, Lf, hf, hc, hx⟩
    exact ⟨x, Lf, hf, hc, fun hg => hno ((hg.1 1).1 hx)⟩
  · have h := C162_cad (μ := twoNormals) foldedCad rfl two_pos none false (1 : Matrix (Fin 2) (Fin 2) ℝ) 1 (1 / 4) rfl zero_le_one (by norm_num)
      1 hL (folded_rule _) ![5, 0] {0} two_true 1 0 one_pos le_rfl (fun j => (folded_design j j).1) (fun j k => (folded_design j k).2.1)
      (by norm_num) (by norm_num) (fun j hj => by
        rw [Finset.mem_singleton.1 hj]
        show (1 + 8 * (1 / 4) / (5 * 1) : ℝ) < |(5 : ℝ)|
        norm_num) (fun z r => √(1 / 1000) * z r) (fun _ => 1 / 1000) h1 h2 (1 / 1000) (two_variances _) (1 / 10) (by norm_num) (by
        rw [show stepFloor foldedCad.solver 1 = 1 from folded_floor _]
        show (1 / 10 + 1 / 10 ^ 5 * (1 / 1 + 1) : ℝ) ≤ _
        norm_num)
    rw [he] at h
    refine le_trans (measure_mono ?_) h
    rintro z ⟨x, Lf, hf, hc, hx⟩
    exact ⟨x, Lf, hf, hc, fun hg => hno ((hg.1 1).1 hx)⟩
  · have h := C162_l1 (μ := twoNormals) (lassoModel N) rfl two_pos none false (1 : Matrix (Fin 2) (Fin 2) ℝ) 1 one_pos (Or.inr ⟨rfl, zero_le_one, fun _ => zero_le_one⟩)
      1 hL (lassoModel_rule N) ![5, 0] {0} two_true 1 0 one_pos (fun j => (folded_design j j).1) (fun j k => (folded_design j k).2.1) le_rfl
      (by norm_num) (fun z r => √(1 / 1000) * z r) (fun _ => 1 / 1000) h1 h2 (1 / 1000) (two_variances _) (1 / 10) (by norm_num) (by
        rw [lassoModel_floor]
        norm_num [lassoModel])
    rw [he] at h
    refine le_trans (measure_mono ?_) h
    rintro z ⟨x, Lf, hf, hc, hx⟩
    exact ⟨x, Lf, hf, hc, fun hg => hno (hg.1 1 hx)⟩

/-- Non-vacuity of C162 for L0: `LinearL0Model(nnz=1, stepping="fixed", fixed_step_len=1)`. -/
example (sort : NpSort) :
    twoNormals {z | ∃ x Lf, linFit (linClass (.l0 (some 1) sort) false { stepping := "fixed", fixedStepLen := some 1 }) (twoProblem fun r => √(1 / 1000) * z r) none false none = .ok (x, Lf) ∧
      Lf.get "converged" = .ok (.atom (.bool true)) ∧ x (1 : Fin 2) ≠ 0} ≤ ENNReal.ofReal (4 * Real.exp (-5)) := by
  have hv : ((1 / 1000 : ℝ≥0) : ℝ) = √(1 / 1000) ^ 2 := by
    rw [Real.sq_sqrt (by norm_num)]
    norm_num
  obtain ⟨h1, h2⟩ := twoNormals_facts (√(1 / 1000)) (1 / 1000) hv
  have hL : ∀ h : Vec ℝ 2, ∑ r, (∑ j, (1 : Matrix (Fin 2) (Fin 2) ℝ) r j * h j) ^ 2 ≤ 1 * ∑ j, h j ^ 2 := fun h => ((two_design h).trans (one_mul _).symm).le
  have he : ENNReal.ofReal (2 * (2 : ℕ) * Real.exp (-(1 / 10 : ℝ) ^ 2 / (2 * ((1 / 1000 : ℝ≥0) : ℝ)))) = ENNReal.ofReal (4 * Real.exp (-5)) := by
    congr 1
    push_cast
    norm_num
  have hno : (1 : Fin 2) ∉ ({0} : Finset (Fin 2)) := by decide
  have hone : ∀ i, (fun _ => 1 : Vec ℝ 2) i ≠ 0 := fun i => one_ne_zero
  have h := C162_l0 (μ := twoNormals) (linClass (.l0 (some 1) sort) false { stepping := "fixed", fixedStepLen := some 1 }) rfl two_pos none false none (1 : Matrix (Fin 2) (Fin 2) ℝ) 1 one_le_two _
    (l0_keepsLargest 1 (sort.all 2) ⟨fun _ => 1, sort.sub 2 _⟩ hone) 1 hL (folded_rule _) ![5, 0] {0} two_true rfl 1 0 one_pos (fun j => (folded_design j j).1) (fun j k => (folded_design j k).2.1) le_rfl
    (by simp) (fun z r => √(1 / 1000) * z r) (fun _ => 1 / 1000) h1 h2 (1 / 1000) (two_variances _) (1 / 10) (by norm_num) (fun j hj => by
      rw [folded_floor, Finset.mem_singleton.1 hj]
      show (8 / 7 * (1 + 1 / (1 * 1)) * (1 / 10 + 1 / 10 ^ 5 * (1 / 1 + 1)) / 1 : ℝ) < |(5 : ℝ)|
      norm_num)
  rw [he] at h
  refine le_trans (measure_mono ?_) h
  rintro z ⟨x, Lf, hf, hc, hx⟩
  exact ⟨x, Lf, hf, hc, fun hg => hno ((hg.1 1).1 hx)⟩

/-- Non-vacuity of C162 for growing data: errors with variance `1/(200 (i+1))`, as for averages of `i + 1` measurements: with probability one the fits drop the second feature from some point on. -/
example : ∀ᵐ z ∂twoNormals, ∃ N : ℕ, ∀ i, N ≤ i → ∀ x Lf, linFit foldedScad (twoProblem fun r => √(1 / (200 * ((i : ℝ) + 1))) * z r) none false none = .ok (x, Lf) →
    Lf.get "converged" = .ok (.atom (.bool true)) → x (1 : Fin 2) = 0 ∧ 0 < x (0 : Fin 2) := by
  have hL : ∀ h : Vec ℝ 2, ∑ r, (∑ j, (1 : Matrix (Fin 2) (Fin 2) ℝ) r j * h j) ^ 2 ≤ 1 * ∑ j, h j ^ 2 := fun h => ((two_design h).trans (one_mul _).symm).le
  have hv : ∀ i : ℕ, ((1 / (200 * ((i : ℝ≥0) + 1)) : ℝ≥0) : ℝ) = √(1 / (200 * ((i : ℝ) + 1))) ^ 2 := fun i => by
    rw [Real.sq_sqrt (by positivity)]
    push_cast
    rfl
  have hf := fun i : ℕ => twoNormals_facts _ _ (hv i)
  have h := C162_scad_eventually (μ := twoNormals) (fun _ => foldedScad) (fun _ => rfl) two_pos (fun _ => 2) (fun _ => (1 : Matrix (Fin 2) (Fin 2) ℝ)) (fun _ => 37 / 10) (fun _ => 1 / 2) (fun _ => 1 / 2)
    (fun _ => rfl) (fun _ => by norm_num) (fun _ => by norm_num) (fun _ => by norm_num) (fun _ => by rw [show foldedScad.step = 1 from folded_step _]; norm_num) (fun _ => 1) (fun _ => hL) (fun _ => folded_rule _)
    ![5, 0] {0} two_true (fun _ => 1) (fun _ => 0) (fun _ => one_pos) (fun _ => le_rfl) (fun _ j => (folded_design j j).1) (fun _ j k => (folded_design j k).2.1)
    (fun _ => by norm_num) (fun _ => by norm_num) (fun _ j hj => by
      rw [Finset.mem_singleton.1 hj]
      show (37 / 10 * (1 / 2) + 8 * (1 / 2 * (1 / 2)) / (5 * 1) : ℝ) < |(5 : ℝ)|
      norm_num) (fun i z r => √(1 / (200 * ((i : ℝ) + 1))) * z r) (fun i _ => 1 / (200 * ((i : ℝ≥0) + 1))) (fun i => (hf i).1) (fun i => (hf i).2) (fun i => 1 / (200 * ((i : ℝ≥0) + 1)))
    (fun i => two_variances _) (fun _ => 1 / 10) (fun _ => by norm_num) (fun _ => by
      rw [show stepFloor foldedScad.solver 1 = 1 from folded_floor _]
      show (1 / 10 + 1 / 10 ^ 5 * (1 / 1 + 1) : ℝ) ≤ _
      norm_num) (by
      have e : (fun i : ℕ => Real.exp (-(1 / 10 : ℝ) ^ 2 / (2 * ((1 / (200 * ((i : ℝ≥0) + 1)) : ℝ≥0) : ℝ)))) = fun i : ℕ => Real.exp (-1) * Real.exp (-1) ^ i := by
        funext i
        rw [← Real.exp_nat_mul, ← Real.exp_add]
        congr 1
        push_cast
        field_simp
        ring
      rw [e]
      exact (summable_geometric_of_lt_one (Real.exp_pos _).le (Real.exp_lt_one_iff.2 (by norm_num))).mul_left _)
  filter_upwards [h] with z hz
  obtain ⟨N, hN⟩ := hz
  refine ⟨N, fun i hi x Lf hf hc => ?_⟩
  obtain ⟨g1, g2⟩ := hN i hi x Lf hf hc
  refine ⟨?_, ?_⟩
  · by_contra hx
    exact absurd ((g1 (1 : Fin 2)).1 hx) (by decide)
  · have : 0 < x (0 : Fin 2) * 5 := g2 (0 : Fin 2) (Finset.mem_singleton_self _)
    linarith

end

end Verif
