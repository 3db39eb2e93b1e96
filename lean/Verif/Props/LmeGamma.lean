import Verif.Lemmas.RankOne
import Verif.Props.LmeLoss

/-!
# C56, C57: derivatives of the mixed-effects oracle with respect to the variances
-/

open Matrix Filter Topology

namespace Verif

variable {p q : ℕ}

/-- Column `j` of the random-effects features. -/
def LmeGroup.zcol (g : LmeGroup p q) (j : Fin q) : Fin g.n → ℝ := fun i => g.z i j

/-- Column `k` of the fixed-effects features. -/
def LmeGroup.xcol (g : LmeGroup p q) (k : Fin p) : Fin g.n → ℝ := fun i => g.x i k

theorem margCov_add_single (g : LmeGroup p q) (gamma : Vec ℝ q) (j : Fin q) (t : ℝ) :
    margCov g (gamma + Pi.single j t) = rankOne (margCov g gamma) (g.zcol j) t := by
  ext a b
  simp only [margCov, rankOne, Matrix.add_apply, Matrix.smul_apply, vecMulVec_apply, smul_eq_mul,
    LmeGroup.zcol]
  rw [Matrix.mul_apply, Matrix.mul_apply]
  simp only [Matrix.mul_diagonal, Matrix.transpose_apply, Pi.add_apply]
  have : ∑ x, g.z a x * (gamma x + (Pi.single j t : Fin q → ℝ) x) * g.z b x
      = ∑ x, g.z a x * gamma x * g.z b x + t * (g.z a j * g.z b j) := by
    rw [show t * (g.z a j * g.z b j) = ∑ x, g.z a x * (Pi.single j t : Fin q → ℝ) x * g.z b x by
      rw [Finset.sum_eq_single j]
      · rw [Pi.single_eq_same]; ring
      · intro b' _ hb; rw [Pi.single_eq_of_ne hb]; ring
      · intro h; exact absurd (Finset.mem_univ _) h]
    rw [← Finset.sum_add_distrib]
    exact Finset.sum_congr rfl fun x _ => by ring
  rw [this]
  ring

theorem zT_form (g : LmeGroup p q) (M : Matrix (Fin g.n) (Fin g.n) ℝ) (i j : Fin q) :
    (g.zᵀ * M * g.z) i j = g.zcol i ⬝ᵥ (M *ᵥ g.zcol j) := by
  rw [Matrix.mul_assoc, Matrix.mul_apply]
  rfl

theorem zTx_form (g : LmeGroup p q) (M : Matrix (Fin g.n) (Fin g.n) ℝ) (i : Fin q) (k : Fin p) :
    (g.zᵀ * M * g.x) i k = g.zcol i ⬝ᵥ (M *ᵥ g.xcol k) := by
  rw [Matrix.mul_assoc, Matrix.mul_apply]
  rfl

theorem zT_vec (g : LmeGroup p q) (v : Fin g.n → ℝ) (j : Fin q) : (g.zᵀ *ᵥ v) j = g.zcol j ⬝ᵥ v := rfl

theorem xT_vec (g : LmeGroup p q) (v : Fin g.n → ℝ) (k : Fin p) : (g.xᵀ *ᵥ v) k = g.xcol k ⬝ᵥ v := rfl

/-- The domain of the likelihood is open along coordinate directions. -/
theorem inDomain_eventually {D : List (LmeGroup p q)} {gamma : Vec ℝ q} (hd : InDomain D gamma) (j : Fin q) :
    ∀ᶠ t in 𝓝 (0 : ℝ), InDomain D (gamma + Pi.single j t) := by
  induction D with
  | nil => exact Eventually.of_forall fun t g hg => absurd hg List.not_mem_nil
  | cons g D ih =>
    have h1 := hd g List.mem_cons_self
    have h2 := ih fun g' hg' => hd g' (List.mem_cons_of_mem _ hg')
    filter_upwards [h2, eventually_small (g.zcol j ⬝ᵥ ((margCov g gamma)⁻¹ *ᵥ g.zcol j))] with t ht hs g' hg'
    rcases List.mem_cons.1 hg' with rfl | hg'
    · rw [margCov_add_single]
      exact rankOne_posDef h1 _ hs
    · exact ht g' hg'

theorem hasDerivAt_list_sum {ι : Type*} (l : List ι) {f : ι → ℝ → ℝ} {f' : ι → ℝ} {x : ℝ}
    (h : ∀ a ∈ l, HasDerivAt (f a) (f' a) x) :
    HasDerivAt (fun t => (l.map fun a => f a t).sum) (l.map f').sum x := by
  induction l with
  | nil => simpa using hasDerivAt_const x (0 : ℝ)
  | cons a l ih =>
    simp only [List.map_cons, List.sum_cons]
    exact (h a List.mem_cons_self).fun_add (ih fun b hb => h b (List.mem_cons_of_mem _ hb))

/-- One-variable derivative of a function with an exact quadratic expansion. -/
theorem QuadraticExpansion.hasDerivAt {n : ℕ} {f : Vec ℝ n → ℝ} {g : Vec ℝ n → Vec ℝ n}
    {H : Matrix (Fin n) (Fin n) ℝ} (h : QuadraticExpansion f g H) (x : Vec ℝ n) (j : Fin n) :
    HasDerivAt (fun t => f (x + Pi.single j t)) (g x j) 0 := by
  have e : (fun t => f (x + Pi.single j t)) = fun t => f x + g x j * t + 1 / 2 * (H j j * (t * t)) := by
    funext t
    rw [h x (Pi.single j t)]
    have e1 : ∑ i, g x i * (Pi.single j t : Vec ℝ n) i = g x j * t := by
      rw [Finset.sum_eq_single j]
      · rw [Pi.single_eq_same]
      · intro b _ hb; rw [Pi.single_eq_of_ne hb, mul_zero]
      · intro h; exact absurd (Finset.mem_univ _) h
    have e2 : ∑ i, ∑ k, (Pi.single j t : Vec ℝ n) i * H i k * (Pi.single j t : Vec ℝ n) k
        = H j j * (t * t) := by
      rw [Finset.sum_eq_single j]
      · rw [Finset.sum_eq_single j]
        · rw [Pi.single_eq_same]; ring
        · intro b _ hb; rw [Pi.single_eq_of_ne hb, mul_zero]
        · intro h; exact absurd (Finset.mem_univ _) h
      · intro b _ hb
        exact Finset.sum_eq_zero fun k _ => by rw [Pi.single_eq_of_ne hb, zero_mul, zero_mul]
      · intro h; exact absurd (Finset.mem_univ _) h
    rw [e1, e2]
  rw [e]
  have h1 : HasDerivAt (fun t : ℝ => t) 1 0 := hasDerivAt_id 0
  have h2 := ((h1.const_mul (g x j)).const_add (f x)).fun_add (((h1.fun_mul h1).const_mul (H j j)).const_mul (1 / 2))
  simpa using h2

/-! ## C56 -/

theorem groupNLL_deriv {g : LmeGroup p q} {gamma : Vec ℝ q} (h : (margCov g gamma).PosDef) (beta : Vec ℝ p)
    (j : Fin q) : HasDerivAt (fun t => groupNLL g beta (gamma + Pi.single j t))
      (1 / 2 * (g.zᵀ * (margCov g gamma)⁻¹ * g.z) j j
        - 1 / 2 * (g.zᵀ *ᵥ ((margCov g gamma)⁻¹ *ᵥ residual g beta)) j ^ 2) 0 := by
  have h1 := hasDerivAt_inv_form h (g.zcol j) (residual g beta) (residual g beta)
  have h2 := hasDerivAt_logdet h (g.zcol j)
  have h3 := (h1.const_mul (1 / 2)).fun_add (h2.const_mul (1 / 2))
  simp only [groupNLL, margCov_add_single]
  convert! h3 using 1
  rw [zT_form, zT_vec]
  ring

/-- The gradient in the variances, without Cholesky factors. -/
noncomputable def nllGradGamma (g : LmeGroup p q) (beta : Vec ℝ p) (gamma : Vec ℝ q) (j : Fin q) : ℝ :=
  1 / 2 * (g.zᵀ * (margCov g gamma)⁻¹ * g.z) j j
    - 1 / 2 * (g.zᵀ *ᵥ ((margCov g gamma)⁻¹ *ᵥ residual g beta)) j ^ 2

theorem marginalNLL_deriv {D : List (LmeGroup p q)} {gamma : Vec ℝ q} (hd : InDomain D gamma)
    (beta : Vec ℝ p) (j : Fin q) : HasDerivAt (fun t => marginalNLL D beta (gamma + Pi.single j t))
      (D.map fun g => nllGradGamma g beta gamma j).sum 0 := by
  unfold marginalNLL
  refine hasDerivAt_list_sum D fun g hgD => ?_
  have hpd : (margCov g gamma).PosDef := hd g hgD
  exact groupNLL_deriv hpd beta j

theorem lmeLoss_deriv {D : List (LmeGroup p q)} {P : LmeInstPrior ℝ p q} (hP : P.Reachable) {gamma : Vec ℝ q}
    (hd : InDomain D gamma) (beta : Vec ℝ p) (j : Fin q) {G : Vec ℝ q}
    (hG : G = (D.map fun g => nllGradGamma g beta gamma).sum + P.gradientGamma beta gamma) :
    HasDerivAt (fun t => marginalNLL D beta (gamma + Pi.single j t)
      + P.loss beta (gamma + Pi.single j t)) (G j) 0 := by
  have h3 := (marginalNLL_deriv hd beta j).fun_add (((P.expansion_gamma hP beta).1).hasDerivAt gamma j)
  have e : G j = (D.map fun g => nllGradGamma g beta gamma j).sum + P.gradientGamma beta gamma j := by
    rw [hG, Pi.add_apply]
    congr 1
    exact list_sum_apply D _ j
  rw [e]
  exact h3

theorem lmeGradientGamma_ok' {D : List (LmeGroup p q)} {P : LmeInstPrior ℝ p q} {beta : Vec ℝ p}
    {gamma : Vec ℝ q} {v : Vec ℝ q} : lmeGradientGamma D P beta gamma = .ok v ↔
      InDomain D gamma ∧ v = (D.map fun g => nllGradGamma g beta gamma).sum + P.gradientGamma beta gamma :=
  lmeGradientGamma_ok

/-- **C56**: at every `gamma` in the domain of the likelihood (in particular every nonnegative one when the
observation variances are positive) `gradient_gamma` evaluates, and its `j`-th entry is the partial derivative
of `loss` in `gamma_j`: `loss` evaluates for all small changes `t` of `gamma_j` (of both signs, also at the
boundary `gamma_j = 0`), as a function of `t` whose derivative at `0` is the entry.  For the oracle with any
reachable prior, and for the SR3 oracle with any relaxation constants. -/
theorem C56_gradient_gamma (D : List (LmeGroup p q)) (P : LmeInstPrior ℝ p q) (hP : P.Reachable)
    (S : Sr3Params) (beta tbeta : Vec ℝ p) (gamma tgamma : Vec ℝ q)
    (hdom : InDomain D gamma ∨ (PosVar D ∧ ∀ j, 0 ≤ gamma j)) :
    (∃ G : Vec ℝ q, lmeGradientGamma D P beta gamma = .ok G ∧ ∀ j : Fin q, ∃ f : ℝ → ℝ,
      (∀ᶠ t in 𝓝 (0 : ℝ), lmeLoss D P beta (gamma + Pi.single j t) = .ok (f t)) ∧ HasDerivAt f (G j) 0) ∧
    (∃ G : Vec ℝ q, lmeSr3GradientGamma D P S beta gamma tgamma = .ok G ∧ ∀ j : Fin q, ∃ f : ℝ → ℝ,
      (∀ᶠ t in 𝓝 (0 : ℝ), lmeSr3Loss D P S beta (gamma + Pi.single j t) tbeta tgamma = .ok (f t)) ∧
      HasDerivAt f (G j) 0) := by
  have hd : InDomain D gamma := hdom.elim id fun h => inDomain_of_nonneg h.1 h.2
  obtain ⟨G, hG⟩ : ∃ G : Vec ℝ q, G = (D.map fun g => nllGradGamma g beta gamma).sum
    + P.gradientGamma beta gamma := ⟨_, rfl⟩
  have hg : lmeGradientGamma D P beta gamma = .ok G := lmeGradientGamma_ok'.2 ⟨hd, hG⟩
  have key : ∀ j, HasDerivAt (fun t => marginalNLL D beta (gamma + Pi.single j t)
      + P.loss beta (gamma + Pi.single j t)) (G j) 0 := fun j => lmeLoss_deriv hP hd beta j hG
  have l1 : ∀ j : Fin q, ∀ᶠ t in 𝓝 (0 : ℝ), lmeLoss D P beta (gamma + Pi.single j t)
      = .ok (marginalNLL D beta (gamma + Pi.single j t) + P.loss beta (gamma + Pi.single j t)) := by
    intro j
    filter_upwards [inDomain_eventually hd j] with t ht
    exact lmeLoss_ok.2 ⟨ht, rfl⟩
  constructor
  · refine ⟨G, hg, fun j => ?_⟩
    refine ⟨fun t => marginalNLL D beta (gamma + Pi.single j t) + P.loss beta (gamma + Pi.single j t),
      ?_, ?_⟩
    · beta_reduce
      exact l1 j
    · exact key j
  · refine ⟨G + S.lg • (gamma - tgamma), by unfold lmeSr3GradientGamma; rw [hg]; rfl, fun j => ?_⟩
    refine ⟨fun t => marginalNLL D beta (gamma + Pi.single j t)
      + P.loss beta (gamma + Pi.single j t) + S.lb / 2 * ∑ i, (beta i - tbeta i) ^ 2
      + S.lg / 2 * ∑ k, ((gamma + Pi.single j t : Vec ℝ q) k - tgamma k) ^ 2, ?_, ?_⟩
    · filter_upwards [l1 j] with t e
      unfold lmeSr3Loss
      rw [e]
      rfl
    · have h4 : HasDerivAt (fun t => S.lg / 2 * ∑ k, ((gamma + Pi.single j t : Vec ℝ q) k - tgamma k) ^ 2)
          ((S.lg • (gamma - tgamma)) j) 0 :=
        (quadraticExpansion_sqDist two_ne_zero S.lg tgamma).hasDerivAt gamma j
      rw [Pi.add_apply]
      exact ((key j).add_const _).fun_add h4

/-- C56 on a concrete problem, at the boundary point `gamma = 0` and with a `gamma`-gradient that is not zero:
`L = diag (1, 2)` there, so the entry is `1/2 (1 + 1/2) - 1/2 (0 + 1/2)² = 5/8`. -/
theorem exGroup_grad_zero : lmeGradientGamma [exGroup] .nonInformative ![1] ![0] = .ok ![5 / 8] := by
  have hd : InDomain [exGroup] (![0] : Vec ℝ 1) :=
    inDomain_of_nonneg exGroup_posVar (by intro j; fin_cases j; simp)
  refine lmeGradientGamma_ok.2 ⟨hd, ?_⟩
  have hcov : margCov exGroup ![0] = (!![1, 0; 0, 2] : Matrix (Fin 2) (Fin 2) ℝ) := by
    change (!![1; 1] : Matrix (Fin 2) (Fin 1) ℝ) * diagonal (![0] : Fin 1 → ℝ) *
      (!![1; 1] : Matrix (Fin 2) (Fin 1) ℝ)ᵀ + diagonal (![1, 2] : Fin 2 → ℝ) = _
    ext i j
    fin_cases i <;> fin_cases j <;> simp [Matrix.mul_apply, Matrix.vecMul, dotProduct]
  have hinv : (!![1, 0; 0, 2] : Matrix (Fin 2) (Fin 2) ℝ)⁻¹ = !![1, 0; 0, 1 / 2] := by
    refine Matrix.inv_eq_right_inv ?_
    ext i j
    fin_cases i <;> fin_cases j <;> simp [Matrix.mul_apply, Fin.sum_univ_two]
  have hres : residual exGroup ![1] = (![0, 1] : Fin 2 → ℝ) := by
    funext i
    change Fin 2 at i
    fin_cases i
    · change (1 : ℝ) - ∑ k : Fin 1, (!![1; 2] : Matrix (Fin 2) (Fin 1) ℝ) 0 k * (![1] : Fin 1 → ℝ) k = 0
      simp
    · change (3 : ℝ) - ∑ k : Fin 1, (!![1; 2] : Matrix (Fin 2) (Fin 1) ℝ) 1 k * (![1] : Fin 1 → ℝ) k = 1
      simp; norm_num
  have key : (![5 / 8] : Fin 1 → ℝ) = fun j => 1 / 2 * ((!![1; 1] : Matrix (Fin 2) (Fin 1) ℝ)ᵀ *
      (!![1, 0; 0, 2] : Matrix (Fin 2) (Fin 2) ℝ)⁻¹ * (!![1; 1] : Matrix (Fin 2) (Fin 1) ℝ)) j j
      - 1 / 2 * ((!![1; 1] : Matrix (Fin 2) (Fin 1) ℝ)ᵀ *ᵥ
        ((!![1, 0; 0, 2] : Matrix (Fin 2) (Fin 2) ℝ)⁻¹ *ᵥ (![0, 1] : Fin 2 → ℝ))) j ^ 2 := by
    rw [hinv]
    funext j
    fin_cases j
    simp [Matrix.mul_apply, Matrix.mulVec, dotProduct, Fin.sum_univ_two]
    norm_num
  simp only [List.map_cons, List.map_nil, List.sum_cons, List.sum_nil, add_zero, LmeInstPrior.gradientGamma]
  rw [hcov, hres]
  exact key

end Verif
