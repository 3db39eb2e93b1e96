import Verif.Model.LmeJoint
import Verif.Props.LmeGamma

/-!
# C61: the stacked parameter vector

`x_to_beta_gamma` and `beta_gamma_to_x` are mutually inverse on vectors of matching sizes, and the stacked gradient is
the gradient of the stacked objective, entry by entry.
-/

open Matrix Filter Topology

namespace Verif

variable {p q : ℕ}

theorem asVec_ofFn {n : ℕ} (v : Vec ℝ n) : asVec n (List.ofFn v) = .ok v := by
  unfold asVec
  rw [dif_pos (by simp)]
  congr 1
  funext i
  simp

theorem xToBetaGamma_append {b g t : List ℝ} (hb : b.length = p) (hg : g.length = q) :
    xToBetaGamma p q (b ++ g ++ t) = (b, g) := by
  subst hb hg
  unfold xToBetaGamma
  rw [List.append_assoc]
  refine Prod.ext ?_ ?_
  · simp
  · simp [← List.append_assoc, ← List.length_append, List.take_left]

theorem xToBetaGamma_ofFn (beta : Vec ℝ p) (gamma : Vec ℝ q) :
    xToBetaGamma p q (List.ofFn beta ++ List.ofFn gamma) = (List.ofFn beta, List.ofFn gamma) := by
  have := xToBetaGamma_append (p := p) (q := q) (b := List.ofFn beta) (g := List.ofFn gamma) (t := [])
    (by simp) (by simp)
  simpa using this

theorem lmeJointLoss_ofFn (D : List (LmeGroup p q)) (P : LmeInstPrior ℝ p q) (beta : Vec ℝ p) (gamma : Vec ℝ q) :
    lmeJointLoss D P (List.ofFn beta ++ List.ofFn gamma) = lmeLoss D P beta gamma := by
  unfold lmeJointLoss
  rw [xToBetaGamma_ofFn]
  simp only [asVec_ofFn]
  rfl

theorem lmeSr3JointLoss_ofFn (D : List (LmeGroup p q)) (P : LmeInstPrior ℝ p q) (S : Sr3Params)
    (beta tbeta : Vec ℝ p) (gamma tgamma : Vec ℝ q) :
    lmeSr3JointLoss D P S (List.ofFn beta ++ List.ofFn gamma) (List.ofFn tbeta ++ List.ofFn tgamma)
      = lmeSr3Loss D P S beta gamma tbeta tgamma := by
  unfold lmeSr3JointLoss
  rw [xToBetaGamma_ofFn, xToBetaGamma_ofFn]
  simp only [asVec_ofFn]
  rfl

theorem ofFn_set_left (beta : Vec ℝ p) (gamma : Vec ℝ q) (k : Fin p) (t : ℝ) :
    (List.ofFn beta ++ List.ofFn gamma).set k.1 (beta k + t)
      = List.ofFn (beta + Pi.single k t) ++ List.ofFn gamma := by
  rw [List.set_append_left _ _ (by simp)]
  congr 1
  refine List.ext_getElem (by simp) fun i h1 h2 => ?_
  simp only [List.getElem_set, List.getElem_ofFn, Pi.add_apply]
  by_cases h : k.1 = i
  · subst h; simp
  · rw [if_neg h, Pi.single_eq_of_ne (fun e => h (by rw [← e])), add_zero]

theorem ofFn_set_right (beta : Vec ℝ p) (gamma : Vec ℝ q) (k : Fin q) (t : ℝ) :
    (List.ofFn beta ++ List.ofFn gamma).set (p + k.1) (gamma k + t)
      = List.ofFn beta ++ List.ofFn (gamma + Pi.single k t) := by
  rw [List.set_append_right _ _ (by simp)]
  congr 1
  refine List.ext_getElem (by simp) fun i h1 h2 => ?_
  simp only [List.getElem_set, List.getElem_ofFn, Pi.add_apply, List.length_ofFn, Nat.add_sub_cancel_left]
  by_cases h : k.1 = i
  · subst h; simp
  · rw [if_neg h, Pi.single_eq_of_ne (fun e => h (by rw [← e])), add_zero]

/-- **C61, packing**: `beta_gamma_to_x` of vectors of `p` and `q` entries is undone by `x_to_beta_gamma`, and
`x_to_beta_gamma` of a vector of `p + q` entries is undone by `beta_gamma_to_x`; the parts have lengths `p` and `q`. -/
theorem C61_packing (p q : ℕ) :
    (∀ b g : List ℝ, b.length = p → g.length = q → xToBetaGamma p q (betaGammaToX b g) = (b, g)) ∧
    (∀ x : List ℝ, x.length = p + q →
      betaGammaToX (xToBetaGamma p q x).1 (xToBetaGamma p q x).2 = x ∧
      (xToBetaGamma p q x).1.length = p ∧ (xToBetaGamma p q x).2.length = q ∧
      (∀ i, i < p → (xToBetaGamma p q x).1[i]? = x[i]?) ∧ ∀ j, j < q → (xToBetaGamma p q x).2[j]? = x[p + j]?) := by
  refine ⟨fun b g hb hg => ?_, fun x hx => ⟨?_, ?_, ?_, ?_, ?_⟩⟩
  · have := xToBetaGamma_append (t := []) hb hg
    simpa [betaGammaToX] using this
  · unfold betaGammaToX xToBetaGamma
    rw [List.take_of_length_le (by omega : x.length ≤ p + q)]
    exact List.take_append_drop p x
  · simp [xToBetaGamma, hx]
  · simp [xToBetaGamma, hx]
  · intro i hi
    simp [xToBetaGamma, List.getElem?_take, hi]
  · intro j hj
    simp [xToBetaGamma, List.getElem?_take, List.getElem?_drop, hj]

/-- C61 packing on a concrete vector. -/
example : xToBetaGamma 2 1 [1, 2, 3] = ([1, 2], [3]) ∧ betaGammaToX [1, 2] [3] = [1, 2, 3] := ⟨rfl, rfl⟩

theorem stack_getElem_left (gb : Vec ℝ p) (gg : Vec ℝ q) (k : Fin p) :
    (List.ofFn gb ++ List.ofFn gg)[k.1]? = some (gb k) := by
  rw [List.getElem?_append_left (by simp)]
  simp

theorem stack_getElem_right (gb : Vec ℝ p) (gg : Vec ℝ q) (k : Fin q) :
    (List.ofFn gb ++ List.ofFn gg)[p + k.1]? = some (gg k) := by
  rw [List.getElem?_append_right (by simp)]
  simp

theorem stackGradient_exact (gb : Vec ℝ p) (gg : Vec ℝ q) {len : ℕ} (h : len = p + q) :
    stackGradient gb gg len = List.ofFn gb ++ List.ofFn gg := by
  subst h
  simp [stackGradient]

theorem split_vec {x : List ℝ} (hx : x.length = p + q) :
    ∃ (b : Vec ℝ p) (g : Vec ℝ q), x = List.ofFn b ++ List.ofFn g := by
  refine ⟨fun i => x[i.1], fun j => x[p + j.1], ?_⟩
  refine List.ext_getElem (by simp [hx]) fun i h1 h2 => ?_
  by_cases h : i < p
  · rw [List.getElem_append_left (by simpa using h)]; simp
  · rw [List.getElem_append_right (by simpa using h)]
    simp only [List.length_ofFn, List.getElem_ofFn]
    congr 1
    omega

/-- A list of `p + q` numbers whose entries are the partial derivatives at `x` of the function `F` of lists. -/
def IsListGradient (F : List ℝ → Except PyErr ℝ) (x G : List ℝ) : Prop :=
  G.length = x.length ∧ ∀ (k : ℕ) (xk Gk : ℝ), x[k]? = some xk → G[k]? = some Gk →
    ∃ f : ℝ → ℝ, (∀ᶠ t in 𝓝 (0 : ℝ), F (x.set k (xk + t)) = .ok (f t)) ∧ HasDerivAt f Gk 0

theorem isListGradient_stack {F : List ℝ → Except PyErr ℝ} {beta : Vec ℝ p} {gamma : Vec ℝ q} {gb : Vec ℝ p}
    {gg : Vec ℝ q}
    (h1 : ∀ k : Fin p, ∃ f : ℝ → ℝ,
      (∀ᶠ t in 𝓝 (0 : ℝ), F (List.ofFn (beta + Pi.single k t) ++ List.ofFn gamma) = .ok (f t)) ∧
        HasDerivAt f (gb k) 0)
    (h2 : ∀ k : Fin q, ∃ f : ℝ → ℝ,
      (∀ᶠ t in 𝓝 (0 : ℝ), F (List.ofFn beta ++ List.ofFn (gamma + Pi.single k t)) = .ok (f t)) ∧
        HasDerivAt f (gg k) 0) :
    IsListGradient F (List.ofFn beta ++ List.ofFn gamma) (List.ofFn gb ++ List.ofFn gg) := by
  refine ⟨by simp, fun k xk Gk hx hG => ?_⟩
  by_cases hk : k < p
  · have e1 := stack_getElem_left beta gamma ⟨k, hk⟩
    have e2 := stack_getElem_left gb gg ⟨k, hk⟩
    simp only at e1 e2
    rw [e1] at hx
    rw [e2] at hG
    simp only [Option.some.injEq] at hx hG
    subst hx hG
    obtain ⟨f, hf, hd⟩ := h1 ⟨k, hk⟩
    refine ⟨f, ?_, hd⟩
    filter_upwards [hf] with t ht
    rw [← ht]
    exact congrArg F (ofFn_set_left beta gamma ⟨k, hk⟩ t)
  · have hlt : k < p + q := by
      have := (List.getElem?_eq_some_iff.1 hx).1
      simpa using this
    obtain ⟨j, rfl⟩ : ∃ j, k = p + j := ⟨k - p, by omega⟩
    have hj : j < q := by omega
    have e1 := stack_getElem_right beta gamma ⟨j, hj⟩
    have e2 := stack_getElem_right gb gg ⟨j, hj⟩
    simp only at e1 e2
    rw [e1] at hx
    rw [e2] at hG
    simp only [Option.some.injEq] at hx hG
    subst hx hG
    obtain ⟨f, hf, hd⟩ := h2 ⟨j, hj⟩
    refine ⟨f, ?_, hd⟩
    filter_upwards [hf] with t ht
    rw [← ht]
    exact congrArg F (ofFn_set_right beta gamma ⟨j, hj⟩ t)

/-- **C61, gradients**: for every stacked vector `x` of `p + q` entries whose variance part keeps the marginal
covariances positive definite (for instance positive noise and nonnegative variances), `joint_gradient(x)` returns a
vector of the same length, whose two parts are `gradient_beta` and `gradient_gamma` at the two parts of `x`, and whose
entries are the partial derivatives of `joint_loss`. The same for the SR3 oracle at every relaxed point. -/
theorem C61_stacked_gradient (D : List (LmeGroup p q)) (P : LmeInstPrior ℝ p q) (hP : P.Reachable)
    (S : Sr3Params) (x tbeta tgamma : List ℝ) (hx : x.length = p + q) (htb : tbeta.length = p)
    (htg : tgamma.length = q)
    (hdom : ∀ gamma : Vec ℝ q, (∀ j : Fin q, x[p + j.1]? = some (gamma j)) →
      InDomain D gamma ∨ (PosVar D ∧ ∀ j, 0 ≤ gamma j)) :
    (∃ G : List ℝ, lmeJointGradient D P x = .ok G ∧ IsListGradient (lmeJointLoss D P) x G ∧
      ∃ (beta gb : Vec ℝ p) (gamma gg : Vec ℝ q), x = List.ofFn beta ++ List.ofFn gamma ∧
        lmeGradientBeta D P beta gamma = .ok gb ∧ lmeGradientGamma D P beta gamma = .ok gg ∧
        xToBetaGamma p q G = (List.ofFn gb, List.ofFn gg)) ∧
    (∃ G : List ℝ, lmeSr3JointGradient D P S x tbeta tgamma = .ok G ∧
      IsListGradient (fun x' => lmeSr3JointLoss D P S x' (betaGammaToX tbeta tgamma)) x G ∧
      ∃ (beta gb tb : Vec ℝ p) (gamma gg tg : Vec ℝ q), x = List.ofFn beta ++ List.ofFn gamma ∧
        tbeta = List.ofFn tb ∧ tgamma = List.ofFn tg ∧
        lmeSr3GradientBeta D P S beta gamma tb = .ok gb ∧ lmeSr3GradientGamma D P S beta gamma tg = .ok gg ∧
        xToBetaGamma p q G = (List.ofFn gb, List.ofFn gg)) := by
  obtain ⟨beta, gamma, rfl⟩ := split_vec hx
  obtain ⟨tb, rfl⟩ : ∃ tb : Vec ℝ p, tbeta = List.ofFn tb :=
    ⟨fun i => tbeta[i.1], by refine List.ext_getElem (by simp [htb]) fun i h1 h2 => by simp⟩
  obtain ⟨tg, rfl⟩ : ∃ tg : Vec ℝ q, tgamma = List.ofFn tg :=
    ⟨fun i => tgamma[i.1], by refine List.ext_getElem (by simp [htg]) fun i h1 h2 => by simp⟩
  have hdom' := hdom gamma (fun j => stack_getElem_right beta gamma j)
  have hd : InDomain D gamma := hdom'.elim id fun h => inDomain_of_nonneg h.1 h.2
  obtain ⟨⟨f, G, H, l1, l2, -, l4, -⟩, f', G', H', m1, m2, -, m4, -⟩ :=
    C55_beta_derivatives D P hP S gamma hd tb tg
  obtain ⟨⟨gg, g1, g2⟩, gg', g1', g2'⟩ := C56_gradient_gamma D P hP S beta tb gamma tg hdom'
  constructor
  · refine ⟨List.ofFn (G beta) ++ List.ofFn gg, ?_, ?_, beta, G beta, gamma, gg, rfl, l2 beta, g1,
      xToBetaGamma_ofFn _ _⟩
    · unfold lmeJointGradient
      rw [xToBetaGamma_ofFn]
      simp only [asVec_ofFn]
      change (do
        let gb ← lmeGradientBeta D P beta gamma
        let gg ← lmeGradientGamma D P beta gamma
        return stackGradient gb gg _) = _
      rw [l2 beta, g1]
      exact congrArg Except.ok (stackGradient_exact (G beta) gg hx)
    · refine isListGradient_stack (fun k => ⟨_, ?_, l4.hasDerivAt beta k⟩) fun k => ?_
      · filter_upwards with t
        rw [lmeJointLoss_ofFn]
        exact l1 _
      · obtain ⟨f2, hf2, hd2⟩ := g2 k
        refine ⟨f2, ?_, hd2⟩
        filter_upwards [hf2] with t ht
        rw [lmeJointLoss_ofFn]
        exact ht
  · refine ⟨List.ofFn (G' beta) ++ List.ofFn gg', ?_, ?_, beta, G' beta, tb, gamma, gg', tg, rfl, rfl, rfl,
      m2 beta, g1', xToBetaGamma_ofFn _ _⟩
    · unfold lmeSr3JointGradient
      rw [xToBetaGamma_ofFn]
      simp only [asVec_ofFn]
      change (do
        let gb ← lmeSr3GradientBeta D P S beta gamma tb
        let gg ← lmeSr3GradientGamma D P S beta gamma tg
        return stackGradient gb gg _) = _
      rw [m2 beta, g1']
      exact congrArg Except.ok (stackGradient_exact (G' beta) gg' hx)
    · refine isListGradient_stack (fun k => ⟨_, ?_, m4.hasDerivAt beta k⟩) fun k => ?_
      · filter_upwards with t
        unfold betaGammaToX
        rw [lmeSr3JointLoss_ofFn]
        exact m1 _
      · obtain ⟨f2, hf2, hd2⟩ := g2' k
        refine ⟨f2, ?_, hd2⟩
        filter_upwards [hf2] with t ht
        unfold betaGammaToX
        rw [lmeSr3JointLoss_ofFn]
        exact ht

/-- C61 on a concrete problem. -/
example : ∃ G : List ℝ, lmeJointGradient [exGroup] .nonInformative [1, 2] = .ok G ∧
    IsListGradient (lmeJointLoss [exGroup] .nonInformative) [1, 2] G := by
  obtain ⟨⟨G, h1, h2, -⟩, -⟩ := C61_stacked_gradient [exGroup] (P := .nonInformative) trivial ⟨1, 1⟩ [1, 2] [0] [0]
    rfl rfl rfl (by
      intro gamma hg
      refine Or.inr ⟨exGroup_posVar, fun j => ?_⟩
      have := hg 0
      simp at this
      fin_cases j
      simp [← this])
  exact ⟨G, h1, h2⟩

end Verif
