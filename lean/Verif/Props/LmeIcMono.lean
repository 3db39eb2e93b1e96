import Verif.Props.LmeAic

/-!
# C199 (selecting more effects costs more in the information criteria)
-/

open Matrix

namespace Verif

variable {p q : ℕ}

theorem card_countGe {n : ℕ} (tol : ℝ) (v : Vec ℝ n) : Nat.card {i // tol ≤ |v i|} = countGe tol v := by
  classical
  unfold countGe
  rw [Nat.card_eq_fintype_card, Fintype.card_subtype]

/-- **C199** is violated by the marginal AIC on every data set of at least three observations: a model with as many effects as observations less one, or more, gets a lower value than one of the same loss
with two effects less than observations. The penalty falls from `2 n (n - 2)` to twice the number of effects. -/
theorem C199_marginal_violated (D : List (LmeGroup p q)) (P : LmeInstPrior ℝ p q) (tol : ℝ) (beta beta' : Vec ℝ p) (gamma gamma' : Vec ℝ q) (n : ℕ) (hn : n = (D.map fun g => g.n).sum) (hn3 : 3 ≤ n)
    (hk : Nat.card {i // tol ≤ |beta i|} + Nat.card {j // tol ≤ |gamma j|} + 2 = n)
    (hk' : n ≤ Nat.card {i // tol ≤ |beta' i|} + Nat.card {j // tol ≤ |gamma' j|} + 1) (hk2 : Nat.card {i // tol ≤ |beta' i|} + Nat.card {j // tol ≤ |gamma' j|} < n * (n - 2))
    (w : ℝ) (hw : lmeLoss D P beta gamma = .ok w) (hw' : lmeLoss D P beta' gamma' = .ok w) :
    ∃ v v', lmeVaida D P tol true beta gamma = .ok v ∧ lmeVaida D P tol true beta' gamma' = .ok v' ∧ v' < v ∧ v - v' = 2 * (n * (n - 2) - (Nat.card {i // tol ≤ |beta' i|} + Nat.card {j // tol ≤ |gamma' j|})) := by
  simp only [card_countGe] at hk hk' hk2 ⊢
  obtain ⟨hd, e⟩ := lmeLoss_ok.1 hw
  obtain ⟨hd', e'⟩ := lmeLoss_ok.1 hw'
  have hN : lmeNumObs D = n := hn.symm
  refine ⟨_, _, lmeVaida_marg_eq hd tol beta, lmeVaida_marg_eq hd' tol beta', ?_⟩
  rw [← e, ← e', hN]
  have h1 : ((countGe tol beta : ℝ) + countGe tol gamma) = n - 2 := by
    have : ((countGe tol beta + countGe tol gamma + 2 : ℕ) : ℝ) = n := by rw [hk]
    push_cast at this
    linarith
  have h2 : (n : ℝ) ≤ countGe tol beta' + countGe tol gamma' + 1 := by exact_mod_cast hk'
  have h3 : (countGe tol beta' : ℝ) + countGe tol gamma' < n * (n - 2) := by
    have : ((countGe tol beta' + countGe tol gamma' : ℕ) : ℝ) < ((n * (n - 2) : ℕ) : ℝ) := by exact_mod_cast hk2
    rw [Nat.cast_mul, Nat.cast_sub (by omega)] at this
    push_cast at this
    exact this
  have e1 : (n : ℝ) - countGe tol beta - countGe tol gamma - 1 = 1 := by linarith
  rw [e1, if_pos one_pos, if_neg (by linarith), div_one, h1, mul_one]
  constructor <;> linarith

/-- **C199** is violated by the conditional AIC, the default, whenever there is one more observation than selected fixed effects: on all such data the penalty is negative, so that every selected effect
lowers the criterion. -/
theorem C199_conditional_violated (D : List (LmeGroup p q)) (P : LmeInstPrior ℝ p q) (tol : ℝ) (beta : Vec ℝ p) (gamma : Vec ℝ q) (hk : Nat.card {i // tol ≤ |beta i|} + 1 = (D.map fun g => g.n).sum)
    (hk0 : 0 < Nat.card {i // tol ≤ |beta i|}) (v : ℝ) (hv : lmeVaida D P tol false beta gamma = .ok v) :
    ∃ w, lmeDemarginalizedLoss D P beta gamma = .ok w ∧ v < 2 * w ∧
      v = 2 * w - 2 * ((Nat.card {i // tol ≤ |beta i|} + 1) * Nat.card {i // tol ≤ |beta i|}) * (Nat.card {i // tol ≤ |beta i|} + Nat.card {j // tol ≤ |gamma j|}) := by
  simp only [card_countGe] at hk hk0 ⊢
  obtain ⟨-, rho, w, -, h2, rfl⟩ := lmeVaida_cond_ok.1 hv
  refine ⟨w, h2, ?_⟩
  have hN : (lmeNumObs D : ℝ) = countGe tol beta + 1 := by exact_mod_cast hk.symm
  have hp : (0 : ℝ) < countGe tol beta := by exact_mod_cast hk0
  have hq : (0 : ℝ) ≤ countGe tol gamma := by positivity
  have e : caicPenalty (lmeNumObs D) (countGe tol beta) rho = -((countGe tol beta + 1) * countGe tol beta) := by
    unfold caicPenalty
    rw [hN, show (countGe tol beta : ℝ) + 1 - countGe tol beta - 2 = -1 by ring, show (countGe tol beta : ℝ) + 1 - countGe tol beta = 1 by ring]
    ring
  rw [e]
  constructor
  · have : 0 < ((countGe tol beta : ℝ) + 1) * countGe tol beta * (countGe tol beta + countGe tol gamma) := by positivity
    linarith
  · ring

theorem caicPenalty_mono {n k k' rho : ℝ} (hk : 0 ≤ k) (h : k ≤ k') (hn : k' + 2 < n) (hr : k' ≤ rho) (hrn : rho ≤ n) : caicPenalty n k rho ≤ caicPenalty n k' rho := by
  unfold caicPenalty
  have h1 : n / (n - k - 2) ≤ n / (n - k' - 2) := div_le_div_of_nonneg_left (by linarith) (by linarith) (by linarith)
  have h2 : rho - (rho - k) / (n - k) ≤ rho - (rho - k') / (n - k') := by
    have : (rho - k') / (n - k') ≤ (rho - k) / (n - k) := by
      rw [div_le_div_iff₀ (by linarith) (by linarith)]
      nlinarith [mul_nonneg (sub_nonneg.2 h) (sub_nonneg.2 hrn)]
    linarith
  have h3 : 0 ≤ rho - (rho - k) / (n - k) := by
    have : (rho - k) / (n - k) ≤ rho - k := div_le_self (by linarith) (by linarith)
    linarith
  exact mul_le_mul h1 h2 h3 (div_nonneg (by linarith) (by linarith))

theorem caicPenalty_nonneg {n k rho : ℝ} (hk : 0 ≤ k) (hn : k + 2 < n) (hr : k ≤ rho) : 0 ≤ caicPenalty n k rho := by
  unfold caicPenalty
  refine mul_nonneg (div_nonneg (by linarith) (by linarith)) ?_
  have : (rho - k) / (n - k) ≤ rho - k := div_le_self (by linarith) (by linarith)
  linarith

/-- **C199** (part): selecting more effects at a loss that is not smaller never lowers
* the IC of Müller and Hui, if there is a group;
* the BIC of Jones for given variances, if the groups are not empty;
* the marginal AIC, as long as the larger number of effects is less than the number of observations minus one, or the smaller one is not;
* the conditional AIC for given variances, as long as there are more than two observations more than selected fixed effects.
Missing: the marginal AIC across the boundary and the conditional AIC with fewer observations, where the code violates the claim; criteria whose effective sample size changes with the variances. -/
theorem C199_more_effects_partial (D : List (LmeGroup p q)) (P : LmeInstPrior ℝ p q) (tol : ℝ) (beta beta' : Vec ℝ p) (gamma gamma' : Vec ℝ q)
    (hk : Nat.card {i // tol ≤ |beta i|} ≤ Nat.card {i // tol ≤ |beta' i|}) (hl : Nat.card {j // tol ≤ |gamma j|} ≤ Nat.card {j // tol ≤ |gamma' j|}) :
    (D ≠ [] → ∀ w w' v v', lmeLoss D P beta gamma = .ok w → lmeLoss D P beta' gamma' = .ok w' → w ≤ w' → lmeMullerHui D P tol beta gamma = .ok v → lmeMullerHui D P tol beta' gamma' = .ok v' → v ≤ v') ∧
    (D ≠ [] → (∀ g ∈ D, 0 < g.n) → ∀ w w' v v', lmeLoss D P beta gamma = .ok w → lmeLoss D P beta' gamma = .ok w' → w ≤ w' → lmeJonesBic D P tol beta gamma = .ok v → lmeJonesBic D P tol beta' gamma = .ok v' →
      v ≤ v') ∧
    (Nat.card {i // tol ≤ |beta' i|} + Nat.card {j // tol ≤ |gamma' j|} + 1 < (D.map fun g => g.n).sum ∨ (D.map fun g => g.n).sum ≤ Nat.card {i // tol ≤ |beta i|} + Nat.card {j // tol ≤ |gamma j|} + 1 →
      ∀ w w' v v', lmeLoss D P beta gamma = .ok w → lmeLoss D P beta' gamma' = .ok w' → w ≤ w' → lmeVaida D P tol true beta gamma = .ok v → lmeVaida D P tol true beta' gamma' = .ok v' → v ≤ v') ∧
    (PosVar D → MaskExact gamma → Nat.card {i // tol ≤ |beta' i|} + 2 < (D.map fun g => g.n).sum → ∀ w w' v v', lmeDemarginalizedLoss D P beta gamma = .ok w → lmeDemarginalizedLoss D P beta' gamma = .ok w' → w ≤ w' →
      lmeVaida D P tol false beta gamma = .ok v → lmeVaida D P tol false beta' gamma = .ok v' → v ≤ v') := by
  simp only [card_countGe] at hk hl ⊢
  have hk' : (countGe tol beta : ℝ) ≤ countGe tol beta' := by exact_mod_cast hk
  have hl' : (countGe tol gamma : ℝ) ≤ countGe tol gamma' := by exact_mod_cast hl
  have hb0 : (0 : ℝ) ≤ countGe tol beta := Nat.cast_nonneg _
  have hg0 : (0 : ℝ) ≤ countGe tol gamma := Nat.cast_nonneg _
  refine ⟨?_, ?_, ?_, ?_⟩
  · intro hD w w' v v' hw hw' hww hv hv'
    obtain ⟨hd, rfl⟩ := lmeLoss_ok.1 hw
    obtain ⟨hd', rfl⟩ := lmeLoss_ok.1 hw'
    rw [lmeMullerHui_eq hd] at hv
    rw [lmeMullerHui_eq hd'] at hv'
    rw [← Except.ok.inj hv, ← Except.ok.inj hv']
    have hlog : 0 ≤ Real.log D.length := Real.log_nonneg (by exact_mod_cast List.length_pos_of_ne_nil hD)
    have h2 : (0 : ℝ) ≤ 2 / lmeNumObs D := by positivity
    have h1 : (0 : ℝ) ≤ 1 / lmeNumObs D * Real.log D.length := by positivity
    exact add_le_add (add_le_add (mul_le_mul_of_nonneg_left hww h2) (mul_le_mul_of_nonneg_left hk' h1)) (mul_le_mul_of_nonneg_left hl' h2)
  · intro hD hpos w w' v v' hw hw' hww hv hv'
    obtain ⟨hd, rfl⟩ := lmeLoss_ok.1 hw
    obtain ⟨-, rfl⟩ := lmeLoss_ok.1 hw'
    rw [lmeJonesBic_eq hd] at hv hv'
    rw [← Except.ok.inj hv, ← Except.ok.inj hv']
    obtain ⟨fs, m, e1, e2, hm, -⟩ := C67_effective_sample_size D gamma hpos (.inl hd)
    rw [lmeRecalculate_ok.2 ⟨hd, rfl⟩] at e1
    rw [← Except.ok.inj e1, lmeNEff_eq hd] at e2
    rw [← Except.ok.inj e2] at hm
    have hl1 : (1 : ℝ) ≤ D.length := by exact_mod_cast List.length_pos_of_ne_nil hD
    have hlog : 0 ≤ Real.log (effSize D gamma) := Real.log_nonneg (by linarith)
    have := mul_le_mul_of_nonneg_right (add_le_add_left hk' (countGe tol gamma : ℝ)) hlog
    linarith
  · intro hn w w' v v' hw hw' hww hv hv'
    obtain ⟨hd, rfl⟩ := lmeLoss_ok.1 hw
    obtain ⟨hd', rfl⟩ := lmeLoss_ok.1 hw'
    rw [lmeVaida_marg_eq hd] at hv
    rw [lmeVaida_marg_eq hd'] at hv'
    rw [← Except.ok.inj hv, ← Except.ok.inj hv']
    rcases hn with hn | hn
    · have hn' : (countGe tol beta' : ℝ) + countGe tol gamma' + 1 < lmeNumObs D := by exact_mod_cast hn
      rw [if_pos (by linarith), if_pos (by linarith)]
      have h1 : (lmeNumObs D : ℝ) / (lmeNumObs D - countGe tol beta - countGe tol gamma - 1) ≤ lmeNumObs D / (lmeNumObs D - countGe tol beta' - countGe tol gamma' - 1) :=
        div_le_div_of_nonneg_left (by linarith) (by linarith) (by linarith)
      have h2 := mul_le_mul h1 (add_le_add hk' hl') (by linarith) (div_nonneg (by linarith) (by linarith))
      linarith
    · have hn' : (lmeNumObs D : ℝ) ≤ countGe tol beta + countGe tol gamma + 1 := by exact_mod_cast hn
      rw [if_neg (by linarith), if_neg (by linarith)]
      linarith
  · intro hD hm hn w w' v v' hw hw' hww hv hv'
    obtain ⟨-, rho, w1, h1, h2, rfl⟩ := lmeVaida_cond_ok.1 hv
    obtain ⟨-, rho', w1', h1', h2', rfl⟩ := lmeVaida_cond_ok.1 hv'
    obtain rfl := Except.ok.inj (h1.symm.trans h1')
    obtain rfl := Except.ok.inj (h2.symm.trans hw)
    obtain rfl := Except.ok.inj (h2'.symm.trans hw')
    obtain ⟨hr1, hr2, -⟩ := (C98_degrees_of_freedom D hD gamma hm).2 rho h1
    have hn' : (countGe tol beta' : ℝ) + 2 < lmeNumObs D := by exact_mod_cast hn
    have hcp : (countGe tol beta' : ℝ) ≤ p := by
      have : countGe tol beta' ≤ p := by
        classical
        unfold countGe
        exact (Finset.card_le_univ _).trans (by simp)
      exact_mod_cast this
    have hr2' : rho ≤ lmeNumObs D := by
      refine hr2.trans (le_of_eq ?_)
      unfold lmeNumObs
      push_cast
      rw [List.map_map]
      rfl
    have h3 := caicPenalty_mono hb0 hk' hn' (by linarith) hr2'
    have h4 := caicPenalty_nonneg (Nat.cast_nonneg (countGe tol beta')) hn' (by linarith : (countGe tol beta' : ℝ) ≤ rho)
    have h5 := mul_le_mul h3 (add_le_add_left hk' (countGe tol gamma : ℝ)) (by linarith) h4
    linarith

/-- Three observations, two equal features. -/
noncomputable def exSat : LmeGroup 2 1 := ⟨3, !![1, 1; 2, 2; 3, 3], ![1, 3, 2], !![1; 1; 1], ![1, 2, 1]⟩

theorem exSat_posVar : PosVar [exSat] := by
  intro g hg i
  rw [List.mem_singleton] at hg
  subst hg
  change Fin 3 at i
  fin_cases i
  · exact one_pos
  · exact two_pos
  · exact one_pos

/-- **C199** on three observations: splitting the coefficient of a feature between two copies of it does not change the loss and lowers the marginal AIC by 2. -/
example : ∃ v v', lmeVaida [exSat] .nonInformative (1 / 10) true ![1, 0] ![0] = .ok v ∧ lmeVaida [exSat] .nonInformative (1 / 10) true ![1 / 2, 1 / 2] ![0] = .ok v' ∧ v' < v := by
  have hd : InDomain [exSat] (![0] : Vec ℝ 1) := inDomain_of_nonneg exSat_posVar (by intro j; fin_cases j; exact le_rfl)
  have c0 : countGe (1 / 10) (![0] : Vec ℝ 1) = 0 := by
    classical
    unfold countGe
    rw [Finset.card_eq_zero, Finset.filter_eq_empty_iff]
    intro i _
    fin_cases i
    norm_num
  have c1 : countGe (1 / 10) (![1, 0] : Vec ℝ 2) = 1 := by
    classical
    unfold countGe
    rw [Finset.card_eq_one]
    refine ⟨0, ?_⟩
    ext i
    fin_cases i <;> norm_num
  have c2 : countGe (1 / 10) (![1 / 2, 1 / 2] : Vec ℝ 2) = 2 := by
    classical
    unfold countGe
    rw [Finset.filter_true_of_mem (fun i _ => by fin_cases i <;> norm_num)]
    simp
  have hr : residual exSat ![1 / 2, 1 / 2] = residual exSat ![1, 0] := by
    funext i
    change Fin 3 at i
    fin_cases i <;> simp [residual, exSat, Fin.sum_univ_two] <;> norm_num
  have hnll : marginalNLL [exSat] (![1 / 2, 1 / 2] : Vec ℝ 2) ![0] = marginalNLL [exSat] ![1, 0] ![0] := by
    simp only [marginalNLL, List.map_cons, List.map_nil, groupNLL, hr]
  obtain ⟨v, v', h1, h2, h3, -⟩ := C199_marginal_violated [exSat] .nonInformative (1 / 10) ![1, 0] ![1 / 2, 1 / 2] ![0] ![0] 3 rfl le_rfl
    (by rw [card_countGe, card_countGe, c0, c1]) (by rw [card_countGe, card_countGe, c0, c2]) (by rw [card_countGe, card_countGe, c0, c2]; norm_num) _ (lmeLoss_ok.2 ⟨hd, rfl⟩)
    (lmeLoss_ok.2 ⟨hd, by rw [hnll]; rfl⟩)
  exact ⟨v, v', h1, h2, h3⟩

/-- **C199** on two observations with one fixed effect: the conditional AIC is returned, and is below minus twice the conditional log likelihood. -/
example : ∃ w v, lmeDemarginalizedLoss [exGroup] .nonInformative ![1] ![1] = .ok w ∧ lmeVaida [exGroup] .nonInformative 0 false ![1] ![1] = .ok v ∧ v < 2 * w := by
  have hm : MaskExact (![1] : Vec ℝ 1) := by intro j; fin_cases j; right; norm_num
  have hd : InDomain [exGroup] (![1] : Vec ℝ 1) := inDomain_of_nonneg exGroup_posVar hm.nonneg
  have hu := exGroup_kernel ![1] hm.nonneg
  obtain ⟨rho, h⟩ := (C98_degrees_of_freedom _ exGroup_posVar ![1] hm).1.2 (by
    rw [List.map_cons, List.map_nil, List.map_cons, List.map_nil, hessBetaTerm_eq (hd _ List.mem_cons_self)] at hu
    exact hu)
  obtain ⟨-, w, -, -, hw, -⟩ := C96_demarginalized _ exGroup_posVar .nonInformative ![1] ![1] hm
  have hv := (lmeVaida_cond_ok (tol := 0)).2 ⟨by
    have hn2 : ((lmeNumObs [exGroup] : ℕ) : ℝ) = 2 := by
      change ((2 + 0 : ℕ) : ℝ) = 2
      norm_num
    rw [countGe_zero, hn2]
    norm_num, rho, w, h, hw, rfl⟩
  obtain ⟨w', h1, h2, -⟩ := C199_conditional_violated [exGroup] .nonInformative 0 ![1] ![1] (by rw [card_countGe, countGe_zero]; rfl) (by rw [card_countGe, countGe_zero]; exact one_pos) _ hv
  obtain rfl := Except.ok.inj (hw.symm.trans h1)
  exact ⟨w, _, hw, hv, h2⟩

end Verif
