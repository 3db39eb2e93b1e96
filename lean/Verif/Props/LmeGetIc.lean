import Verif.Model.LmeExtra
import Verif.Props.LmeAic

/-!
# Criteria by name (C148)
-/

open Matrix

namespace Verif

noncomputable section

variable {p q : ℕ}

/-- **C148**: `get_ic` returns, for the two documented names, the criterion of that name of the unrelaxed model with the tolerance and the version asked for, whether the oracle is relaxed or not: for
parameters in the domain, the Bayes criterion has the effective sample size in its penalty and does not look at `marginalized`; the marginal Akaike criterion has its finite-sample correction as long as it is
positive; the conditional one is built on the effective degrees of freedom and the conditional loss. Every other name raises `ValueError` before anything is computed. -/
theorem C148_get_ic (sr3 : Option Sr3Params) (D : List (LmeGroup p q)) (P : LmeInstPrior ℝ p q) (beta : Vec ℝ p) (gamma : Vec ℝ q) (tol : ℝ) (marg : Bool) :
    let n : ℝ := ((D.map fun g => g.n).sum : ℕ)
    let k : ℝ := Nat.card {i // tol ≤ |beta i|}
    let l : ℝ := Nat.card {j // tol ≤ |gamma j|}
    (∀ ic, ic ≠ "IC_vaida2005aic" → ic ≠ "IC_jones2010bic" → lmeOracleGetIc sr3 D P ic beta gamma tol marg = .error .valueError) ∧
    (InDomain D gamma → lmeOracleGetIc sr3 D P "IC_jones2010bic" beta gamma tol marg = .ok (2 * (marginalNLL D beta gamma + P.loss beta gamma) + (k + l) * Real.log (effSize D gamma))) ∧
    (InDomain D gamma → lmeOracleGetIc sr3 D P "IC_vaida2005aic" beta gamma tol true =
      .ok (2 * (marginalNLL D beta gamma + P.loss beta gamma) + 2 * (if 0 < n - k - l - 1 then n / (n - k - l - 1) else 1) * (k + l))) ∧
    (∀ v, lmeOracleGetIc sr3 D P "IC_vaida2005aic" beta gamma tol false = .ok v ↔ (n - k - 2 ≠ 0 ∧ n - k ≠ 0) ∧
      ∃ rho w, lmeDdf D gamma = .ok rho ∧ lmeDemarginalizedLoss D P beta gamma = .ok w ∧ v = 2 * w + 2 * (n / (n - k - 2) * (rho - (rho - k) / (n - k))) * (k + l)) := by
  classical
  intro n k l
  have hc : ∀ {n : ℕ} (v : Vec ℝ n), Nat.card {i // tol ≤ |v i|} = countGe tol v := by
    intro n v
    rw [Nat.card_eq_fintype_card, Fintype.card_subtype]
    unfold countGe
    congr
  have ev : ∀ m, lmeOracleGetIc sr3 D P "IC_vaida2005aic" beta gamma tol m = lmeVaida D P tol m beta gamma := fun m => by cases sr3 <;> rfl
  have ej : lmeOracleGetIc sr3 D P "IC_jones2010bic" beta gamma tol marg = lmeJonesBic D P tol beta gamma := by cases sr3 <;> rfl
  refine ⟨fun ic h1 h2 => ?_, fun hd => ?_, fun hd => ?_, fun v => ?_⟩
  · unfold lmeOracleGetIc
    rw [if_neg h1, if_neg h2]
  · rw [ej, ← (C65_sr3_criteria D P ⟨0, 0⟩ tol beta gamma).1]
    exact ((C65_sr3_criteria D P ⟨0, 0⟩ tol beta gamma).2.2.2 hd).1
  · rw [ev]
    obtain ⟨h1, h2, -⟩ := C97_aic_partial D P tol beta gamma hd
    by_cases hpos : 0 < n - k - l - 1
    · rw [if_pos hpos]
      exact h1 hpos
    · rw [if_neg hpos, mul_one]
      exact h2 (not_lt.1 hpos)
  · rw [ev, lmeVaida_cond_ok, ← hc, ← hc]
    rfl

/-- Non-vacuity of C148: a group with two observations, a relaxed oracle. -/
example : lmeOracleGetIc (some ⟨40, 40⟩) [exGroup] .nonInformative "IC_jones2010bic" ![1] ![1] = .ok (2 * marginalNLL [exGroup] ![1] ![1] + (1 + 1) * Real.log (effSize [exGroup] ![1])) ∧
    lmeOracleGetIc (some ⟨40, 40⟩) [exGroup] .nonInformative "muller_ic" ![1] ![1] = .error .valueError := by
  have hg : ∀ j, 0 ≤ (![1] : Vec ℝ 1) j := by intro j; fin_cases j; simp
  have h := C148_get_ic (some ⟨40, 40⟩) [exGroup] .nonInformative ![1] ![1] 0 false
  refine ⟨?_, h.1 _ (by decide) (by decide)⟩
  have h1 := h.2.1 (inDomain_of_nonneg exGroup_posVar hg)
  have hc : ∀ v : Vec ℝ 1, Nat.card {i // 0 ≤ |v i|} = 1 := by
    intro v
    simp
  have h0 : (LmeInstPrior.nonInformative : LmeInstPrior ℝ 1 1).loss ![1] ![1] = 0 := rfl
  simp only [hc, h0, add_zero] at h1
  exact_mod_cast h1

end

end Verif
