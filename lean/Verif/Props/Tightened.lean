import Verif.Props.PriorShapes
import Verif.Props.LmeGenArgs
import Verif.Props.LmeIpLog

/-!
# More about C173, C178 and C179

The gradient of an oracle with its prior, the number of features drawn for a covariance matrix, and failed fits with a log.
-/

namespace Verif

section
variable {K : Type*} [Field K] [LinearOrder K]

/-- **C173**, the gradient: with one name per coefficient, the gradient of the oracle and the slope of each prior add up, entry by entry. -/
theorem C173_gradient_added (params : PriorParams K) (st : GaussArr K) (names : List String) (hst : gaussArr params names = .ok st) (g b : List K)
    (hb : b.length = names.length) (hg : g.length = names.length) :
    ∃ s, st.addGradient g b = .ok s ∧ s.length = names.length ∧ ∀ i < names.length, s.getD i 0 = g.getD i 0 + columnSlope params (names.getD i "") (b.getD i 0) := by
  have h1 : st.addGradient g b = .ok (List.zipWith (· + ·) g (List.zipWith (columnSlope params) names b)) := by
    unfold GaussArr.addGradient
    rw [(arr_aligned hst b hb).2]
    exact npVec_eq _ _ _ (by simp [hb, hg])
  refine ⟨_, h1, by simp [hb, hg], fun i hi => ?_⟩
  simp only [List.getD_eq_getElem?_getD]
  rw [List.getElem?_eq_getElem (by simp [hb, hg, hi]), List.getElem?_eq_getElem (by omega), List.getElem?_eq_getElem hi, List.getElem?_eq_getElem (by omega)]
  simp

/-- **C173** is violated by the gradient too: with one name and an intercept, the slope of the prior is added to both entries. -/
theorem C173_gradient_violated (name : String) (mean std : K) (hstd : 0 < std) (st : GaussArr K) (hst : gaussArr [(name, (mean, std))] [name] = .ok st) (g0 g1 b0 b1 : K) :
    st.addGradient [g0, g1] [b0, b1] = .ok [g0 + (b0 - mean) / std, g1 + (b1 - mean) / std] := by
  have h1 : st.gradient [b0, b1] = .ok [(b0 - mean) / std, (b1 - mean) / std] := by
    rw [arr_gradient hst]
    have e : PriorParams.getD [(name, (mean, std))] name = (mean, std) := by simp [PriorParams.getD]
    simp only [List.map_cons, List.map_nil, e, if_pos hstd]
    rw [npVec_right]
    refine (npVec_left (· * ·) (1 * (1 / std)) (List.map (fun x => x - mean) [b0, b1])).trans ?_
    simp [div_eq_inv_mul]
  unfold GaussArr.addGradient
  rw [h1]
  exact npVec_eq (· + ·) [g0, g1] [(b0 - mean) / std, (b1 - mean) / std] rfl

/-- A prior for the first of two columns: its slope `(5 - 1) / 2` is added to the first entry only. -/
example : ∃ st s, gaussArr [("a", ((1 : ℚ), 2))] ["a", "b"] = .ok st ∧ st.addGradient [10, 20] [5, 6] = .ok s ∧ s.getD 0 0 = 12 ∧ s.getD 1 0 = 20 := by
  obtain ⟨st, hst⟩ : ∃ st, gaussArr [("a", ((1 : ℚ), 2))] ["a", "b"] = .ok st := ⟨⟨[1, 0], [2, 1], [1, 0]⟩, by rfl⟩
  obtain ⟨s, h1, -, h2⟩ := C173_gradient_added _ st _ hst [10, 20] [5, 6] rfl rfl
  refine ⟨st, s, hst, h1, (h2 0 (by decide)).trans ?_, (h2 1 (by decide)).trans ?_⟩
  · norm_num [columnSlope]
  · have e : columnSlope [("a", ((1 : ℚ), 2))] "b" 6 = 0 := rfl
    exact (congrArg (20 + ·) e).trans (add_zero _)

/-- **C178**, labels drawn for a given covariance matrix of the features: with an intercept, no other arguments, and chances of missing values and outliers that are probabilities, `generate` returns for every
square matrix, and the table has one column per row of the matrix; for other shapes it raises. -/
theorem C178_covariance {a : GenArgs K} {r : GenRand K} {mult : K} (hf : r.Fits a mult) (hv : a.obsVar.PerGroup (a.sizesOf r).length (a.sizesOf r).sum) (hl : a.labels = none) (hi : a.ffi = true)
    (hb : a.beta = none) (hg : a.gamma = none) (hu : a.trueEffects = none) (hp : 0 ≤ a.chanceMissing ∧ 0 ≤ a.chanceOutlier ∧ 0 ≤ 1 - a.chanceMissing - a.chanceOutlier)
    (s : ℕ × ℕ) (hc : a.covariance = some s) :
    ((∃ out, genCall a r = .ok out) ↔ s.1 = s.2) ∧ ∀ i < (a.sizesOf r).length, ∀ row ∈ r.features i, row.length = s.1 := by
  have hlen : (a.labelsOf r).length = s.1 := by
    unfold GenArgs.labelsOf
    rw [hl, hc]
    exact (hf.labels s.1).1
  refine ⟨?_, fun i hi row hrow => ((hf.features i hi).2 row hrow).trans hlen⟩
  rw [C178_returns_partial hf hv (.inl hu)]
  constructor
  · rintro ⟨-, -, -, h, -⟩
    have := h s hc
    rw [hlen] at this
    exact (congrArg Prod.snd this).symm
  · intro h
    refine ⟨.inl hi, fun b h => (by rw [hb] at h; cases h), fun b h => (by rw [hg] at h; cases h), fun t ht => ?_, .inr hp⟩
    rw [hc] at ht
    cases ht
    rw [hlen]
    exact Prod.ext rfl h.symm

/-- The arguments of the next example: an intercept and a covariance matrix of the given shape. -/
def covArgs (s : ℕ × ℕ) : GenArgs ℚ := { sizes := some [some 1], ffi := true, covariance := some s, obsVar := .scalar 1, chanceMissing := 0, chanceOutlier := 0 }

/-- A covariance matrix of shape `(1, 1)` makes one feature; one of shape `(1, 2)` is rejected. -/
example : (∃ out, genCall (covArgs (1, 1)) (oneRand 3 1 2) = .ok out) ∧ ¬ ∃ out, genCall (covArgs (1, 2)) (oneRand 3 1 2) = .ok out := by
  have hf : ∀ n, (oneRand (3 : ℚ) 1 2).Fits (covArgs (1, n)) 5 := fun n => by
    have hs : (covArgs (1, n)).sizesOf (oneRand 3 1 2) = [1] := rfl
    have hl : (covArgs (1, n)).labelsOf (oneRand 3 1 2) = ["fixed"] := rfl
    have h0 : ∀ i, i < ((covArgs (1, n)).sizesOf (oneRand 3 1 2)).length → i = 0 := by
      intro i hi
      rw [hs] at hi
      simpa using hi
    refine ⟨fun n => ⟨List.length_replicate, fun l hl => .inl (List.eq_of_mem_replicate hl)⟩, fun n => List.length_replicate, fun n => List.length_replicate, fun i hi => ?_, fun i hi => ?_,
      fun i hi => ?_, fun i hi => ?_⟩
    · rw [h0 i hi, hs, hl]
      exact ⟨rfl, by simp [oneRand]⟩
    · rw [h0 i hi, hs, hl]
      refine ⟨rfl, ?_⟩
      intro row hrow
      have : row = [1] := by simpa [oneRand] using hrow
      subst this
      refine ⟨rfl, fun m hm => .inr (.inl (by simpa using hm))⟩
    · rw [hl]
      show 0 = List.countP (fun l => decide (l = RANDOM ∨ l = FIXED_RANDOM)) ["fixed"] + if false = true then 1 else 0
      decide
    · rw [h0 i hi, hs]
      rfl
  have h : ∀ n, (∃ out, genCall (covArgs (1, n)) (oneRand 3 1 2) = .ok out) ↔ 1 = n := fun n =>
    (C178_covariance (hf n) (fun l hl => by cases hl) rfl rfl rfl rfl rfl (by norm_num [covArgs]) (1, n) rfl).1
  exact ⟨(h 1).2 rfl, fun h2 => absurd ((h 2).1 h2) (by decide)⟩

end

section

/-- **C179**, failed fits: a fit that raises leaves the coefficients as they were, or sets them to those of a finished run (when an information criterion raises after the fit). -/
theorem C179_failed (M : LmeModelCfg) (st : LmeState) (P : LmeProblem ℝ) (a : LmeFitArgs) (e : PyErr) (c : LmeState) (h : lmeFitProblemLog M st P a = (.error e, c)) :
    c = st ∨ ∃ coef, c = some coef ∧ coef.beta.length = P.numFixed ∧ coef.gamma.length = P.numRandom := by
  unfold lmeFitProblemLog at h
  cases hcore : lmeFitCoreLog M st P a with
  | error e' =>
    rw [hcore] at h
    exact .inl (congrArg Prod.snd h).symm
  | ok r =>
    rw [hcore] at h
    refine .inr ⟨r.1, (congrArg Prod.snd h).symm, ?_⟩
    unfold lmeFitCoreLog at hcore
    obtain ⟨m, -, hcore⟩ := ebind_ok.1 hcore
    obtain ⟨Pr, -, hcore⟩ := ebind_ok.1 hcore
    obtain ⟨w, -, hcore⟩ := ebind_ok.1 hcore
    obtain ⟨base, -, hcore⟩ := ebind_ok.1 hcore
    obtain ⟨D, -, hcore⟩ := ebind_ok.1 hcore
    obtain ⟨b, -, hcore⟩ := ebind_ok.1 hcore
    obtain ⟨g, -, hcore⟩ := ebind_ok.1 hcore
    obtain ⟨x, -, hcore⟩ := ebind_ok.1 hcore
    obtain ⟨us, -, hcore⟩ := ebind_ok.1 hcore
    obtain ⟨per, -, hcore⟩ := ebind_ok.1 hcore
    cases hcore
    exact ⟨List.length_ofFn, List.length_ofFn⟩

/-- A fit that fails: a list of keys on a problem with random effects (`C179_list_violated`). The coefficients of an earlier fit are still there, or replaced by coefficients of the right lengths. -/
example (M : LmeModelCfg) (s : LmeSr3Cfg) (hs : M.sr3 = some s) (hpr : s.practical = true) (hk : M.loggerKind = .list) (hm : "mu_effective" ∉ M.loggerKeys) (st : LmeState) (P : LmeProblem ℝ)
    (hq : P.numRandom ≠ 0) (a : LmeFitArgs) : (lmeFitProblemLog M st P a).2 = st ∨ ∃ coef, (lmeFitProblemLog M st P a).2 = some coef ∧ coef.gamma.length = P.numRandom := by
  obtain ⟨e, he⟩ := C179_list_violated M s hs hpr (by rw [hk]; decide) st P hq a hm
  rcases C179_failed M st P a e _ (Prod.ext he rfl) with h | ⟨coef, h, -, hg⟩
  · exact .inl h
  · exact .inr ⟨coef, h, hg⟩

end

end Verif
