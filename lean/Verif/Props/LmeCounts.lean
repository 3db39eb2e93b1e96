import Verif.Props.LmeWarm
import Verif.Props.LmeIc

/-!
# C66: the number of parameters in the information criteria
-/

open Matrix

namespace Verif

variable {N k p q : ℕ}

/-- The criteria with the number of nonzero coefficients as the number of parameters. -/
noncomputable def trueJones (D : List (LmeGroup p q)) (beta : Vec ℝ p) (gamma : Vec ℝ q) : ℝ :=
  2 * marginalNLL D beta gamma + ((numNonzero beta : ℝ) + numNonzero gamma) * Real.log (effSize D gamma)

/-- The criteria with the number of nonzero coefficients as the number of parameters. -/
noncomputable def trueMuller (D : List (LmeGroup p q)) (beta : Vec ℝ p) (gamma : Vec ℝ q) : ℝ :=
  2 / ((D.map fun g => g.n).sum : ℕ) * marginalNLL D beta gamma
    + 1 / ((D.map fun g => g.n).sum : ℕ) * Real.log D.length * numNonzero beta
    + 2 / ((D.map fun g => g.n).sum : ℕ) * numNonzero gamma

theorem numNonzero_le {n : ℕ} (v : Vec ℝ n) : numNonzero v ≤ n := by
  unfold numNonzero
  refine (Set.ncard_le_card _).trans ?_
  simp

theorem numNonzero_lt {n : ℕ} (v : Vec ℝ n) (i : Fin n) (h : v i = 0) : numNonzero v < n := by
  unfold numNonzero
  have : Set.ncard {i | v i ≠ 0} < Set.ncard (Set.univ : Set (Fin n)) :=
    Set.ncard_lt_ncard (Set.ssubset_univ_iff.2 fun hcon => by
      have : i ∈ {i | v i ≠ 0} := by rw [hcon]; trivial
      exact this h) (Set.toFinite _)
  simpa using this

/-- The part of **C66** that holds: with a positive tolerance which is not above any nonzero coefficient or variance, the
criteria of both oracles count exactly the nonzero ones. The criteria logged by `fit` are called with the tolerance
`sqrt(solver.tol)`. Missing: `get_information_criterion`, see `C66_get_ic_violated`. -/
theorem C66_counts_partial (D : List (LmeGroup p q)) (S : Sr3Params) (tol : ℝ) (htol : 0 < tol) (beta : Vec ℝ p)
    (gamma : Vec ℝ q) (hd : InDomain D gamma) (hb : ∀ i, beta i ≠ 0 → tol ≤ |beta i|)
    (hg : ∀ j, gamma j ≠ 0 → tol ≤ |gamma j|) :
    lmeJonesBic D .nonInformative tol beta gamma = .ok (trueJones D beta gamma) ∧
    lmeSr3JonesBic D .nonInformative S tol beta gamma = .ok (trueJones D beta gamma) ∧
    lmeMullerHui D .nonInformative tol beta gamma = .ok (trueMuller D beta gamma) ∧
    lmeSr3MullerHui D .nonInformative S tol beta gamma = .ok (trueMuller D beta gamma) := by
  have hl : (LmeInstPrior.nonInformative : LmeInstPrior ℝ p q).loss beta gamma = 0 := rfl
  have h1 : lmeJonesBic D .nonInformative tol beta gamma = .ok (trueJones D beta gamma) := by
    rw [lmeJonesBic_eq hd, countGe_eq htol hb, countGe_eq htol hg, hl, add_zero]
    rfl
  have h2 : lmeMullerHui D .nonInformative tol beta gamma = .ok (trueMuller D beta gamma) := by
    rw [lmeMullerHui_eq hd, countGe_eq htol hb, countGe_eq htol hg, hl, add_zero]
    rfl
  have h3 := C65_sr3_criteria D .nonInformative S tol beta gamma
  exact ⟨h1, h3.1.trans h1, h2, h3.2.1.trans h2⟩

/-- Non-vacuity: one observation, coefficient 0 and variance 1. -/
example : lmeMullerHui [exGroup] .nonInformative 0.01 ![0] ![1] = .ok (trueMuller [exGroup] ![0] ![1]) ∧
    numNonzero (![0] : Vec ℝ 1) = 0 := by
  have hd : InDomain [exGroup] ![1] := inDomain_of_nonneg exGroup_posVar (by intro j; fin_cases j; simp)
  refine ⟨(C66_counts_partial [exGroup] ⟨40, 40⟩ 0.01 (by norm_num) ![0] ![1] hd (by simp) ?_).2.2.1, ?_⟩
  · intro j _
    fin_cases j
    norm_num
  · have := numNonzero_lt (![0] : Vec ℝ 1) 0 rfl
    omega

/-- **C66** is violated by `get_information_criterion`: for every table with positive observation variances and at least
one row, every fitted coefficients of the right sizes with nonnegative variances, the numbers of parameters in the
criteria are the numbers of all fixed and random effects, whether zero or not. The Mueller-Hui criterion is too large as
soon as one variance is zero, and so is the criterion of Jones if the effective sample size exceeds one and a
coefficient or a variance is zero. -/
theorem C66_get_ic_violated (x : Matrix (Fin N) (Fin k) ℝ) (y : Vec ℝ N) (labels : List String) (P : LmeProblem ℝ)
    (hP : lmeFromXY x (some y) none labels false false none none = .ok P)
    (hpos : ∀ v : Fin k, labels[(v : ℕ)]? = some "variance" → ∀ r, 0 < x r v) (c : LmeCoef)
    (beta : Vec ℝ P.numFixed) (gamma : Vec ℝ P.numRandom) (hb : c.beta = List.ofFn beta) (hg : c.gamma = List.ofFn gamma)
    (hg0 : ∀ j, 0 ≤ gamma j) :
    ∃ (D : List (LmeGroup P.numFixed P.numRandom)) (jones muller : ℝ), lmeGroups P = .ok D ∧
      lmeGetIC (some c) x y (some labels) "jones_bic" = .ok jones ∧
      lmeGetIC (some c) x y (some labels) "muller_ic" = .ok muller ∧
      jones = 2 * marginalNLL D beta gamma + (fixedCount labels false + randomCount labels false) * Real.log (effSize D gamma) ∧
      (1 < effSize D gamma → (∃ i, beta i = 0) ∨ (∃ j, gamma j = 0) → trueJones D beta gamma < jones) ∧
      ((∃ j, gamma j = 0) → trueMuller D beta gamma < muller) := by
  obtain ⟨g, v, hgi, hvi, hgl, hD⟩ := lmeGroups_table hP
  obtain ⟨_, _, _, _, -, -, hlen, -, -, -, -, -, -, -, hPe⟩ := lmeFromXY_ok x (some y) none labels false false none none P hP
  have hF := numFixed_eq P false false (by rw [hPe])
  have hR := numRandom_eq P false false (by rw [hPe])
  have hcl : P.columnLabels = labels := by rw [hPe]
  rw [hcl, ← fixedCount_eq] at hF
  rw [hcl, ← randomCount_eq] at hR
  obtain ⟨hN, -⟩ := lmeFromXY_forget hP
  obtain ⟨D, hDe⟩ : ∃ D, D = (uniqueLabels fun r => x r g).map (tableGroup x y labels false false g v P.numFixed P.numRandom) :=
    ⟨_, rfl⟩
  rw [← hDe] at hD
  have hvl : labels[(v : ℕ)]? = some "variance" := by
    have : v ∈ labelIdx (p := k) labels (fun l => decide (l = VARIANCE)) := by rw [hvi]; simp
    rw [mem_labelIdx] at this
    have hlt : (v : ℕ) < labels.length := by omega
    rw [List.getElem?_eq_getElem hlt]
    simpa [List.getD_eq_getElem?_getD, List.getElem?_eq_getElem hlt, VARIANCE] using this
  have hDpos : PosVar D := by
    intro gr hgr i
    rw [hDe] at hgr
    obtain ⟨l, -, rfl⟩ := List.mem_map.1 hgr
    exact hpos v hvl _
  have hobs : 0 < (D.map fun g => g.n).sum := by
    obtain ⟨r⟩ : Nonempty (Fin N) := ⟨⟨0, by omega⟩⟩
    have h1 : x r g ∈ uniqueLabels fun r => x r g := (uniqueLabels_mem _ _).2 ⟨r, rfl⟩
    have h2 : r ∈ groupRows (fun r => x r g) (x r g) := (groupRows_mem _ _ _).2 rfl
    have h3 : (groupRows (fun r => x r g) (x r g)).length ∈ D.map fun g => g.n := by
      rw [hDe, List.map_map]
      exact List.mem_map.2 ⟨x r g, h1, rfl⟩
    exact lt_of_lt_of_le (List.length_pos_of_mem h2) (List.le_sum_of_mem h3)
  have hd := inDomain_of_nonneg hDpos hg0
  have hab : asVec P.numFixed c.beta = .ok beta := asVec_ok.2 hb.symm
  have hag : asVec P.numRandom c.gamma = .ok gamma := asVec_ok.2 hg.symm
  have hl : (LmeInstPrior.nonInformative : LmeInstPrior ℝ P.numFixed P.numRandom).loss beta gamma = 0 := rfl
  have hj : lmeGetIC (some c) x y (some labels) "jones_bic" = lmeJonesBic D .nonInformative 0 beta gamma := by
    simp [lmeGetIC, hP, hD, hab, hag, bind, Except.bind]
  have hm : lmeGetIC (some c) x y (some labels) "muller_ic" = lmeMullerHui D .nonInformative 0 beta gamma := by
    simp [lmeGetIC, hP, hD, hab, hag, bind, Except.bind]
  rw [lmeJonesBic_eq hd, countGe_zero, countGe_zero, hl, add_zero] at hj
  rw [lmeMullerHui_eq hd, countGe_zero, countGe_zero, hl, add_zero] at hm
  refine ⟨D, _, _, hD, hj, hm, ?_, ?_, ?_⟩
  · have e1 : (fixedCount labels false : ℝ) = P.numFixed := by rw [hF]
    have e2 : (randomCount labels false : ℝ) = P.numRandom := by rw [hR]
    rw [e1, e2]
  · intro he hz
    unfold trueJones
    have hlog := Real.log_pos he
    have h1 : (numNonzero beta : ℝ) + numNonzero gamma < (P.numFixed : ℝ) + P.numRandom := by
      have a1 := numNonzero_le beta
      have a2 := numNonzero_le gamma
      rcases hz with ⟨i, hi⟩ | ⟨j, hj⟩
      · have := numNonzero_lt beta i hi
        exact_mod_cast (by omega : numNonzero beta + numNonzero gamma < P.numFixed + P.numRandom)
      · have := numNonzero_lt gamma j hj
        exact_mod_cast (by omega : numNonzero beta + numNonzero gamma < P.numFixed + P.numRandom)
    have := mul_lt_mul_of_pos_right h1 hlog
    linarith
  · rintro ⟨j, hj⟩
    unfold trueMuller
    have hn : (0 : ℝ) < ((D.map fun g => g.n).sum : ℕ) := by exact_mod_cast hobs
    have h1 : (numNonzero beta : ℝ) ≤ P.numFixed := by exact_mod_cast numNonzero_le beta
    have h2 : (numNonzero gamma : ℝ) < P.numRandom := by exact_mod_cast numNonzero_lt gamma j hj
    have hlog : 0 ≤ Real.log D.length := Real.log_natCast_nonneg _
    have h3 : 1 / (((D.map fun g => g.n).sum : ℕ) : ℝ) * Real.log D.length * numNonzero beta
        ≤ 1 / (((D.map fun g => g.n).sum : ℕ) : ℝ) * Real.log D.length * P.numFixed :=
      mul_le_mul_of_nonneg_left h1 (by positivity)
    have h4 : 2 / (((D.map fun g => g.n).sum : ℕ) : ℝ) * numNonzero gamma
        < 2 / (((D.map fun g => g.n).sum : ℕ) : ℝ) * P.numRandom :=
      mul_lt_mul_of_pos_left h2 (by positivity)
    change _ < 2 / (((D.map fun g => g.n).sum : ℕ) : ℝ) * marginalNLL D beta gamma
      + 1 / (((D.map fun g => g.n).sum : ℕ) : ℝ) * Real.log D.length * P.numFixed
      + 2 / (((D.map fun g => g.n).sum : ℕ) : ℝ) * P.numRandom
    linarith

/-- Non-vacuity: on the example table a model with coefficient 2 and variance 0 gets too large a Mueller-Hui criterion. -/
example : ∃ (P : LmeProblem ℝ) (D : List (LmeGroup P.numFixed P.numRandom)) (beta : Vec ℝ P.numFixed)
    (gamma : Vec ℝ P.numRandom) (muller : ℝ), List.ofFn beta = [2] ∧ List.ofFn gamma = [0] ∧ lmeGroups P = .ok D ∧
    lmeGetIC (some ⟨[2], [0], [[0], [0]], [0, 1], []⟩) exTab ![26, 20] (some exTabLabels) "muller_ic" = .ok muller ∧
    trueMuller D beta gamma < muller := by
  obtain ⟨P, hP⟩ := exTab_ok' false false ![26, 20]
  obtain ⟨_, _, _, _, -, -, -, -, -, -, -, -, -, -, hPe⟩ := lmeFromXY_ok exTab (some ![26, 20]) none exTabLabels false false none
    none P hP
  have hcl : P.columnLabels = exTabLabels := by rw [hPe]
  have hF : P.numFixed = 1 := by
    rw [numFixed_eq P false false (by rw [hPe]), hcl]; rfl
  have hR : P.numRandom = 1 := by
    rw [numRandom_eq P false false (by rw [hPe]), hcl]; rfl
  have hb : List.ofFn (fun _ : Fin P.numFixed => (2 : ℝ)) = [2] := by rw [List.ofFn_const, hF]; rfl
  have hg : List.ofFn (fun _ : Fin P.numRandom => (0 : ℝ)) = [0] := by rw [List.ofFn_const, hR]; rfl
  obtain ⟨D, j, m, hD, -, hm, -, -, hlt⟩ := C66_get_ic_violated exTab ![26, 20] exTabLabels P hP exTab_positive
    ⟨[2], [0], [[0], [0]], [0, 1], []⟩ (fun _ => 2) (fun _ => 0) hb.symm hg.symm (fun _ => le_rfl)
  exact ⟨P, D, _, _, m, hb, hg, hD, hm, hlt ⟨⟨0, by omega⟩, rfl⟩⟩

end Verif
