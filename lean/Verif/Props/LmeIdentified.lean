import Verif.Props.LmeFitTotal
import Verif.Props.LmeDefault
import Verif.Props.LmeAic
import Verif.Props.LmeWarm

/-!
# C83 for tables with linearly independent fixed columns: every initializer, every logger key
-/

open Matrix

namespace Verif

variable {p q N k : ℕ}

/-- The fixed-effect columns of the table, with the intercept's column of ones, are linearly independent. -/
def IndependentColumns (labels : List String) (ffi : Bool) (x : Matrix (Fin N) (Fin k) ℝ) : Prop :=
  ∀ b : List ℝ, b.length = fixedCount labels ffi → (∀ r, sumProd (fixedEntries labels ffi x r) b = 0) → ∀ v ∈ b, v = 0

/-- The kernel `Σ XᵀΩ⁻¹X` is invertible iff no nonzero vector is annihilated by all the designs. -/
theorem kernel_unit_iff {D : List (LmeGroup p q)} (hD : PosVar D) {gamma : Vec ℝ q} (hg : ∀ j, 0 ≤ gamma j) :
    IsUnit ((D.map (lmeFact gamma)).map hessBetaTerm).sum.det ↔ ∀ b : Vec ℝ p, (∀ g ∈ D, g.x *ᵥ b = 0) → b = 0 := by
  have hd := inDomain_of_nonneg hD hg
  have hk : ((D.map (lmeFact gamma)).map hessBetaTerm).sum = (D.map fun g : LmeGroup p q => g.xᵀ * (margCov g gamma)⁻¹ * g.x).sum := by
    rw [List.map_map]
    congr 1
    exact List.map_congr_left fun g hg => hessBetaTerm_eq (hd g hg)
  rw [hk]
  have hsum : ∀ (E : List (LmeGroup p q)) (b : Vec ℝ p), (E.map fun g : LmeGroup p q => g.xᵀ * (margCov g gamma)⁻¹ * g.x).sum *ᵥ b =
      (E.map fun g : LmeGroup p q => (g.xᵀ * (margCov g gamma)⁻¹) *ᵥ (g.x *ᵥ b)).sum := by
    intro E b
    induction E with
    | nil => simp
    | cons g E ih => rw [List.map_cons, List.sum_cons, Matrix.add_mulVec, ih, List.map_cons, List.sum_cons, Matrix.mulVec_mulVec]
  constructor
  · intro hu b hb
    refine Matrix.eq_zero_of_mulVec_eq_zero hu.ne_zero ?_
    rw [hsum]
    refine List.sum_eq_zero fun v hv => ?_
    obtain ⟨g, hgD, rfl⟩ := List.mem_map.1 hv
    rw [hb g hgD, Matrix.mulVec_zero]
  · intro h
    rw [isUnit_iff_ne_zero]
    intro h0
    obtain ⟨b, hb0, hb⟩ := Matrix.exists_mulVec_eq_zero_iff.2 h0
    refine hb0 (h b fun g hgD => ?_)
    have hq : (D.map fun g : LmeGroup p q => (g.x *ᵥ b) ⬝ᵥ ((margCov g gamma)⁻¹ *ᵥ (g.x *ᵥ b))).sum = 0 := by
      have e : b ⬝ᵥ ((D.map fun g : LmeGroup p q => g.xᵀ * (margCov g gamma)⁻¹ * g.x).sum *ᵥ b) = 0 := by
        rw [hb, dotProduct_zero]
      rw [← e, hsum]
      clear e hb h0 h hk hd hD hgD
      induction D with
      | nil => simp
      | cons g D ih =>
        rw [List.map_cons, List.sum_cons, ih, List.map_cons, List.sum_cons, dotProduct_add, ← Matrix.mulVec_mulVec, Matrix.dotProduct_mulVec b, Matrix.vecMul_transpose]
    have hnn : ∀ g ∈ D, 0 ≤ (g.x *ᵥ b) ⬝ᵥ ((margCov g gamma)⁻¹ *ᵥ (g.x *ᵥ b)) := fun g hg => posDef_inv_nonneg (hd g hg) _
    have hz : (g.x *ᵥ b) ⬝ᵥ ((margCov g gamma)⁻¹ *ᵥ (g.x *ᵥ b)) = 0 :=
      le_antisymm (hq ▸ List.single_le_sum (fun v hv => by obtain ⟨g', hg', rfl⟩ := List.mem_map.1 hv; exact hnn g' hg') _ (List.mem_map_of_mem hgD)) (hnn g hgD)
    by_contra hne
    have := (hd g hgD).inv.dotProduct_mulVec_pos hne
    rw [star_trivial, hz] at this
    exact lt_irrefl _ this

/-- For the groups of a table this is the independence of its columns. -/
theorem table_independent {x : Matrix (Fin N) (Fin k) ℝ} {y : Vec ℝ N} {columns : Option (List String)}
    {labels : List String} {ffi fri : Bool} {mustFe mustRe : Option (List String)} {P : LmeProblem ℝ}
    (hP : lmeFromXY x (some y) columns labels ffi fri mustFe mustRe = .ok P) {D : List (LmeGroup P.numFixed P.numRandom)} (hD : lmeGroups P = .ok D) :
    (∀ b : Vec ℝ P.numFixed, (∀ g ∈ D, g.x *ᵥ b = 0) → b = 0) ↔ IndependentColumns labels ffi x := by
  obtain ⟨g, v, -, -, -, hD'⟩ := lmeGroups_table hP
  rw [hD] at hD'
  obtain rfl := Except.ok.inj hD'
  obtain ⟨_, _, _, _, -, -, hlen, -, -, -, -, -, -, -, hPe⟩ := lmeFromXY_ok x (some y) columns labels ffi fri mustFe mustRe P hP
  have hF := numFixed_eq P ffi fri (by rw [hPe])
  have hcl : P.columnLabels = labels := by rw [hPe]
  rw [hcl, ← fixedCount_eq] at hF
  have hrow : ∀ r, (fixedEntries labels ffi x r).length = P.numFixed := by
    intro r
    rw [← fixedEntries_eq x labels hlen, designRow, List.length_append, List.length_map, labelIdx_length labels hlen, hF, fixedCount_eq]
    cases ffi <;> simp [add_comm]
  have key : ∀ b : Vec ℝ P.numFixed, (∀ gr ∈ (uniqueLabels fun r => x r g).map (tableGroup x y labels ffi fri g v P.numFixed P.numRandom), gr.x *ᵥ b = 0) ↔
      ∀ r, sumProd (fixedEntries labels ffi x r) (List.ofFn b) = 0 := by
    intro b
    constructor
    · intro h r
      have hr : r ∈ groupRows (fun r => x r g) (x r g) := by simp [groupRows]
      obtain ⟨i, hi⟩ := List.mem_iff_get.1 hr
      have hl : x r g ∈ uniqueLabels fun r => x r g := by simp [uniqueLabels]
      have := congrFun (h _ (List.mem_map_of_mem hl)) i
      change ∑ j : Fin P.numFixed, (designRow x ffi (labelIdx labels isFixed) ((groupRows (fun r => x r g) (x r g)).get i)).getD j 0 * b j = 0 at this
      rw [hi] at this
      rw [fixedEntries_eq x labels hlen, sum_getD _ (hrow r)] at this
      exact this
    · intro h gr hgr
      obtain ⟨l, -, rfl⟩ := List.mem_map.1 hgr
      funext i
      change ∑ j : Fin P.numFixed, (designRow x ffi (labelIdx labels isFixed) ((groupRows (fun r => x r g) l).get i)).getD j 0 * b j = 0
      rw [fixedEntries_eq x labels hlen, sum_getD _ (hrow _)]
      exact h _
  constructor
  · intro h b hb h0
    have hb' : b = List.ofFn fun i : Fin P.numFixed => b.getD i 0 := by
      refine List.ext_getElem (by simp [hb, hF]) fun i h1 h2 => ?_
      simp [h1]
    have := h (fun i => b.getD i 0) ((key _).2 (by rw [← hb']; exact h0))
    intro v hv
    rw [hb', List.mem_ofFn] at hv
    obtain ⟨i, rfl⟩ := hv
    exact congrFun this i
  · intro h b hb
    have := h (List.ofFn b) (by simp [hF]) ((key b).1 hb)
    funext i
    exact this _ (List.mem_ofFn.2 ⟨i, rfl⟩)

theorem countGe_le {n : ℕ} (tol : ℝ) (v : Vec ℝ n) : countGe tol v ≤ n := by
  classical
  unfold countGe
  exact (Finset.card_le_univ _).trans (by simp)

/-- The conditional criterion evaluates when the kernel is invertible and there are enough observations. -/
theorem lmeVaida_cond_total {D : List (LmeGroup p q)} (hD : PosVar D) (Pr : LmeInstPrior ℝ p q) {gamma : Vec ℝ q} (hg : ∀ j, 0 ≤ gamma j)
    (hu : IsUnit ((D.map (lmeFact gamma)).map hessBetaTerm).sum.det) (hn : p + 2 < lmeNumObs D) (tol : ℝ) (beta : Vec ℝ p) :
    ∃ v, lmeVaida D Pr tol false beta gamma = .ok v := by
  have hd := inDomain_of_nonneg hD hg
  have hc : (countGe tol beta : ℝ) ≤ p := by exact_mod_cast countGe_le tol beta
  have hn' : (p : ℝ) + 2 < lmeNumObs D := by exact_mod_cast hn
  obtain ⟨us, hus⟩ := lmeRandomEffects_total hD beta hg
  refine ⟨_, lmeVaida_cond_ok.2 ⟨⟨by linarith, by linarith⟩, _, _, ebind_ok.2 ⟨_, lmeHatMatrix_ok.2 ⟨hd, hu, fun g hgD =>
    (Matrix.isUnit_iff_isUnit_det _).1 (reKernel_posDef' g gamma (hD g hgD) hg).isUnit, rfl⟩, rfl⟩, ebind_ok.2 ⟨_, lmeRecalculate_ok.2 ⟨hd, rfl⟩, ebind_ok.2 ⟨us, hus, rfl⟩⟩, rfl⟩⟩

theorem numObs_table {x : Matrix (Fin N) (Fin k) ℝ} {y : Vec ℝ N} {columns : Option (List String)}
    {labels : List String} {ffi fri : Bool} {mustFe mustRe : Option (List String)} {P : LmeProblem ℝ}
    (hP : lmeFromXY x (some y) columns labels ffi fri mustFe mustRe = .ok P) {D : List (LmeGroup P.numFixed P.numRandom)} (hD : lmeGroups P = .ok D) :
    lmeNumObs D = N := by
  classical
  obtain ⟨g, v, -, -, -, hD'⟩ := lmeGroups_table hP
  rw [hD] at hD'
  obtain rfl := Except.ok.inj hD'
  unfold lmeNumObs
  rw [List.map_map]
  have e : ∀ l, ((fun gr : LmeGroup P.numFixed P.numRandom => gr.n) ∘ tableGroup x y labels ffi fri g v P.numFixed P.numRandom) l
      = (Finset.univ.filter fun r => x r g = l).card := by
    intro l
    change ((List.finRange N).filter fun r => decide (x r g = l)).length = _
    rw [← List.toFinset_card_of_nodup ((List.nodup_finRange N).filter _)]
    congr 1
    ext r
    simp
  rw [List.map_congr_left fun l _ => e l]
  have h2 := Finset.card_eq_sum_card_image (fun r => x r g) (Finset.univ : Finset (Fin N))
  rw [Finset.card_univ, Fintype.card_fin] at h2
  refine Eq.trans ?_ h2.symm
  have h3 : ∀ (s : Finset ℝ) (f : ℝ → ℕ), (s.sort.map f).sum = ∑ b ∈ s, f b := fun s f => by
    rw [← List.sum_toFinset _ (s.sort_nodup _), s.sort_toFinset]
  exact h3 _ _

theorem plain_flip_ok {D : List (LmeGroup p q)} (hD : PosVar D) {Pr : LmeInstPrior ℝ p q} (hPr : Pr.Reachable) {gamma : Vec ℝ q} (hg : ∀ j, 0 ≤ gamma j)
    (hu : IsUnit ((D.map (lmeFact gamma)).map hessBetaTerm).sum.det) (beta : Vec ℝ p) : ∃ f, lmeFlipProbabilities (lmeHessianBeta D Pr gamma) beta = .ok f := by
  have hd := inDomain_of_nonneg hD hg
  rw [sum_map_fact hd _ _ fun g h => hessBetaTerm_eq h] at hu
  have hK := posDef_of_nonneg_of_det (kernel_symm D gamma) (kernel_nonneg hd) hu.ne_zero
  have hps : Pr.hessianBeta.PosSemidef := by
    refine PosSemidef.of_dotProduct_mulVec_nonneg (by rw [IsHermitian, conjTranspose_eq_transpose_of_trivial]; exact Pr.hessianBeta_symm) fun v => ?_
    rw [star_trivial, ← quadSum_eq]
    exact (Pr.expansion_beta hPr gamma).2 v
  rw [lmeHessianBeta_ok.2 ⟨hd, rfl⟩]
  exact ⟨_, flip_ok (hK.add_posSemidef hps) beta⟩

/-- **C83** for tables with linearly independent fixed columns (and positive observation variances): `fit_problem` returns for every
initializer (EM for plain models too) and with every set of logger keys, provided there are at least three observations more than fixed effects when
the conditional criterion is logged. -/
theorem C83_identified_returns (M : LmeModelCfg) (hM : M.Sturdy) (st : LmeState) (x : Matrix (Fin N) (Fin k) ℝ) (y : Vec ℝ N)
    (columns : Option (List String)) (labels : List String) (ffi fri : Bool) (mustFe mustRe : Option (List String))
    (P : LmeProblem ℝ) (hP : lmeFromXY x (some y) columns labels ffi fri mustFe mustRe = .ok P)
    (hpos : ∀ v : Fin k, labels[(v : ℕ)]? = some "variance" → ∀ r, 0 < x r v)
    (hind : IndependentColumns labels ffi x) (hobs : "vaida_aic" ∈ M.loggerKeys → fixedCount labels ffi + 2 < N)
    (hprior : ∃ Pr, lmePriorFor M.prior P = .ok Pr) (a : LmeFitArgs)
    (hb0 : ∀ b, a.beta = some b → b.length = fixedCount labels ffi)
    (hg0 : ∀ g, a.gamma = some g → g.length = randomCount labels fri ∧ ∀ v ∈ g, 0 ≤ v)
    (hfe : ∀ w, a.feWeights.getD P.feWeights = w → w.length = fixedCount labels ffi ∧ ∀ v ∈ w, v = 0 ∨ v = 1)
    (hre : ∀ w, a.reWeights.getD P.reWeights = w → w.length = randomCount labels fri ∧ ∀ v ∈ w, v = 0 ∨ v = 1) :
    ∃ L c, lmeFitProblem M st P a = (.ok L, some c) ∧ (∀ v ∈ c.gamma, 0 ≤ v) ∧ ∀ key ∈ M.loggerKeys, key ∈ L.keys := by
  have hunit : ∀ (D : List (LmeGroup P.numFixed P.numRandom)) (gamma : Vec ℝ P.numRandom), lmeGroups P = .ok D → PosVar D → (∀ j, 0 ≤ gamma j) →
      IsUnit ((D.map (lmeFact gamma)).map hessBetaTerm).sum.det := fun D gamma h1 h2 h3 => (kernel_unit_iff h2 h3).2 ((table_independent hP h1).2 hind)
  obtain ⟨D, Pr, coef, vec, L, hD, hDpos, hprior, hPr, hcore, hcg, hvec, hL, hkeys, hkeys'⟩ := lmeFitCore_total M hM st x y columns labels ffi fri mustFe mustRe P hP hpos hprior a hb0 hg0 hfe hre
    fun _ _ D gamma h1 h2 h3 => ⟨_, lmeOptimalBeta_ok.2 ⟨inDomain_of_nonneg h2 h3, hunit D gamma h1 h2 h3, rfl⟩⟩
  have hd := inDomain_of_nonneg hDpos hvec
  have hu := hunit D _ hD hDpos hvec
  have hkey : ∀ key, key ∈ L.keys → key ≠ "converged" → key ≠ "iteration" → key ∈ M.loggerKeys := fun key h h1 h2 => by
    rcases hkeys _ h with h | h | h
    · exact h
    · exact absurd h h1
    · exact absurd h h2
  obtain ⟨L', hL', hLk⟩ : ∃ L', lmeLogCriteria M.solverTol D Pr (M.hessian D Pr (xGamma vec)) (xBeta vec) (xGamma vec) L = .ok L' ∧ L'.keys = L.keys := by
    refine lmeLogCriteria_total M.solverTol hDpos Pr _ (xBeta vec) hvec hL (fun h => ?_) fun h => ?_
    · have h1 := hobs (hkey _ h (by decide) (by decide))
      obtain ⟨_, _, _, _, -, -, hlen, -, -, -, -, -, -, -, hPe⟩ := lmeFromXY_ok x (some y) columns labels ffi fri mustFe mustRe P hP
      have hF := numFixed_eq P ffi fri (by rw [hPe])
      have hcl : P.columnLabels = labels := by rw [hPe]
      rw [hcl, ← fixedCount_eq] at hF
      exact lmeVaida_cond_total hDpos Pr hvec hu (by have := numObs_table hP hD; omega) _ _
    · unfold LmeModelCfg.hessian
      split
      · exact plain_flip_ok hDpos hPr hvec hu _
      · rename_i s hs
        exact ⟨_, sr3_flip_ok hPr hd (hM.sr3 s hs).1 (xBeta vec)⟩
  have hfit : lmeFitProblem M st P a = (.ok L', some coef) := by
    unfold lmeFitProblem
    rw [hcore]
    simp only [Prod.mk.injEq, and_true]
    exact ebind_ok.2 ⟨D, hD, ebind_ok.2 ⟨_, hprior, hL'⟩⟩
  refine ⟨L', _, hfit, fun v hv => ?_, fun key hkey => by rw [hLk]; exact hkeys' key hkey⟩
  rw [hcg] at hv
  simp only [List.mem_ofFn] at hv
  obtain ⟨j, rfl⟩ := hv
  exact hvec j

/-- Four observations of two groups, a covariate and the observation variances. -/
noncomputable def exTab4 : Matrix (Fin 4) (Fin 3) ℝ := !![0, 1, 1; 0, 2, 1; 1, 1, 2; 1, 5, 2]

/-- Labels of the table. -/
def exTab4Labels : List String := ["group", "fixed+random", "variance"]

theorem exTab4_ok (ffi fri : Bool) (y : Vec ℝ 4) : ∃ P, lmeFromXY exTab4 (some y) none exTab4Labels ffi fri none none = .ok P := by
  refine lmeFromXY_succeeds exTab4 (some y) none exTab4Labels ffi fri none none 0 2 (by decide) (by decide) rfl (by decide)
    (by simp) ?_ ?_ (.inl rfl) (by simp) _ _ rfl rfl
  · intro r; fin_cases r <;> simp [exTab4]
  · intro r; fin_cases r
    · exact ⟨0, by simp [exTab4]⟩
    · exact ⟨0, by simp [exTab4]⟩
    · exact ⟨1, by simp [exTab4]⟩
    · exact ⟨1, by simp [exTab4]⟩

theorem exTab4_positive (v : Fin 3) (hv : exTab4Labels[(v : ℕ)]? = some "variance") (r : Fin 4) : 0 < exTab4 r v := by
  fin_cases v
  · exact absurd hv (by decide)
  · exact absurd hv (by decide)
  · fin_cases r <;> simp [exTab4]

theorem exTab4_independent : IndependentColumns exTab4Labels false exTab4 := by
  intro b hb h v hv
  have h1 : fixedCount exTab4Labels false = 1 := by decide
  rw [h1, List.length_eq_one_iff] at hb
  obtain ⟨a, rfl⟩ := hb
  have := h 0
  simp [sumProd, fixedEntries, exTab4Labels, exTab4, List.ofFn_succ] at this
  rw [List.mem_singleton.1 hv, this]

/-- A plain model with the EM initializer which logs the conditional criterion and the flip probabilities. -/
noncomputable def exLoggingModel : LmeModelCfg :=
  { exModel none 100 (.l1 2) with initializer := some "EM", loggerKeys := ["loss", "vaida_aic", "flip_probabilities_beta"] }

theorem exLoggingModel_sturdy : exLoggingModel.Sturdy :=
  have h := (exModel_robust none (by simp) 100 (.l1 2) exL1 (by simp)).toSturdy
  { adm := ⟨h.adm.1, h.adm.2, h.adm.3, h.adm.4⟩, kind := h.kind, keys := by change ["loss", "vaida_aic", "flip_probabilities_beta"].Nodup; decide, sr3 := h.sr3, scad := h.scad }

/-- Non-vacuity: that model is fitted to the table. -/
example (y : Vec ℝ 4) : ∃ P L c, lmeFromXY exTab4 (some y) none exTab4Labels false true none none = .ok P ∧
    lmeFitProblem exLoggingModel none P {} = (.ok L, some c) ∧ "vaida_aic" ∈ L.keys ∧ "flip_probabilities_beta" ∈ L.keys := by
  obtain ⟨P, hP⟩ := exTab4_ok false true y
  obtain ⟨_, _, feW, reW, -, -, hlen, -, -, -, -, -, hf, hr', hPe⟩ := lmeFromXY_ok exTab4 (some y) none exTab4Labels false true none none P hP
  have e1 : P.feWeights = [1] := by rw [hPe]; cases hf; rfl
  have e2 : P.reWeights = [1, 1] := by rw [hPe]; cases hr'; rfl
  obtain ⟨L, c, h, -, hk⟩ := C83_identified_returns exLoggingModel exLoggingModel_sturdy none exTab4 y none exTab4Labels false true none none P hP
    exTab4_positive exTab4_independent (fun _ => by decide) ⟨_, rfl⟩ {} (by simp) (by simp)
    (by rintro w rfl; simp only [Option.getD_none, e1]; exact ⟨rfl, by simp⟩) (by rintro w rfl; simp only [Option.getD_none, e2]; exact ⟨rfl, by simp⟩)
  exact ⟨P, L, c, hP, h, hk _ (by change _ ∈ ["loss", "vaida_aic", "flip_probabilities_beta"]; decide), hk _ (by change _ ∈ ["loss", "vaida_aic", "flip_probabilities_beta"]; decide)⟩

end Verif
