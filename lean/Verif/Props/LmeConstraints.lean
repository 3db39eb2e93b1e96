import Verif.Props.LmeFit
import Mathlib.Tactic.FinCases

/-!
# C74: constraints satisfied by fitted mixed-effects models
-/

open Matrix

namespace Verif

variable {N k p q : ℕ}

/-- Documented ranges of the hyperparameters of the regularizers. -/
def LmeReg.Admissible : LmeReg → Prop
  | .dummy => True
  | .l0 .. => True
  | .l1 lam => 0 ≤ lam
  | .cad _ lam => 0 ≤ lam
  | .scad rho sigma lam => 1 < rho ∧ 0 ≤ sigma ∧ 0 ≤ lam

/-- Documented ranges of the hyperparameters of a model. -/
structure LmeModelCfg.Admissible (M : LmeModelCfg) : Prop where
  reg : M.reg.Admissible
  eps : 0 ≤ M.elasticEps
  step : ∀ s, M.fixedStepLen = some s → 0 ≤ s
  ell : ∀ s, M.sr3 = some s → 0 ≤ s.ell

/-- The step of the solver is positive. -/
theorem LmeModelCfg.Admissible.step_pos {M : LmeModelCfg} (h : M.Admissible) : 0 < M.step := by
  have hd : 0 < (match M.sr3 with
    | none => match M.reg.lam? with
      | none => (5 / 100 : ℝ)
      | some lam => 1 / (lam + 1)
    | some s => if s.ell = 0 then 1 else 1 / s.ell) := by
    split
    · split
      · norm_num
      · rename_i lam hlam
        have : 0 ≤ lam := by
          have hr := h.reg
          cases hreg : M.reg with
          | dummy => rw [hreg] at hlam; cases hlam
          | l0 => rw [hreg] at hlam; cases hlam
          | l1 l => rw [hreg] at hlam hr; cases hlam; exact hr
          | cad _ l => rw [hreg] at hlam hr; cases hlam; exact hr
          | scad _ _ l => rw [hreg] at hlam hr; cases hlam; exact hr.2.2
        positivity
    · rename_i s hs
      split_ifs with he
      · norm_num
      · have := lt_of_le_of_ne (h.ell s hs) (Ne.symm he)
        positivity
  unfold LmeModelCfg.step
  simp only
  split
  · exact hd
  · rename_i s hs
    split_ifs with he
    · exact hd
    · exact lt_of_le_of_ne (h.step s hs) (Ne.symm he)

/-- The point returned by the solver is an output of the prox. -/
theorem lmeOptimize_prox {M : LmeModelCfg} (hpgd : ∀ s, M.sr3 = some s → s.practical = false) (hmax : 1 ≤ M.maxIter)
    {D : List (LmeGroup p q)} {Pr : LmeInstPrior ℝ p q} {R : Regularizer ℝ (p + q)} {beta : Vec ℝ p} {gamma : Vec ℝ q}
    {x : Vec ℝ (p + q)} {L : Logger (PyVal ℝ (p + q))} (hn : 0 < p + q)
    (h : lmeOptimize M D Pr R beta gamma = .ok (x, L)) :
    ∃ y step, R.prox y step = .ok x ∧ (0 < M.step → 0 < step) := by
  unfold lmeOptimize at h
  simp only at h
  split at h
  · obtain ⟨bg, -, h⟩ := ebind_ok.1 h
    obtain ⟨⟨⟨x', L'⟩, s'⟩, hr, h⟩ := ebind_ok.1 h
    cases h
    exact C18_result_is_prox_output _ _ M.solver _ _ _ _ _ _ hr hn hmax
  · rename_i s hs
    obtain ⟨bg, -, h⟩ := ebind_ok.1 h
    obtain ⟨⟨⟨x', L'⟩, s'⟩, hr, h⟩ := ebind_ok.1 h
    cases h
    rw [hpgd s hs] at hr
    exact C18_result_is_prox_output _ _ M.solver _ _ _ _ _ _ hr hn hmax

/-- The regularizer built by an admissible model belongs to the library. -/
theorem LmeReg.build_lib {r : LmeReg} (hr : r.Admissible) {m : List ℤ} {w : Vec ℝ (p + q)} (hw : ∀ i, 0 ≤ w i)
    {base : Regularizer ℝ (p + q)} (h : r.build p q m w = .ok base) : LibReg base := by
  cases r with
  | dummy => cases h; exact .base .dummy
  | l0 nb ng sort => cases h; exact .base (.l0lme _ _ _ _)
  | l1 lam => cases h; exact .base (.l1 lam (some w) hr hw)
  | cad rho lam => cases h; exact .base (.cad rho lam (some w) hr hw)
  | scad rho sigma lam =>
    unfold LmeReg.build scadInit at h
    simp only at h
    rw [if_pos hr.1] at h
    cases h
    exact .base (.scad rho sigma lam (some w) hr.1 hr.2.1 hr.2.2 hw)

/-- The weights `from_x_y` attaches are zeros and ones. -/
theorem regWeightsOf_01 {must inc columns : Option (List String)} {idx : List ℕ} {num : ℕ} {w : List ℝ}
    (h : regWeightsOf must inc columns idx num = .ok w) : ∀ a ∈ w, a = 0 ∨ a = 1 := by
  unfold regWeightsOf at h
  intro a ha
  split at h
  · cases h; exact .inr (List.eq_of_mem_replicate ha)
  · cases h; exact .inr (List.eq_of_mem_replicate ha)
  · split at h
    · cases h
    · split at h
      · cases h
      · split_ifs at h
        all_goals
          cases h
          rcases List.mem_cons.1 ha with rfl | ha
          · first | exact .inl rfl | exact .inr rfl
          · obtain ⟨i, -, rfl⟩ := List.mem_map.1 ha
            split_ifs
            · exact .inl rfl
            · exact .inr rfl

theorem asVec_ok {n : ℕ} {l : List ℝ} {v : Vec ℝ n} : asVec n l = .ok v ↔ List.ofFn v = l := by
  unfold asVec
  constructor
  · intro h
    split_ifs at h with hl
    cases h
    subst hl
    simp
  · rintro rfl
    rw [dif_pos (by simp)]
    congr 1
    funext i
    simp

/-- **C74**, variances: after a successful `fit` of any model solved by `PGDSolver` (plain or SR3) with documented
hyperparameters and at least one allowed iteration all variances are nonnegative, whatever the data, the start, the
initializer, the prior and the behaviour of the inner solver. -/
theorem C74_variances_nonneg (M : LmeModelCfg) (hM : M.Admissible) (hpgd : ∀ s, M.sr3 = some s → s.practical = false)
    (hmax : 1 ≤ M.maxIter) (st : LmeState) (x : Matrix (Fin N) (Fin k) ℝ) (y : Vec ℝ N)
    (labels : List String) (ffi fri : Bool) (columns mustFe mustRe : Option (List String)) (a : LmeFitArgs)
    (hfe : ∀ w, a.feWeights = some w → ∀ v ∈ w, 0 ≤ v) (hre : ∀ w, a.reWeights = some w → ∀ v ∈ w, 0 ≤ v) (c : LmeCoef)
    (h : lmeFit M st x y (some labels) ffi fri columns mustFe mustRe a = (.ok (), some c)) : ∀ v ∈ c.gamma, 0 ≤ v := by
  obtain ⟨P, c', vec, L0, hP, hc, hcore⟩ := lmeFit_ok h
  cases hc
  obtain ⟨m, Pr, w, base, D, beta, gamma, us, per, -, -, hw, hbase, -, -, -, hopt, -, -, rfl⟩ := lmeFitCore_ok hcore
  intro v hv
  simp only [List.mem_ofFn] at hv
  obtain ⟨j, rfl⟩ := hv
  obtain ⟨yy, step, hp, hstep⟩ := lmeOptimize_prox hpgd hmax (by have := j.2; omega) hopt
  obtain ⟨_, _, feW, reW, -, -, -, -, -, -, -, -, hf1, hf2, hPe⟩ :=
    lmeFromXY_ok x (some y) columns labels ffi fri mustFe mustRe P hP
  have hlib : LibReg base := by
    rcases LmeReg.weights_mem hw with ⟨hd, -⟩ | ⟨-, hw⟩
    · rw [hd] at hbase
      cases hbase
      exact .base .dummy
    · refine LmeReg.build_lib hM.reg (fun i => ?_) hbase
      have hmem : w i ∈ a.feWeights.getD P.feWeights ++ a.reWeights.getD P.reWeights := by
        exact List.mem_of_mem_take (hw ▸ List.mem_ofFn.2 ⟨i, rfl⟩)
      rcases List.mem_append.1 hmem with hmem | hmem
      · cases ha : a.feWeights with
        | none =>
          rw [ha, hPe] at hmem
          rcases regWeightsOf_01 hf1 _ hmem with e | e <;> rw [e] <;> norm_num
        | some l => rw [ha] at hmem; exact hfe l ha _ hmem
      · cases ha : a.reWeights with
        | none =>
          rw [ha, hPe] at hmem
          rcases regWeightsOf_01 hf2 _ hmem with e | e <;> rw [e] <;> norm_num
        | some l => rw [ha] at hmem; exact hre l ha _ hmem
  exact (C09_positive_quadrant _ (by rintro r hr; cases hr; exact .elastic _ hM.eps hlib) _ _ _ (hstep hM.step_pos).le hp).1 j

theorem countP_ofFn {n : ℕ} (v : Vec ℝ n) (f : ℝ → Prop) [DecidablePred f] :
    (List.ofFn v).countP (fun a => decide (f a)) = Set.ncard {i | f (v i)} := by
  classical
  rw [Set.ncard_eq_toFinset_card', Set.toFinset_setOf, List.ofFn_eq_map, List.countP_map]
  change _ = (Multiset.filter _ Finset.univ.val).card
  rw [← Multiset.countP_eq_card_filter]
  rfl

/-- Sparsity of the coefficients of an L0 model from the fact that the solver returns an output of the prox, or some other
point `Q`. -/
theorem l0_coef (M : LmeModelCfg) (nb ng : Option ℤ) (sort : NpSort) (hreg : M.reg = .l0 nb ng sort) (st : LmeState)
    (x : Matrix (Fin N) (Fin k) ℝ) (y : Vec ℝ N) (labels : List String) (ffi fri : Bool)
    (columns mustFe mustRe : Option (List String)) (a : LmeFitArgs) (c : LmeCoef) (P : LmeProblem ℝ)
    (hP : lmeFromXY x (some y) columns labels ffi fri mustFe mustRe = .ok P) (Q : List ℝ → List ℝ → Prop)
    (hpx : ∀ (D : List (LmeGroup P.numFixed P.numRandom)) (Pr : LmeInstPrior ℝ P.numFixed P.numRandom)
      (R : Regularizer ℝ (P.numFixed + P.numRandom)) (beta : Vec ℝ P.numFixed) (gamma : Vec ℝ P.numRandom)
      (vec : Vec ℝ (P.numFixed + P.numRandom)) (L : Logger (PyVal ℝ (P.numFixed + P.numRandom))),
      List.ofFn beta = (lmeStart st P a).1 → List.ofFn gamma = (lmeStart st P a).2 → 0 < P.numFixed + P.numRandom →
      lmeOptimize M D Pr R beta gamma = .ok (vec, L) → Q (List.ofFn (xBeta vec)) (List.ofFn (xGamma vec)) ∨
        ∃ yy step, R.prox yy step = .ok vec)
    (hlen : (a.feWeights.getD P.feWeights).length = fixedCount labels ffi)
    (h : lmeFit M st x y (some labels) ffi fri columns mustFe mustRe a = (.ok (), some c)) :
    Q c.beta c.gamma ∨
    ((∀ n, nb = some n → (c.beta.countP (· ≠ 0) : ℤ) ≤ max n ((a.feWeights.getD P.feWeights).countP (· = 0))) ∧
    (∀ n, ng = some n → (c.gamma.countP (· ≠ 0) : ℤ) ≤ max n ((a.reWeights.getD P.reWeights).countP (· = 0))) ∧
    ∃ F R : List (Option (Fin k)),
      (∀ g ∈ P.fixedFeatures, ∀ row ∈ g, ∃ r, row = F.map fun s => s.elim 1 (x r)) ∧
      (∀ g ∈ P.randomFeatures, ∃ rows, g = .rows rows ∧ ∀ row ∈ rows, ∃ r, row = R.map fun s => s.elim 1 (x r)) ∧
      F.length = c.beta.length ∧ R.length = c.gamma.length ∧ F.Nodup ∧ R.Nodup ∧
      ∀ (i j : ℕ) (s : Option (Fin k)), F[i]? = some s → R[j]? = some s →
        (a.reWeights.getD P.reWeights)[j]? ≠ some 0 → c.beta[i]? = some 0 → c.gamma[j]? = some 0) := by
  obtain ⟨P', c', vec, L0, hP', hc, hcore⟩ := lmeFit_ok h
  cases hc
  rw [hP] at hP'
  cases hP'
  obtain ⟨m, Pr, w, base, D, beta, gamma, us, per, hm, -, hw, hbase, -, hb0, hg0, hopt, -, -, rfl⟩ := lmeFitCore_ok hcore
  obtain ⟨F, R, m', hF, hR, hFn, hRn, -, -, -, -, hm', hml, hFl, hRl, hmap⟩ :=
    C62_beta_to_gamma_map x (some y) columns labels ffi fri mustFe mustRe P hP
  rw [hm] at hm'
  cases hm'
  have hnF : P.numFixed = fixedCount labels ffi := by
    obtain ⟨_, _, _, _, -, -, _, -, -, -, -, -, -, -, hPe⟩ := lmeFromXY_ok x (some y) columns labels ffi fri mustFe mustRe P hP
    rw [numFixed_eq P ffi fri (by rw [hPe]), fixedCount_eq]
    rw [hPe]
  obtain ⟨wb, hwb⟩ : ∃ wb, wb = a.feWeights.getD P.feWeights := ⟨_, rfl⟩
  obtain ⟨wg, hwg⟩ : ∃ wg, wg = a.reWeights.getD P.reWeights := ⟨_, rfl⟩
  rw [← hwb, ← hnF] at hlen
  rw [← hwb, ← hwg] at hw ⊢
  obtain ⟨hwl, hw⟩ : P.numFixed + P.numRandom ≤ (wb ++ wg).length ∧
      List.ofFn w = (wb ++ wg).take (P.numFixed + P.numRandom) := by
    rcases LmeReg.weights_mem hw with ⟨hw, -⟩ | hw
    · rw [hreg] at hw; cases hw
    · exact hw
  replace hw : List.ofFn w = wb ++ wg.take P.numRandom := by
    rw [hw, List.take_append, hlen, List.take_of_length_le (by omega), Nat.add_sub_cancel_left]
  have hsplit : List.ofFn (xBeta w) = wb ∧ List.ofFn (xGamma w) = wg.take P.numRandom := by
    have e : List.ofFn w = List.ofFn (xBeta w) ++ List.ofFn (xGamma w) := by
      rw [← List.ofFn_fin_append]
      congr 1
      funext i
      refine Fin.addCases (fun i => ?_) (fun i => ?_) i
      · rw [Fin.append_left]; rfl
      · rw [Fin.append_right]; rfl
    rw [e] at hw
    exact List.append_inj hw (by simp [hlen])
  -- the result is zero in empty problems
  rcases Nat.eq_zero_or_pos (P.numFixed + P.numRandom) with h0 | hpos
  · have e1 : (List.ofFn (xBeta vec)) = [] := List.length_eq_zero_iff.1 (by simp; omega)
    have e2 : (List.ofFn (xGamma vec)) = [] := List.length_eq_zero_iff.1 (by simp; omega)
    simp only [e1, e2]
    refine .inr ⟨fun n _ => by simp, fun n _ => by simp, F, R, hF, hR, by rw [hFl]; simp; omega, by rw [hRl]; simp; omega,
      hFn, hRn, fun i j s _ _ _ hi => by simp at hi⟩
  rw [hreg] at hbase
  rcases hpx _ _ _ _ _ _ _ (asVec_ok.1 hb0) (asVec_ok.1 hg0) hpos hopt with hQ | ⟨yy, step, hp⟩
  · exact .inl hQ
  cases hbase
  obtain ⟨z, hz, hb1, hb2, -, -, -, hh⟩ := C14_l0lme_budget_hierarchy (nb.getD P.numFixed) (ng.getD P.numRandom) false
    (fun i => mapEntry P.numRandom m i) ⟨xBeta w, xGamma w, sort.sub P.numFixed (xBeta w), sort.sub P.numRandom (xGamma w)⟩
    (sort.all P.numFixed) (fun i => (if positiveMask P.numFixed P.numRandom i = true then clip0 (yy i) else yy i) / (1 + step * M.elasticEps))
    (step / (1 + step * M.elasticEps))
  have hzv : z = vec := by
    change _ = Except.ok vec at hp
    unfold wrapReg positiveQuadrant elastic at hp
    simp only at hp
    change (l0LmeRegularizer (⟨some (nb.getD P.numFixed), some (ng.getD P.numRandom), false⟩ : L0LmeCfg) _ _ _).prox _ _ = _ at hp
    rw [hz] at hp
    cases hp
    rfl
  subst hzv
  have hc0 : ∀ {n : ℕ} (v : Vec ℝ n), (Set.ncard {i | v i = 0} : ℤ) = (List.ofFn v).countP (fun a => decide (a = 0)) := by
    intro n v
    rw [countP_ofFn v (· = 0)]
  have hcn : ∀ {n : ℕ} (v : Vec ℝ n), ((List.ofFn v).countP (fun a => decide (a ≠ 0)) : ℤ) = numNonzero v := by
    intro n v
    rw [countP_ofFn v (· ≠ 0)]
    rfl
  refine .inr ⟨?_, ?_, F, R, hF, hR, by rw [hFl]; simp, by rw [hRl]; simp, hFn, hRn, ?_⟩
  · rintro n rfl
    simp only [hcn]
    rw [hc0, hsplit.1] at hb1
    simp only [Option.getD_some] at hb1
    refine hb1.trans ?_
    omega
  · rintro n rfl
    simp only [hcn]
    rw [hc0, hsplit.2] at hb2
    simp only [Option.getD_some] at hb2
    have := (List.take_sublist P.numRandom wg).countP_le (p := fun a => decide (a = 0))
    refine hb2.trans ?_
    omega
  · intro i j s hi hj hwj hbi
    have hiF : i < P.numFixed := by rw [← hFl]; exact (List.getElem?_eq_some_iff.1 hi).1
    have hjR : j < P.numRandom := by rw [← hRl]; exact (List.getElem?_eq_some_iff.1 hj).1
    have hmi := ((hmap i s hi).1 j).2 hj
    have h1 : z (Fin.castAdd P.numRandom ⟨i, hiF⟩) = 0 := by
      rw [List.getElem?_eq_getElem (by simpa using hiF)] at hbi
      simpa [xBeta] using hbi
    have h2 := hh rfl ⟨i, hiF⟩ ⟨j, hjR⟩ (by simp [mapEntry, hmi, hjR]) (by
      intro h0
      apply hwj
      rw [← List.getElem?_take_of_lt hjR, ← hsplit.2, List.getElem?_eq_getElem (by simpa using hjR)]
      simpa using h0) h1
    rw [List.getElem?_eq_getElem (by simpa using hjR)]
    simpa [xGamma] using h2

/-- **C74**, sparsity: after a successful `fit` of an L0 model solved by `PGDSolver` (plain or SR3) with at least one
allowed iteration, the number of nonzero fixed effects (variances) is at most the budget, or the number of effects
excluded from regularization if that is larger; and a regularized random effect whose column is also a fixed effect
(same entry of `F` and `R`, the columns of the two designs) has variance zero if the fixed effect is zero. -/
theorem C74_l0 (M : LmeModelCfg) (nb ng : Option ℤ) (sort : NpSort) (hreg : M.reg = .l0 nb ng sort)
    (hpgd : ∀ s, M.sr3 = some s → s.practical = false) (hmax : 1 ≤ M.maxIter) (st : LmeState)
    (x : Matrix (Fin N) (Fin k) ℝ) (y : Vec ℝ N) (labels : List String) (ffi fri : Bool)
    (columns mustFe mustRe : Option (List String)) (a : LmeFitArgs) (c : LmeCoef) (P : LmeProblem ℝ)
    (hP : lmeFromXY x (some y) columns labels ffi fri mustFe mustRe = .ok P)
    (hlen : (a.feWeights.getD P.feWeights).length = fixedCount labels ffi)
    (h : lmeFit M st x y (some labels) ffi fri columns mustFe mustRe a = (.ok (), some c)) :
    (∀ n, nb = some n → (c.beta.countP (· ≠ 0) : ℤ) ≤ max n ((a.feWeights.getD P.feWeights).countP (· = 0))) ∧
    (∀ n, ng = some n → (c.gamma.countP (· ≠ 0) : ℤ) ≤ max n ((a.reWeights.getD P.reWeights).countP (· = 0))) ∧
    ∃ F R : List (Option (Fin k)),
      (∀ g ∈ P.fixedFeatures, ∀ row ∈ g, ∃ r, row = F.map fun s => s.elim 1 (x r)) ∧
      (∀ g ∈ P.randomFeatures, ∃ rows, g = .rows rows ∧ ∀ row ∈ rows, ∃ r, row = R.map fun s => s.elim 1 (x r)) ∧
      F.length = c.beta.length ∧ R.length = c.gamma.length ∧ F.Nodup ∧ R.Nodup ∧
      ∀ (i j : ℕ) (s : Option (Fin k)), F[i]? = some s → R[j]? = some s →
        (a.reWeights.getD P.reWeights)[j]? ≠ some 0 → c.beta[i]? = some 0 → c.gamma[j]? = some 0 :=
  (l0_coef M nb ng sort hreg st x y labels ffi fri columns mustFe mustRe a c P hP (fun _ _ => False)
    (fun D Pr R beta gamma vec L _ _ hpos hopt => .inr (by
      obtain ⟨yy, step, hp, -⟩ := lmeOptimize_prox hpgd hmax hpos hopt
      exact ⟨yy, step, hp⟩)) hlen h).resolve_left id

end Verif
