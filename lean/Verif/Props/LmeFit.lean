import Verif.Props.LmePredict
import Verif.Props.LmeMap
import Verif.Props.LmeIc
import Verif.Props.LmeHat
import Verif.Props.Wrappers
import Verif.Props.Solver

/-!
# Fitting mixed-effects models: C66, C73, C74 and the shape of the fitted coefficients
-/

open Matrix

namespace Verif

variable {N k p q : ℕ}

/-! ## What a successful fit did -/

/-- The weights used are among the given ones. -/
theorem LmeReg.weights_mem {r : LmeReg} {ws : List ℝ} {w : Vec ℝ (p + q)} (h : r.weights p q ws = .ok w) :
    (r = .dummy ∧ w = 0) ∨ (p + q ≤ ws.length ∧ List.ofFn w = ws.take (p + q)) := by
  have key : ∀ h : p + q ≤ ws.length, List.ofFn (fun i : Fin (p + q) => ws[i.1]) = ws.take (p + q) := by
    intro h
    refine List.ext_getElem (by simp [h]) fun i h1 h2 => by simp
  cases r with
  | dummy => cases h; exact .inl ⟨rfl, rfl⟩
  | l0 a b s =>
    right
    simp only [LmeReg.weights] at h
    split_ifs at h with hl
    cases h
    exact ⟨hl, key hl⟩
  | scad a b s =>
    right
    simp only [LmeReg.weights] at h
    split_ifs at h with hl
    cases h
    exact ⟨hl.ge, key hl.ge⟩
  | l1 _ =>
    right
    simp only [LmeReg.weights, asVec] at h
    split_ifs at h with hl
    cases h
    exact ⟨hl.ge, key hl.ge⟩
  | cad _ _ =>
    right
    simp only [LmeReg.weights, asVec] at h
    split_ifs at h with hl
    cases h
    exact ⟨hl.ge, key hl.ge⟩

theorem LmeReg.weights_ok (r : LmeReg) {ws : List ℝ} (hl : ws.length = p + q) :
    ∃ w, r.weights p q ws = .ok w ∧ ((r = .dummy ∧ w = 0) ∨ List.ofFn w = ws) := by
  obtain ⟨w, hw⟩ : ∃ w, r.weights p q ws = .ok w := by
    cases r with
    | dummy => exact ⟨_, rfl⟩
    | l0 _ _ _ => exact ⟨_, dif_pos hl.ge⟩
    | _ => exact ⟨_, dif_pos hl⟩
  refine ⟨w, hw, (LmeReg.weights_mem hw).imp_right fun h => ?_⟩
  rw [h.2, ← hl, List.take_length]

theorem lmeFitCore_ok {M : LmeModelCfg} {st : LmeState} {P : LmeProblem ℝ} {a : LmeFitArgs} {c : LmeCoef}
    {x : Vec ℝ (P.numFixed + P.numRandom)} {L : Logger (PyVal ℝ (P.numFixed + P.numRandom))}
    (h : lmeFitCore M st P a = .ok (c, x, L)) :
    ∃ (m : List ℤ) (Pr : LmeInstPrior ℝ P.numFixed P.numRandom) (w : Vec ℝ (P.numFixed + P.numRandom))
      (base : Regularizer ℝ (P.numFixed + P.numRandom)) (D : List (LmeGroup P.numFixed P.numRandom))
      (beta : Vec ℝ P.numFixed) (gamma : Vec ℝ P.numRandom) (us : List (Vec ℝ P.numRandom)) (per : List (Unit × List ℝ)),
      betaToGammaMap P = .ok m ∧ lmePriorFor M.prior P = .ok Pr ∧
      M.reg.weights P.numFixed P.numRandom (a.feWeights.getD P.feWeights ++ a.reWeights.getD P.reWeights) = .ok w ∧
      M.reg.build P.numFixed P.numRandom m w = .ok base ∧ lmeGroups P = .ok D ∧
      asVec P.numFixed (lmeStart st P a).1 = .ok beta ∧ asVec P.numRandom (lmeStart st P a).2 = .ok gamma ∧
      lmeOptimize M D Pr (wrapReg P.numFixed P.numRandom M.elasticEps base) beta gamma = .ok (x, L) ∧
      lmeRandomEffects D (xBeta x) (xGamma x) = .ok us ∧
      getPerGroupCoefficients (List.ofFn (xBeta x)) (us.map fun u => ((), List.ofFn u))
        (P.interceptLabel.getD "" :: P.columnLabels) = .ok per ∧
      c = ⟨List.ofFn (xBeta x), List.ofFn (xGamma x), us.map (fun u => List.ofFn u), P.groupLabels, per.map (·.2)⟩ := by
  unfold lmeFitCore at h
  obtain ⟨m, hm, h⟩ := ebind_ok.1 h
  obtain ⟨Pr, hPr, h⟩ := ebind_ok.1 h
  obtain ⟨w, hw, h⟩ := ebind_ok.1 h
  obtain ⟨base, hbase, h⟩ := ebind_ok.1 h
  obtain ⟨D, hD, h⟩ := ebind_ok.1 h
  obtain ⟨beta, hbeta, h⟩ := ebind_ok.1 h
  obtain ⟨gamma, hgamma, h⟩ := ebind_ok.1 h
  obtain ⟨r, hr, h⟩ := ebind_ok.1 h
  obtain ⟨us, hus, h⟩ := ebind_ok.1 h
  obtain ⟨per, hper, h⟩ := ebind_ok.1 h
  cases h
  refine ⟨m, Pr, w, base, D, beta, gamma, us, per, hm, hPr, hw, hbase, hD, hbeta, hgamma, hr, hus, hper, rfl⟩

theorem lmeFitProblem_ok {M : LmeModelCfg} {st : LmeState} {P : LmeProblem ℝ} {a : LmeFitArgs} {c : LmeState}
    {L : Logger (PyVal ℝ (P.numFixed + P.numRandom))} (h : lmeFitProblem M st P a = (.ok L, c)) :
    ∃ coef x L0, c = some coef ∧ lmeFitCore M st P a = .ok (coef, x, L0) := by
  unfold lmeFitProblem at h
  split at h
  · cases h
  · rename_i r hr
    simp only [Prod.mk.injEq] at h
    exact ⟨r.1, r.2.1, r.2.2, h.2.symm, hr⟩

theorem lmeFit_ok {M : LmeModelCfg} {st : LmeState} {x : Matrix (Fin N) (Fin k) ℝ} {y : Vec ℝ N}
    {labels : List String} {ffi fri : Bool} {columns mustFe mustRe : Option (List String)} {a : LmeFitArgs} {c : LmeState}
    (h : lmeFit M st x y (some labels) ffi fri columns mustFe mustRe a = (.ok (), c)) :
    ∃ P coef v L0, lmeFromXY x (some y) columns labels ffi fri mustFe mustRe = .ok P ∧ c = some coef ∧
      lmeFitCore M st P a = .ok (coef, v, L0) := by
  unfold lmeFit at h
  simp only at h
  split at h
  · cases h
  · rename_i P hP
    simp only [Prod.mk.injEq] at h
    obtain ⟨h1, h2⟩ := h
    cases hr : (lmeFitProblem M st P a).1 with
    | error e => rw [hr] at h1; cases h1
    | ok L =>
      obtain ⟨coef, v, L0, hc, hcore⟩ := lmeFitProblem_ok (Prod.ext hr h2 : lmeFitProblem M st P a = (.ok L, c))
      exact ⟨P, coef, v, L0, hP, hc, hcore⟩

theorem mapM_length {α β : Type*} {l : List α} {f : α → Except PyErr β} {r : List β} (h : l.mapM f = .ok r) :
    r.length = l.length := ((mapM_ok_inv l f r h).length_eq).symm

/-- The groups of a problem built from a table. -/
noncomputable def tableGroup (x : Matrix (Fin N) (Fin k) ℝ) (y : Vec ℝ N) (labels : List String) (ffi fri : Bool) (g v : Fin k)
    (p q : ℕ) (l : ℝ) : LmeGroup p q where
  n := (groupRows (fun r => x r g) l).length
  x := Matrix.of fun i j => (designRow x ffi (labelIdx labels isFixed) ((groupRows (fun r => x r g) l).get i)).getD j 0
  y := fun i => y ((groupRows (fun r => x r g) l).get i)
  z := Matrix.of fun i j => (designRow x fri (labelIdx labels isRandom) ((groupRows (fun r => x r g) l).get i)).getD j 0
  l := fun i => x ((groupRows (fun r => x r g) l).get i) v

theorem lmeGroup_ext {g h : LmeGroup p q} (hn : g.n = h.n)
    (hx : ∀ i j, g.x i j = h.x (Fin.cast hn i) j) (hy : ∀ i, g.y i = h.y (Fin.cast hn i))
    (hz : ∀ i j, g.z i j = h.z (Fin.cast hn i) j) (hl : ∀ i, g.l i = h.l (Fin.cast hn i)) : g = h := by
  obtain ⟨n, x, y, z, l⟩ := g
  obtain ⟨n', x', y', z', l'⟩ := h
  simp only at hn
  subst hn
  congr
  · ext i j; exact hx i j
  · funext i; exact hy i
  · ext i j; exact hz i j
  · funext i; exact hl i

theorem lmeGroups_table {x : Matrix (Fin N) (Fin k) ℝ} {y : Vec ℝ N} {columns : Option (List String)}
    {labels : List String} {ffi fri : Bool} {mustFe mustRe : Option (List String)} {P : LmeProblem ℝ}
    (h : lmeFromXY x (some y) columns labels ffi fri mustFe mustRe = .ok P) :
    ∃ g v : Fin k, labelIdx labels (· = GROUP) = [g] ∧ labelIdx labels (· = VARIANCE) = [v] ∧
      P.groupLabels = uniqueLabels (fun r => x r g) ∧
      lmeGroups P = .ok ((uniqueLabels fun r => x r g).map
        (tableGroup x y labels ffi fri g v P.numFixed P.numRandom)) := by
  obtain ⟨g, v, feW, reW, hg, hv, hlen, -, -, -, -, -, -, -, hPe⟩ :=
    lmeFromXY_ok x (some y) columns labels ffi fri mustFe mustRe P h
  refine ⟨g, v, hg, hv, by rw [hPe], ?_⟩
  have hF := numFixed_eq P ffi fri (by rw [hPe])
  have hR := numRandom_eq P ffi fri (by rw [hPe])
  have hcl : P.columnLabels = labels := by rw [hPe]
  rw [hcl, ← fixedCount_eq] at hF
  rw [hcl, ← randomCount_eq] at hR
  have ha : P.answers = some ((uniqueLabels fun r => x r g).map fun l => (groupRows (fun r => x r g) l).map y) := by
    rw [hPe]; rfl
  have hz : ∀ ys : List (List ℝ), ys = ((uniqueLabels fun r => x r g).map fun l => (groupRows (fun r => x r g) l).map y) →
      (P.fixedFeatures.zip ys).zip (P.randomFeatures.zip P.obsVars) = (uniqueLabels fun r => x r g).map fun l =>
        (((groupRows (fun r => x r g) l).map (designRow x ffi (labelIdx labels isFixed)), (groupRows (fun r => x r g) l).map y),
         (RandomDesign.rows ((groupRows (fun r => x r g) l).map (designRow x fri (labelIdx labels isRandom))),
          (groupRows (fun r => x r g) l).map fun r => x r v)) := by
    rintro ys rfl
    rw [hPe]
    simp only [List.zip_map']
  unfold lmeGroups
  rw [ha]
  simp only
  rw [hz _ rfl]
  refine mapM_map_ok _ _ _ _ fun l hl => ?_
  change lmeGroupOf P.numFixed P.numRandom _ _ _ _ = _
  unfold lmeGroupOf
  rw [if_pos]
  · congr 1
    refine lmeGroup_ext (by simp [tableGroup]) ?_ ?_ ?_ ?_
    · intro i j
      have hi : (i : ℕ) < (groupRows (fun r => x r g) l).length := by simpa using i.2
      simp [tableGroup, List.getD_eq_getElem?_getD, List.getElem?_eq_getElem hi]
      rfl
    · intro i
      have hi : (i : ℕ) < (groupRows (fun r => x r g) l).length := by simpa using i.2
      simp [tableGroup, List.getD_eq_getElem?_getD, List.getElem?_eq_getElem hi]
      rfl
    · intro i j
      have hi : (i : ℕ) < (groupRows (fun r => x r g) l).length := by simpa using i.2
      simp [tableGroup, List.getD_eq_getElem?_getD, List.getElem?_eq_getElem hi]
      rfl
    · intro i
      have hi : (i : ℕ) < (groupRows (fun r => x r g) l).length := by simpa using i.2
      simp [tableGroup, List.getD_eq_getElem?_getD, List.getElem?_eq_getElem hi]
      rfl
  · refine ⟨by simp, by simp, by simp, fun r hr => ?_, fun r hr => ?_⟩
    · obtain ⟨r, -, rfl⟩ := List.mem_map.1 hr
      rw [designRow_fixed_length x labels hlen, hF]
    · obtain ⟨r, -, rfl⟩ := List.mem_map.1 hr
      rw [designRow_random_length x labels hlen, hR]

theorem lmeRandomEffects_length {D : List (LmeGroup p q)} {beta : Vec ℝ p} {gamma : Vec ℝ q} {us : List (Vec ℝ q)}
    (h : lmeRandomEffects D beta gamma = .ok us) : us.length = D.length := by
  rw [(lmeRandomEffects_ok.1 h).2.2, List.length_map]

/-! ## C82 -/

/-- **C82**, shapes: after a successful `fit` the coefficients fit the labels. -/
theorem C82_fit_consistent (M : LmeModelCfg) (st : LmeState) (x : Matrix (Fin N) (Fin k) ℝ) (y : Vec ℝ N)
    (labels : List String) (ffi fri : Bool) (columns mustFe mustRe : Option (List String)) (a : LmeFitArgs) (st' : LmeState)
    (h : lmeFit M st x y (some labels) ffi fri columns mustFe mustRe a = (.ok (), st')) :
    ∃ c, st' = some c ∧ c.Consistent (fixedCount labels ffi) (randomCount labels fri) ∧
      c.gamma.length = randomCount labels fri ∧ c.perGroup.length = c.groupLabels.length ∧
      ∀ g : Fin k, labels[(g : ℕ)]? = some "group" → ∀ l, l ∈ c.groupLabels ↔ ∃ r, x r g = l := by
  obtain ⟨P, c, vec, L0, hP, rfl, hcore⟩ := lmeFit_ok h
  obtain ⟨g, v, hg, -, hgl, hD'⟩ := lmeGroups_table hP
  obtain ⟨m, Pr, w, base, D, beta, gamma, us, per, -, -, -, -, hD, -, -, -, hus, hper, rfl⟩ := lmeFitCore_ok hcore
  rw [hD] at hD'
  simp only [Except.ok.injEq] at hD'
  obtain ⟨_, _, _, _, -, -, hlen, -, -, -, -, -, -, -, hPe⟩ := lmeFromXY_ok x (some y) columns labels ffi fri mustFe mustRe P hP
  have hF := numFixed_eq P ffi fri (by rw [hPe])
  have hR := numRandom_eq P ffi fri (by rw [hPe])
  have hcl : P.columnLabels = labels := by rw [hPe]
  rw [hcl, ← fixedCount_eq] at hF
  rw [hcl, ← randomCount_eq] at hR
  have hul : us.length = P.groupLabels.length := by
    rw [lmeRandomEffects_length hus, hD', List.length_map, hgl]
  have hpl : ∀ (rs : List (Unit × List ℝ)) (labels : List String) (b : List ℝ) (per : List (Unit × List ℝ)),
      getPerGroupCoefficients b rs labels = .ok per → per.length = rs.length := by
    intro rs labels b
    induction rs with
    | nil => intro per h; cases h; rfl
    | cons r rs ih =>
      intro per h
      obtain ⟨l, u⟩ := r
      unfold getPerGroupCoefficients at h
      split at h
      · cases h
      · cases hr : getPerGroupCoefficients b rs labels with
        | error e => rw [hr] at h; cases h
        | ok per' =>
          rw [hr] at h
          cases h
          rw [List.length_cons, List.length_cons, ih per' hr]
  refine ⟨_, rfl, ⟨by simp [hF], ?_, by simpa using hul, ?_⟩, by simp [hR], ?_, fun g' hg' l => ?_⟩
  · simp only [hgl]
    exact (uniqueLabels_sorted fun r => x r g).imp fun h => h.ne
  · intro u hu
    obtain ⟨u, -, rfl⟩ := List.mem_map.1 hu
    simp [hR]
  · simp only [List.length_map]
    rw [hpl _ _ _ _ hper, List.length_map, hul]
  · obtain rfl := group_column labels hlen g' g hg hg'
    simp only [hgl]
    exact uniqueLabels_mem _ l

/-- The accepted tables do not depend on the target or on the names of the columns. -/
theorem lmeFromXY_forget {x : Matrix (Fin N) (Fin k) ℝ} {y : Vec ℝ N} {columns : Option (List String)}
    {labels : List String} {ffi fri : Bool} {mustFe mustRe : Option (List String)} {P : LmeProblem ℝ}
    (h : lmeFromXY x (some y) columns labels ffi fri mustFe mustRe = .ok P) :
    0 < N ∧ ∃ P', lmeFromXY x none none labels ffi fri none none = .ok P' := by
  obtain ⟨g, v, feW, reW, hg, hv, hlen, hk, hN, hvar, hint, -, -, -, -⟩ :=
    lmeFromXY_ok x (some y) columns labels ffi fri mustFe mustRe P h
  exact ⟨hN rfl, lmeFromXY_succeeds x none none labels ffi fri none none g v hg hv hlen hk (by simp) hvar hint (.inl rfl)
    (by simp) _ _ rfl rfl⟩

/-- **C82**: a model that was fitted can predict its training table: `predict` returns one prediction per row, the
fixed plus the random part with the fitted coefficients (ordered by group). -/
theorem C82_training_predictions (M : LmeModelCfg) (st : LmeState) (x : Matrix (Fin N) (Fin k) ℝ) (y : Vec ℝ N)
    (labels : List String) (ffi fri : Bool) (columns mustFe mustRe : Option (List String)) (a : LmeFitArgs) (st' : LmeState)
    (h : lmeFit M st x y (some labels) ffi fri columns mustFe mustRe a = (.ok (), st')) :
    ∃ (c : LmeCoef) (g : Fin k) (o : List (Fin N)), st' = some c ∧ labels[(g : ℕ)]? = some "group" ∧
      o.Perm (List.finRange N) ∧
      lmePredict st' x (some labels) ffi fri = .ok (o.map (rowPrediction c labels ffi fri x g)) := by
  obtain ⟨c, rfl, hc, -, -, hl⟩ := C82_fit_consistent M st x y labels ffi fri columns mustFe mustRe a st' h
  obtain ⟨P, coef, v, L0, hP, -, -⟩ := lmeFit_ok h
  obtain ⟨hN, P', hP'⟩ := lmeFromXY_forget hP
  obtain ⟨g, _, _, _, hg, -, hlen, -⟩ := lmeFromXY_ok x (some y) columns labels ffi fri mustFe mustRe P hP
  have hg' : labels[(g : ℕ)]? = some "group" := by
    have : g ∈ labelIdx (p := k) labels (fun l => decide (l = GROUP)) := by rw [hg]; simp
    rw [mem_labelIdx] at this
    have hlt : (g : ℕ) < labels.length := by omega
    rw [List.getElem?_eq_getElem hlt]
    simpa [List.getD_eq_getElem?_getD, List.getElem?_eq_getElem hlt, GROUP] using this
  obtain ⟨o, ho, -, hpred⟩ := C71_predictions_partial c x labels ffi fri g P' hP' hN hg' hc
    fun r => (hl g hg' _).2 ⟨r, rfl⟩
  exact ⟨c, g, o, rfl, hg', ho, hpred⟩

end Verif
