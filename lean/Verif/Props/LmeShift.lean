import Verif.Props.LinShift
import Verif.Props.LmeTurnTable
import Verif.Props.LmeClasses

/-!
# Unpenalised mixed-effects fits follow the answers: second part of property C184
-/

namespace Verif

open Matrix

variable {p q : ℕ}

/-! ## Evaluations of the oracle -/

/-- The group with a combination of its fixed features added to the answers. -/
@[reducible] def shiftGroup (c : Vec ℝ p) (g : LmeGroup p q) : LmeGroup p q := ⟨g.n, g.x, g.y + g.x *ᵥ c, g.z, g.l⟩

/-- The same for a group with its factors. -/
@[reducible] def shiftFact (c : Vec ℝ p) (f : LmeFactored p q) : LmeFactored p q := ⟨shiftGroup c f.g, f.el, f.elInv⟩

section oracle
variable (c : Vec ℝ p)

theorem shift_xi (g : LmeGroup p q) (bet : Vec ℝ p) : (shiftGroup c g).xi (bet + c) = g.xi bet := by
  unfold LmeGroup.xi
  change g.y + g.x *ᵥ c - g.x *ᵥ (bet + c) = _
  rw [mulVec_add]
  abel

theorem shift_recalculate (D : List (LmeGroup p q)) (gam : Vec ℝ q) :
    lmeRecalculate (D.map (shiftGroup c)) gam = (lmeRecalculate D gam).map (List.map (shiftFact c)) := by
  unfold lmeRecalculate
  induction D with
  | nil => rfl
  | cons g D ih =>
    have hf : lmeFactor gam (shiftGroup c g) = (lmeFactor gam g).map (shiftFact c) := by
      unfold lmeFactor
      change (npCholesky (lmeOmega g gam) >>= fun el => _) = _
      cases npCholesky (lmeOmega g gam) <;> rfl
    rw [List.map_cons, List.mapM_cons, List.mapM_cons, hf, ih]
    cases lmeFactor gam g with
    | error e => rfl
    | ok f => cases List.mapM (lmeFactor gam) D <;> rfl

theorem shift_terms {A C : Type} [AddCommMonoid A] {t t' : LmeFactored p q → A} (h : ∀ f, t' (shiftFact c f) = t f) (D : List (LmeGroup p q)) (gam : Vec ℝ q) (F : A → C) :
    (lmeRecalculate (D.map (shiftGroup c)) gam >>= fun fs => (pure (F (fs.map t').sum) : Except PyErr C)) =
      lmeRecalculate D gam >>= fun fs => (pure (F (fs.map t).sum) : Except PyErr C) := by
  rw [shift_recalculate]
  cases lmeRecalculate D gam with
  | error e => rfl
  | ok fs =>
    change Except.ok _ = Except.ok _
    rw [List.map_map, show t' ∘ shiftFact c = t from funext h]

theorem shift_loss (D : List (LmeGroup p q)) (bet : Vec ℝ p) (gam : Vec ℝ q) : lmeLoss (D.map (shiftGroup c)) .nonInformative (bet + c) gam = lmeLoss D .nonInformative bet gam :=
  shift_terms c (t := lossTerm bet) (t' := lossTerm (bet + c)) (fun f => by unfold lossTerm; rw [shift_xi]) D gam fun s => s + 0

theorem shift_gradientBeta (D : List (LmeGroup p q)) (bet : Vec ℝ p) (gam : Vec ℝ q) :
    lmeGradientBeta (D.map (shiftGroup c)) .nonInformative (bet + c) gam = lmeGradientBeta D .nonInformative bet gam :=
  shift_terms c (t := gradBetaTerm bet) (t' := gradBetaTerm (bet + c)) (fun f => by unfold gradBetaTerm; rw [shift_xi]) D gam fun s => s + 0

theorem shift_gradientGamma (D : List (LmeGroup p q)) (bet : Vec ℝ p) (gam : Vec ℝ q) :
    lmeGradientGamma (D.map (shiftGroup c)) .nonInformative (bet + c) gam = lmeGradientGamma D .nonInformative bet gam :=
  shift_terms c (t := gradGammaTerm bet) (t' := gradGammaTerm (bet + c)) (fun f => by unfold gradGammaTerm; rw [shift_xi]) D gam fun s => s + 0

theorem shift_kernelTail (D : List (LmeGroup p q)) (gam : Vec ℝ q) :
    lmeKernelTail (D.map (shiftGroup c)) gam = (lmeKernelTail D gam).map fun kt => (kt.1, kt.2 + kt.1 *ᵥ c) := by
  unfold lmeKernelTail
  rw [shift_recalculate]
  cases lmeRecalculate D gam with
  | error e => rfl
  | ok fs =>
    change Except.ok _ = Except.ok _
    congr 1
    rw [List.map_map, List.map_map]
    have e1 : hessBetaTerm ∘ shiftFact c = (hessBetaTerm : LmeFactored p q → _) := rfl
    rw [e1]
    refine Prod.ext rfl ?_
    simp only
    induction fs with
    | nil => simp
    | cons f fs ih =>
      simp only [List.map_cons, List.sum_cons, add_mulVec] at ih ⊢
      rw [ih]
      have e : (tailTerm ∘ shiftFact c) f = tailTerm f + hessBetaTerm f *ᵥ c := by
        change (f.elInv * f.g.x)ᵀ *ᵥ (f.elInv *ᵥ (f.g.y + f.g.x *ᵥ c)) = _
        unfold tailTerm hessBetaTerm
        rw [mulVec_add, mulVec_add, mulVec_mulVec c f.elInv, mulVec_mulVec c (f.elInv * f.g.x)ᵀ]
      rw [e]
      abel

theorem npSolve_shift {ι : Type*} [Fintype ι] [DecidableEq ι] (A : Matrix ι ι ℝ) (b c : ι → ℝ) : npSolve A (b + A *ᵥ c) = (npSolve A b).map (· + c) := by
  unfold npSolve
  split_ifs with h
  · change Except.ok _ = Except.ok _
    rw [mulVec_add, mulVec_mulVec, nonsing_inv_mul _ h, one_mulVec]
  · rfl

theorem shift_optimalBeta (D : List (LmeGroup p q)) (gam : Vec ℝ q) : lmeOptimalBeta (D.map (shiftGroup c)) gam = (lmeOptimalBeta D gam).map (· + c) := by
  unfold lmeOptimalBeta
  rw [shift_kernelTail]
  cases lmeKernelTail D gam with
  | error e => rfl
  | ok kt => exact npSolve_shift kt.1 kt.2 c

theorem shift_randomEffects (D : List (LmeGroup p q)) (bet : Vec ℝ p) (gam : Vec ℝ q) :
    lmeRandomEffects (D.map (shiftGroup c)) (bet + c) gam = lmeRandomEffects D bet gam := by
  unfold lmeRandomEffects
  rw [shift_recalculate]
  cases lmeRecalculate D gam with
  | error e => rfl
  | ok fs =>
    change (D.map (shiftGroup c)).mapM (fun g => lmeRandomEffect g (bet + c) gam) = D.mapM fun g => lmeRandomEffect g bet gam
    clear fs
    induction D with
    | nil => rfl
    | cons g D ih =>
      have e : lmeRandomEffect (shiftGroup c g) (bet + c) gam = lmeRandomEffect g bet gam := by
        unfold lmeRandomEffect
        rw [shift_xi]
        rfl
      rw [List.map_cons, List.mapM_cons, List.mapM_cons, ih, e]

/-! ## The optimisation -/

theorem xBeta_shift (x : Vec ℝ (p + q)) : xBeta (x + joinX c (0 : Vec ℝ q)) = xBeta x + c := by
  funext i
  simp [xBeta, joinX]

theorem xGamma_shift (x : Vec ℝ (p + q)) : xGamma (x + joinX c (0 : Vec ℝ q)) = xGamma x := by
  funext i
  simp [xGamma, joinX]

theorem joinX_shift (b : Vec ℝ p) (g : Vec ℝ q) : joinX b g + joinX c (0 : Vec ℝ q) = joinX (b + c) g := by
  funext i
  refine Fin.addCases (fun i => ?_) (fun i => ?_) i
  · simp [joinX]
  · simp [joinX]

theorem wrap_zero_prox (x : Vec ℝ (p + q)) (t : ℝ) : (wrapReg p q 0 dummyRegularizer).prox x t = .ok (joinX (xBeta x) fun j => clip0 (xGamma x j)) := by
  change Except.ok _ = Except.ok _
  congr 1
  funext i
  rw [mul_zero, add_zero, div_one]
  refine Fin.addCases (fun i => ?_) (fun i => ?_) i
  · simp [positiveMask, joinX, xBeta]
  · simp [positiveMask, joinX, xGamma]

theorem wrap_zero_value (x : Vec ℝ (p + q)) : (wrapReg p q 0 dummyRegularizer).value x = .ok (if ∃ j, xGamma x j < 0 then ⊤ else 0) := by
  have e : (∃ i, positiveMask p q i = true ∧ x i < 0) ↔ ∃ j, xGamma x j < 0 := by
    constructor
    · rintro ⟨i, h1, h2⟩
      refine Fin.addCases (fun i h1 _ => ?_) (fun i _ h2 => ?_) i h1 h2
      · rw [show positiveMask p q (Fin.castAdd q i) = false by simp [positiveMask]] at h1
        exact absurd h1 Bool.false_ne_true
      · exact ⟨i, h2⟩
    · rintro ⟨j, h⟩
      exact ⟨Fin.natAdd p j, by simp [positiveMask], h⟩
  have e2 : (0 : ℝ) / 2 * normSq x = 0 := by rw [zero_div, zero_mul]
  simp only [wrapReg, positiveQuadrant, elastic, dummyRegularizer, bind, Except.bind, pure, Except.pure, e, e2]
  split_ifs <;> simp

theorem shift_plain (D : List (LmeGroup p q)) :
    Moves (· + joinX c (0 : Vec ℝ q)) id id (lmeOracle D .nonInformative) (lmeOracle (D.map (shiftGroup c)) .nonInformative) (wrapReg p q 0 dummyRegularizer)
      (wrapReg p q 0 dummyRegularizer) where
  dim := Iff.rfl
  add := fun x y => add_right_comm x y _
  smul := fun _ _ => rfl
  dot := fun _ _ => rfl
  value x s := by
    change (lmeLoss _ _ _ _).map _ = ((lmeLoss _ _ _ _).map _).map _
    rw [xBeta_shift, xGamma_shift, shift_loss]
    cases lmeLoss D .nonInformative (xBeta x) (xGamma x) <;> rfl
  grad x s := by
    simp only [lmeOracle]
    rw [xBeta_shift, xGamma_shift, shift_gradientBeta, shift_gradientGamma]
    cases lmeGradientBeta D .nonInformative (xBeta x) (xGamma x) with
    | error e => rfl
    | ok gb => cases lmeGradientGamma D .nonInformative (xBeta x) (xGamma x) <;> rfl
  prox y t := by
    rw [wrap_zero_prox, wrap_zero_prox, xBeta_shift, xGamma_shift]
    exact congrArg Except.ok (joinX_shift c _ _).symm
  pen x := by rw [wrap_zero_value, wrap_zero_value, xGamma_shift]

theorem shift_start (init : Option String) (D : List (LmeGroup p q)) (bet : Vec ℝ p) (gam : Vec ℝ q) :
    lmeInitialize init (D.map (shiftGroup c)) (fun g _ => lmeOptimalBeta (D.map (shiftGroup c)) g) (bet + c) gam =
      (lmeInitialize init D (fun g _ => lmeOptimalBeta D g) bet gam).map fun bg => (bg.1 + c, bg.2) := by
  unfold lmeInitialize
  split_ifs
  · simp only [shift_optimalBeta]
    cases lmeOptimalBeta D gam with
    | error e => rfl
    | ok b =>
      change (lmeRandomEffects (D.map (shiftGroup c)) (b + c) gam >>= fun us => _) = Except.map _ (lmeRandomEffects D b gam >>= fun us => _)
      rw [shift_randomEffects]
      cases lmeRandomEffects D b gam with
      | error e => rfl
      | ok us =>
        change Except.ok _ = Except.ok _
        rw [List.length_map]
  · rfl

theorem shift_optimize (M : LmeModelCfg) (hs : M.sr3 = none) (D : List (LmeGroup p q)) (bet : Vec ℝ p) (gam : Vec ℝ q) :
    lmeOptimize M (D.map (shiftGroup c)) .nonInformative (wrapReg p q 0 dummyRegularizer) (bet + c) gam =
      (lmeOptimize M D .nonInformative (wrapReg p q 0 dummyRegularizer) bet gam).map
        fun r => (r.1 + joinX c (0 : Vec ℝ q), r.2.mapKey (moveVal (· + joinX c (0 : Vec ℝ q)) id)) := by
  have hL : (Logger.init M.loggerKind M.loggerKeys : Logger (PyVal ℝ (p + q))) =
      (Logger.init M.loggerKind M.loggerKeys : Logger (PyVal ℝ (p + q))).mapKey (moveVal (· + joinX c (0 : Vec ℝ q)) id) := (Logger.mapKey_init _ _ _).symm
  unfold lmeOptimize
  simp only [hs]
  rw [shift_start]
  cases lmeInitialize M.initializer D (fun g _ => lmeOptimalBeta D g) bet gam with
  | error e => rfl
  | ok bg =>
    have h := (shift_plain c D).pgdOptimize M.solver (joinX bg.1 bg.2) (Logger.init M.loggerKind M.loggerKeys) ()
    rw [joinX_shift, ← hL] at h
    simp only [Except.map, bind, Except.bind, id] at h ⊢
    rw [h]
    cases pgdOptimize (lmeOracle D .nonInformative) (wrapReg p q 0 dummyRegularizer) M.solver (joinX bg.1 bg.2) (Logger.init M.loggerKind M.loggerKeys) () <;> rfl

end oracle

/-- With the initializer the start does not matter. -/
theorem lmeOptimize_em (M : LmeModelCfg) (hs : M.sr3 = none) (hem : M.initializer = some "EM") (D : List (LmeGroup p q)) (Pr : LmeInstPrior ℝ p q) (R : Regularizer ℝ (p + q))
    (bet bet' : Vec ℝ p) (gam : Vec ℝ q) : lmeOptimize M D Pr R bet gam = lmeOptimize M D Pr R bet' gam := by
  unfold lmeOptimize lmeInitialize
  simp only [hs, if_pos hem]

theorem shift_fitCore {P : LmeProblem ℝ} {A : Option (List (List ℝ))} (c : Vec ℝ P.numFixed) {M : LmeModelCfg} (hs : M.sr3 = none) (hreg : M.reg = .dummy) (hpr : M.prior = none)
    (heps : M.elasticEps = 0) {st : LmeState} {a a' : LmeFitArgs} {D : List (LmeGroup P.numFixed P.numRandom)} (hD : lmeGroups P = .ok D)
    (hD' : lmeGroups { P with answers := A } = .ok (D.map (shiftGroup c)))
    (hb : ∀ b, asVec P.numFixed (lmeStart st P a).1 = .ok b → asVec P.numFixed (lmeStart st { P with answers := A } a').1 = .ok (b + c) ∨
      M.initializer = some "EM" ∧ asVec P.numFixed (lmeStart st { P with answers := A } a').1 = .ok b)
    (hg : (lmeStart st { P with answers := A } a').2 = (lmeStart st P a).2)
    (hper : ∀ (b : Vec ℝ P.numFixed) (u : Vec ℝ P.numRandom), ∃ c, perGroupCoefs (List.ofFn b) (List.ofFn u) (P.interceptLabel.getD "" :: P.columnLabels) 0 0 = .ok c)
    {r : LmeCoef × Vec ℝ (P.numFixed + P.numRandom) × Logger (PyVal ℝ (P.numFixed + P.numRandom))} (h : lmeFitCore M st P a = .ok r) :
    ∃ (bet : Vec ℝ P.numFixed) (gam : Vec ℝ P.numRandom), r.1 = ⟨List.ofFn bet, List.ofFn gam, D.map fun g => List.ofFn (randEff bet gam g), P.groupLabels,
        D.map fun g => perGroupOf (List.ofFn bet) (P.interceptLabel.getD "" :: P.columnLabels) (List.ofFn (randEff bet gam g))⟩ ∧
      ∃ v' : Vec ℝ (P.numFixed + P.numRandom) × Logger (PyVal ℝ (P.numFixed + P.numRandom)), lmeFitCore M st { P with answers := A } a' = .ok (⟨List.ofFn (bet + c), List.ofFn gam, D.map fun g => List.ofFn (randEff bet gam g), P.groupLabels,
        D.map fun g => perGroupOf (List.ofFn (bet + c)) (P.interceptLabel.getD "" :: P.columnLabels) (List.ofFn (randEff bet gam g))⟩, v') := by
  unfold lmeFitCore at h
  obtain ⟨m1, hm1, h⟩ := ebind_ok.1 h
  obtain ⟨Pr, hPr, h⟩ := ebind_ok.1 h
  obtain ⟨w, hw1, h⟩ := ebind_ok.1 h
  obtain ⟨base, hbase, h⟩ := ebind_ok.1 h
  obtain ⟨D1, hD1, h⟩ := ebind_ok.1 h
  rw [hD] at hD1
  cases hD1
  obtain ⟨beta, hbeta, h⟩ := ebind_ok.1 h
  obtain ⟨gamma, hgamma, h⟩ := ebind_ok.1 h
  obtain ⟨o, ho, h⟩ := ebind_ok.1 h
  obtain ⟨us, hus, h⟩ := ebind_ok.1 h
  obtain ⟨per, hper1, h⟩ := ebind_ok.1 h
  cases h
  rw [hpr] at hPr
  cases hPr
  rw [hreg] at hbase
  cases hbase
  rw [heps] at ho
  obtain ⟨-, rfl⟩ := getPerGroup_ok.1 hper1
  have hus2 := hus
  obtain rfl := (lmeRandomEffects_ok.1 hus).2.2
  refine ⟨xBeta o.1, xGamma o.1, ?_, (o.1 + joinX c (0 : Vec ℝ P.numRandom), o.2.mapKey (moveVal (· + joinX c (0 : Vec ℝ P.numRandom)) id)), ?_⟩
  · simp only [List.map_map]
    rfl
  · obtain ⟨b', hb', hopt⟩ : ∃ b', asVec P.numFixed (lmeStart st { P with answers := A } a').1 = .ok b' ∧
        lmeOptimize M (D.map (shiftGroup c)) .nonInformative (wrapReg P.numFixed P.numRandom 0 dummyRegularizer) b' gamma =
          .ok (o.1 + joinX c (0 : Vec ℝ P.numRandom), o.2.mapKey (moveVal (· + joinX c (0 : Vec ℝ P.numRandom)) id)) := by
      have hopt := shift_optimize c M hs D beta gamma
      rw [ho] at hopt
      rcases hb beta hbeta with h | ⟨hem, h⟩
      · exact ⟨_, h, hopt⟩
      · exact ⟨_, h, (lmeOptimize_em M hs hem _ _ _ _ _ _).trans hopt⟩
    have hw2 : M.reg.weights P.numFixed P.numRandom (a'.feWeights.getD P.feWeights ++ a'.reWeights.getD P.reWeights) = .ok 0 := by rw [hreg]; rfl
    have hB2 : M.reg.build P.numFixed P.numRandom m1 0 = .ok dummyRegularizer := by rw [hreg]; rfl
    have hP2 : lmePriorFor M.prior { P with answers := A } = .ok .nonInformative := by rw [hpr]; rfl
    rw [← hg] at hgamma
    rw [← heps] at hopt
    unfold lmeFitCore
    refine ebind_ok.2 ⟨m1, hm1, ebind_ok.2 ⟨_, hP2, ebind_ok.2 ⟨_, hw2, ebind_ok.2 ⟨_, hB2, ebind_ok.2 ⟨_, hD', ebind_ok.2 ⟨_, hb',
      ebind_ok.2 ⟨_, hgamma, ebind_ok.2 ⟨_, hopt, ebind_ok.2 ⟨D.map (randEff (xBeta o.1) (xGamma o.1)), ?_, ebind_ok.2 ⟨_, getPerGroup_ok.2 ⟨?_, rfl⟩, ?_⟩⟩⟩⟩⟩⟩⟩⟩⟩⟩
    · have := shift_randomEffects c D (xBeta o.1) (xGamma o.1)
      rw [hus2] at this
      have e1 : xBeta (o.1 + joinX c (0 : Vec ℝ P.numRandom)) = xBeta o.1 + c := xBeta_shift c o.1
      have e2 : xGamma (o.1 + joinX c (0 : Vec ℝ P.numRandom)) = xGamma o.1 := xGamma_shift c o.1
      change lmeRandomEffects _ (xBeta (o.1 + joinX c (0 : Vec ℝ P.numRandom))) (xGamma (o.1 + joinX c (0 : Vec ℝ P.numRandom))) = _
      rw [e1, e2]
      exact this
    · intro u hu
      obtain ⟨u, -, rfl⟩ := List.mem_map.1 hu
      exact hper _ _
    · change Except.ok _ = Except.ok _
      have e1 : xBeta (o.1 + joinX c (0 : Vec ℝ P.numRandom)) = xBeta o.1 + c := xBeta_shift c o.1
      have e2 : xGamma (o.1 + joinX c (0 : Vec ℝ P.numRandom)) = xGamma o.1 := xGamma_shift c o.1
      congr 1
      refine Prod.ext ?_ rfl
      change (⟨List.ofFn (xBeta (o.1 + joinX c (0 : Vec ℝ P.numRandom))), List.ofFn (xGamma (o.1 + joinX c (0 : Vec ℝ P.numRandom))), _, _, _⟩ : LmeCoef) = _
      rw [e2, ← e1]
      have h1 : (D.map (randEff (xBeta o.1) (xGamma o.1))).map (fun u => List.ofFn u) = D.map fun g => List.ofFn (randEff (xBeta o.1) (xGamma o.1) g) := by
        rw [List.map_map]
        rfl
      have h2 : (((D.map (randEff (xBeta o.1) (xGamma o.1))).map (fun u => ((), List.ofFn u))).map fun u => (u.1, perGroupOf (List.ofFn (xBeta (o.1 + joinX c (0 : Vec ℝ P.numRandom))))
          (P.interceptLabel.getD "" :: P.columnLabels) u.2)).map (fun x => x.2) = D.map fun g => perGroupOf (List.ofFn (xBeta (o.1 + joinX c (0 : Vec ℝ P.numRandom))))
          (P.interceptLabel.getD "" :: P.columnLabels) (List.ofFn (randEff (xBeta o.1) (xGamma o.1) g)) := by
        rw [List.map_map, List.map_map, List.map_map]
        rfl
      exact congrArg₂ (fun a b => LmeCoef.mk (List.ofFn (xBeta (o.1 + joinX c (0 : Vec ℝ P.numRandom)))) (List.ofFn (xGamma o.1)) a P.groupLabels b) h1 h2

/-! ## Tables -/

variable {N k : ℕ}

theorem shift_fit {labels : List String} {x : Matrix (Fin N) (Fin k) ℝ} {y y' : Vec ℝ N} {ffi fri : Bool} {C : Option (Fin k) → ℝ}
    (hy : ∀ r, y' r = y r + ((effectCols k labels "fixed" ffi).map fun e => e.elim 1 (x r) * C e).sum) {P : LmeProblem ℝ}
    (hP : lmeFromXY x (some y) none labels ffi fri none none = .ok P) {M : LmeModelCfg} (hs : M.sr3 = none) (hreg : M.reg = .dummy) (hpr : M.prior = none)
    (heps : M.elasticEps = 0) {st : LmeState} {a a' : LmeFitArgs} (hgam : a'.gamma = a.gamma)
    (hbet : (∃ B : Option (Fin k) → ℝ, a.beta = some ((effectCols k labels "fixed" ffi).map B) ∧ a'.beta = some ((effectCols k labels "fixed" ffi).map fun e => B e + C e)) ∨
      M.initializer = some "EM" ∧ a'.beta = a.beta)
    {r : LmeCoef × Vec ℝ (P.numFixed + P.numRandom) × Logger (PyVal ℝ (P.numFixed + P.numRandom))} (hr : lmeFitCore M st P a = .ok r) :
    ∃ P' v' β γ u, lmeFromXY x (some y') none labels ffi fri none none = .ok P' ∧ r.1 = coefOf k labels ffi fri β γ u r.1.groupLabels ∧
      lmeFitCore M st P' a' = .ok (coefOf k labels ffi fri (fun e => β e + C e) γ u r.1.groupLabels, v') := by
  obtain ⟨g, v, hg, hv, hG, hD⟩ := lmeGroups_table hP
  obtain ⟨g1, v1, feW, reW, hg1, hv1, hlen, hkn, hN, hvar, hint, -, hfe, hre, hPe⟩ := lmeFromXY_ok x (some y) none labels ffi fri none none P hP
  obtain ⟨P', hP'⟩ := lmeFromXY_succeeds x (some y') none labels ffi fri none none g1 v1 hg1 hv1 hlen hkn hN hvar hint (.inl rfl) (by simp) _ _ hfe hre
  obtain ⟨g', v', hg', hv', hG', hD'⟩ := lmeGroups_table hP'
  obtain ⟨g2, v2, feW', reW', hg2, hv2, -, -, -, -, -, -, hfe', hre', hPe'⟩ := lmeFromXY_ok x (some y') none labels ffi fri none none P' hP'
  obtain rfl : g = g' := by rw [hg] at hg'; simpa using hg'
  obtain rfl : v = v' := by rw [hv] at hv'; simpa using hv'
  obtain rfl : g = g1 := by rw [hg] at hg1; simpa using hg1
  obtain rfl : g = g2 := by rw [hg] at hg2; simpa using hg2
  obtain rfl : v = v1 := by rw [hv] at hv1; simpa using hv1
  obtain rfl : v = v2 := by rw [hv] at hv2; simpa using hv2
  obtain rfl : feW = feW' := Except.ok.inj (hfe.symm.trans hfe')
  obtain rfl : reW = reW' := Except.ok.inj (hre.symm.trans hre')
  obtain ⟨A, rfl⟩ : ∃ A, P' = { P with answers := A } := ⟨P'.answers, by
    conv_lhs => rw [hPe']
    rw [hPe, hPe']⟩
  have hi : P.interceptLabel = interceptLabelOf ffi fri := by rw [hPe]
  have hl : P.columnLabels = labels := by rw [hPe]
  obtain ⟨nF, nR⟩ := effectCols_length P hlen hi hl
  clear hPe hPe' hfe hre hfe' hre'
  obtain ⟨F, hF⟩ := exists_ofFn nF
  obtain ⟨R, hR⟩ := exists_ofFn nR
  have get : ∀ (t : Option (Fin k) → ℝ) (j : Fin P.numFixed), ((List.ofFn F).map t).getD j.1 0 = t (F j) := by
    intro t j
    simp [List.getD_eq_getElem?_getD]
  have hD2 : lmeGroups { P with answers := A } = .ok (((uniqueLabels fun r => x r g).map (tableGroup x y labels ffi fri g v P.numFixed P.numRandom)).map
      (shiftGroup fun i => C (F i))) := by
    refine hD'.trans ?_
    refine congrArg Except.ok (Eq.trans ?_ (List.map_map ..).symm)
    refine List.map_congr_left fun l _ => ?_
    refine lmeGroup_ext rfl (fun i j => rfl) (fun i => ?_) (fun i j => rfl) (fun i => rfl)
    change y' _ = y _ + ∑ j : Fin P.numFixed, (designRow x ffi (labelIdx labels isFixed) _).getD j 0 * C (F j)
    rw [hy]
    congr 1
    rw [← hF, List.map_ofFn, List.sum_ofFn]
    refine Finset.sum_congr rfl fun j _ => ?_
    rw [design_fixed, ← hF, get]
    rfl
  have start : ∀ (P : LmeProblem ℝ) (a : LmeFitArgs), lmeStart st P a = (a.beta.getD (List.replicate P.numFixed 1), a.gamma.getD (List.replicate P.numRandom 1)) := by
    intro P a
    cases st with
    | none => rfl
    | some c => simp [lmeStart, sklearnCheckTruth]
  obtain ⟨bet, gam, e1, w, e2⟩ := shift_fitCore (fun i => C (F i)) hs hreg hpr heps (a' := a') hD hD2 (fun b hb => by
      rw [start, asVec_ok] at hb
      rw [start]
      rcases hbet with ⟨B, h1, h2⟩ | ⟨hem, h2⟩
      · left
        rw [asVec_ok, h2]
        rw [h1] at hb
        simp only [Option.getD_some, ← hF, List.map_ofFn] at hb ⊢
        rw [List.ofFn_injective hb]
        rfl
      · right
        refine ⟨hem, ?_⟩
        rw [asVec_ok, h2]
        exact hb) (by rw [start, start, hgam]; rfl) (fun b u => by
      obtain ⟨B, hB⟩ := exists_ofFn_map (by rw [hF]; exact effectCols_nodup _ _ _) b
      obtain ⟨U, hU⟩ := exists_ofFn_map (by rw [hR]; exact effectCols_nodup _ _ _) u
      have e1 : List.ofFn b = (effectCols k labels "fixed" ffi).map B := by rw [← hF, List.map_ofFn]; exact congrArg List.ofFn (funext hB)
      have e2 : List.ofFn u = (effectCols k labels "random" fri).map U := by rw [← hR, List.map_ofFn]; exact congrArg List.ofFn (funext hU)
      rw [e1, e2, hi, hl]
      exact ⟨_, perGroup_table hlen ffi fri B U⟩) hr
  obtain ⟨β, hβ⟩ := exists_ofFn_map (by rw [hF]; exact effectCols_nodup _ _ _) bet
  obtain ⟨γ, hγ⟩ := exists_ofFn_map (by rw [hR]; exact effectCols_nodup _ _ _) gam
  have hu : ∀ l : ℝ, ∃ u : Option (Fin k) → ℝ, ∀ j, randEff bet gam (tableGroup x y labels ffi fri g v P.numFixed P.numRandom l) j = u (R j) :=
    fun l => exists_ofFn_map (by rw [hR]; exact effectCols_nodup _ _ _) _
  choose u hu using hu
  have lβ : List.ofFn bet = (effectCols k labels "fixed" ffi).map β := by rw [← hF, List.map_ofFn]; exact congrArg List.ofFn (funext hβ)
  have lβ' : List.ofFn (bet + fun i => C (F i)) = (effectCols k labels "fixed" ffi).map fun e => β e + C e := by
    rw [← hF, List.map_ofFn]
    refine congrArg List.ofFn (funext fun i => ?_)
    change bet i + C (F i) = _
    rw [hβ]
    rfl
  have lγ : List.ofFn gam = (effectCols k labels "random" fri).map γ := by rw [← hR, List.map_ofFn]; exact congrArg List.ofFn (funext hγ)
  have lu : ∀ l, List.ofFn (randEff bet gam (tableGroup x y labels ffi fri g v P.numFixed P.numRandom l)) = (effectCols k labels "random" fri).map (u l) := by
    intro l
    rw [← hR, List.map_ofFn]
    exact congrArg List.ofFn (funext (hu l))
  have hg0 : r.1.groupLabels = P.groupLabels := by rw [e1]
  refine ⟨{ P with answers := A }, w, β, γ, u, hP', ?_, ?_⟩
  · rw [hg0]
    rw [e1, hG]
    unfold coefOf
    simp only [List.map_map, Function.comp_def, lβ, lγ, lu, hi, hl, perGroupOf, perGroup_table hlen]
  · rw [hg0, e2, hG]
    unfold coefOf
    simp only [List.map_map, Function.comp_def, lβ', lγ, lu, hi, hl, perGroupOf, perGroup_table hlen]

/-- **C184** for mixed-effects models without penalty (`elastic_eps = 0`, no prior, not SR3): let the answers `y'` be `y` plus a combination of the fixed-effect columns with
coefficients `C` (the intercept of the fixed effects is the column of ones), and let the start be moved by `C` as well, or the EM initializer be used, which ignores it.  If fitting
`y` gave coefficients that assign `β`, `γ` and `u` to the columns, then fitting `y'` gives `β + C`, the same variances and the same random effects - so the coefficients of the
groups move by `C` too. -/
theorem C184_mixed_partial (M : LmeModelCfg) (hs : M.sr3 = none) (hreg : M.reg = .dummy) (hpr : M.prior = none) (heps : M.elasticEps = 0) (st : LmeState) {labels : List String}
    (x : Matrix (Fin N) (Fin k) ℝ) (y y' : Vec ℝ N) (ffi fri : Bool) (C : Option (Fin k) → ℝ)
    (hy : ∀ r, y' r = y r + ((effectCols k labels "fixed" ffi).map fun e => e.elim 1 (x r) * C e).sum) (a a' : LmeFitArgs) (hgam : a'.gamma = a.gamma)
    (hbet : (∃ B : Option (Fin k) → ℝ, a.beta = some ((effectCols k labels "fixed" ffi).map B) ∧ a'.beta = some ((effectCols k labels "fixed" ffi).map fun e => B e + C e)) ∨
      M.initializer = some "EM" ∧ a'.beta = a.beta)
    (res : Except PyErr Unit) (c : LmeCoef) (h : lmeFit M st x y (some labels) ffi fri none none none a = (res, some c)) (hst : res = .ok () ∨ st = none) :
    ∃ res' β γ u, c = coefOf k labels ffi fri β γ u c.groupLabels ∧
      lmeFit M st x y' (some labels) ffi fri none none none a' = (res', some (coefOf k labels ffi fri (fun e => β e + C e) γ u c.groupLabels)) := by
  have hh : ∃ P r, lmeFromXY x (some y) none labels ffi fri none none = .ok P ∧ lmeFitCore M st P a = .ok r ∧ r.1 = c := by
    rcases hst with rfl | rfl
    · obtain ⟨P, coef, v, L0, hP, hc, hcore⟩ := lmeFit_ok h
      cases hc
      exact ⟨P, _, hP, hcore, rfl⟩
    · have h2 := congrArg Prod.snd h
      rw [lmeFit_coef] at h2
      simp only at h2
      cases hP : lmeFromXY x (some y) none labels ffi fri none none with
      | error e => rw [hP] at h2; cases h2
      | ok P =>
        rw [hP] at h2
        cases hr : lmeFitCore M none P a with
        | error e => simp only [coefAfter, hr] at h2; cases h2
        | ok r =>
          simp only [coefAfter, hr] at h2
          cases h2
          exact ⟨P, r, rfl, hr, rfl⟩
  obtain ⟨P, r, hP, hr, rfl⟩ := hh
  obtain ⟨P', v', β, γ, u, hP', h1, h2⟩ := shift_fit hy hP hs hreg hpr heps hgam hbet hr
  refine ⟨_, β, γ, u, h1, Prod.ext rfl ?_⟩
  rw [lmeFit_coef]
  simp only [hP', coefAfter, h2]

theorem simple_robust (sort : NpSort) : ({ lmeDefaultModel sort .simple false with elasticEps := 0 } : LmeModelCfg).Robust := by
  have h := lmeDefaultModel_robust sort .simple false
  exact ⟨⟨⟨h.adm.reg, le_refl _, h.adm.step, h.adm.ell⟩, h.kind, h.keys, h.sr3, fun t _ => by simp [lmeDefaultModel, LmeClassName.defaultReg, LmeReg.StepOk]⟩, h.init, h.vaida, h.flip⟩

/-- A case: the simple model with `elastic_eps = 0` on the example table with two intercepts, moved by 3 for the intercept and by −2 for the columns. -/
example (sort : NpSort) (y : Vec ℝ 2) : ∃ c c' : LmeCoef, ∃ b0 b1 : ℝ,
    lmeFit { lmeDefaultModel sort .simple false with elasticEps := 0 } none exTab y (some exTabLabels) true true none none none { beta := some [1, 1] } = (.ok (), some c) ∧
    (lmeFit { lmeDefaultModel sort .simple false with elasticEps := 0 } none exTab (fun r => y r + (3 - 2 * exTab r 1)) (some exTabLabels) true true none none none
      { beta := some [4, -1] }).2 = some c' ∧
    c.beta = [b0, b1] ∧ c'.beta = [b0 + 3, b1 - 2] ∧ c'.gamma = c.gamma ∧ c'.randomEffects = c.randomEffects := by
  obtain ⟨P, hP⟩ := exTab_ok' true true y
  obtain ⟨c, hc, -⟩ := C83_fit_returns _ (simple_robust sort) rfl none exTab y _ true true P hP exTab_positive (some [1, 1]) none (by rintro b ⟨⟩; rfl) (by simp) false
  have hcols : effectCols 4 exTabLabels "fixed" true = [none, some 1] := by decide
  obtain ⟨res', β, γ, u, h1, h2⟩ := C184_mixed_partial { lmeDefaultModel sort .simple false with elasticEps := 0 } rfl rfl rfl rfl none exTab y
    (fun r => y r + (3 - 2 * exTab r 1)) true true (fun e => e.elim 3 fun _ => -2) (labels := exTabLabels) (fun r => by rw [hcols]; simp; ring) { beta := some [1, 1] }
    { beta := some [4, -1] } rfl (.inl ⟨fun _ => 1, by rw [hcols]; rfl, by rw [hcols]; norm_num⟩) (.ok ()) c hc (.inl rfl)
  refine ⟨c, _, β none, β (some 1), hc, congrArg Prod.snd h2, ?_, ?_, ?_, ?_⟩
  · rw [h1]; simp [coefOf, hcols]
  · simp [coefOf, hcols, sub_eq_add_neg]
  · conv_rhs => rw [h1]
    rfl
  · conv_rhs => rw [h1]
    rfl

/-- **C184** is violated by the simple mixed-effects model with its default settings (`elastic_eps = 1e-4`, which makes it a ridge regression): one row with the feature 1 and the
answer 1, fitted from the start 1, gives `b = 1 / (1 + 5e-6)`; with the answer `-1 = 1 - 2` and the start `-1 = 1 - 2` the result is `-b`, not `b - 2`. -/
theorem C184_mixed_violated (sort : NpSort) : ∃ (c c' : LmeCoef) (b b' : ℝ),
    lmeFit (lmeDefaultModel sort .simple false) none (!![0, 1, 1] : Matrix (Fin 1) (Fin 3) ℝ) (fun _ => 1) (some ["group", "fixed", "variance"]) false false none none none
      { beta := some [1] } = (.ok (), some c) ∧
    lmeFit (lmeDefaultModel sort .simple false) none (!![0, 1, 1] : Matrix (Fin 1) (Fin 3) ℝ) (fun _ => 1 + 1 * (-2)) (some ["group", "fixed", "variance"]) false false none none none
      { beta := some [1 + -2] } = (.ok (), some c') ∧
    c.beta = [b] ∧ c'.beta = [b'] ∧ b' = -b ∧ b' ≠ b + -2 := by
  obtain ⟨-, c, -, hc, -, hb, -⟩ := C118_zero_strength_violated sort
  obtain ⟨x, hx⟩ : ∃ x : Matrix (Fin 1) (Fin 3) ℝ, x = !![0, 1, 1] := ⟨_, rfl⟩
  rw [← hx] at hc ⊢
  have hpos : ∀ v : Fin 3, ["group", "fixed", "variance"][(v : ℕ)]? = some "variance" → ∀ r, 0 < x r v := by
    intro v hv r
    fin_cases v
    · exact absurd hv (by decide)
    · exact absurd hv (by decide)
    · fin_cases r; simp [hx]
  have hPs : ∀ y : Vec ℝ 1, ∃ P, lmeFromXY x (some y) none ["group", "fixed", "variance"] false false none none = .ok P := fun y =>
    lmeFromXY_succeeds x (some y) none _ false false none none 0 2 (by decide) (by decide) rfl (by decide)
      (by simp) (by intro r; fin_cases r; simp [hx]) (by intro r; fin_cases r; exact ⟨0, by simp [hx]⟩) (.inl rfl) (by simp) _ _ rfl rfl
  obtain ⟨P', hP'⟩ := hPs fun _ => 1 + 1 * (-2)
  obtain ⟨P, hP⟩ := hPs fun _ => 1
  obtain ⟨c1, h1, -⟩ := C117_defaults_fit sort .simple false none x _ _ false false P hP hpos (some [1]) none (by rintro b ⟨⟩; rfl) (by simp) false
  obtain ⟨c2, h2, -⟩ := C117_defaults_fit sort .simple false none x _ _ false false P' hP' hpos (some [1 + -2]) none (by rintro b ⟨⟩; rfl) (by simp) false
  have hn : P.numFixed = 1 := by
    obtain ⟨_, _, _, _, -, -, -, -, -, -, -, -, -, -, hPe⟩ := lmeFromXY_ok x _ none _ false false none none P hP
    rw [hPe]
    rfl
  have e1 : c1 = c := by
    have e : lmeFitCore (lmeDefaultModel sort .simple false) none P { beta := some [1] } = lmeFitCore (lmeDefaultModel sort .simple false) none P {} := by
      have : lmeStart none P { beta := some [1] } = lmeStart none P {} := by
        simp [lmeStart, hn]
      unfold lmeFitCore
      rw [this]
    have e3 := congrArg Prod.snd h1
    have e4 := congrArg Prod.snd hc
    rw [lmeFit_coef] at e3 e4
    simp only [hP, coefAfter] at e3 e4
    rw [e] at e3
    exact Option.some.inj (e3.symm.trans e4)
  subst e1
  have hcols : effectCols 3 ["group", "fixed", "variance"] "fixed" false = [some 1] := by decide
  have hm : Moved ["group", "fixed", "variance"] ["group", "fixed", "variance"] (1 : Equiv.Perm (Fin 3)) (fun _ => 1) x x :=
    ⟨rfl, fun _ => rfl, by simp, fun _ => .inl rfl, fun _ _ => rfl⟩
  obtain ⟨res', β, γ, u, h3, h4⟩ := C126_column_order (lmeDefaultModel sort .simple false) rfl none hm (s := -1) (.inr rfl) (y := fun _ => 1) (y' := fun _ => 1 + 1 * (-2))
    (fun r => by norm_num) false false (a := { beta := some [1] }) (a' := { beta := some [1 + -2] })
    ⟨.inr ⟨fun _ => 1, by rw [hcols]; rfl, by rw [hcols]; norm_num [effectSign]⟩, .inl ⟨rfl, rfl⟩, .inl ⟨rfl, rfl⟩, .inl ⟨rfl, rfl⟩⟩
    (by rintro ⟨_, _, _, h⟩; cases h) (.ok ()) _ h1 (.inl rfl)
  have e2 : c2 = _ := Option.some.inj ((congrArg Prod.snd h2).symm.trans (congrArg Prod.snd h4))
  have hβ : c1.beta = [β (some 1)] := by rw [h3]; simp [coefOf, hcols]
  refine ⟨c1, c2, β (some 1), -β (some 1), h1, h2, hβ, ?_, rfl, ?_⟩
  · rw [e2]
    simp [coefOf, hcols, effectSign]
  · rw [hβ] at hb
    rw [List.cons.inj hb |>.1]
    norm_num

end Verif
