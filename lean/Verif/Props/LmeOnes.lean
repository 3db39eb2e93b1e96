import Verif.Props.LmeClasses

/-!
# C129: an intercept is a column of ones

`fit(..., fit_fixed_intercept, fit_random_intercept)` is the same as `fit` without intercepts on the table with a column of ones in front, labelled by the role of the intercept.
-/

namespace Verif

open Matrix

variable {N k : ℕ}

/-- The label of the explicit column of ones. -/
def onesRole (ffi fri : Bool) : String := if ffi && fri then "fixed+random" else if fri then "random" else "fixed"

/-- The table with a column of ones in front. -/
def withOnes (x : Matrix (Fin N) (Fin k) ℝ) : Matrix (Fin N) (Fin (k + 1)) ℝ := Matrix.of fun r => Fin.cons 1 (x r)

theorem labelIdx_cons (l : String) (labels : List String) (test : String → Bool) :
    labelIdx (p := k + 1) (l :: labels) test = (if test l then [0] else []) ++ (labelIdx (p := k) labels test).map Fin.succ := by
  unfold labelIdx
  rw [List.finRange_succ, List.filter_cons, List.filter_map]
  have : (List.finRange k).filter ((fun i : Fin (k + 1) => test ((l :: labels).getD (i : ℕ) "")) ∘ Fin.succ) = (List.finRange k).filter fun i : Fin k => test (labels.getD (i : ℕ) "") := by
    refine List.filter_congr fun i _ => ?_
    simp
  rw [this]
  simp only [Fin.val_zero, List.getD_cons_zero]
  split_ifs <;> rfl

theorem designRow_ones (x : Matrix (Fin N) (Fin k) ℝ) (ffi : Bool) (labels : List String) (role : String) (test : String → Bool) (h : test role = ffi) (r : Fin N) :
    designRow (withOnes x) false (labelIdx (role :: labels) test) r = designRow x ffi (labelIdx labels test) r := by
  unfold designRow
  rw [labelIdx_cons, h]
  cases ffi <;> simp [withOnes, List.map_map, Function.comp_def]

/-- The problem of the table with the column of ones. -/
theorem lmeFromXY_ones (x : Matrix (Fin N) (Fin k) ℝ) (y : Option (Vec ℝ N)) (labels : List String) (ffi fri : Bool) (hi : ffi = true ∨ fri = true) (hk : 0 < k) :
    lmeFromXY (withOnes x) y none (onesRole ffi fri :: labels) false false none none =
      (lmeFromXY x y none labels ffi fri none none).map fun P => { P with interceptLabel := none, columnLabels := onesRole ffi fri :: labels } := by
  have hrole : isKnown (onesRole ffi fri) = true ∧ (onesRole ffi fri = GROUP) = False ∧ (onesRole ffi fri = VARIANCE) = False ∧
      isFixed (onesRole ffi fri) = ffi ∧ isRandom (onesRole ffi fri) = fri := by
    rcases hi with rfl | rfl
    · cases fri <;> simp [onesRole, isKnown, isFixed, isRandom, GROUP, VARIANCE, FIXED, RANDOM, FIXED_RANDOM]
    · cases ffi <;> simp [onesRole, isKnown, isFixed, isRandom, GROUP, VARIANCE, FIXED, RANDOM, FIXED_RANDOM]
  obtain ⟨r1, r2, r3, r4, r5⟩ := hrole
  unfold lmeFromXY
  have c1 : (y.isSome ∧ (N = 0 ∨ k + 1 = 0)) ↔ (y.isSome ∧ (N = 0 ∨ k = 0)) := by
    constructor <;> rintro ⟨h1, h2⟩ <;> exact ⟨h1, by omega⟩
  by_cases h1 : y.isSome ∧ (N = 0 ∨ k = 0)
  · rw [if_pos h1, if_pos (c1.2 h1)]; rfl
  rw [if_neg h1, if_neg (fun h => h1 (c1.1 h))]
  rw [List.all_cons, r1, Bool.true_and]
  by_cases h2 : ¬ labels.all isKnown = true
  · rw [if_pos h2, if_pos h2]; rfl
  rw [if_neg h2, if_neg h2, List.length_cons]
  by_cases h3 : labels.length ≠ k
  · rw [if_pos h3, if_pos (by omega)]; rfl
  rw [if_neg h3, if_neg (by omega), labelIdx_cons, labelIdx_cons]
  simp only [r2, r3, decide_false, Bool.false_eq_true, if_false, List.nil_append]
  have hcore : ∀ g v : Fin k, fromXYCore (withOnes x) y none (onesRole ffi fri :: labels) false false none none g.succ v.succ =
      (fromXYCore x y none labels ffi fri none none g v).map fun P => { P with interceptLabel := none, columnLabels := onesRole ffi fri :: labels } := by
    intro g v
    have hx : ∀ (r : Fin N) (j : Fin k), withOnes x r j.succ = x r j := fun r j => by simp [withOnes]
    have d1 : ∀ r, designRow (withOnes x) false (labelIdx (onesRole ffi fri :: labels) isFixed) r = designRow x ffi (labelIdx labels isFixed) r := fun r => designRow_ones x ffi labels _ _ r4 r
    have d2 : ∀ r, designRow (withOnes x) false (labelIdx (onesRole ffi fri :: labels) isRandom) r = designRow x fri (labelIdx labels isRandom) r := fun r => designRow_ones x fri labels _ _ r5 r
    have l1 : (labelIdx (p := k + 1) (onesRole ffi fri :: labels) isFixed).length + 0 = (labelIdx (p := k) labels isFixed).length + ffi.toNat := by
      rw [labelIdx_cons, r4]
      cases ffi <;> simp [Nat.add_comm]
    have l2 : (labelIdx (p := k + 1) (onesRole ffi fri :: labels) isRandom).length + 0 = (labelIdx (p := k) labels isRandom).length + fri.toNat := by
      rw [labelIdx_cons, r5]
      cases fri <;> simp [Nat.add_comm]
    have hxg : (fun r => withOnes x r g.succ) = fun r => x r g := funext fun r => hx r g
    have hxv : (fun r => withOnes x r v.succ) = fun r => x r v := funext fun r => hx r v
    have c4 : (∃ r, withOnes x r v.succ = 0) ↔ ∃ r, x r v = 0 := exists_congr fun r => by rw [hx]
    have c5 : (¬ ∀ r, IntValued (withOnes x r g.succ)) ↔ ¬ ∀ r, IntValued (x r g) := not_congr (forall_congr' fun r => by rw [hx])
    unfold fromXYCore
    by_cases h4 : ∃ r, x r v = 0
    · rw [if_pos h4, if_pos (c4.2 h4)]; rfl
    rw [if_neg h4, if_neg (fun h => h4 (c4.1 h))]
    by_cases h5 : ¬ ∀ r, IntValued (x r g)
    · rw [if_pos h5, if_pos (c5.2 h5)]; rfl
    rw [if_neg h5, if_neg (fun h => h5 (c5.1 h)), if_neg (by simp), if_neg (by simp), if_neg (by simp), if_neg (by simp)]
    rw [hxg, hxv]
    simp only [regWeightsOf, Bool.toNat_false, Except.map, namesOf, l1, l2, Except.ok.injEq]
    have e1 : (fun r => designRow (withOnes x) false (labelIdx (onesRole ffi fri :: labels) isFixed) r) = designRow x ffi (labelIdx labels isFixed) := funext d1
    have e2 : (fun r => designRow (withOnes x) false (labelIdx (onesRole ffi fri :: labels) isRandom) r) = designRow x fri (labelIdx labels isRandom) := funext d2
    rw [← e1, ← e2]
    rfl
  cases hG : labelIdx (p := k) labels (· = GROUP) with
  | nil => rfl
  | cons g gs =>
    cases gs with
    | cons g' gs => rfl
    | nil =>
      cases hV : labelIdx (p := k) labels (· = VARIANCE) with
      | nil => rfl
      | cons v vs =>
        cases vs with
        | cons v' vs => rfl
        | nil => exact hcore g v

/-! ## Fits -/

/-- `fit_problem` for a model without prior up to the random effects, as a function of what it reads from the problem. -/
noncomputable def fitBefore (M : LmeModelCfg) (p q : ℕ) (m : Except PyErr (List ℤ)) (ws : List ℝ) (D : Except PyErr (List (LmeGroup p q))) (b g : List ℝ) :
    Except PyErr ((Vec ℝ (p + q) × Logger (PyVal ℝ (p + q))) × List (Vec ℝ q)) := do
  let m ← m
  let w ← M.reg.weights p q ws
  let base ← M.reg.build p q m w
  let D ← D
  let beta ← asVec p b
  let gamma ← asVec q g
  let r ← lmeOptimize M D .nonInformative (wrapReg p q M.elasticEps base) beta gamma
  let us ← lmeRandomEffects D (xBeta r.1) (xGamma r.1)
  return (r, us)

/-- The coefficients of the groups and the result. -/
noncomputable def fitAfter {p q : ℕ} (groupLabels : List ℝ) (labels : List String) (z : (Vec ℝ (p + q) × Logger (PyVal ℝ (p + q))) × List (Vec ℝ q)) :
    Except PyErr (LmeCoef × Vec ℝ (p + q) × Logger (PyVal ℝ (p + q))) := do
  let per ← getPerGroupCoefficients (List.ofFn (xBeta z.1.1)) (z.2.map fun u => ((), List.ofFn u)) labels
  return (⟨List.ofFn (xBeta z.1.1), List.ofFn (xGamma z.1.1), z.2.map (fun u => List.ofFn u), groupLabels, per.map (·.2)⟩, z.1.1, z.1.2)

/-- The state and the result of `fit`. -/
noncomputable def fitEnd {p q : ℕ} (M : LmeModelCfg) (st : LmeState) (D : Except PyErr (List (LmeGroup p q))) :
    Except PyErr (LmeCoef × Vec ℝ (p + q) × Logger (PyVal ℝ (p + q))) → Except PyErr Unit × LmeState
  | .error e => (.error e, st)
  | .ok r => ((do
      let D ← D
      lmeLogCriteria M.solverTol D .nonInformative (M.hessian D .nonInformative (xGamma r.2.1)) (xBeta r.2.1) (xGamma r.2.1) r.2.2).map fun _ => (), some r.1)

theorem fitProblem_with (M : LmeModelCfg) (hprior : M.prior = none) (st : LmeState) (P : LmeProblem ℝ) (a : LmeFitArgs) :
    ((lmeFitProblem M st P a).1.map (fun _ => ()), (lmeFitProblem M st P a).2) =
      fitEnd M st (lmeGroups P) (fitBefore M P.numFixed P.numRandom (betaToGammaMap P) (a.feWeights.getD P.feWeights ++ a.reWeights.getD P.reWeights) (lmeGroups P)
        (lmeStart st P a).1 (lmeStart st P a).2 >>= fitAfter P.groupLabels (P.interceptLabel.getD "" :: P.columnLabels)) := by
  have hpr : lmePriorFor M.prior P = .ok .nonInformative := by rw [hprior]; rfl
  have hcore : lmeFitCore M st P a = fitBefore M P.numFixed P.numRandom (betaToGammaMap P) (a.feWeights.getD P.feWeights ++ a.reWeights.getD P.reWeights) (lmeGroups P)
        (lmeStart st P a).1 (lmeStart st P a).2 >>= fitAfter P.groupLabels (P.interceptLabel.getD "" :: P.columnLabels) := by
    unfold lmeFitCore fitBefore
    rw [hpr]
    simp only [bind_assoc, pure_bind]
    rfl
  unfold lmeFitProblem
  rw [← hcore, hpr]
  cases lmeFitCore M st P a <;> rfl

theorem perGroup_cons (beta : List ℝ) (us : List (Unit × List ℝ)) (labels : List String) :
    getPerGroupCoefficients beta us ("" :: labels) = (getPerGroupCoefficients beta us labels).map (List.map fun c => (c.1, 0 :: c.2)) := by
  induction us with
  | nil => rfl
  | cons u us ih =>
    obtain ⟨l, u⟩ := u
    have h : perGroupCoefs beta u ("" :: labels) 0 0 = (perGroupCoefs beta u labels 0 0).map (0 :: ·) := by
      rw [perGroupCoefs, if_neg (by decide), if_neg (by decide), if_neg (by decide)]
    unfold getPerGroupCoefficients
    rw [h, ih]
    cases perGroupCoefs beta u labels 0 0 with
    | error e => rfl
    | ok c =>
      simp only [Except.map]
      cases getPerGroupCoefficients beta us labels <;> rfl

/-- A leading label without role puts a zero before the coefficients of every group and changes nothing else. -/
theorem fitEnd_cons {p q : ℕ} (M : LmeModelCfg) (st : LmeState) (D : Except PyErr (List (LmeGroup p q))) (z : Except PyErr ((Vec ℝ (p + q) × Logger (PyVal ℝ (p + q))) × List (Vec ℝ q)))
    (groupLabels : List ℝ) (labels : List String) :
    (∃ e, fitEnd M st D (z >>= fitAfter groupLabels labels) = (.error e, st) ∧ fitEnd M st D (z >>= fitAfter groupLabels ("" :: labels)) = (.error e, st)) ∨
    ∃ res c, fitEnd M st D (z >>= fitAfter groupLabels labels) = (res, some c) ∧
      fitEnd M st D (z >>= fitAfter groupLabels ("" :: labels)) = (res, some { c with perGroup := c.perGroup.map (0 :: ·) }) := by
  cases z with
  | error e => exact .inl ⟨e, rfl, rfl⟩
  | ok z =>
    simp only [bind, Except.bind]
    unfold fitAfter
    rw [perGroup_cons]
    cases hper : getPerGroupCoefficients (List.ofFn (xBeta z.1.1)) (z.2.map fun u => ((), List.ofFn u)) labels with
    | error e => exact .inl ⟨e, rfl, rfl⟩
    | ok per =>
      refine .inr ⟨_, _, rfl, ?_⟩
      simp only [Except.map, bind, Except.bind, pure, Except.pure, fitEnd, List.map_map]
      rfl

/-- The groups of a problem as a function of the sizes and the data. -/
noncomputable def groupsAt (p q : ℕ) (ff : List (List (List ℝ))) (rf : List (RandomDesign ℝ)) (ov : List (List ℝ)) (an : Option (List (List ℝ))) : Except PyErr (List (LmeGroup p q)) :=
  match an with
  | none => .error .typeError
  | some ys => ((ff.zip ys).zip (rf.zip ov)).mapM fun g => g.2.1.toRows >>= fun z => lmeGroupOf p q g.1.1 g.1.2 z g.2.2

/-- The starting point as a function of the sizes. -/
noncomputable def startAt (st : LmeState) (p q : ℕ) (a : LmeFitArgs) : List ℝ × List ℝ :=
  let default := (a.beta.getD (List.replicate p 1), a.gamma.getD (List.replicate q 1))
  match st with
  | some c => if a.warmStart && sklearnCheckTruth then (c.beta, c.gamma) else default
  | none => default

/-- **C129.** An intercept is a column of ones: for every model without prior, every table, target, start, weights and solver settings, `fit` with intercepts and `fit` without intercepts on the table with a column of ones in
front (labelled `fixed`, `random` or `fixed+random`, as the flags say) give the same result: both fail with the same exception, or both leave the same fixed effects, variances, random effects and group labels; the coefficients
of a group only get a leading zero (for the empty place of the intercept). -/
theorem C129_fit (M : LmeModelCfg) (hprior : M.prior = none) (st : LmeState) (x : Matrix (Fin N) (Fin k) ℝ) (hk : 0 < k) (y : Vec ℝ N) (labels : List String) (ffi fri : Bool)
    (hi : ffi = true ∨ fri = true) (a : LmeFitArgs) :
    (∃ e, lmeFit M st x y (some labels) ffi fri none none none a = (.error e, st) ∧
      lmeFit M st (withOnes x) y (some (onesRole ffi fri :: labels)) false false none none none a = (.error e, st)) ∨
    ∃ res c, lmeFit M st x y (some labels) ffi fri none none none a = (res, some c) ∧
      lmeFit M st (withOnes x) y (some (onesRole ffi fri :: labels)) false false none none none a = (res, some { c with perGroup := c.perGroup.map (0 :: ·) }) := by
  have hones := lmeFromXY_ones x (some y) labels ffi fri hi hk
  cases hP : lmeFromXY x (some y) none labels ffi fri none none with
  | error e =>
    rw [hP] at hones
    refine .inl ⟨e, ?_, ?_⟩ <;> unfold lmeFit
    · simp only [hP]
    · simp only [hones, Except.map]
  | ok P =>
    rw [hP] at hones
    have e1 : lmeFit M st x y (some labels) ffi fri none none none a = ((lmeFitProblem M st P a).1.map (fun _ => ()), (lmeFitProblem M st P a).2) := by
      unfold lmeFit
      simp only [hP]
    have e2 : lmeFit M st (withOnes x) y (some (onesRole ffi fri :: labels)) false false none none none a =
        ((lmeFitProblem M st { P with interceptLabel := none, columnLabels := onesRole ffi fri :: labels } a).1.map (fun _ => ()),
          (lmeFitProblem M st { P with interceptLabel := none, columnLabels := onesRole ffi fri :: labels } a).2) := by
      unfold lmeFit
      simp only [hones]
      rfl
    rw [e1, e2]
    obtain ⟨g, v, feW, reW, -, -, -, -, -, -, -, -, -, -, hPe⟩ := lmeFromXY_ok x (some y) none labels ffi fri none none P hP
    have hlab : P.interceptLabel = some (onesRole ffi fri) ∧ P.columnLabels = labels := by
      rw [hPe]
      refine ⟨?_, rfl⟩
      simp only
      rcases hi with rfl | rfl
      · cases fri <;> rfl
      · cases ffi <;> rfl
    clear hPe hP
    obtain ⟨ff, rf, ov, gl, il, cl, oo, an, fc, rc, fw, rw'⟩ := P
    obtain ⟨h1, h2⟩ := hlab
    simp only at h1 h2
    subst h1 h2
    rw [fitProblem_with M hprior, fitProblem_with M hprior]
    have hn : (LmeProblem.numFixed (⟨ff, rf, ov, gl, none, onesRole ffi fri :: cl, oo, an, fc, rc, fw, rw'⟩ : LmeProblem ℝ)) =
        LmeProblem.numFixed (⟨ff, rf, ov, gl, some (onesRole ffi fri), cl, oo, an, fc, rc, fw, rw'⟩ : LmeProblem ℝ) := by
      unfold LmeProblem.numFixed
      simp only [List.countP_cons, decide_eq_true_eq, Option.some.injEq]
      simp
    have hq : (LmeProblem.numRandom (⟨ff, rf, ov, gl, none, onesRole ffi fri :: cl, oo, an, fc, rc, fw, rw'⟩ : LmeProblem ℝ)) =
        LmeProblem.numRandom (⟨ff, rf, ov, gl, some (onesRole ffi fri), cl, oo, an, fc, rc, fw, rw'⟩ : LmeProblem ℝ) := by
      unfold LmeProblem.numRandom
      simp only [List.countP_cons, decide_eq_true_eq, Option.some.injEq]
      simp
    have key : ∀ (p p' q q' : ℕ) (_ : p' = p) (_ : q' = q),
        fitEnd M st (groupsAt p' q' ff rf ov an) (fitBefore M p' q' (mapLoop (onesRole ffi fri :: cl) 0 0 (List.replicate p' 0)) (a.feWeights.getD fw ++ a.reWeights.getD rw') (groupsAt p' q' ff rf ov an)
          (startAt st p' q' a).1 (startAt st p' q' a).2 >>= fitAfter gl ("" :: onesRole ffi fri :: cl)) =
        fitEnd M st (groupsAt p q ff rf ov an) (fitBefore M p q (mapLoop (onesRole ffi fri :: cl) 0 0 (List.replicate p 0)) (a.feWeights.getD fw ++ a.reWeights.getD rw') (groupsAt p q ff rf ov an)
          (startAt st p q a).1 (startAt st p q a).2 >>= fitAfter gl ("" :: onesRole ffi fri :: cl)) := by
      rintro p p' q q' rfl rfl
      rfl
    have h2 := fun p q : ℕ => fitEnd_cons M st (groupsAt p q ff rf ov an) (fitBefore M p q (mapLoop (onesRole ffi fri :: cl) 0 0 (List.replicate p 0))
      (a.feWeights.getD fw ++ a.reWeights.getD rw') (groupsAt p q ff rf ov an) (startAt st p q a).1 (startAt st p q a).2) gl (onesRole ffi fri :: cl)
    have h3 := h2 (LmeProblem.numFixed (⟨ff, rf, ov, gl, some (onesRole ffi fri), cl, oo, an, fc, rc, fw, rw'⟩ : LmeProblem ℝ))
      (LmeProblem.numRandom (⟨ff, rf, ov, gl, some (onesRole ffi fri), cl, oo, an, fc, rc, fw, rw'⟩ : LmeProblem ℝ))
    rw [← key _ _ _ _ hn hq] at h3
    exact h3

/-- **C129**, predictions: coefficients that differ only in the coefficients of the groups predict the same (or fail with the same exception) for a table with intercepts and for the table with the column of ones. -/
theorem C129_predict (c : LmeCoef) (per : List (List ℝ)) (x : Matrix (Fin N) (Fin k) ℝ) (hk : 0 < k) (labels : List String) (ffi fri : Bool) (hi : ffi = true ∨ fri = true) :
    lmePredict (some { c with perGroup := per }) (withOnes x) (some (onesRole ffi fri :: labels)) false false = lmePredict (some c) x (some labels) ffi fri := by
  unfold lmePredict
  simp only
  by_cases h : N = 0 ∨ k = 0
  · rw [if_pos h, if_pos (by omega)]
  rw [if_neg h, if_neg (by omega), lmeFromXY_ones x none labels ffi fri hi hk]
  cases hP : lmeFromXY x none none labels ffi fri none none with
  | error e => rfl
  | ok P =>
    obtain ⟨g, v, feW, reW, -, -, -, -, -, -, -, -, -, -, hPe⟩ := lmeFromXY_ok x none none labels ffi fri none none P hP
    have hlab : P.interceptLabel = some (onesRole ffi fri) ∧ P.columnLabels = labels := by
      rw [hPe]
      refine ⟨?_, rfl⟩
      simp only
      rcases hi with rfl | rfl
      · cases fri <;> rfl
      · cases ffi <;> rfl
    clear hPe hP
    obtain ⟨ff, rf, ov, gl, il, cl, oo, an, fc, rc, fw, rw'⟩ := P
    obtain ⟨h1, h2⟩ := hlab
    simp only at h1 h2
    subst h1 h2
    have hn : (LmeProblem.numFixed (⟨ff, rf, ov, gl, none, onesRole ffi fri :: cl, oo, an, fc, rc, fw, rw'⟩ : LmeProblem ℝ)) =
        LmeProblem.numFixed (⟨ff, rf, ov, gl, some (onesRole ffi fri), cl, oo, an, fc, rc, fw, rw'⟩ : LmeProblem ℝ) := by
      unfold LmeProblem.numFixed
      simp only [List.countP_cons, decide_eq_true_eq, Option.some.injEq]
      simp
    have hq : (LmeProblem.numRandom (⟨ff, rf, ov, gl, none, onesRole ffi fri :: cl, oo, an, fc, rc, fw, rw'⟩ : LmeProblem ℝ)) =
        LmeProblem.numRandom (⟨ff, rf, ov, gl, some (onesRole ffi fri), cl, oo, an, fc, rc, fw, rw'⟩ : LmeProblem ℝ) := by
      unfold LmeProblem.numRandom
      simp only [List.countP_cons, decide_eq_true_eq, Option.some.injEq]
      simp
    simp only [Except.map, bind, Except.bind, lmePredictProblem, hn, hq]
    rfl

/-- Non-vacuity of C129: the default models with both intercepts, and the same table with a column of ones. -/
example (sort : NpSort) (cls : LmeClassName) (sr3 : Bool) (y : Vec ℝ 2) :
    ∃ c : LmeCoef, lmeFit (lmeDefaultModel sort cls sr3) none exTab y (some exTabLabels) true true none none none {} = (.ok (), some c) ∧
      lmeFit (lmeDefaultModel sort cls sr3) none (withOnes exTab) y (some ("fixed+random" :: exTabLabels)) false false none none none {} = (.ok (), some { c with perGroup := c.perGroup.map (0 :: ·) }) := by
  obtain ⟨P, hP⟩ := exTab_ok' true true y
  obtain ⟨c, hc, -⟩ := C117_defaults_fit sort cls sr3 none exTab y _ true true P hP exTab_positive none none (by simp) (by simp) false
  rcases C129_fit (lmeDefaultModel sort cls sr3) (by cases cls <;> cases sr3 <;> rfl) none exTab (by norm_num) y exTabLabels true true (.inl rfl) {} with ⟨e, h1, -⟩ | ⟨res, c', h1, h2⟩
  · rw [h1] at hc; cases hc
  · rw [h1] at hc
    obtain ⟨h3, h4⟩ := Prod.mk.inj hc
    cases h4
    rw [h3] at h2
    exact ⟨c, by rw [h1, h3], h2⟩

end Verif
