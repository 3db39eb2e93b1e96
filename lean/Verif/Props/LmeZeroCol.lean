import Verif.Props.LmeTurnTable
import Verif.Props.LmeKkt
import Verif.Props.Duplicates

/-!
# Effects without data in mixed models (C192)
-/

open Matrix

namespace Verif

noncomputable section

variable {N k p q : ℕ}

/-! ## Predicted random effects -/

/-- The random effect of a feature that is zero in all observations of the group is predicted as zero. -/
theorem noData_effect {g : LmeGroup p q} {beta : Vec ℝ p} {gamma u : Vec ℝ q} (h : lmeRandomEffect g beta gamma = .ok u) {j : Fin q} (hz : ∀ r, g.z r j = 0) : u j = 0 := by
  classical
  unfold lmeRandomEffect at h
  obtain ⟨v, hv, h⟩ := ebind_ok.1 h
  cases h
  unfold scatterMask
  split_ifs with hj
  · have hk := congrFun (npSolve_ok.1 hv).2 ⟨j, hj⟩
    have e1 : ∀ w : Fin g.n → ℝ, ((g.zMasked gamma)ᵀ *ᵥ w) ⟨j, hj⟩ = 0 := fun w => by
      show ∑ r, g.z r j * w r = 0
      exact Finset.sum_eq_zero fun r _ => by rw [hz r, zero_mul]
    unfold reKernel at hk
    rw [add_mulVec, Pi.add_apply, ← mulVec_mulVec, ← mulVec_mulVec, ← mulVec_mulVec, e1, e1, add_zero, mulVec_diagonal] at hk
    have h0 : gamma j ≠ 0 := fun h => by rw [h, abs_zero] at hj; norm_num at hj
    exact (mul_eq_zero.1 hk).resolve_left (one_div_ne_zero h0)
  · rfl

theorem mapM_forall {α β : Type} {f : α → Except PyErr β} {l : List α} {r : List β} (h : l.mapM f = .ok r) : List.Forall₂ (fun a b => f a = .ok b) l r := by
  induction l generalizing r with
  | nil => rw [List.mapM_nil] at h; cases h; exact .nil
  | cons a l ih =>
    rw [List.mapM_cons] at h
    obtain ⟨b, hb, h⟩ := ebind_ok.1 h
    obtain ⟨bs, hbs, h⟩ := ebind_ok.1 h
    cases h
    exact .cons hb (ih hbs)

/-- **C192** for the random effects, of all models: a random effect whose feature is zero in all observations of a group is predicted as zero in this group. -/
theorem C192_effects (M : LmeModelCfg) (st : LmeState) (x : Matrix (Fin N) (Fin k) ℝ) (y : Vec ℝ N) (labels : List String) (ffi fri : Bool)
    (columns mustFe mustRe : Option (List String)) (a : LmeFitArgs) (c : LmeCoef) (h : lmeFit M st x y (some labels) ffi fri columns mustFe mustRe a = (.ok (), some c)) :
    ∃ u : ℝ → Option (Fin k) → ℝ, c.randomEffects = c.groupLabels.map (fun l => (effectCols k labels "random" fri).map (u l)) ∧
      ∀ g : Fin k, labels[(g : ℕ)]? = some "group" → ∀ l ∈ c.groupLabels, ∀ j, some j ∈ effectCols k labels "random" fri → (∀ r, x r g = l → x r j = 0) → u l (some j) = 0 := by
  obtain ⟨P, c', vec, L0, hP, hc, hcore⟩ := lmeFit_ok h
  cases hc
  obtain ⟨g, v, hg, -, hgl, hD'⟩ := lmeGroups_table hP
  obtain ⟨m, Pr, w, base, D, beta, gamma, us, per, -, -, -, -, hD, -, -, -, hus, hper, rfl⟩ := lmeFitCore_ok hcore
  rw [hD] at hD'
  have hD' := Except.ok.inj hD'
  obtain ⟨_, _, _, _, -, -, hlen, -, -, -, -, -, -, -, hPe⟩ := lmeFromXY_ok x (some y) columns labels ffi fri mustFe mustRe P hP
  obtain ⟨-, nR⟩ := effectCols_length P hlen (ffi := ffi) (fri := fri) (by rw [hPe]) (by rw [hPe])
  obtain ⟨R, hR⟩ := exists_ofFn nR
  have hnd : (List.ofFn R).Nodup := by rw [hR]; exact effectCols_nodup _ _ _
  unfold lmeRandomEffects at hus
  obtain ⟨_, -, hus⟩ := ebind_ok.1 hus
  have hall : ∀ G u, lmeRandomEffect G (xBeta vec) (xGamma vec) = .ok u ↔ (∃ u, lmeRandomEffect G (xBeta vec) (xGamma vec) = .ok u) ∧ u = randEff (xBeta vec) (xGamma vec) G := by
    intro G u
    unfold lmeRandomEffect npSolve
    split_ifs with hu
    · constructor
      · rintro h
        exact ⟨⟨_, h⟩, (Except.ok.inj h).symm⟩
      · rintro ⟨-, rfl⟩
        rfl
    · constructor
      · intro h
        cases h
      · rintro ⟨⟨_, h⟩, -⟩
        cases h
  obtain ⟨hev, hus⟩ := (mapM_ok_iff hall D us).1 hus
  have hu : ∀ l : ℝ, ∃ u : Option (Fin k) → ℝ, ∀ j, randEff (xBeta vec) (xGamma vec) (tableGroup x y labels ffi fri g v P.numFixed P.numRandom l) j = u (R j) :=
    fun l => exists_ofFn_map hnd _
  choose u hu using hu
  refine ⟨u, ?_, fun g' hg' l hl j hj hz => ?_⟩
  · show us.map (fun u => List.ofFn u) = P.groupLabels.map _
    rw [hus, hD', hgl, List.map_map, List.map_map]
    refine List.map_congr_left fun l _ => ?_
    rw [← hR, List.map_ofFn]
    exact congrArg List.ofFn (funext (hu l))
  · have hgg : g' = g := by
      have h1 : g' ∈ labelIdx (p := k) labels (· = GROUP) := by
        rw [mem_labelIdx]
        simp [List.getD_eq_getElem?_getD, hg', GROUP]
      rw [hg] at h1
      exact List.mem_singleton.1 h1
    subst hgg
    rw [← hR] at hj
    obtain ⟨i, hi⟩ := List.mem_ofFn.1 hj
    rw [← hi, ← hu]
    have hl' : l ∈ uniqueLabels fun r => x r g' := by rw [← hgl]; exact hl
    obtain ⟨w', hw'⟩ := hev (tableGroup x y labels ffi fri g' v P.numFixed P.numRandom l) (by rw [hD']; exact List.mem_map_of_mem hl')
    rw [((hall _ _).1 hw').2.symm]
    refine noData_effect hw' fun r => ?_
    show (designRow x fri (labelIdx labels isRandom) _).getD i 0 = 0
    rw [design_random, ← hR]
    have hr := List.get_mem (groupRows (fun r => x r g') l) r
    simp only [List.getD_eq_getElem?_getD, List.map_ofFn, List.getElem?_ofFn, i.2, dif_pos, Option.getD_some, Function.comp_apply, hi]
    exact hz _ ((mem_groupRows (v := fun r => x r g')).1 hr)

/-! ## Variances and fixed effects -/

/-- The gradients of the loss in the effects without data. -/
theorem noData_gradient {D : List (LmeGroup p q)} {x g : Vec ℝ (p + q)} {s : Unit} (h : (lmeOracle D .nonInformative).grad x () = .ok (g, s)) :
    (∀ i : Fin p, (∀ G ∈ D, ∀ r, G.x r i = 0) → g (Fin.castAdd q i) = 0) ∧ ∀ j : Fin q, (∀ G ∈ D, ∀ r, G.z r j = 0) → g (Fin.natAdd p j) = 0 := by
  have hsum : ∀ {n : ℕ} (l : List (LmeFactored p q)) (f : LmeFactored p q → Vec ℝ n) (i : Fin n), (∀ a ∈ l, f a i = 0) → (l.map f).sum i = 0 := by
    intro n l f i h
    induction l with
    | nil => rfl
    | cons a l ih =>
      rw [List.map_cons, List.sum_cons, Pi.add_apply, h a List.mem_cons_self, ih fun b hb => h b (List.mem_cons_of_mem _ hb), add_zero]
  obtain ⟨gb, hb, h⟩ := ebind_ok.1 h
  obtain ⟨gg, hg, h⟩ := ebind_ok.1 h
  cases h
  obtain ⟨fs, hfs, hb⟩ := ebind_ok.1 hb
  cases hb
  obtain ⟨fs', hfs', hg⟩ := ebind_ok.1 hg
  cases hg
  obtain ⟨-, rfl⟩ := lmeRecalculate_ok.1 hfs
  obtain ⟨-, rfl⟩ := lmeRecalculate_ok.1 hfs'
  refine ⟨fun i hi => ?_, fun j hj => ?_⟩
  · rw [joinX, Fin.append_left, Pi.add_apply]
    refine (congrArg₂ (· + ·) (hsum _ _ i fun f hf => ?_) rfl).trans (add_zero _)
    obtain ⟨G, hG, rfl⟩ := List.mem_map.1 hf
    have e : ∀ r, (lmeElInv G (xGamma x) * G.x) r i = 0 := fun r => by
      rw [mul_apply]
      exact Finset.sum_eq_zero fun t _ => by rw [hi G hG t, mul_zero]
    show -∑ r, (lmeElInv G (xGamma x) * G.x) r i * _ = 0
    rw [Finset.sum_eq_zero fun r _ => by rw [e r, zero_mul], neg_zero]
  · rw [joinX, Fin.append_right, Pi.add_apply]
    refine (congrArg₂ (· + ·) (hsum _ _ j fun f hf => ?_) rfl).trans (add_zero _)
    obtain ⟨G, hG, rfl⟩ := List.mem_map.1 hf
    have e : ∀ r, (lmeElInv G (xGamma x) * G.z) r j = 0 := fun r => by
      rw [mul_apply]
      exact Finset.sum_eq_zero fun t _ => by rw [hj G hG t, mul_zero]
    show 1 / 2 * ∑ i, (lmeElInv G (xGamma x) * G.z) i j ^ 2 - 1 / 2 * (∑ i, (lmeElInv G (xGamma x) * G.z) i j * _) ^ 2 = 0
    rw [Finset.sum_eq_zero fun r _ => by rw [e r]; norm_num, Finset.sum_eq_zero fun r _ => by rw [e r, zero_mul]]
    norm_num

/-- In a plain fit without penalty an effect without data keeps a nonzero starting value nonzero. -/
theorem noData_kept {M : LmeModelCfg} (hsr : M.sr3 = none) (hpr : M.prior = none) (hinit : M.initializer ≠ some "EM") (hoff : M.reg.Off) (hstep : 0 ≤ M.step) (heps : 0 ≤ M.elasticEps)
    {st : LmeState} {P : LmeProblem ℝ} {a : LmeFitArgs} {c : LmeCoef} {x : Vec ℝ (P.numFixed + P.numRandom)} {L : Logger (PyVal ℝ (P.numFixed + P.numRandom))}
    (h : lmeFitCore M st P a = .ok (c, x, L)) {D : List (LmeGroup P.numFixed P.numRandom)} (hD : lmeGroups P = .ok D) {b0 : Vec ℝ P.numFixed} {g0 : Vec ℝ P.numRandom}
    (hb : asVec P.numFixed (lmeStart st P a).1 = .ok b0) (hg : asVec P.numRandom (lmeStart st P a).2 = .ok g0) :
    (∀ i : Fin P.numFixed, (∀ G ∈ D, ∀ r, G.x r i = 0) → b0 i ≠ 0 → xBeta x i ≠ 0) ∧ ∀ j : Fin P.numRandom, (∀ G ∈ D, ∀ r, G.z r j = 0) → 0 < g0 j → 0 < xGamma x j := by
  obtain ⟨m, Pr, w, base, D', beta, gamma, us, per, -, hPr, -, hbase, hD', hbeta, hgamma, hopt, -, -, -⟩ := lmeFitCore_ok h
  rw [hD] at hD'
  cases hD'
  rw [hb] at hbeta
  cases hbeta
  rw [hg] at hgamma
  cases hgamma
  rw [hpr] at hPr
  cases hPr
  obtain ⟨base', hb', hprox⟩ := hoff.build (p := P.numFixed) (q := P.numRandom) m w
  rw [hbase] at hb'
  cases hb'
  unfold lmeOptimize at hopt
  simp only [hsr] at hopt
  obtain ⟨bg, hbg, hopt⟩ := ebind_ok.1 hopt
  unfold lmeInitialize at hbg
  rw [if_neg hinit] at hbg
  cases hbg
  obtain ⟨⟨⟨x', Lx⟩, s'⟩, hr, hopt⟩ := ebind_ok.1 hopt
  cases hopt
  have hw : ∀ (y : Vec ℝ (P.numFixed + P.numRandom)) t, (wrapReg P.numFixed P.numRandom M.elasticEps base).prox y t =
      .ok fun i => (if positiveMask P.numFixed P.numRandom i = true then clip0 (y i) else y i) / (1 + t * M.elasticEps) := fun y t => by
    rw [wrapReg_prox_congr hprox]
    rfl
  obtain ⟨n, X, Ls, s1, L1, -, h0, hn, -, -, hsteps, -, -⟩ := pgdOptimize_trace _ _ M.solver _ _
    (fun x _ x' _ => (∀ i : Fin P.numFixed, (∀ G ∈ D, ∀ r, G.x r i = 0) → x (Fin.castAdd _ i) ≠ 0 → x' (Fin.castAdd _ i) ≠ 0) ∧
      ∀ j : Fin P.numRandom, (∀ G ∈ D, ∀ r, G.z r j = 0) → 0 < x (Fin.natAdd _ j) → 0 < x' (Fin.natAdd _ j))
    (fun x it L' s x' L'' s' hbd => by
      obtain ⟨gv, s1, t, s2, hgv, hst, hpx, -⟩ := pgdBody_ok _ _ _ _ _ _ _ _ _ _ _ hbd
      obtain ⟨e, rfl⟩ := chooseStep_dyadic _ _ _ _ _ _ _ _ hst
      obtain ⟨t, ht⟩ : ∃ t, t = M.solver.fixedStepLen * (1 / 2) ^ e := ⟨_, rfl⟩
      rw [← ht] at hpx
      have ht0 : 0 ≤ t := by
        rw [ht]
        exact mul_nonneg hstep (by positivity)
      have hpos : 0 < 1 + t * M.elasticEps := by nlinarith [mul_nonneg ht0 heps]
      rw [hw] at hpx
      have hx' := (Except.ok.inj hpx).symm
      obtain ⟨z1, z2⟩ := noData_gradient (s := s1) hgv
      refine ⟨fun i hi hne => ?_, fun j hj hlt => ?_⟩
      · have e1 : positiveMask P.numFixed P.numRandom (Fin.castAdd P.numRandom i) ≠ true := by
          simp [positiveMask]
        rw [hx']
        simp only [if_neg e1]
        refine div_ne_zero ?_ hpos.ne'
        rw [z1 i hi, mul_zero, sub_zero]
        exact hne
      · have e1 : positiveMask P.numFixed P.numRandom (Fin.natAdd P.numFixed j) = true := by
          simp [positiveMask]
        rw [hx']
        simp only [if_pos e1]
        refine div_pos ?_ hpos
        rw [z2 j hj, mul_zero, sub_zero]
        unfold clip0
        exact lt_max_of_lt_left hlt) _ _ _ _ hr
  constructor
  · intro i hi hne
    have hall : ∀ t, t ≤ n → X t (Fin.castAdd _ i) ≠ 0 := fun t => by
      induction t with
      | zero =>
        intro _
        rw [h0, joinX, Fin.append_left]
        exact hne
      | succ t ih => exact fun ht => (hsteps t (by omega)).1 i hi (ih (by omega))
    have := hall n le_rfl
    rw [hn] at this
    exact this
  · intro j hj hlt
    have hall : ∀ t, t ≤ n → 0 < X t (Fin.natAdd _ j) := fun t => by
      induction t with
      | zero =>
        intro _
        rw [h0, joinX, Fin.append_right]
        exact hlt
      | succ t ih => exact fun ht => (hsteps t (by omega)).2 j hj (ih (by omega))
    have := hall n le_rfl
    rw [hn] at this
    exact this

/-- **C192**, violated by plain models without a penalty, `SimpleLMEModel` or those with strength zero: with the default start every effect of a feature that is zero in all observations is reported as nonzero, fixed effects
and variances alike. -/
theorem C192_plain_violated (M : LmeModelCfg) (hsr : M.sr3 = none) (hpr : M.prior = none) (hinit : M.initializer ≠ some "EM") (hoff : M.reg.Off) (hstep : 0 ≤ M.step) (heps : 0 ≤ M.elasticEps)
    (st : LmeState) (x : Matrix (Fin N) (Fin k) ℝ) (y : Vec ℝ N) (labels : List String) (ffi fri : Bool) (columns mustFe mustRe : Option (List String)) (c : LmeCoef)
    (h : lmeFit M st x y (some labels) ffi fri columns mustFe mustRe {} = (.ok (), some c)) :
    ∃ β γ : Option (Fin k) → ℝ, c.beta = (effectCols k labels "fixed" ffi).map β ∧ c.gamma = (effectCols k labels "random" fri).map γ ∧
      ∀ j, (∀ r, x r j = 0) → (some j ∈ effectCols k labels "fixed" ffi → β (some j) ≠ 0) ∧ (some j ∈ effectCols k labels "random" fri → 0 < γ (some j)) := by
  obtain ⟨P, c', vec, L0, hP, hc, hcore⟩ := lmeFit_ok h
  cases hc
  obtain ⟨g, v, hg, -, hgl, hD⟩ := lmeGroups_table hP
  obtain ⟨_, _, _, _, -, -, hlen, -, -, -, -, -, -, -, hPe⟩ := lmeFromXY_ok x (some y) columns labels ffi fri mustFe mustRe P hP
  obtain ⟨nF, nR⟩ := effectCols_length P hlen (ffi := ffi) (fri := fri) (by rw [hPe]) (by rw [hPe])
  obtain ⟨F, hF⟩ := exists_ofFn nF
  obtain ⟨R, hR⟩ := exists_ofFn nR
  obtain ⟨β, hβ⟩ := exists_ofFn_map (by rw [hF]; exact effectCols_nodup _ _ _) (xBeta vec)
  obtain ⟨γ, hγ⟩ := exists_ofFn_map (by rw [hR]; exact effectCols_nodup _ _ _) (xGamma vec)
  have start : lmeStart st P {} = (List.replicate P.numFixed 1, List.replicate P.numRandom 1) := by
    cases st with
    | none => rfl
    | some c => simp [lmeStart, sklearnCheckTruth]
  obtain ⟨k1, k2⟩ := noData_kept hsr hpr hinit hoff hstep heps hcore hD (b0 := fun _ => 1) (g0 := fun _ => 1)
    (by rw [start, asVec_ok, List.ofFn_const]) (by rw [start, asVec_ok, List.ofFn_const])
  obtain ⟨m, Pr, w, base, D, beta, gamma, us, per, -, -, -, -, -, -, -, -, -, -, rfl⟩ := lmeFitCore_ok hcore
  refine ⟨β, γ, ?_, ?_, fun j hj => ⟨fun hm => ?_, fun hm => ?_⟩⟩
  · show List.ofFn (xBeta vec) = _
    rw [← hF, List.map_ofFn]
    exact congrArg List.ofFn (funext hβ)
  · show List.ofFn (xGamma vec) = _
    rw [← hR, List.map_ofFn]
    exact congrArg List.ofFn (funext hγ)
  · rw [← hF] at hm
    obtain ⟨i, hi⟩ := List.mem_ofFn.1 hm
    rw [← hi, ← hβ]
    refine k1 i (fun G hG r => ?_) one_ne_zero
    obtain ⟨l, hl, rfl⟩ := List.mem_map.1 hG
    show (designRow x ffi (labelIdx labels isFixed) _).getD i 0 = 0
    rw [design_fixed, ← hF]
    simp only [List.getD_eq_getElem?_getD, List.map_ofFn, List.getElem?_ofFn, i.2, dif_pos, Option.getD_some, Function.comp_apply, hi]
    exact hj _
  · rw [← hR] at hm
    obtain ⟨i, hi⟩ := List.mem_ofFn.1 hm
    rw [← hi, ← hγ]
    refine k2 i (fun G hG r => ?_) one_pos
    obtain ⟨l, hl, rfl⟩ := List.mem_map.1 hG
    show (designRow x fri (labelIdx labels isRandom) _).getD i 0 = 0
    rw [design_random, ← hR]
    simp only [List.getD_eq_getElem?_getD, List.map_ofFn, List.getElem?_ofFn, i.2, dif_pos, Option.getD_some, Function.comp_apply, hi]
    exact hj _

/-- **C192** for converged plain fits with the L1 penalty: the fixed effect and the variance of a feature that is zero in all observations are exactly zero if their penalty exceeds the stopping error.
Missing: models without penalty, see `C192_plain_violated`, and the other penalties. -/
theorem C192_l1_partial (M : LmeModelCfg) (hM : M.Admissible) (lam : ℝ) (hreg : M.reg = .l1 lam) (hsr : M.sr3 = none) (hpr : M.prior = none) (hinit : M.initializer ≠ some "EM") (st : LmeState)
    (P : LmeProblem ℝ) (a : LmeFitArgs) (D : List (LmeGroup P.numFixed P.numRandom)) (hD : lmeGroups P = .ok D) (hDp : PosVar D) (b0 : Vec ℝ P.numFixed)
    (g0 : Vec ℝ P.numRandom) (hb : List.ofFn b0 = a.beta.getD (List.replicate P.numFixed 1)) (hg : List.ofFn g0 = a.gamma.getD (List.replicate P.numRandom 1)) (hg0 : ∀ j, 0 ≤ g0 j)
    (wb : Vec ℝ P.numFixed) (wg : Vec ℝ P.numRandom) (hwb : List.ofFn wb = a.feWeights.getD P.feWeights) (hwg : List.ofFn wg = a.reWeights.getD P.reWeights)
    (hwb0 : ∀ i, 0 ≤ wb i) (hwg0 : ∀ j, 0 ≤ wg j) (E : ℝ)
    (hE : E = marginalNLL D b0 g0 + M.elasticEps / 2 * (∑ i, b0 i ^ 2 + ∑ j, g0 j ^ 2) + lam * (∑ i, wb i * |b0 i| + ∑ j, wg j * |g0 j|) - 1 / 2 * (D.map fun g => ∑ i, Real.log (g.l i)).sum)
    (L : ℝ) (hL0 : 0 < L) (hrule : if M.stepping = "line-search" then L ≤ 10 ^ 14 else M.step ≤ 1 / L)
    (hL : (D.map fun g => ∑ i, (∑ k, g.x i k ^ 2) / g.l i).sum + 2 * E * (D.map fun g => ∑ j, (∑ i, g.z i j ^ 2 / g.l i) ^ 2).sum ≤ L)
    (t₀ : ℝ) (ht₀ : t₀ = if M.stepping = "line-search" then min M.step (1 / (2 * L)) else M.step)
    (Lf : Logger (PyVal ℝ (P.numFixed + P.numRandom))) (c : LmeState) (h : lmeFitProblem M st P a = (.ok Lf, c)) (hconv : Lf.get "converged" = .ok (.atom (.bool true))) :
    ∃ coef b g, c = some coef ∧ coef.beta = List.ofFn b ∧ coef.gamma = List.ofFn g ∧
      (∀ i : Fin P.numFixed, (∀ G ∈ D, ∀ r, G.x r i = 0) → M.tol / t₀ < lam * wb i → b i = 0) ∧
      (∀ j : Fin P.numRandom, (∀ G ∈ D, ∀ r, G.z r j = 0) → M.tol / t₀ < lam * wg j → g j = 0) := by
  obtain ⟨coef, b, g, hc, hcb, hcg, h1, h2⟩ := C160_dropped M hM lam hreg hsr hpr hinit st P a D hD hDp b0 g0 hb hg hg0 wb wg hwb hwg hwb0 hwg0 E hE L hL0 hrule hL t₀ ht₀ Lf c h hconv
  refine ⟨coef, b, g, hc, hcb, hcg, fun i hi hlt => h1 i ?_, fun j hj hlt => h2 j ?_⟩
  · rw [List.sum_eq_zero fun v hv => by
      obtain ⟨G, hG, rfl⟩ := List.mem_map.1 hv
      exact Finset.sum_eq_zero fun r _ => by rw [hi G hG r, zero_pow two_ne_zero, zero_div], mul_zero, Real.sqrt_zero, zero_add]
    exact hlt
  · rw [List.sum_eq_zero fun v hv => by
      obtain ⟨G, hG, rfl⟩ := List.mem_map.1 hv
      exact Finset.sum_eq_zero fun r _ => by rw [hj G hG r, zero_pow two_ne_zero, zero_div], mul_zero, zero_add]
    exact hlt

/-- **C192**, violated by plain models with `initializer="EM"`: if a fixed feature is zero in all observations, or a combination of the fixed features is (two equal ones, say), `fit` raises an exception. -/
theorem C192_em_violated (M : LmeModelCfg) (hsr : M.sr3 = none) (hinit : M.initializer = some "EM") (st : LmeState) (P : LmeProblem ℝ) (a : LmeFitArgs)
    (D : List (LmeGroup P.numFixed P.numRandom)) (hD : lmeGroups P = .ok D) (v : Vec ℝ P.numFixed) (hv : v ≠ 0) (hz : ∀ G ∈ D, G.x *ᵥ v = 0) : ¬ ∃ r, lmeFitCore M st P a = .ok r := by
  rintro ⟨⟨c, x, L⟩, h⟩
  obtain ⟨m, Pr, w, base, D', beta, gamma, us, per, -, -, -, -, hD', -, -, hopt, -, -, -⟩ := lmeFitCore_ok h
  rw [hD] at hD'
  cases hD'
  unfold lmeOptimize at hopt
  simp only [hsr] at hopt
  obtain ⟨bg, hbg, -⟩ := ebind_ok.1 hopt
  unfold lmeInitialize at hbg
  rw [if_pos hinit] at hbg
  obtain ⟨b, hb, -⟩ := ebind_ok.1 hbg
  unfold lmeOptimalBeta lmeKernelTail at hb
  obtain ⟨kt, hkt, hb⟩ := ebind_ok.1 hb
  obtain ⟨fs, hfs, hkt⟩ := ebind_ok.1 hkt
  cases hkt
  obtain ⟨-, rfl⟩ := lmeRecalculate_ok.1 hfs
  have hu := (npSolve_ok.1 hb).1
  have hk : ((D.map (lmeFact gamma)).map hessBetaTerm).sum *ᵥ v = 0 := by
    have : ∀ l : List (LmeGroup P.numFixed P.numRandom), (∀ G ∈ l, G.x *ᵥ v = 0) → ((l.map (lmeFact gamma)).map hessBetaTerm).sum *ᵥ v = 0 := by
      intro l
      induction l with
      | nil => exact fun _ => zero_mulVec v
      | cons G l ih =>
        intro hl
        rw [List.map_cons, List.map_cons, List.sum_cons, add_mulVec, ih fun b hb => hl b (List.mem_cons_of_mem _ hb), add_zero]
        show ((lmeElInv G gamma * G.x)ᵀ * (lmeElInv G gamma * G.x)) *ᵥ v = 0
        rw [← mulVec_mulVec, ← mulVec_mulVec, hl G List.mem_cons_self, mulVec_zero, mulVec_zero]
    exact this D hz
  apply hv
  have h2 := congrArg (((D.map (lmeFact gamma)).map hessBetaTerm).sum⁻¹ *ᵥ ·) hk
  simp only [mulVec_mulVec, nonsing_inv_mul _ hu, one_mulVec, mulVec_zero] at h2
  exact h2

/-- The same for tables: `fit` with `initializer="EM"` raises an exception whenever the fixed effects' columns (the intercept is a column of ones) are linearly dependent. -/
theorem C192_em_table (M : LmeModelCfg) (hsr : M.sr3 = none) (hinit : M.initializer = some "EM") (st : LmeState) (x : Matrix (Fin N) (Fin k) ℝ) (y : Vec ℝ N) (labels : List String) (ffi fri : Bool)
    (columns mustFe mustRe : Option (List String)) (a : LmeFitArgs) (w : Option (Fin k) → ℝ) (e : Option (Fin k)) (he : e ∈ effectCols k labels "fixed" ffi) (hw : w e ≠ 0)
    (hdep : ∀ r, ((effectCols k labels "fixed" ffi).map fun e => e.elim 1 (x r) * w e).sum = 0) : (lmeFit M st x y (some labels) ffi fri columns mustFe mustRe a).1 ≠ .ok () := by
  intro h
  obtain ⟨P, c', vec, L0, hP, -, hcore⟩ := lmeFit_ok (c := (lmeFit M st x y (some labels) ffi fri columns mustFe mustRe a).2) (Prod.ext h rfl)
  obtain ⟨g, v, hg, -, hgl, hD⟩ := lmeGroups_table hP
  obtain ⟨_, _, _, _, -, -, hlen, -, -, -, -, -, -, -, hPe⟩ := lmeFromXY_ok x (some y) columns labels ffi fri mustFe mustRe P hP
  obtain ⟨nF, -⟩ := effectCols_length P hlen (ffi := ffi) (fri := fri) (by rw [hPe]) (by rw [hPe])
  obtain ⟨F, hF⟩ := exists_ofFn nF
  rw [← hF] at he
  obtain ⟨i, hi⟩ := List.mem_ofFn.1 he
  refine C192_em_violated M hsr hinit st P a _ hD (fun i => w (F i)) (fun h0 => hw ?_) (fun G hG => ?_) ⟨_, hcore⟩
  · rw [← hi]
    exact congrFun h0 i
  · obtain ⟨l, hl, rfl⟩ := List.mem_map.1 hG
    funext r
    have h1 := hdep ((groupRows (fun r => x r g) l).get r)
    rw [← hF, List.map_ofFn, List.sum_ofFn] at h1
    refine Eq.trans (b := ∑ j, (tableGroup x y labels ffi fri g v P.numFixed P.numRandom l).x r j * w (F j)) rfl (Eq.trans (Finset.sum_congr rfl fun j _ => ?_) h1)
    show (designRow x ffi (labelIdx labels isFixed) _).getD j 0 * w (F j) = _
    rw [design_fixed, ← hF]
    simp only [List.getD_eq_getElem?_getD, List.map_ofFn, List.getElem?_ofFn, j.2, dif_pos, Option.getD_some, Function.comp_apply]
    rfl

/-! ## Examples -/

/-- Two groups; the third column, of a fixed effect, and the fourth one, of a random effect, are zero, and the fifth one, of a random effect, is zero in the group `0`. -/
def emptyTab : Matrix (Fin 2) (Fin 6) ℝ := !![1, 3, 0, 0, 2, 1; 0, 5, 0, 0, 0, 1]

/-- Labels of this table. -/
def emptyLabels : List String := ["group", "fixed", "fixed", "random", "random", "variance"]

theorem emptyTab_ok (y : Vec ℝ 2) : ∃ P, lmeFromXY emptyTab (some y) none emptyLabels true true none none = .ok P := by
  refine lmeFromXY_succeeds emptyTab (some y) none emptyLabels true true none none 0 5 (by decide) (by decide) rfl (by decide)
    (by simp) ?_ ?_ (.inl rfl) (by simp) _ _ rfl rfl
  · intro r; fin_cases r <;> simp [emptyTab]
  · intro r; fin_cases r
    · exact ⟨1, by simp [emptyTab]⟩
    · exact ⟨0, by simp [emptyTab]⟩

theorem emptyTab_positive (v : Fin 6) (hv : emptyLabels[(v : ℕ)]? = some "variance") (r : Fin 2) : 0 < emptyTab r v := by
  fin_cases v <;> simp [emptyLabels] at hv
  fin_cases r <;> simp [emptyTab]

/-- `SimpleLMEModel()`, and `L1LmeModel()` whose default strength is zero, report the effects without data as nonzero and predict the random effects without data as zero. -/
example (sort : NpSort) (cls : LmeClassName) (hcls : cls = .simple ∨ cls = .l1) (y : Vec ℝ 2) :
    ∃ (c : LmeCoef) (β γ : Option (Fin 6) → ℝ) (u : ℝ → Option (Fin 6) → ℝ), lmeFit (lmeDefaultModel sort cls false) none emptyTab y (some emptyLabels) true true none none none {} = (.ok (), some c) ∧
      c.beta = (effectCols 6 emptyLabels "fixed" true).map β ∧ c.gamma = (effectCols 6 emptyLabels "random" true).map γ ∧ β (some 2) ≠ 0 ∧ 0 < γ (some 3) ∧
      c.randomEffects = c.groupLabels.map (fun l => (effectCols 6 emptyLabels "random" true).map (u l)) ∧ 0 ∈ c.groupLabels ∧ u 0 (some 4) = 0 ∧ ∀ l ∈ c.groupLabels, u l (some 3) = 0 := by
  obtain ⟨P, hP⟩ := emptyTab_ok y
  obtain ⟨c, hc, -⟩ := C117_defaults_fit sort cls false none emptyTab y _ true true P hP emptyTab_positive none none (by simp) (by simp) false
  have hoff : (lmeDefaultModel sort cls false).reg.Off := by rcases hcls with rfl | rfl <;> trivial
  have hstep : 0 ≤ (lmeDefaultModel sort cls false).step := by rcases hcls with rfl | rfl <;> norm_num [LmeModelCfg.step, lmeDefaultModel, LmeClassName.defaultReg, LmeReg.lam?]
  obtain ⟨β, γ, h1, h2, h3⟩ := C192_plain_violated _ rfl rfl (by simp [lmeDefaultModel]) hoff hstep (by norm_num [lmeDefaultModel]) none emptyTab y emptyLabels true true none none none c hc
  obtain ⟨u, h4, h5⟩ := C192_effects _ none emptyTab y emptyLabels true true none none none _ c hc
  obtain ⟨c', hcc, -, -, -, hl⟩ := C82_fit_consistent _ none emptyTab y emptyLabels true true none none none _ _ hc
  cases hcc
  have h0 : (0 : ℝ) ∈ c.groupLabels := (hl (0 : Fin 6) rfl 0).2 ⟨1, by simp [emptyTab]⟩
  refine ⟨c, β, γ, u, hc, h1, h2, ?_, ?_, h4, h0, ?_, fun l hl' => ?_⟩
  · exact (h3 2 (fun r => by fin_cases r <;> simp [emptyTab])).1 (mem_effectCols_some.2 (.inl rfl))
  · exact (h3 3 (fun r => by fin_cases r <;> simp [emptyTab])).2 (mem_effectCols_some.2 (.inl rfl))
  · refine h5 0 rfl 0 h0 4 (mem_effectCols_some.2 (.inl rfl)) fun r hr => ?_
    fin_cases r <;> simp [emptyTab] at hr ⊢
  · exact h5 0 rfl l hl' 3 (mem_effectCols_some.2 (.inl rfl)) fun r _ => by fin_cases r <;> simp [emptyTab]

/-- With `initializer="EM"` the same tables cannot be fitted, nor those with two equal features. -/
example (sort : NpSort) (cls : LmeClassName) (y : Vec ℝ 2) :
    (lmeFit { lmeDefaultModel sort cls false with initializer := some "EM" } none emptyTab y (some emptyLabels) true true none none none {}).1 ≠ .ok () ∧
    (lmeFit { lmeDefaultModel sort cls false with initializer := some "EM" } none twinTab y (some twinLabels) true true none none none {}).1 ≠ .ok () := by
  constructor
  · refine C192_em_table _ rfl rfl none emptyTab y emptyLabels true true none none none {} (fun e => if e = some 2 then 1 else 0) (some 2) (mem_effectCols_some.2 (.inl rfl)) (by simp) fun r => ?_
    fin_cases r <;> simp [effectCols, emptyLabels, emptyTab, List.finRange_succ]
  · refine C192_em_table _ rfl rfl none twinTab y twinLabels true true none none none {} (fun e => if e = some 1 then 1 else if e = some 2 then -1 else 0) (some 1)
      (mem_effectCols_some.2 (.inl rfl)) (by simp) fun r => ?_
    fin_cases r <;> simp [effectCols, twinLabels, twinTab, List.finRange_succ]

/-- L1 models of strength one with fixed steps, started at ones, drop the effects without data once their steps are short and their tolerance is small. -/
example : ∃ (P : LmeProblem ℝ) (M : LmeModelCfg) (Lf : Logger (PyVal ℝ (P.numFixed + P.numRandom))) (c : LmeCoef) (b : Vec ℝ P.numFixed) (g : Vec ℝ P.numRandom)
    (D : List (LmeGroup P.numFixed P.numRandom)), lmeFromXY emptyTab (some ![26, 20]) none emptyLabels true true none none = .ok P ∧ M.reg = .l1 1 ∧ lmeGroups P = .ok D ∧
    lmeFitProblem M none P {} = (.ok Lf, some c) ∧ c.beta = List.ofFn b ∧ c.gamma = List.ofFn g ∧
    (∀ i : Fin P.numFixed, (∀ G ∈ D, ∀ r, G.x r i = 0) → b i = 0) ∧ (∀ j : Fin P.numRandom, (∀ G ∈ D, ∀ r, G.z r j = 0) → g j = 0) := by
  obtain ⟨P, hP⟩ := emptyTab_ok ![26, 20]
  obtain ⟨_, _, feW, reW, -, -, hlen, -, -, -, -, -, hf, hr', hPe⟩ := lmeFromXY_ok emptyTab (some ![26, 20]) none emptyLabels
    true true none none P hP
  have e1 : P.feWeights = [1, 1, 1] := by rw [hPe]; cases hf; rfl
  have e2 : P.reWeights = [1, 1, 1] := by rw [hPe]; cases hr'; rfl
  have hF : P.numFixed = 3 := (numFixed_eq P true true (by rw [hPe])).trans (by rw [show P.columnLabels = emptyLabels by rw [hPe]]; decide)
  have hR : P.numRandom = 3 := (numRandom_eq P true true (by rw [hPe])).trans (by rw [show P.columnLabels = emptyLabels by rw [hPe]]; decide)
  obtain ⟨gr, v, -, hv, -, hD⟩ := lmeGroups_table hP
  obtain ⟨D, hDe⟩ : ∃ D, D = (uniqueLabels fun r => emptyTab r gr).map (tableGroup emptyTab ![26, 20] emptyLabels true true gr v P.numFixed P.numRandom) := ⟨_, rfl⟩
  rw [← hDe] at hD
  have hDp : PosVar D := by
    have hvl : v = 5 := by
      have h3 : labelIdx (p := 6) emptyLabels (· = VARIANCE) = [5] := by decide
      rw [h3] at hv
      exact (List.singleton_injective hv).symm
    intro g hg i
    rw [hDe] at hg
    obtain ⟨l, -, rfl⟩ := List.mem_map.1 hg
    exact emptyTab_positive v (by rw [hvl]; rfl) _
  obtain ⟨E, hE⟩ : ∃ E, E = lmeObjective D 1e-4 ((LmeReg.l1 1).penalty fun _ => 1) (fun _ => 1) (fun _ => 1) - 1 / 2 * (D.map fun g => ∑ i, Real.log (g.l i)).sum := ⟨_, rfl⟩
  obtain ⟨L, hL⟩ : ∃ L, L = max 1 ((D.map fun g => ∑ i, (∑ k, g.x i k ^ 2) / g.l i).sum + 2 * E * (D.map fun g => ∑ j, (∑ i, g.z i j ^ 2 / g.l i) ^ 2).sum) := ⟨_, rfl⟩
  have hL0 : 0 < L := by rw [hL]; exact lt_of_lt_of_le one_pos (le_max_left _ _)
  have hs0 : 0 < 1 / L := one_div_pos.2 hL0
  have ht0 : 0 < 1 / (2 * L) := by positivity
  obtain ⟨m, hm⟩ := exists_nat_gt (1 + 2 * (1 / L) * E / ((1 / (2 * L)) ^ 2 * (1 - 1 / L * 0)))
  obtain ⟨M, hM⟩ : ∃ M, M = { kktModel 1 (1 / L) m with tol := 1 / (2 * L) } := ⟨_, rfl⟩
  have hstep : M.step = 1 / L := by rw [hM]; exact if_neg hs0.ne'
  have hrob : M.Robust := by
    rw [hM]
    have h := kktModel_robust zero_le_one hs0 (m : ℤ)
    exact
      { adm := ⟨h.adm.1, h.adm.2, h.adm.3, h.adm.4⟩
        init := h.init
        kind := h.kind
        keys := h.keys
        vaida := h.vaida
        flip := h.flip
        sr3 := h.sr3
        scad := h.scad }
  have hone : ∀ n : ℕ, List.ofFn (fun _ : Fin n => (1 : ℝ)) = List.replicate n 1 := fun n => List.ofFn_const n 1
  have hwb : List.ofFn (fun _ : Fin P.numFixed => (1 : ℝ)) = P.feWeights := by rw [e1, hF, hone]; rfl
  have hwg : List.ofFn (fun _ : Fin P.numRandom => (1 : ℝ)) = P.reWeights := by rw [e2, hR, hone]; rfl
  have hw : List.ofFn (fun _ : Fin (P.numFixed + P.numRandom) => (1 : ℝ)) = P.feWeights ++ P.reWeights := by
    rw [e1, e2, hF, hR, hone]
    rfl
  have hLe : (D.map fun g => ∑ i, (∑ k, g.x i k ^ 2) / g.l i).sum + 2 * E * (D.map fun g => ∑ j, (∑ i, g.z i j ^ 2 / g.l i) ^ 2).sum ≤ L := by
    rw [hL]
    exact le_max_right _ _
  have hrule : if M.stepping = "line-search" then L ≤ 10 ^ 14 else M.step ≤ 1 / L := by
    rw [if_neg (by rw [hM]; simp [kktModel])]
    exact hstep.le
  obtain ⟨Lf, c, b, g, hfit, hconv, hb, hg, -⟩ := C124_stops M hrob (by rw [hM]; rfl) (by rw [hM]; rfl) (by rw [hM]; exact ht0) none emptyTab ![26, 20] none emptyLabels true true none none P hP
    emptyTab_positive {} (by rintro w rfl; simp only [Option.getD_none, e1]; exact ⟨rfl, by simp⟩) (by rintro w rfl; simp only [Option.getD_none, e2]; exact ⟨rfl, by simp⟩)
    D hD (fun _ => 1) (fun _ => 1) (hone _) (hone _) (fun _ => zero_le_one) (fun _ => 1) hw 0 (by rw [hM]; exact le_rfl) (by rw [mul_zero]; exact one_pos) L hL0 hrule (by
      rw [show M.elasticEps = 1e-4 by rw [hM]; rfl, show M.reg = .l1 1 by rw [hM]; rfl, ← hE]
      exact hLe) (by
      rw [hstep, show M.elasticEps = 1e-4 by rw [hM]; rfl, show M.reg = .l1 1 by rw [hM]; rfl, ← hE, show M.tol = 1 / (2 * L) by rw [hM],
        show (M.maxIter : ℝ) = ((m : ℤ) : ℝ) by rw [hM]; rfl, Int.cast_natCast]
      exact hm)
  have hEs : E = marginalNLL D (fun _ => 1) (fun _ => 1) + M.elasticEps / 2 * (∑ i : Fin P.numFixed, (1 : ℝ) ^ 2 + ∑ j : Fin P.numRandom, (1 : ℝ) ^ 2)
      + 1 * (∑ i : Fin P.numFixed, 1 * |(1 : ℝ)| + ∑ j : Fin P.numRandom, 1 * |(1 : ℝ)|) - 1 / 2 * (D.map fun g => ∑ i, Real.log (g.l i)).sum := by
    rw [hE, show M.elasticEps = 1e-4 by rw [hM]; rfl]
    unfold lmeObjective
    have e0 : ∀ i, joinX (fun _ => 1 : Vec ℝ P.numFixed) (fun _ => 1 : Vec ℝ P.numRandom) i = 1 := by
      intro i
      refine Fin.addCases (fun i => ?_) (fun j => ?_) i
      · simp only [joinX, Fin.append_left]
      · simp only [joinX, Fin.append_right]
    simp [LmeReg.penalty, e0]
  have ht : 1 / L = if M.stepping = "line-search" then min M.step (1 / (2 * L)) else M.step := by
    rw [if_neg (by rw [hM]; simp [kktModel])]
    exact hstep.symm
  obtain ⟨coef, bd, gd, hc, hbd, hgd, hz1, hz2⟩ := C192_l1_partial M hrob.adm 1 (by rw [hM]; rfl) (by rw [hM]; rfl) (by rw [hM]; rfl) (by rw [hM]; simp [kktModel, exModel]) none P {} D hD hDp
    (fun _ => 1) (fun _ => 1) (hone _) (hone _) (fun _ => zero_le_one) (fun _ => 1) (fun _ => 1) hwb hwg (fun _ => zero_le_one) (fun _ => zero_le_one) E hEs L hL0 hrule hLe (1 / L) ht Lf (some c) hfit hconv
  cases hc
  have hlt : M.tol / (1 / L) < 1 * 1 := by
    rw [show M.tol = 1 / (2 * L) by rw [hM]]
    field_simp
    norm_num
  exact ⟨P, M, Lf, c, bd, gd, D, hP, by rw [hM]; rfl, hD, hfit, hbd, hgd, fun i hi => hz1 i hi hlt, fun j hj => hz2 j hj hlt⟩

end

end Verif
