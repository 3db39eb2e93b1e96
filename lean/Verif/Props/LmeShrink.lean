import Verif.Props.LmeHat
import Verif.Props.LmeConstraints
import Verif.Props.LmeIdentified
import Verif.Props.LmeWarm

/-!
# C204: predicted random effects improve the fit of the training data and are shrunk
-/

open Matrix

namespace Verif

variable {p q N k : ℕ}

theorem xi_residual (g : LmeGroup p q) (beta : Vec ℝ p) : g.xi beta = residual g beta := rfl

open Classical in
/-- The normal equations of `optimal_random_effects`, tested with its own result: the part of the residual explained by the
random effects, times the remaining part, is what the random effects cost. -/
theorem effects_balance {g : LmeGroup p q} {beta : Vec ℝ p} {gamma u : Vec ℝ q} (h : lmeRandomEffect g beta gamma = .ok u) :
    ∑ i, (g.z *ᵥ u) i * (residual g beta i - (g.z *ᵥ u) i) / g.l i = ∑ j, u j ^ 2 / gamma j := by
  obtain ⟨hu, hs⟩ := lmeRandomEffect_ok.1 h
  set w := (reKernel g gamma)⁻¹ *ᵥ (((g.zMasked gamma)ᵀ * diagonal (fun i => 1 / g.l i)) *ᵥ g.xi beta) with hw
  have hn : reKernel g gamma *ᵥ w = ((g.zMasked gamma)ᵀ * diagonal (fun i => 1 / g.l i)) *ᵥ g.xi beta := by
    rw [hw, Matrix.mulVec_mulVec, Matrix.mul_nonsing_inv _ hu, Matrix.one_mulVec]
  have hsum : ∀ f : Fin q → ℝ, ∑ j, f j * u j = ∑ m : LmeMask gamma, f m.1 * w m := by
    intro f
    have h1 : ∑ j, f j * u j = ∑ j ∈ Finset.univ.filter fun j => 1e-10 < |gamma j|, f j * u j := by
      refine (Finset.sum_subset (Finset.filter_subset _ _) fun j _ hj => ?_).symm
      have : ¬ 1e-10 < |gamma j| := fun h => hj (Finset.mem_filter.2 ⟨Finset.mem_univ _, h⟩)
      rw [hs, scatterMask, dif_neg this, mul_zero]
    rw [h1, Finset.sum_subtype (p := fun j => 1e-10 < |gamma j|) _ (by simp) fun j => f j * u j]
    refine Finset.sum_congr rfl fun m _ => ?_
    have : u m.1 = w m := by rw [hs, scatterMask, dif_pos m.2]
    rw [this]
  have hzu : g.zMasked gamma *ᵥ w = g.z *ᵥ u := by
    funext i
    exact (hsum fun j => g.z i j).symm
  have hk : ∀ m : LmeMask gamma, 1 / gamma m.1 * w m + ∑ i, g.z i m.1 * (1 / g.l i * (g.z *ᵥ u) i) = ∑ i, g.z i m.1 * (1 / g.l i * residual g beta i) := by
    intro m
    have h2 := congrFun hn m
    rw [reKernel, Matrix.add_mulVec, Pi.add_apply, Matrix.mulVec_diagonal, Matrix.mul_assoc, ← Matrix.mulVec_mulVec, ← Matrix.mulVec_mulVec, hzu, ← Matrix.mulVec_mulVec] at h2
    simp only [Matrix.mulVec, dotProduct, Matrix.transpose_apply, diagonal_apply, ite_mul, zero_mul, Finset.sum_ite_eq, Finset.mem_univ, if_true] at h2
    exact h2
  have e1 : ∑ j, u j ^ 2 / gamma j = ∑ m : LmeMask gamma, (1 / gamma m.1 * w m) * w m := by
    have := hsum fun j => u j / gamma j
    have e : ∀ j, u j ^ 2 / gamma j = u j / gamma j * u j := fun j => by ring
    simp only [e]
    rw [this]
    refine Finset.sum_congr rfl fun m _ => ?_
    have : u m.1 = w m := by rw [hs, scatterMask, dif_pos m.2]
    rw [this]
    ring
  have e2 : ∑ i, (g.z *ᵥ u) i * (residual g beta i - (g.z *ᵥ u) i) / g.l i
      = ∑ j, (∑ i, g.z i j * (1 / g.l i * (residual g beta i - (g.z *ᵥ u) i))) * u j := by
    simp only [Finset.sum_mul]
    rw [Finset.sum_comm]
    refine Finset.sum_congr rfl fun i _ => ?_
    have : ∑ j, g.z i j * (1 / g.l i * (residual g beta i - (g.z *ᵥ u) i)) * u j = (1 / g.l i * (residual g beta i - (g.z *ᵥ u) i)) * ∑ j, g.z i j * u j := by
      rw [Finset.mul_sum]
      exact Finset.sum_congr rfl fun j _ => by ring
    rw [this]
    change (g.z *ᵥ u) i * _ / _ = _ * (g.z *ᵥ u) i
    ring
  rw [e1, e2, hsum fun j => ∑ i, g.z i j * (1 / g.l i * (residual g beta i - (g.z *ᵥ u) i))]
  refine Finset.sum_congr rfl fun m _ => ?_
  congr 1
  have := hk m
  rw [← sub_eq_iff_eq_add.2 this.symm] 
  rw [← Finset.sum_sub_distrib]
  exact Finset.sum_congr rfl fun i _ => by ring

/-- Splitting of the residual. -/
theorem effects_split {g : LmeGroup p q} {beta : Vec ℝ p} {gamma u : Vec ℝ q} (h : lmeRandomEffect g beta gamma = .ok u) :
    ∑ i, residual g beta i ^ 2 / g.l i = ∑ i, (residual g beta i - (g.z *ᵥ u) i) ^ 2 / g.l i + ∑ i, (g.z *ᵥ u) i ^ 2 / g.l i + 2 * ∑ j, u j ^ 2 / gamma j := by
  rw [← effects_balance h, Finset.mul_sum, ← Finset.sum_add_distrib, ← Finset.sum_add_distrib]
  exact Finset.sum_congr rfl fun i _ => by ring

/-- Bounds for nonnegative variances. -/
theorem effects_bounds {g : LmeGroup p q} {beta : Vec ℝ p} {gamma u : Vec ℝ q} (h : lmeRandomEffect g beta gamma = .ok u) (hl : ∀ i, 0 < g.l i) (hg : ∀ j, 0 ≤ gamma j) :
    ∑ i, (residual g beta i - (g.z *ᵥ u) i) ^ 2 / g.l i + ∑ i, (g.z *ᵥ u) i ^ 2 / g.l i ≤ ∑ i, residual g beta i ^ 2 / g.l i ∧
    4 * ∑ j, u j ^ 2 / gamma j ≤ ∑ i, residual g beta i ^ 2 / g.l i ∧
    ∀ j, 4 * u j ^ 2 ≤ gamma j * ∑ i, residual g beta i ^ 2 / g.l i := by
  have hs := effects_split h
  have hb := effects_balance h
  have h0 : 0 ≤ ∑ j, u j ^ 2 / gamma j := Finset.sum_nonneg fun j _ => div_nonneg (sq_nonneg _) (hg j)
  have h4 : 4 * ∑ j, u j ^ 2 / gamma j ≤ ∑ i, residual g beta i ^ 2 / g.l i := by
    rw [← hb, Finset.mul_sum]
    refine Finset.sum_le_sum fun i _ => ?_
    rw [← mul_div_assoc]
    refine div_le_div_of_nonneg_right ?_ (hl i).le
    nlinarith [sq_nonneg (residual g beta i - 2 * (g.z *ᵥ u) i)]
  refine ⟨by linarith, h4, fun j => ?_⟩
  by_cases hj : gamma j = 0
  · have : u j = 0 := by
      obtain ⟨-, hs⟩ := lmeRandomEffect_ok.1 h
      rw [hs, scatterMask, dif_neg]
      rw [hj, abs_zero]
      norm_num
    rw [this, hj]
    simp
  · have hpos := lt_of_le_of_ne (hg j) (Ne.symm hj)
    have h1 : u j ^ 2 / gamma j ≤ ∑ j, u j ^ 2 / gamma j := Finset.single_le_sum (f := fun j => u j ^ 2 / gamma j) (fun j _ => div_nonneg (sq_nonneg _) (hg j)) (Finset.mem_univ j)
    have h2 : 4 * (u j ^ 2 / gamma j) ≤ ∑ i, residual g beta i ^ 2 / g.l i := by linarith
    have := mul_le_mul_of_nonneg_left h2 hpos.le
    have e : gamma j * (4 * (u j ^ 2 / gamma j)) = 4 * u j ^ 2 := by field_simp
    rwa [e] at this

theorem effects_forall {D : List (LmeGroup p q)} {beta : Vec ℝ p} {gamma : Vec ℝ q} {us : List (Vec ℝ q)} (h : lmeRandomEffects D beta gamma = .ok us) :
    List.Forall₂ (fun g u => lmeRandomEffect g beta gamma = .ok u) D us := by
  classical
  obtain ⟨-, hu, rfl⟩ := lmeRandomEffects_ok.1 h
  rw [List.forall₂_map_right_iff, List.forall₂_same]
  exact fun g hg => lmeRandomEffect_ok.2 ⟨hu g hg, rfl⟩

/-- **C204**, oracle: whatever the groups, the fixed effects and the variances for which `optimal_random_effects` returns, in every
group the weighted squares of the residuals of the fixed effects split into those of the remaining residuals, those of
the explained part and twice the cost of the random effects; with positive observation variances and nonnegative
variances therefore the remaining and the explained part together are at most the residuals of the fixed effects, and
every random effect is bounded by half the root of its variance times these. -/
theorem C204_effects (D : List (LmeGroup p q)) (beta : Vec ℝ p) (gamma : Vec ℝ q) (us : List (Vec ℝ q)) (h : lmeRandomEffects D beta gamma = .ok us) :
    List.Forall₂ (fun g u =>
      ∑ i, (g.y i - ∑ k, g.x i k * beta k) ^ 2 / g.l i = ∑ i, (g.y i - ∑ k, g.x i k * beta k - ∑ j, g.z i j * u j) ^ 2 / g.l i + ∑ i, (∑ j, g.z i j * u j) ^ 2 / g.l i + 2 * ∑ j, u j ^ 2 / gamma j ∧
      ((∀ i, 0 < g.l i) → (∀ j, 0 ≤ gamma j) →
        ∑ i, (g.y i - ∑ k, g.x i k * beta k - ∑ j, g.z i j * u j) ^ 2 / g.l i + ∑ i, (∑ j, g.z i j * u j) ^ 2 / g.l i ≤ ∑ i, (g.y i - ∑ k, g.x i k * beta k) ^ 2 / g.l i ∧
        4 * ∑ j, u j ^ 2 / gamma j ≤ ∑ i, (g.y i - ∑ k, g.x i k * beta k) ^ 2 / g.l i ∧
        ∀ j, 4 * u j ^ 2 ≤ gamma j * ∑ i, (g.y i - ∑ k, g.x i k * beta k) ^ 2 / g.l i)) D us :=
  (effects_forall h).imp fun _ _ h => ⟨effects_split h, fun hl hg => effects_bounds h hl hg⟩

/-- A sum over the rows of a group. -/
theorem sum_groupRows (v : Vec ℝ N) (l : ℝ) (f : Fin N → ℝ) : ∑ i : Fin (groupRows v l).length, f ((groupRows v l).get i) = ∑ r with v r = l, f r := by
  have h1 : (Finset.univ.filter fun r => v r = l) = (groupRows v l).toFinset := by
    ext r
    simp [groupRows]
  have h2 : (groupRows v l).Nodup := (List.nodup_finRange N).filter _
  rw [h1, List.sum_toFinset _ h2, ← List.sum_ofFn]
  congr 1
  refine List.ext_getElem (by simp) fun i h1 h2 => by simp

/-- **C204**, fit: after a successful `fit`, of whatever model and from whatever state, on a table with positive observation variances,
when the fitted variances are nonnegative, in every group the weighted squared residuals of the predictions for the training
rows, together with the weighted squares of the random parts, are at most the weighted squared residuals of the fixed parts
alone, so the same holds for the whole table; and four times the square of a random effect is at most its variance times the
residuals of the fixed parts in its group. -/
theorem C204_fit (M : LmeModelCfg) (st : LmeState) (x : Matrix (Fin N) (Fin k) ℝ) (y : Vec ℝ N) (labels : List String) (ffi fri : Bool)
    (columns mustFe mustRe : Option (List String)) (a : LmeFitArgs) (c : LmeCoef) (h : lmeFit M st x y (some labels) ffi fri columns mustFe mustRe a = (.ok (), some c))
    (g v : Fin k) (hg : labels[(g : ℕ)]? = some "group") (hv : labels[(v : ℕ)]? = some "variance") (hpos : ∀ r, 0 < x r v) (hgam : ∀ t ∈ c.gamma, 0 ≤ t) :
    (∀ l : ℝ, ∑ r with x r g = l, (y r - rowPrediction c labels ffi fri x g r) ^ 2 / x r v
        + ∑ r with x r g = l, sumProd (randomEntries labels fri x r) (c.effectsOf l) ^ 2 / x r v
      ≤ ∑ r with x r g = l, (y r - sumProd (fixedEntries labels ffi x r) c.beta) ^ 2 / x r v) ∧
    ∑ r, (y r - rowPrediction c labels ffi fri x g r) ^ 2 / x r v ≤ ∑ r, (y r - sumProd (fixedEntries labels ffi x r) c.beta) ^ 2 / x r v ∧
    ∀ l ∈ c.groupLabels, ∀ j < randomCount labels fri,
      4 * (c.effectsOf l).getD j 0 ^ 2 ≤ c.gamma.getD j 0 * ∑ r with x r g = l, (y r - sumProd (fixedEntries labels ffi x r) c.beta) ^ 2 / x r v := by
  obtain ⟨c', hc', hcon, -, -, hlab⟩ := C82_fit_consistent M st x y labels ffi fri columns mustFe mustRe a _ h
  cases hc'
  obtain ⟨P, c', vec, L0, hP, hc', hcore⟩ := lmeFit_ok h
  cases hc'
  obtain ⟨g', v', hg1, hv1, hgl, hD'⟩ := lmeGroups_table hP
  obtain ⟨m, Pr, w, base, D, beta, gamma, us, per, -, -, -, -, hD, -, -, -, hus, hper, hceq⟩ := lmeFitCore_ok hcore
  rw [hD] at hD'
  obtain rfl := Except.ok.inj hD'
  obtain ⟨_, _, _, _, -, -, hlen, -, -, -, -, -, -, -, hPe⟩ := lmeFromXY_ok x (some y) columns labels ffi fri mustFe mustRe P hP
  have hF := numFixed_eq P ffi fri (by rw [hPe])
  have hR := numRandom_eq P ffi fri (by rw [hPe])
  have hcl : P.columnLabels = labels := by rw [hPe]
  rw [hcl, ← fixedCount_eq] at hF
  rw [hcl, ← randomCount_eq] at hR
  have hgg := group_column labels hlen g g' hg1 hg
  subst g'
  obtain rfl : v = v' := by
    have h1 : v ∈ labelIdx (p := k) labels (fun l => decide (l = VARIANCE)) := by
      rw [mem_labelIdx, List.getD_eq_getElem?_getD, hv]
      rfl
    rw [hv1] at h1
    exact List.mem_singleton.1 h1
  have hrowF : ∀ r, (fixedEntries labels ffi x r).length = P.numFixed := fun r => by
    rw [← fixedEntries_eq x labels hlen, designRow_fixed_length x labels hlen, hF]
  have hrowR : ∀ r, (randomEntries labels fri x r).length = P.numRandom := fun r => by
    rw [← randomEntries_eq x labels hlen, designRow_random_length x labels hlen, hR]
  have hgam' : ∀ j, 0 ≤ xGamma vec j := fun j => hgam _ (by rw [hceq]; exact List.mem_ofFn.2 ⟨j, rfl⟩)
  have hlabels : c.groupLabels = uniqueLabels fun r => x r g := by rw [hceq]; exact hgl
  have hcb : c.beta = List.ofFn (xBeta vec) := by rw [hceq]
  have hcg : c.gamma = List.ofFn (xGamma vec) := by rw [hceq]
  -- one group
  have key : ∀ l ∈ c.groupLabels, ∃ u : Vec ℝ P.numRandom, c.effectsOf l = List.ofFn u ∧
      lmeRandomEffect (tableGroup x y labels ffi fri g v P.numFixed P.numRandom l) (xBeta vec) (xGamma vec) = .ok u := by
    intro l hl
    obtain ⟨i, hi, rfl⟩ := List.getElem_of_mem hl
    have hf := effects_forall hus
    have hlenU := hf.length_eq
    rw [List.length_map, ← hlabels] at hlenU
    have hiu : i < us.length := by rw [← hlenU]; exact hi
    refine ⟨us[i], ?_, ?_⟩
    · rw [effectsOf_eq hcon hi]
      simp only [hceq, List.getElem_map]
    · have := hf.get (i := i) (by rw [List.length_map, ← hlabels]; exact hi) hiu
      simp only [List.get_eq_getElem, List.getElem_map] at this
      simp only [hlabels]
      exact this
  have hres : ∀ l i, residual (tableGroup x y labels ffi fri g v P.numFixed P.numRandom l) (xBeta vec) i
      = y ((groupRows (fun r => x r g) l).get i) - sumProd (fixedEntries labels ffi x ((groupRows (fun r => x r g) l).get i)) c.beta := by
    intro l i
    rw [hcb, ← sum_getD _ (hrowF _), ← fixedEntries_eq x labels hlen]
    rfl
  have hzu : ∀ l i (u : Vec ℝ P.numRandom), ((tableGroup x y labels ffi fri g v P.numFixed P.numRandom l).z *ᵥ u) i
      = sumProd (randomEntries labels fri x ((groupRows (fun r => x r g) l).get i)) (List.ofFn u) := by
    intro l i u
    rw [← sum_getD _ (hrowR _), ← randomEntries_eq x labels hlen]
    rfl
  have hpred : ∀ l, ∀ r, x r g = l → y r - rowPrediction c labels ffi fri x g r = y r - sumProd (fixedEntries labels ffi x r) c.beta - sumProd (randomEntries labels fri x r) (c.effectsOf l) := by
    intro l r hr
    unfold rowPrediction
    rw [hr]
    ring
  have hsumR : ∀ l, ∑ i, residual (tableGroup x y labels ffi fri g v P.numFixed P.numRandom l) (xBeta vec) i ^ 2 / (tableGroup x y labels ffi fri g v P.numFixed P.numRandom l).l i
      = ∑ r with x r g = l, (y r - sumProd (fixedEntries labels ffi x r) c.beta) ^ 2 / x r v := by
    intro l
    rw [← sum_groupRows (fun r => x r g) l]
    exact Finset.sum_congr rfl fun i _ => by rw [hres]; rfl
  have grp : ∀ l : ℝ, ∑ r with x r g = l, (y r - rowPrediction c labels ffi fri x g r) ^ 2 / x r v
        + ∑ r with x r g = l, sumProd (randomEntries labels fri x r) (c.effectsOf l) ^ 2 / x r v
      ≤ ∑ r with x r g = l, (y r - sumProd (fixedEntries labels ffi x r) c.beta) ^ 2 / x r v := by
    intro l
    by_cases hl : l ∈ c.groupLabels
    · obtain ⟨u, hu, hue⟩ := key l hl
      obtain ⟨hb, -, -⟩ := effects_bounds hue (fun i => hpos _) hgam'
      rw [hsumR l] at hb
      refine le_trans (le_of_eq ?_) hb
      congr 1
      · have e : ∑ r with x r g = l, (y r - rowPrediction c labels ffi fri x g r) ^ 2 / x r v
            = ∑ r with x r g = l, (y r - sumProd (fixedEntries labels ffi x r) c.beta - sumProd (randomEntries labels fri x r) (c.effectsOf l)) ^ 2 / x r v :=
          Finset.sum_congr rfl fun r hr => by rw [hpred l r (Finset.mem_filter.1 hr).2]
        rw [e, ← sum_groupRows (fun r => x r g) l]
        exact Finset.sum_congr rfl fun i _ => 
          (congrArg₂ (fun a b => (a - b) ^ 2 / x ((groupRows (fun r => x r g) l).get i) v) (hres l i) ((hzu l i u).trans (by rw [hu]))).symm
      · rw [← sum_groupRows (fun r => x r g) l]
        exact Finset.sum_congr rfl fun i _ => 
          (congrArg (fun b => b ^ 2 / x ((groupRows (fun r => x r g) l).get i) v) ((hzu l i u).trans (by rw [hu]))).symm
    · have : (Finset.univ.filter fun r => x r g = l) = ∅ := by
        refine Finset.filter_eq_empty_iff.2 fun r _ hr => hl ?_
        exact (hlab g hg l).2 ⟨r, hr⟩
      rw [this]
      simp
  refine ⟨grp, ?_, fun l hl j hj => ?_⟩
  · have hfib : ∀ f : Fin N → ℝ, ∑ r, f r = ∑ l ∈ Finset.univ.image (fun r => x r g), ∑ r with x r g = l, f r := fun f =>
      (Finset.sum_fiberwise_of_maps_to (fun r _ => Finset.mem_image_of_mem _ (Finset.mem_univ r)) f).symm
    rw [hfib, hfib]
    refine Finset.sum_le_sum fun l _ => le_trans (le_add_of_nonneg_right ?_) (grp l)
    exact Finset.sum_nonneg fun r _ => div_nonneg (sq_nonneg _) (hpos r).le
  · obtain ⟨u, hu, hue⟩ := key l hl
    obtain ⟨-, -, hb⟩ := effects_bounds hue (fun i => hpos _) hgam'
    rw [← hR] at hj
    have := hb ⟨j, hj⟩
    rw [hsumR l] at this
    rw [hu, hcg]
    simpa [List.getD_eq_getElem?_getD, hj] using this

/-- Non-vacuity of C204: plain, SR3 and practical SR3 models with an L1 penalty fitted to the example table. -/
example (sr3 : Option LmeSr3Cfg) (h : sr3 = none ∨ sr3 = some (exSr3 false) ∨ sr3 = some (exSr3 true)) (ffi fri : Bool) :
    ∃ c, lmeFit (exModel sr3 100 (.l1 2)) none exTab ![26, 20] (some exTabLabels) ffi fri none none none {} = (.ok (), some c) ∧
      ∑ r, ((![26, 20] : Vec ℝ 2) r - rowPrediction c exTabLabels ffi fri exTab 0 r) ^ 2 / exTab r 3
        ≤ ∑ r, ((![26, 20] : Vec ℝ 2) r - sumProd (fixedEntries exTabLabels ffi exTab r) c.beta) ^ 2 / exTab r 3 := by
  obtain ⟨P, hP⟩ := exTab_ok' ffi fri ![26, 20]
  have hr : ∀ s, sr3 = some s → 0 < s.ell ∧ s.takeOnlyPositivePart = true := by
    rintro s rfl
    rcases h with h | h | h
    · cases h
    · cases h; exact ⟨by norm_num [exSr3], rfl⟩
    · cases h; exact ⟨by norm_num [exSr3], rfl⟩
  obtain ⟨c, hc, hn⟩ := C83_fit_returns _ (exModel_robust sr3 hr _ (.l1 2) exL1 (by simp)) rfl none exTab _ exTabLabels ffi fri P hP
    exTab_positive none none (by simp) (by simp) false
  exact ⟨c, hc, (C204_fit _ none exTab _ exTabLabels ffi fri none none none {} c hc 0 3 rfl rfl (exTab_positive 3 rfl) hn).2.1⟩

/-- Non-vacuity of C204: one group with one observation `2` of variance `1`, no fixed effect and one random effect of variance `1`: the
random effect is `1`. -/
example : ∃ us, lmeRandomEffects [(⟨1, !![0], ![2], !![1], ![1]⟩ : LmeGroup 1 1)] 0 ![1] = .ok us ∧
    List.Forall₂ (fun g u => 4 * u 0 ^ 2 ≤ ∑ i, g.y i ^ 2 / g.l i) [(⟨1, !![0], ![2], !![1], ![1]⟩ : LmeGroup 1 1)] us := by
  have hD : PosVar [(⟨1, !![0], ![2], !![1], ![1]⟩ : LmeGroup 1 1)] := by
    intro g hg
    rw [List.mem_singleton.1 hg]
    intro i
    change 0 < (![1] : Vec ℝ 1) i
    fin_cases i
    simp
  obtain ⟨us, h, -⟩ := C59_random_effects _ hD 0 ![1] (fun j => by fin_cases j; right; norm_num)
  refine ⟨us, h, ?_⟩
  have h1 := C204_effects _ _ _ _ h
  have h2 : ∀ g ∈ [(⟨1, !![0], ![2], !![1], ![1]⟩ : LmeGroup 1 1)], ∀ i, 0 < g.l i := hD
  rcases us with - | ⟨u, - | ⟨u', us⟩⟩
  · cases h1
  · refine List.Forall₂.cons ?_ .nil
    have := ((List.forall₂_cons.1 h1).1.2 (h2 _ List.mem_cons_self) (fun j => by fin_cases j; simp)).2.2 0
    simpa using this
  · cases (List.forall₂_cons.1 h1).2

end Verif
