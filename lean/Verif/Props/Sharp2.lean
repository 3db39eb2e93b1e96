import Verif.Props.Sharp
import Verif.Props.LmeLoss
import Verif.Props.LmeIntercept
import Verif.Props.LmeGenerate

/-!
# Exactly when the violated properties C51, C58 and C92 hold
-/

namespace Verif

open Matrix

variable {p q : ℕ}

/-! ## C58 -/

/-- **C58**, exactly: the value of `optimal_beta` minimises the loss of an oracle with a prior over all fixed effects if
and only if the gradient of the prior vanishes there. -/
theorem C58_prior_iff (D : List (LmeGroup p q)) (P : LmeInstPrior ℝ p q) (hP : P.Reachable)
    (gamma : Vec ℝ q) (b : Vec ℝ p) (hb : lmeOptimalBeta D gamma = .ok b) :
    (∀ b', ∃ v v', lmeLoss D P b gamma = .ok v ∧ lmeLoss D P b' gamma = .ok v' ∧ v ≤ v') ↔
      P.gradientBeta b gamma = 0 := by
  constructor
  · intro h
    by_contra hne
    obtain ⟨b', v, v', h1, h2, hlt⟩ := C58_prior_violated D P hP gamma b hb hne
    obtain ⟨w, w', h3, h4, hle⟩ := h b'
    rw [h1] at h3
    rw [h2] at h4
    cases h3
    cases h4
    exact absurd hle (not_le.2 hlt)
  · intro h0 b'
    unfold lmeOptimalBeta at hb
    rw [ebind_ok] at hb
    obtain ⟨a, h1, h2⟩ := hb
    obtain ⟨hd, rfl⟩ := lmeKernelTail_ok.1 h1
    obtain ⟨-, hs⟩ := npSolve_ok.1 h2
    simp only at hs
    have hexp := (marginalNLL_expansion D gamma).add (P.expansion_beta hP gamma).1
    have hz : (D.map fun g => -(g.xᵀ *ᵥ ((margCov g gamma)⁻¹ *ᵥ residual g b))).sum + P.gradientBeta b gamma = 0 := by
      rw [gradBeta_kernel_tail, hs, sub_self, zero_add, h0]
    exact ⟨_, _, lmeLoss_ok.2 ⟨hd, rfl⟩, lmeLoss_ok.2 ⟨hd, rfl⟩,
      hexp.le_of_stationary ((kernel_nonneg hd).add (P.expansion_beta hP gamma).2) hz b'⟩

/-- The same for a Gaussian prior built from a dictionary, in its own terms: the value is optimal exactly when it already
equals the prior mean in every column that has a proper prior. -/
theorem C58_gaussian_iff (D : List (LmeGroup p q)) (fe : GaussState ℝ p) (re : GaussState ℝ q)
    (hP : (LmeInstPrior.gaussian fe re).Reachable) (gamma : Vec ℝ q) (b : Vec ℝ p) (hb : lmeOptimalBeta D gamma = .ok b) :
    (∀ b', ∃ v v', lmeLoss D (.gaussian fe re) b gamma = .ok v ∧ lmeLoss D (.gaussian fe re) b' gamma = .ok v' ∧ v ≤ v') ↔
      ∀ i, fe.weights i ≠ 0 → b i = fe.means i := by
  rw [C58_prior_iff D _ hP gamma b hb]
  have hst : ∀ i, 0 < fe.stds i := by
    obtain ⟨⟨params, cols, rfl, hi⟩, -⟩ := hP
    exact fun i => (gaussInstantiate_stds hi i).1
  constructor
  · intro h i hw
    have hi := congrFun h i
    simp only [LmeInstPrior.gradientBeta, GaussState.gradient, Pi.zero_apply] at hi
    rcases mul_eq_zero.1 hi with h1 | h1
    · rcases mul_eq_zero.1 h1 with h2 | h2
      · exact absurd h2 hw
      · exact absurd h2 (one_div_pos.2 (hst i)).ne'
    · linarith
  · intro h
    funext i
    simp only [LmeInstPrior.gradientBeta, GaussState.gradient, Pi.zero_apply]
    by_cases hw : fe.weights i = 0
    · rw [hw]; ring
    · rw [h i hw]; ring

/-- Non-vacuity: for a single observation `1`, the prior with mean `mu` leaves the value `1` of `optimal_beta` optimal
exactly when `mu = 1`. -/
example (mu : ℝ) : lmeOptimalBeta [exOne] ![0] = .ok ![1] ∧
    ((∀ b', ∃ v v', lmeLoss [exOne] (.gaussian ⟨![mu], ![1], ![1]⟩ ⟨![0], ![1], ![0]⟩) ![1] ![0] = .ok v ∧
      lmeLoss [exOne] (.gaussian ⟨![mu], ![1], ![1]⟩ ⟨![0], ![1], ![0]⟩) b' ![0] = .ok v' ∧ v ≤ v') ↔ mu = 1) := by
  refine ⟨exOne_optimalBeta, ?_⟩
  rw [C58_gaussian_iff _ _ _ ?_ _ _ exOne_optimalBeta]
  · simp [eq_comm]
  · refine ⟨⟨[("a", (mu, 1))], ["a"], rfl, ?_⟩, exPrior_reachable.2⟩
    simp [gaussInstantiate, collect, priorEntry, PriorParams.getD]
    change Except.ok _ = _
    congr 2 <;> funext i <;> fin_cases i <;> rfl

/-! ## C92 -/

/-- **C92**, exactly: the update of the relaxed fixed effects in the practical mode minimises the relaxed objective if and
only if `ell = 1` or every coefficient lies below both thresholds, where both the update and the minimiser are zero. -/
theorem C92_prox_iff (s : LmeSr3Cfg) (hell : 0 < s.ell) (lam : ℝ) (hlam : 0 < lam) (iteration : ℕ)
    (hup : 0 < s.updateProxEvery) (hit : (iteration : ℤ) % s.updateProxEvery = 0) (beta : Vec ℝ p) (gamma : Vec ℝ q)
    (old : Vec ℝ p × Vec ℝ q) :
    (∃ tb tg, ipProx (s.ipPractical (wrapReg p q 0 (l1Regularizer lam (some fun _ => 1)))) iteration beta gamma old = .ok (tb, tg) ∧
      ∀ t, relaxedObjective s.ell lam beta tb ≤ relaxedObjective s.ell lam beta t) ↔
      s.ell = 1 ∨ ∀ i, |beta i| ≤ min lam (lam / s.ell) := by
  obtain ⟨tg, h⟩ := practical_tbeta s lam iteration hup hit beta gamma old
  have e1 : ∀ t : Vec ℝ p, relaxedObjective s.ell lam beta t =
      ∑ i, (s.ell / 2 * (t i - beta i) ^ 2 + lam * |t i|) := by
    intro t
    unfold relaxedObjective
    rw [Finset.sum_add_distrib, Finset.mul_sum, Finset.mul_sum]
  have key : ∀ i u, s.ell / 2 * (soft (lam / s.ell) (beta i) - beta i) ^ 2 + lam * |soft (lam / s.ell) (beta i)| +
      s.ell / 2 * (u - soft (lam / s.ell) (beta i)) ^ 2 ≤ s.ell / 2 * (u - beta i) ^ 2 + lam * |u| :=
    fun i u => soft_strong_scaled s.ell lam (beta i) u hell hlam.le
  have hdiv : lam = lam / s.ell ↔ s.ell = 1 := by
    rw [eq_div_iff hell.ne']
    constructor
    · intro h
      have : lam * (s.ell - 1) = 0 := by linarith
      rcases mul_eq_zero.1 this with h | h
      · exact absurd h hlam.ne'
      · linarith
    · intro h; rw [h, mul_one]
  constructor
  · rintro ⟨tb, tg', h', hmin⟩
    rw [h] at h'
    cases h'
    have hall : ∀ i, soft lam (beta i) = soft (lam / s.ell) (beta i) := by
      by_contra hn
      push Not at hn
      obtain ⟨i, hi⟩ := hn
      have hm := hmin fun i => soft (lam / s.ell) (beta i)
      rw [e1, e1] at hm
      refine absurd hm (not_le.2 (Finset.sum_lt_sum (fun j _ => ?_) ⟨i, Finset.mem_univ i, ?_⟩))
      · have := key j (soft lam (beta j))
        have h3 := mul_nonneg hell.le (sq_nonneg (soft lam (beta j) - soft (lam / s.ell) (beta j)))
        linarith
      · have := key i (soft lam (beta i))
        have h3 : 0 < s.ell * (soft lam (beta i) - soft (lam / s.ell) (beta i)) ^ 2 := by
          have := sub_ne_zero.2 hi
          positivity
        linarith
    by_cases h1 : s.ell = 1
    · exact .inl h1
    · refine .inr fun i => ?_
      rcases (soft_eq_iff hlam.le (by positivity) (beta i)).1 (hall i) with h2 | h2
      · exact absurd (hdiv.1 h2) h1
      · exact h2
  · intro hc
    have hall : ∀ i, soft lam (beta i) = soft (lam / s.ell) (beta i) := fun i =>
      (soft_eq_iff hlam.le (by positivity) (beta i)).2 (hc.imp hdiv.2 fun h => h i)
    refine ⟨_, tg, h, fun t => ?_⟩
    rw [e1, e1]
    refine Finset.sum_le_sum fun j _ => ?_
    have := key j (t j)
    have h3 := mul_nonneg hell.le (sq_nonneg (t j - soft (lam / s.ell) (beta j)))
    rw [hall j]
    linarith

/-- Non-vacuity, with the default `ell = 40`: for `lam = 2` the update is right exactly for coefficients up to `1/20`. -/
example (x : ℝ) (old : Vec ℝ 1 × Vec ℝ 1) :
    (∃ tb tg, ipProx ((exSr3 true).ipPractical (wrapReg 1 1 0 (l1Regularizer 2 (some fun _ => 1)))) 1 ![x] ![1] old = .ok (tb, tg) ∧
      ∀ t, relaxedObjective 40 2 ![x] tb ≤ relaxedObjective 40 2 ![x] t) ↔ |x| ≤ 1 / 20 := by
  have h := C92_prox_iff (exSr3 true) (by norm_num [exSr3]) 2 (by norm_num) 1 (by norm_num [exSr3]) (by simp [exSr3])
    ![x] ![1] old
  have e : (exSr3 true).ell = 40 := rfl
  rw [e] at h
  refine h.trans ?_
  rw [min_eq_right (by norm_num)]
  norm_num

/-! ## C51 -/

section generate
variable {K : Type} [Field K] [LinearOrder K] [IsStrictOrderedRing K]

theorem genRow_true (labels : List String) (test : String → Bool) (row : List K) (h : row.length = labels.length) :
    genRow labels test true row = 1 :: selectBy test labels row := by
  by_cases hn : genNum labels test false = 0
  · rw [selectBy_none test labels row (by simpa [genNum_eq] using hn)]
    unfold genRow
    simp only
    rw [if_pos]
    simpa [genNum] using hn
  · have := genRow_eq labels test row h hn
    unfold genRow at this ⊢
    simp only at this ⊢
    have hne : ¬ (List.range labels.length).filter (fun i => test (labels.getD i "")) = [] := by
      intro hcon
      apply hn
      unfold genNum
      rw [hcon]
      rfl
    rw [if_neg hne] at this ⊢
    rw [← this]
    simp

/-- `get_per_group_coefficients` reads the coefficients from their first position. -/
theorem perGroup_prefix {G : Type*} (beta : List K) (res : List (G × List K)) (labels : List String)
    (hb : labels.countP isFixed ≤ beta.length) (hu : ∀ lu ∈ res, labels.countP isRandom ≤ lu.2.length) :
    ∃ cs, getPerGroupCoefficients beta res labels = .ok cs ∧
      List.Forall₂ (fun (lu : G × List K) (lc : G × List K) => lc.1 = lu.1 ∧
        ∀ row : List K, row.length = labels.length →
          dotL row lc.2 = dotL (selectBy isFixed labels row) beta + dotL (selectBy isRandom labels row) lu.2) res cs := by
  induction res with
  | nil => exact ⟨[], rfl, .nil⟩
  | cons lu res ih =>
    obtain ⟨cs, hcs, hall⟩ := ih fun x hx => hu x (by simp [hx])
    have hul := hu lu (by simp)
    obtain ⟨c, hc, hl, -⟩ := perGroup_dot beta lu.2 labels (List.replicate labels.length 0) 0 0 (by simp) (by omega) (by omega)
    obtain ⟨l, u⟩ := lu
    refine ⟨(l, c) :: cs, by simp [getPerGroupCoefficients, hc, hcs, Except.map], .cons ⟨rfl, fun row hrow => ?_⟩ hall⟩
    obtain ⟨c', hc', -, hd⟩ := perGroup_dot beta u labels row 0 0 hrow (by omega) (by simpa using hul)
    rw [hc] at hc'
    cases hc'
    simpa only [List.drop_zero] using hd

theorem selectBy_framed (test : String → Bool) (h1 : test GROUP = false) (h2 : test VARIANCE = false) (labels : List String)
    (row : List K) (hrl : row.length = labels.length) (g v : K) :
    selectBy test (GROUP :: (labels ++ [VARIANCE])) (g :: (row ++ [v])) = selectBy test labels row := by
  rw [selectBy_cons, if_neg (by simp [h1]), selectBy_append _ _ _ _ _ hrl.symm]
  simp [selectBy, h2]

/-- The product of a design row with its coefficients, with and without intercept. -/
theorem listDot_genRow (labels : List String) (test : String → Bool) (b : Bool) (row co : List K)
    (h : row.length = labels.length) (hn : genNum labels test b ≠ 0) (a : K) (ha : listDot (genRow labels test b row) co = .ok a) :
    a = (if b then co.headD 0 else 0) + dotL (selectBy test labels row) (if b then co.tail else co) := by
  unfold listDot at ha
  split_ifs at ha with hl
  have ha' := (Except.ok.inj ha).symm
  cases b with
  | false =>
    rw [genRow_eq _ _ _ h hn] at ha'
    simpa [dotL] using ha'
  | true =>
    rw [genRow_true _ _ _ h] at ha' hl
    cases co with
    | nil => simp at hl
    | cons c co => simpa [dotL] using ha'

/-- **C51**, exactly, with and without intercepts: an answer of a generated problem equals the product of its row with the
reported coefficients of its group, plus the intercept terms, plus the error drawn for it, if and only if reading the
coefficients from the first position (where the intercept sits) makes no difference on that row. -/
theorem C51_truth_iff (c : GenCfg K) (draws : List (GenDraw K))
    (hrows : ∀ d ∈ draws, ∀ row ∈ d.rows, row.length = c.labels.length)
    (hu : ∀ d ∈ draws, d.u.length = c.labels.countP (fun l => l = "random" ∨ l = "fixed+random") + if c.fri then 1 else 0)
    (P : LmeProblem K) (cs : List (ℕ × List K)) (h : lmeGenerate c draws = .ok (P, cs)) :
    ∃ ans, P.answers = some ans ∧ ∀ (i : ℕ) (d : GenDraw K), draws[i]? = some d → ∃ b as, cs[i]? = some (i, b) ∧ ans[i]? = some as ∧
      ∀ (j : ℕ) (row : List K) (e : K), d.rows[j]? = some row → d.errors[j]? = some e →
        ∃ a, as[j]? = some a ∧ ∀ g v,
          (a = dotL (g :: (row ++ [v])) b + (if c.ffi then c.beta.headD 0 else 0) + (if c.fri then d.u.headD 0 else 0) + e ↔
            dotL (((c.labels.zip row).filter fun lv => lv.1 = "fixed" ∨ lv.1 = "fixed+random").map Prod.snd) (if c.ffi then c.beta.tail else c.beta) +
              dotL (((c.labels.zip row).filter fun lv => lv.1 = "random" ∨ lv.1 = "fixed+random").map Prod.snd) (if c.fri then d.u.tail else d.u) =
            dotL (((c.labels.zip row).filter fun lv => lv.1 = "fixed" ∨ lv.1 = "fixed+random").map Prod.snd) c.beta +
              dotL (((c.labels.zip row).filter fun lv => lv.1 = "random" ∨ lv.1 = "fixed+random").map Prod.snd) d.u) := by
  obtain ⟨hn, hbeta, gs, hgs, hcs, rfl⟩ := (lmeGenerate_ok c draws P cs).1 h
  have eR : (fun l : String => decide (l = "random" ∨ l = "fixed+random")) = isRandom := by funext l; simp [isRandom]
  have eF' : (fun lv : String × K => decide (lv.1 = "fixed" ∨ lv.1 = "fixed+random")) = fun lv => isFixed lv.1 := by funext l; simp [isFixed]
  have eR' : (fun lv : String × K => decide (lv.1 = "random" ∨ lv.1 = "fixed+random")) = fun lv => isRandom lv.1 := by funext l; simp [isRandom]
  rw [eR] at hu
  rw [eF', eR']
  have cF : (GROUP :: (c.labels ++ [VARIANCE])).countP isFixed = c.labels.countP isFixed := by
    rw [List.countP_cons, List.countP_append]; simp [isFixed_GROUP, isFixed_VARIANCE]
  have cR : (GROUP :: (c.labels ++ [VARIANCE])).countP isRandom = c.labels.countP isRandom := by
    rw [List.countP_cons, List.countP_append]; simp [isRandom_GROUP, isRandom_VARIANCE]
  obtain ⟨cs', hcs', hall⟩ := perGroup_prefix c.beta (draws.mapIdx fun i d => (i, d.u)) (GROUP :: (c.labels ++ [VARIANCE]))
    (by rw [cF, hbeta, genNum_eq]; omega)
    (by
      intro lu hlu
      rw [cR]
      obtain ⟨i, hi, rfl⟩ := List.mem_mapIdx.1 hlu
      have := hu _ (List.getElem_mem hi)
      simp only
      omega)
  rw [hcs] at hcs'
  cases hcs'
  refine ⟨_, rfl, fun i d hd => ?_⟩
  obtain ⟨hi, hd'⟩ := List.getElem?_eq_some_iff.1 hd
  have hmem : d ∈ draws := hd' ▸ List.getElem_mem hi
  have hl1 := hall.length_eq
  have hi1 : i < (draws.mapIdx fun i d => (i, d.u)).length := by simpa using hi
  have hi2 : i < cs.length := by omega
  have hci := (List.forall₂_iff_get.1 hall).2 i hi1 hi2
  simp only [List.get_eq_getElem, List.getElem_mapIdx, hd'] at hci
  obtain ⟨hc1, hc3⟩ := hci
  have hga := genGroups_answers c _ _ _ _ _ hgs
  have hi3 : i < gs.length := by have := hga.length_eq; omega
  have hai := (List.forall₂_iff_get.1 hga).2 i hi hi3
  simp only [List.get_eq_getElem, hd'] at hai
  have hai' := mapM_ok_inv _ _ _ hai
  refine ⟨cs[i].2, gs[i].answers, ?_, ?_, ?_⟩
  · rw [List.getElem?_eq_getElem hi2]
    exact congrArg some (Prod.ext hc1 rfl)
  · simp [hi3]
  intro j row e hrow he
  obtain ⟨hj1, hrow'⟩ := List.getElem?_eq_some_iff.1 hrow
  obtain ⟨hj2, he'⟩ := List.getElem?_eq_some_iff.1 he
  have hj3 : j < (d.rows.zip d.errors).length := by simp; omega
  have hj4 : j < gs[i].answers.length := by have := hai'.length_eq; omega
  have hj := (List.forall₂_iff_get.1 hai').2 j hj3 hj4
  simp only [List.get_eq_getElem, List.getElem_zip, hrow', he'] at hj
  refine ⟨gs[i].answers[j], List.getElem?_eq_getElem hj4, fun g v => ?_⟩
  have hrl := hrows d hmem row (hrow' ▸ List.getElem_mem hj1)
  rw [hc3 (g :: (row ++ [v])) (by simp [hrl]), selectBy_framed isFixed isFixed_GROUP isFixed_VARIANCE _ _ hrl,
    selectBy_framed isRandom isRandom_GROUP isRandom_VARIANCE _ _ hrl]
  change _ ↔ dotL (selectBy isFixed c.labels row) _ + dotL (selectBy isRandom c.labels row) _ =
    dotL (selectBy isFixed c.labels row) _ + dotL (selectBy isRandom c.labels row) _
  unfold genAnswer genRandomPart at hj
  obtain ⟨a1, ha1, hj⟩ := ebind_ok.1 hj
  obtain ⟨a2, ha2, hj⟩ := ebind_ok.1 hj
  have hsum : gs[i].answers[j] = a1 + a2 + e := (Except.ok.inj hj).symm
  have e1 := listDot_genRow _ _ _ _ _ hrl hn a1 ha1
  have e2 : a2 = (if c.fri then d.u.headD 0 else 0) + dotL (selectBy isRandom c.labels row) (if c.fri then d.u.tail else d.u) := by
    by_cases hz : genNum c.labels isRandom c.fri = 0
    · rw [if_pos hz] at ha2
      rw [genNum_eq] at hz
      have hf : c.fri = false := by
        by_contra hc
        rw [Bool.not_eq_false] at hc
        rw [hc] at hz
        simp at hz
      rw [selectBy_none isRandom c.labels row (by omega), ← Except.ok.inj ha2, hf]
      simp [dotL]
    · rw [if_neg hz] at ha2
      exact listDot_genRow _ _ _ _ _ hrl hz a2 ha2
  rw [hsum, e1, e2]
  constructor
  · intro hh
    linear_combination hh
  · intro hh
    linear_combination hh

/-- Products of shifted and unshifted coefficients with a row that has one nonzero entry. -/
theorem dotL_shift (F : List K) (beta : List K) (k : ℕ) (x b b' : K) (hx : x ≠ 0)
    (hF : F = List.replicate k 0 ++ [x] ++ List.replicate (F.length - k - 1) 0) (hb : beta[k]? = some b) (hb' : beta[k + 1]? = some b') :
    dotL F beta.tail = dotL F beta ↔ b' = b := by
  have key : ∀ (k m : ℕ) (co : List K) (y : K), co[k]? = some y → dotL (List.replicate k 0 ++ [x] ++ List.replicate m 0) co = x * y := by
    intro k
    induction k with
    | zero =>
      intro m co y hy
      cases co with
      | nil => simp at hy
      | cons c co =>
        simp only [List.getElem?_cons_zero, Option.some.injEq] at hy
        subst hy
        have : ∀ (m : ℕ) (l : List K), dotL (List.replicate m 0) l = 0 := by
          intro m
          induction m with
          | zero => intro l; simp [dotL]
          | succ m ih =>
            intro l
            cases l with
            | nil => simp [dotL]
            | cons a l => rw [List.replicate_succ, dotL_cons, ih]; simp
        simp [dotL_cons, this]
    | succ k ih =>
      intro m co y hy
      cases co with
      | nil => simp at hy
      | cons c co =>
        rw [List.getElem?_cons_succ] at hy
        rw [List.replicate_succ, List.cons_append, List.cons_append, dotL_cons, ih m co y hy]
        simp
  rw [hF, key k _ beta b hb, key k _ beta.tail b' (by rw [List.getElem?_tail]; exact hb')]
  constructor
  · intro h; exact mul_left_cancel₀ hx h
  · intro h; rw [h]

/-- **C51** is violated by every generation with a fixed intercept and no random one in which some row has a single
nonzero fixed feature, the `k`-th say, unless the true coefficients at positions `k` and `k + 1` agree (the first being that
of the intercept). -/
theorem C51_intercept_violated (c : GenCfg K) (draws : List (GenDraw K)) (hffi : c.ffi = true) (hfri : c.fri = false)
    (hrows : ∀ d ∈ draws, ∀ row ∈ d.rows, row.length = c.labels.length)
    (hu : ∀ d ∈ draws, d.u.length = c.labels.countP (fun l => l = "random" ∨ l = "fixed+random"))
    (P : LmeProblem K) (cs : List (ℕ × List K)) (h : lmeGenerate c draws = .ok (P, cs))
    (i j k m : ℕ) (d : GenDraw K) (row : List K) (e x b0 b b' : K) (hd : draws[i]? = some d) (hrow : d.rows[j]? = some row)
    (he : d.errors[j]? = some e) (hx : x ≠ 0)
    (hsel : ((c.labels.zip row).filter fun lv => lv.1 = "fixed" ∨ lv.1 = "fixed+random").map Prod.snd =
      List.replicate k 0 ++ [x] ++ List.replicate m 0)
    (h0 : c.beta[0]? = some b0) (hb : c.beta[k]? = some b) (hb' : c.beta[k + 1]? = some b') (hne : b ≠ b') :
    ∃ ans as co a, P.answers = some ans ∧ ans[i]? = some as ∧ as[j]? = some a ∧ cs[i]? = some (i, co) ∧
      ∀ g v, a ≠ dotL (g :: (row ++ [v])) co + b0 + e := by
  obtain ⟨ans, h1, h2⟩ := C51_truth_iff c draws hrows (by rw [hfri]; simpa using hu) P cs h
  obtain ⟨co, as, h3, h4, h5⟩ := h2 i d hd
  obtain ⟨a, h6, h7⟩ := h5 j row e hrow he
  refine ⟨ans, as, co, a, h1, h4, h6, h3, fun g v hcon => hne ?_⟩
  have h8 := h7 g v
  have hh : c.beta.headD 0 = b0 := by
    rw [List.headD_eq_head?_getD, List.head?_eq_getElem?, h0]; rfl
  rw [hffi, hfri, hsel, hh] at h8
  simp only [if_true, Bool.false_eq_true, if_false, add_zero, add_left_inj] at h8
  exact ((dotL_shift _ _ k x b b' hx (by simp) hb hb').1 (h8.1 hcon)).symm

/-- Non-vacuity: two fixed features, the second one nonzero in the only row. -/
example : ∃ P cs, lmeGenerate (⟨[FIXED, FIXED], true, false, .scalar 1, [2, 2, 5]⟩ : GenCfg ℚ) [⟨[[0, 3]], [], [1]⟩] = .ok (P, cs) ∧
    ∃ ans as co a, P.answers = some ans ∧ ans[0]? = some as ∧ as[0]? = some a ∧ cs[0]? = some (0, co) ∧
      ∀ g v, a ≠ dotL (g :: ([0, 3] ++ [v])) co + 2 + 1 := by
  have h1 : genRow [FIXED, FIXED] isFixed true [(0 : ℚ), 3] = [1, 0, 3] := by
    simp [genRow, isFixed, List.range_succ]
  have h2 : genNum [FIXED, FIXED] isFixed true = 3 := by decide
  have h3 : genNum [FIXED, FIXED] isRandom false = 0 := by decide
  have hgs : genGroups (⟨[FIXED, FIXED], true, false, .scalar 1, [2, 2, 5]⟩ : GenCfg ℚ) [1] 0 0 [⟨[[0, 3]], [], [1]⟩] =
      .ok [⟨[[1, 0, 3]], .zeroDim, [18], [1]⟩] := by
    rw [genGroups_cons]
    refine ⟨_, _, [18], _, rfl, rfl, ?_, rfl, ?_⟩
    · simp only [List.zip_cons_cons, List.zip_nil_right, List.mapM_cons, List.mapM_nil, genAnswer, genRandomPart, h1, h3, listDot]
      simp [bind, Except.bind, pure, Except.pure]
      norm_num
    · simp [h1, h3]
  have hg := (lmeGenerate_ok (⟨[FIXED, FIXED], true, false, .scalar 1, [2, 2, 5]⟩ : GenCfg ℚ) [⟨[[0, 3]], [], [1]⟩] _
    [(0, [0, 2, 2, 0])]).2 ⟨by rw [h2]; norm_num, by rw [h2]; rfl, _, hgs, rfl, rfl⟩
  refine ⟨_, _, hg, ?_⟩
  exact C51_intercept_violated _ _ rfl rfl (by simp) (by simp [FIXED]) _ _ hg 0 0 1 0 _ [0, 3] 1 3 2 2 5 rfl rfl rfl (by norm_num)
    (by simp [FIXED]) rfl rfl rfl (by norm_num)

end generate

end Verif
