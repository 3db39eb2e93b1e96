import Mathlib.Analysis.Real.Sqrt
import Verif.Model.LmeGenArgs
import Verif.Props.LmeGenTable

/-!
# The arguments of `LMEProblem.generate`: C174–C178
-/

namespace Verif

variable {K : Type*} [Field K] [LinearOrder K]

/-- What a successful call did. -/
theorem genCall_ok (a : GenArgs K) (r : GenRand K) (out : GenOut K) :
    genCall a r = .ok out ↔
      genNum (a.labelsOf r) isFixed a.ffi ≠ 0 ∧ (a.beta.getD (r.beta (genNum (a.labelsOf r) isFixed a.ffi))).length = genNum (a.labelsOf r) isFixed a.ffi ∧
      (a.gamma.getD (r.gamma (genNum (a.labelsOf r) isRandom a.fri))).length = genNum (a.labelsOf r) isRandom a.fri ∧
      (a.covariance = none ∨ a.covariance = some ((a.labelsOf r).length, (a.labelsOf r).length)) ∧
      ∃ draws P cs, (List.range (a.sizesOf r).length).mapM (a.drawOf r) = .ok draws ∧
        lmeGenerate ⟨a.labelsOf r, a.ffi, a.fri, a.obsVar, a.beta.getD (r.beta (genNum (a.labelsOf r) isFixed a.ffi))⟩ draws = .ok (P, cs) ∧
        out = {
          problem := P
          beta := a.beta.getD (r.beta (genNum (a.labelsOf r) isFixed a.ffi))
          gamma := a.gamma.getD (r.gamma (genNum (a.labelsOf r) isRandom a.fri))
          perGroup := cs
          trueGroupLabels := (List.range (a.sizesOf r).length).flatMap fun i => List.replicate ((a.sizesOf r).getD i 0) i
          randomEffects := draws.mapIdx fun i d => (i, d.u)
          errors := draws.map GenDraw.errors
          trueRmse := (draws.map fun d => (d.errors.map (· ^ 2)).sum).sum
          callerSizes := a.callerSizesOf r } := by
  unfold genCall
  simp only
  by_cases h0 : a.labelsOf r = [] ∧ a.ffi = false ∧ a.fri = false
  · rw [if_pos h0]
    constructor
    · intro h; cases h
    · rintro ⟨h1, -⟩
      exact absurd (by rw [h0.1, h0.2.1]; rfl) h1
  rw [if_neg h0]
  by_cases h1 : genNum (a.labelsOf r) isFixed a.ffi = 0
  · rw [if_pos h1]
    simp [h1]
  rw [if_neg h1]
  by_cases h2 : (a.beta.getD (r.beta (genNum (a.labelsOf r) isFixed a.ffi))).length = genNum (a.labelsOf r) isFixed a.ffi
  swap
  · rw [if_pos h2]
    constructor
    · intro h; cases h
    · rintro ⟨-, h, -⟩; exact absurd h h2
  rw [if_neg (not_not.2 h2)]
  by_cases h3 : (a.gamma.getD (r.gamma (genNum (a.labelsOf r) isRandom a.fri))).length = genNum (a.labelsOf r) isRandom a.fri
  swap
  · rw [if_pos h3]
    constructor
    · intro h; cases h
    · rintro ⟨-, -, h, -⟩; exact absurd h h3
  rw [if_neg (not_not.2 h3)]
  by_cases h4 : a.covariance = none ∨ a.covariance = some ((a.labelsOf r).length, (a.labelsOf r).length)
  swap
  · rw [if_pos (by rwa [not_or] at h4)]
    constructor
    · intro h; cases h
    · rintro ⟨-, -, -, h, -⟩; exact absurd h h4
  rw [if_neg (by rw [← not_or]; exact not_not.2 h4)]
  constructor
  · intro h
    obtain ⟨draws, h5, h⟩ := ebind_ok.1 h
    obtain ⟨⟨P, cs⟩, h6, h⟩ := ebind_ok.1 h
    cases h
    exact ⟨h1, h2, h3, h4, draws, P, cs, h5, h6, rfl⟩
  · rintro ⟨-, -, -, -, draws, P, cs, h5, h6, rfl⟩
    exact ebind_ok.2 ⟨draws, h5, ebind_ok.2 ⟨(P, cs), h6, rfl⟩⟩

/-- What a successful draw did. -/
theorem drawOf_ok {a : GenArgs K} {r : GenRand K} {i : ℕ} {d : GenDraw K} (h : a.drawOf r i = .ok d) :
    (0 ≤ a.chanceMissing ∧ 0 ≤ a.chanceOutlier ∧ 0 ≤ 1 - a.chanceMissing - a.chanceOutlier) ∧ d.rows = r.masked i ∧ d.errors = r.errors i ∧
      (genNum (a.labelsOf r) isRandom a.fri = 0 → d.u = []) ∧ (genNum (a.labelsOf r) isRandom a.fri ≠ 0 → a.effectsOf r i = .ok d.u) := by
  unfold GenArgs.drawOf at h
  split_ifs at h with h1 h2
  · cases h
    push Not at h1
    exact ⟨h1, rfl, rfl, fun _ => rfl, fun h => absurd h2 h⟩
  · push Not at h1
    cases hu : a.effectsOf r i with
    | error e => rw [hu] at h; cases h
    | ok u =>
      rw [hu] at h
      cases h
      exact ⟨h1, rfl, rfl, fun h => absurd h h2, fun _ => rfl⟩

theorem mapM_range_get {α : Type*} {f : ℕ → Except PyErr α} {n : ℕ} {l : List α} (h : (List.range n).mapM f = .ok l) :
    l.length = n ∧ ∀ (i : ℕ) (hi : i < l.length), f i = .ok l[i] := by
  have h1 := List.forall₂_iff_get.1 (mapM_ok_inv _ _ _ h)
  have hl : l.length = n := by rw [← h1.1, List.length_range]
  refine ⟨hl, fun i hi => ?_⟩
  have := h1.2 i (by rw [List.length_range]; omega) hi
  simpa using this

theorem masked_length {r : GenRand K} {a : GenArgs K} {mult : K} (hf : r.Fits a mult) {i : ℕ} (hi : i < (a.sizesOf r).length) :
    (r.masked i).length = (a.sizesOf r).getD i 0 := by
  unfold GenRand.masked
  rw [List.length_zipWith, (hf.features i hi).1, (hf.mask i hi).1, Nat.min_self]

theorem masked_get {r : GenRand K} {a : GenArgs K} {mult : K} (hf : r.Fits a mult) {i : ℕ} (hi : i < (a.sizesOf r).length) {j : ℕ} (hj : j < (a.sizesOf r).getD i 0) :
    (r.masked i).getD j [] = List.zipWith (· * ·) ((r.features i).getD j []) ((r.mask i).getD j []) := by
  have h1 : j < (r.features i).length := by rw [(hf.features i hi).1]; exact hj
  have h2 : j < (r.mask i).length := by rw [(hf.mask i hi).1]; exact hj
  have h3 : j < (r.masked i).length := by rw [masked_length hf hi]; exact hj
  rw [List.getD_eq_getElem?_getD, List.getElem?_eq_getElem h3, Option.getD_some, List.getD_eq_getElem?_getD, List.getElem?_eq_getElem h1, Option.getD_some,
    List.getD_eq_getElem?_getD, List.getElem?_eq_getElem h2, Option.getD_some]
  simp [GenRand.masked]

theorem zipWith_mul_ones : ∀ (l m : List K), m.length = l.length → (∀ x ∈ m, x = 1) → List.zipWith (· * ·) l m = l
  | [], _, _, _ => by simp
  | a :: l, [], h, _ => by simp at h
  | a :: l, b :: m, h, h1 => by
    rw [List.zipWith_cons_cons, zipWith_mul_ones l m (by simpa using h) fun x hx => h1 x (List.mem_cons_of_mem _ hx), h1 b List.mem_cons_self, mul_one]

theorem listDot_some {a b : List K} {x : K} (h : listDot a b = .ok x) : x = dotL a b ∧ a.length = b.length := by
  unfold listDot at h
  split_ifs at h with h1
  cases h
  exact ⟨rfl, h1⟩

theorem genAnswer_some {c : GenCfg K} {u row : List K} {e y : K} (h : genAnswer c u row e = .ok y) (h0 : genNum c.labels isRandom c.fri = 0 → u = []) :
    y = dotL (genRow c.labels isFixed c.ffi row) c.beta + dotL (genRow c.labels isRandom c.fri row) u + e := by
  unfold genAnswer genRandomPart at h
  obtain ⟨x, h1, h⟩ := ebind_ok.1 h
  obtain ⟨z, h2, h⟩ := ebind_ok.1 h
  cases h
  rw [(listDot_some h1).1]
  split_ifs at h2 with h3
  · cases h2
    rw [h0 h3]
    simp [dotL]
  · rw [(listDot_some h2).1]

theorem mapM_zip_get {c : GenCfg K} {u : List K} {rows : List (List K)} {es ans : List K} (hl : es.length = rows.length)
    (h : ((rows.zip es).mapM fun re => genAnswer c u re.1 re.2) = .ok ans) :
    ans.length = rows.length ∧ ∀ j < rows.length, genAnswer c u (rows.getD j []) (es.getD j 0) = .ok (ans.getD j 0) := by
  have h1 := List.forall₂_iff_get.1 (mapM_ok_inv _ _ _ h)
  have e1 : ans.length = rows.length := by rw [← h1.1, List.length_zip, hl, Nat.min_self]
  refine ⟨e1, fun j hj => ?_⟩
  have := h1.2 j (by rw [List.length_zip, hl, Nat.min_self]; exact hj) (by omega)
  rw [List.getD_eq_getElem?_getD, List.getElem?_eq_getElem hj, Option.getD_some, List.getD_eq_getElem?_getD, List.getElem?_eq_getElem (by omega), Option.getD_some,
    List.getD_eq_getElem?_getD, List.getElem?_eq_getElem (by omega), Option.getD_some]
  simpa using this

/-- The answers in terms of the features after the line that inserts missing values and outliers. -/
theorem genCall_answers {a : GenArgs K} {r : GenRand K} {mult : K} (hf : r.Fits a mult) {out : GenOut K} (h : genCall a r = .ok out) :
    ∃ ans, out.problem.answers = some ans ∧ ans.length = (a.sizesOf r).length ∧ ∀ i < (a.sizesOf r).length, (ans.getD i []).length = (a.sizesOf r).getD i 0 ∧
      (out.problem.fixedFeatures.getD i [] = (r.masked i).map (genRow (a.labelsOf r) isFixed a.ffi)) ∧
      ∃ u, out.randomEffects[i]? = some (i, u) ∧ ∀ j < (a.sizesOf r).getD i 0,
        (ans.getD i []).getD j 0 = dotL (genRow (a.labelsOf r) isFixed a.ffi ((r.masked i).getD j [])) out.beta +
          dotL (genRow (a.labelsOf r) isRandom a.fri ((r.masked i).getD j [])) u + (r.errors i).getD j 0 := by
  obtain ⟨-, -, -, -, draws, P, cs, h5, h6, rfl⟩ := (genCall_ok a r out).1 h
  obtain ⟨-, -, gs, hgs, -, rfl⟩ := (lmeGenerate_ok _ draws P cs).1 h6
  obtain ⟨hl, hd⟩ := mapM_range_get h5
  have hA := List.forall₂_iff_get.1 (genGroups_answers _ _ _ _ _ _ hgs)
  have hD := (genGroups_data _ _ _ _ _ _ hgs).1
  refine ⟨_, rfl, by rw [List.length_map, ← hA.1, hl], fun i hi => ?_⟩
  have hi1 : i < draws.length := by omega
  have hi2 : i < gs.length := by rw [← hA.1]; exact hi1
  obtain ⟨-, d1, d2, d3, -⟩ := drawOf_ok (hd i hi1)
  have hans : (gs.map GenGroup.answers).getD i [] = gs[i].answers := by
    rw [List.getD_eq_getElem?_getD, List.getElem?_eq_getElem (by simpa using hi2), Option.getD_some, List.getElem_map]
  have hm := hA.2 i hi1 hi2
  simp only [List.get_eq_getElem, d1, d2] at hm
  obtain ⟨m1, m2⟩ := mapM_zip_get (by rw [masked_length hf hi, hf.errors i hi]) hm
  rw [hans]
  refine ⟨by rw [m1, masked_length hf hi], ?_, (draws[i]).u, by simp [List.getElem?_mapIdx, List.getElem?_eq_getElem hi1], fun j hj => ?_⟩
  · simp only [hD]
    rw [List.getD_eq_getElem?_getD, List.getElem?_eq_getElem (by simpa using hi1), Option.getD_some, List.getElem_map, d1]
  · exact genAnswer_some (m2 j (by rw [masked_length hf hi]; exact hj)) d3

/-! ## C174: outliers and missing values -/

/-- **C174**, what the code does: inserting missing values and outliers changes the features before the answers are computed, so that the call is the call without missing values and outliers for
the changed features. -/
theorem C174_same (a : GenArgs K) (r : GenRand K) :
    genCall a r = genCall a { r with features := r.masked, mask := fun i => (r.masked i).map fun row => row.map fun _ => 1 } := by
  have hm : GenRand.masked { r with features := r.masked, mask := fun i => (r.masked i).map fun row => row.map fun _ => 1 } = r.masked := by
    funext i
    show List.zipWith (List.zipWith (· * ·)) (r.masked i) ((r.masked i).map fun row => row.map fun _ => (1 : K)) = r.masked i
    generalize r.masked i = l
    induction l with
    | nil => rfl
    | cons row l ih =>
      rw [List.map_cons, List.zipWith_cons_cons, ih, zipWith_mul_ones _ _ (by simp) (by simp)]
  have hd : GenArgs.drawOf a { r with features := r.masked, mask := fun i => (r.masked i).map fun row => row.map fun _ => 1 } = a.drawOf r := by
    funext i
    unfold GenArgs.drawOf
    rw [hm]
    rfl
  unfold genCall
  rw [hd]
  rfl

/-- **C174**, what holds: when missing values and outliers have probability zero, the answers follow from the features drawn and these are stored. (Missing: the answers are computed from the features drawn
also when missing values or outliers are put in, see `C174_outliers_violated`.) -/
theorem C174_clean_partial {a : GenArgs K} {r : GenRand K} {mult : K} (hf : r.Fits a mult) (h1 : a.chanceMissing = 0) (h2 : a.chanceOutlier = 0) {out : GenOut K} (h : genCall a r = .ok out) :
    ∃ ans, out.problem.answers = some ans ∧ ans.length = (a.sizesOf r).length ∧ ∀ i < (a.sizesOf r).length, (ans.getD i []).length = (a.sizesOf r).getD i 0 ∧
      (out.problem.fixedFeatures.getD i [] = (r.features i).map (genRow (a.labelsOf r) isFixed a.ffi)) ∧
      ∃ u, out.randomEffects[i]? = some (i, u) ∧ ∀ j < (a.sizesOf r).getD i 0,
        (ans.getD i []).getD j 0 = dotL (genRow (a.labelsOf r) isFixed a.ffi ((r.features i).getD j [])) out.beta +
          dotL (genRow (a.labelsOf r) isRandom a.fri ((r.features i).getD j [])) u + (r.errors i).getD j 0 := by
  have key : ∀ i < (a.sizesOf r).length, r.masked i = r.features i := by
    intro i hi
    obtain ⟨f1, f2⟩ := hf.features i hi
    obtain ⟨m1, m2⟩ := hf.mask i hi
    apply List.ext_getElem
    · rw [masked_length hf hi, f1]
    · intro j g1 g2
      simp only [GenRand.masked, List.getElem_zipWith]
      have hj : j < (r.mask i).length := by rw [m1, ← f1]; exact g2
      obtain ⟨k1, k2⟩ := m2 _ (List.getElem_mem hj)
      refine zipWith_mul_ones _ _ (by rw [k1, f2 _ (List.getElem_mem g2)]) fun x hx => ?_
      rcases k2 x hx with ⟨-, h⟩ | h | ⟨-, h⟩
      · exact absurd h1 h
      · exact h
      · exact absurd h2 h
  obtain ⟨ans, e1, e2, e3⟩ := genCall_answers hf h
  refine ⟨ans, e1, e2, fun i hi => ?_⟩
  rw [← key i hi]
  exact e3 i hi

/-- One object, one fixed feature: the arguments of the following examples. -/
def oneArgs (b : K) (chanceOutlier : K) : GenArgs K :=
  { sizes := some [some 1], labels := some ["fixed"], obsVar := .scalar 1, beta := some [b], chanceMissing := 0, chanceOutlier := chanceOutlier }

/-- One object, one fixed feature: the random numbers of the following examples. -/
def oneRand (x m e : K) : GenRand K where
  numFeatures := 1
  labels := fun n => List.replicate n "fixed"
  beta := fun n => List.replicate n 1
  gamma := fun n => List.replicate n 1
  numGroups := 1
  sizes := fun _ => 1
  features := fun _ => [[x]]
  mask := fun _ => [[m]]
  effects := fun _ => []
  errors := fun _ => [e]

theorem one_fits (b x e mult c : K) (hc : c ≠ 0) : (oneRand x mult e).Fits (oneArgs b c) mult := by
  have hs : (oneArgs b c).sizesOf (oneRand x mult e) = [1] := rfl
  have hl : (oneArgs b c).labelsOf (oneRand x mult e) = ["fixed"] := rfl
  have h0 : ∀ i, i < ((oneArgs b c).sizesOf (oneRand x mult e)).length → i = 0 := by
    intro i hi
    rw [hs] at hi
    simpa using hi
  refine ⟨fun n => ⟨List.length_replicate, fun l hl => .inl (List.eq_of_mem_replicate hl)⟩, fun n => List.length_replicate, fun n => List.length_replicate, fun i hi => ?_, fun i hi => ?_,
    fun i hi => ?_, fun i hi => ?_⟩
  · rw [h0 i hi, hs, hl]
    exact ⟨rfl, by simp [oneRand]⟩
  · rw [h0 i hi, hs, hl]
    refine ⟨rfl, ?_⟩
    intro row hrow
    have : row = [mult] := by simpa [oneRand] using hrow
    subst this
    refine ⟨rfl, fun m hm => .inr (.inr ⟨by simpa using hm, hc⟩)⟩
  · rw [hl]
    show 0 = List.countP (fun l => decide (l = RANDOM ∨ l = FIXED_RANDOM)) ["fixed"] + if false = true then 1 else 0
    decide
  · rw [h0 i hi, hs]
    rfl

theorem one_call [IsStrictOrderedRing K] (b x e m c : K) (hc : 0 ≤ c) (hc1 : c ≤ 1) :
    ∃ out, genCall (oneArgs b c) (oneRand x m e) = .ok out ∧ out.problem.answers = some [[x * m * b + e]] ∧ out.problem.fixedFeatures = [[[x * m]]] ∧ out.trueRmse = e ^ 2 := by
  have hl : (oneArgs b c).labelsOf (oneRand x m e) = ["fixed"] := rfl
  have hn : genNum ["fixed"] isFixed (oneArgs b c).ffi = 1 := (by decide : genNum ["fixed"] isFixed false = 1)
  have hn2 : genNum ["fixed"] isRandom (oneArgs b c).fri = 0 := (by decide : genNum ["fixed"] isRandom false = 0)
  have hn2' : genNum ["fixed"] isRandom false = 0 := by decide
  have hr : genRow ["fixed"] isFixed false [x * m] = [x * m] := by simp [genRow, isFixed, List.range_succ, FIXED]
  have hd : (oneArgs b c).drawOf (oneRand x m e) 0 = .ok ⟨[[x * m]], [], [e]⟩ := by
    unfold GenArgs.drawOf
    rw [hl, if_pos hn2, if_neg]
    · rfl
    · rintro (h | h | h)
      · exact lt_irrefl (0 : K) h
      · exact absurd h (not_lt.2 hc)
      · have : (1 : K) - 0 - c < 0 := h
        linarith
  have hg : genGroups (⟨["fixed"], false, false, .scalar 1, [b]⟩ : GenCfg K) [1] 0 0 [⟨[[x * m]], [], [e]⟩] = .ok [⟨[[x * m]], .zeroDim, [x * m * b + e], [1]⟩] := by
    rw [genGroups_cons]
    refine ⟨.scalar 1, [1], [x * m * b + e], [], rfl, rfl, ?_, rfl, ?_⟩
    · have : genAnswer (⟨["fixed"], false, false, .scalar 1, [b]⟩ : GenCfg K) [] [x * m] e = .ok (x * m * b + e) := by
        unfold genAnswer genRandomPart
        rw [if_pos hn2', hr]
        simp [listDot, bind, Except.bind, pure, Except.pure]
      simp [this, pure, Except.pure, bind, Except.bind]
    · simp only [if_pos hn2', List.map_cons, List.map_nil, hr]
  have hgen : ∃ P cs, lmeGenerate (⟨["fixed"], false, false, .scalar 1, [b]⟩ : GenCfg K) [⟨[[x * m]], [], [e]⟩] = .ok (P, cs) ∧ P.answers = some [[x * m * b + e]] ∧
      P.fixedFeatures = [[[x * m]]] := by
    refine ⟨_, [(0, [0, b, 0])], (lmeGenerate_ok _ _ _ _).2 ⟨(by decide : genNum ["fixed"] isFixed false ≠ 0), by rfl, _, hg, ?_, rfl⟩, rfl, rfl⟩
    simp [getPerGroupCoefficients, perGroupCoefs, Except.map, GROUP, FIXED, RANDOM, FIXED_RANDOM, VARIANCE]
  obtain ⟨P, cs, hP, p1, p2⟩ := hgen
  refine ⟨_, (genCall_ok _ _ _).2 ⟨by rw [hl, hn]; decide, by rw [hl, hn]; rfl, by rw [hl, hn2]; rfl, .inl rfl, [⟨[[x * m]], [], [e]⟩], P, cs, ?_, hP, rfl⟩, p1, p2, ?_⟩
  · show (List.range 1).mapM _ = _
    simp [List.range_succ, hd, pure, Except.pure, bind, Except.bind]
  · simp

/-- **C174 is violated**: for every single feature `x` with coefficient `b`, an outlier changes the answer as well: the answer is `mult * x * b + e` and fits the stored feature `mult * x` as if there was no outlier. -/
theorem C174_outliers_violated [IsStrictOrderedRing K] (b x e mult : K) (hb : b ≠ 0) (hx : x ≠ 0) (hm : mult ≠ 1) :
    ∃ (a : GenArgs K) (r : GenRand K) (out : GenOut K), r.Fits a mult ∧ r.features 0 = [[x]] ∧ a.beta = some [b] ∧ genCall a r = .ok out ∧ out.problem.fixedFeatures = [[[x * mult]]] ∧
      out.problem.answers = some [[x * mult * b + e]] ∧ out.problem.answers ≠ some [[x * b + e]] := by
  obtain ⟨out, h1, h2, h3, -⟩ := one_call b x e mult (1 / 2) (by norm_num) (by norm_num)
  refine ⟨_, _, out, one_fits b x e mult (1 / 2) (by norm_num), rfl, rfl, h1, h3, h2, ?_⟩
  rw [h2]
  simp only [ne_eq, Option.some.injEq, List.cons.injEq, and_true, add_left_inj]
  intro h
  have : x * b * (mult - 1) = 0 := by linear_combination h
  rcases mul_eq_zero.1 this with h | h
  · exact mul_ne_zero hx hb h
  · exact hm (by linear_combination h)

/-- Non-vacuity of C174: without outliers the generation above meets the hypotheses of `C174_clean_partial`. -/
example : ∃ out, genCall (oneArgs (2 : ℚ) 0) (oneRand 3 1 (1 / 2)) = .ok out ∧ out.problem.answers = some [[13 / 2]] := by
  obtain ⟨out, h1, h2, -⟩ := one_call (2 : ℚ) 3 (1 / 2) 1 0 (by norm_num) (by norm_num)
  refine ⟨out, h1, ?_⟩
  rw [h2]
  norm_num

/-! ## C175: `true_rmse` -/

theorem sum_getD_sq (l : List K) : (l.map (· ^ 2)).sum = ∑ j ∈ Finset.range l.length, l.getD j 0 ^ 2 := by
  induction l with
  | nil => simp
  | cons a l ih => rw [List.map_cons, List.sum_cons, List.length_cons, Finset.sum_range_succ', ih, add_comm]; simp

theorem sum_getD_range {α : Type*} (l : List α) (f : α → K) (d : α) : (l.map f).sum = ∑ j ∈ Finset.range l.length, f (l.getD j d) := by
  induction l with
  | nil => simp
  | cons a l ih => rw [List.map_cons, List.sum_cons, List.length_cons, Finset.sum_range_succ', ih, add_comm]; simp

/-- **C175**, what holds: `true_rmse` is the sum of the squared residuals of the answers under the true coefficients and the true random effects. (Missing: it is not their root mean square, see
`C175_rmse_iff`.) -/
theorem C175_residuals_partial {a : GenArgs K} {r : GenRand K} {mult : K} (hf : r.Fits a mult) {out : GenOut K} (h : genCall a r = .ok out) :
    ∃ (ans : List (List K)) (us : ℕ → List K), out.problem.answers = some ans ∧ (∀ i < (a.sizesOf r).length, out.randomEffects[i]? = some (i, us i)) ∧
      out.trueRmse = ∑ i ∈ Finset.range (a.sizesOf r).length, ∑ j ∈ Finset.range ((a.sizesOf r).getD i 0),
        ((ans.getD i []).getD j 0 - (dotL (genRow (a.labelsOf r) isFixed a.ffi ((r.masked i).getD j [])) out.beta +
          dotL (genRow (a.labelsOf r) isRandom a.fri ((r.masked i).getD j [])) (us i))) ^ 2 := by
  obtain ⟨ans, e1, e2, e3⟩ := genCall_answers hf h
  choose! us hus using fun i hi => (e3 i hi).2.2
  refine ⟨ans, us, e1, fun i hi => (hus i hi).1, ?_⟩
  obtain ⟨-, -, -, -, draws, P, cs, h5, h6, rfl⟩ := (genCall_ok a r out).1 h
  obtain ⟨hl, hd⟩ := mapM_range_get h5
  show (draws.map fun d => (d.errors.map (· ^ 2)).sum).sum = _
  rw [sum_getD_range draws _ ⟨[], [], []⟩, hl]
  refine Finset.sum_congr rfl fun i hi => ?_
  have hi' := Finset.mem_range.1 hi
  have hi1 : i < draws.length := by omega
  rw [List.getD_eq_getElem?_getD, List.getElem?_eq_getElem hi1, Option.getD_some, (drawOf_ok (hd i hi1)).2.2.1, sum_getD_sq, hf.errors i hi']
  refine Finset.sum_congr rfl fun j hj => ?_
  rw [(hus i hi').2 j (Finset.mem_range.1 hj)]
  ring

/-- **C175**, when the name is right: with `N > 0` objects, `true_rmse` is the root of the mean of the squared errors exactly when all errors are zero or the sum of their squares is `1 / N`. -/
theorem C175_rmse_iff {a : GenArgs ℝ} {r : GenRand ℝ} {out : GenOut ℝ} (h : genCall a r = .ok out) {N : ℕ} (hN : out.errors.flatten.length = N) (hpos : 0 < N) :
    out.trueRmse = Real.sqrt ((out.errors.flatten.map fun e : ℝ => e ^ 2).sum / N) ↔ (∀ e ∈ out.errors.flatten, e = 0) ∨ (out.errors.flatten.map fun e : ℝ => e ^ 2).sum = 1 / (N : ℝ) := by
  obtain ⟨-, -, -, -, draws, P, cs, h5, h6, rfl⟩ := (genCall_ok a r out).1 h
  have e1 : (draws.map fun d => (d.errors.map (· ^ 2)).sum).sum = (((draws.map GenDraw.errors).flatten).map (· ^ 2)).sum := by
    clear h5 h6 h hN
    induction draws with
    | nil => rfl
    | cons d ds ih => simp [ih]
  show (draws.map fun d => (d.errors.map (· ^ 2)).sum).sum = Real.sqrt ((((draws.map GenDraw.errors).flatten).map fun e : ℝ => e ^ 2).sum / N) ↔ (∀ e ∈ (draws.map GenDraw.errors).flatten, e = 0) ∨
    (((draws.map GenDraw.errors).flatten).map fun e : ℝ => e ^ 2).sum = 1 / (N : ℝ)
  rw [e1]
  set S := (((draws.map GenDraw.errors).flatten).map fun e : ℝ => e ^ 2).sum with hS
  have hS0 : 0 ≤ S := List.sum_nonneg (by simp only [List.mem_map]; rintro x ⟨y, -, rfl⟩; positivity)
  have hz : S = 0 ↔ ∀ e ∈ (draws.map GenDraw.errors).flatten, e = 0 := by
    rw [hS]
    generalize (draws.map GenDraw.errors).flatten = l
    induction l with
    | nil => simp
    | cons b l ih =>
      have h1 : 0 ≤ (l.map fun e : ℝ => e ^ 2).sum := List.sum_nonneg (by simp only [List.mem_map]; rintro x ⟨y, -, rfl⟩; positivity)
      rw [List.map_cons, List.sum_cons, List.forall_mem_cons, ← ih]
      constructor
      · intro h2
        have h3 : b ^ 2 = 0 := by nlinarith [sq_nonneg b]
        exact ⟨by simpa using h3, by nlinarith [sq_nonneg b]⟩
      · rintro ⟨rfl, h2⟩
        rw [h2]; simp
  rw [← hz]
  have hN' : (0 : ℝ) < N := by exact_mod_cast hpos
  rw [eq_comm, Real.sqrt_eq_iff_mul_self_eq (by positivity) hS0, div_eq_iff hN'.ne', eq_div_iff hN'.ne']
  constructor
  · intro h2
    have : S * (S * N - 1) = 0 := by linear_combination -h2
    rcases mul_eq_zero.1 this with h3 | h3
    · exact .inl h3
    · exact .inr (by linear_combination h3)
  · rintro (h2 | h2)
    · rw [h2]; simp
    · linear_combination -S * h2

/-- **C175 is violated**: with one object and an error of 2, `true_rmse` is 4. -/
theorem C175_violated : ∃ (a : GenArgs ℝ) (r : GenRand ℝ) (out : GenOut ℝ), r.Fits a 5 ∧ genCall a r = .ok out ∧ out.errors.flatten = [2] ∧ out.trueRmse = 4 ∧
    Real.sqrt ((out.errors.flatten.map (· ^ 2)).sum / 1) = 2 := by
  obtain ⟨out, h1, -, -, h4⟩ := one_call (1 : ℝ) 3 2 5 (1 / 2) (by norm_num) (by norm_num)
  have he : out.errors.flatten = [2] := by
    obtain ⟨-, -, -, -, draws, P, cs, h5, h6, rfl⟩ := (genCall_ok _ _ out).1 h1
    obtain ⟨hl, hd⟩ := mapM_range_get h5
    have hl1 : draws.length = 1 := hl
    obtain ⟨d, rfl⟩ := List.length_eq_one_iff.1 hl1
    have := (drawOf_ok (hd 0 (by simp))).2.2.1
    simp only [List.getElem_cons_zero] at this
    simp [this, oneRand]
  refine ⟨_, _, out, one_fits 1 3 2 5 (1 / 2) (by norm_num), h1, he, by rw [h4]; norm_num, ?_⟩
  rw [he]
  rw [show (([2] : List ℝ).map (· ^ 2)).sum / 1 = 2 ^ 2 by norm_num]
  exact Real.sqrt_sq (by norm_num)

/-! ## C176: `true_random_effects` -/

/-- **C176 is violated**: an array with one row per random effect and one column per group, as documented, makes every call with a number of groups other than two raise. -/
theorem C176_array_raises_violated (a : GenArgs K) (r : GenRand K) (rows : List (List K)) (ha : a.trueEffects = some (.array rows)) (hne : rows ≠ [])
    (hq : genNum (a.labelsOf r) isRandom a.fri ≠ 0) (hrow : ∀ row ∈ rows, row.length = (a.sizesOf r).length) (hk : (a.sizesOf r).length ≠ 2) (hk0 : (a.sizesOf r).length ≠ 0) :
    ∃ e, genCall a r = .error e := by
  cases h : genCall a r with
  | error e => exact ⟨e, rfl⟩
  | ok out =>
    exfalso
    obtain ⟨-, -, -, -, draws, P, cs, h5, -, -⟩ := (genCall_ok a r out).1 h
    obtain ⟨hl, hd⟩ := mapM_range_get h5
    have := (drawOf_ok (hd 0 (by omega))).2.2.2.2 hq
    unfold GenArgs.effectsOf at this
    rw [ha] at this
    simp only at this
    rw [if_neg] at this
    · cases this
    · rw [List.all_eq_true]
      intro h1
      obtain ⟨row, hr⟩ := List.exists_mem_of_ne_nil _ hne
      exact hk (by rw [← hrow row hr]; exact of_decide_eq_true (h1 row hr))

/-- **C176 is violated**: with two groups the documented array is ignored (unless one of the effects of the first group happens to be the number of a group): the call does the same as without it. -/
theorem C176_array_ignored_violated (a : GenArgs K) (r : GenRand K) (rows : List (List K)) (ha : a.trueEffects = some (.array rows))
    (hrow : ∀ row ∈ rows, row.length = (a.sizesOf r).length) (hk : (a.sizesOf r).length = 2) (h01 : ∀ row ∈ rows, row.getD 0 0 ≠ 0 ∧ row.getD 0 0 ≠ 1) :
    genCall a r = genCall { a with trueEffects := none } r := by
  have hd : (List.range (a.sizesOf r).length).mapM (a.drawOf r) = (List.range (a.sizesOf r).length).mapM (GenArgs.drawOf { a with trueEffects := none } r) := by
    have : ∀ i < 2, a.drawOf r i = GenArgs.drawOf { a with trueEffects := none } r i := by
      intro i hi
      have he : a.effectsOf r i = GenArgs.effectsOf { a with trueEffects := none } r i := by
        unfold GenArgs.effectsOf
        rw [ha]
        simp only
        rw [if_pos (by rw [List.all_eq_true]; intro row hr; exact decide_eq_true (by rw [hrow row hr, hk])), if_neg]
        rw [List.any_eq_true]
        rintro ⟨row, hr, h1⟩
        have h1 := of_decide_eq_true h1
        obtain ⟨g0, g1⟩ := h01 row hr
        rcases (by omega : i = 0 ∨ i = 1) with rfl | rfl
        · exact g0 (by simpa using h1)
        · exact g1 (by simpa using h1)
      unfold GenArgs.drawOf
      rw [he]
      rfl
    rw [hk, show List.range 2 = [0, 1] from rfl]
    simp only [List.mapM_cons, List.mapM_nil, this 0 (by omega), this 1 (by omega)]
  unfold genCall
  simp only [hd]
  rfl

theorem dictGet_unique {l : List (ℕ × List K)} {i : ℕ} {u : List K} (hl : (l.map Prod.fst).Nodup) (h : (i, u) ∈ l) : dictGet l i = some u := by
  unfold dictGet
  have hnd : (l.reverse.map Prod.fst).Nodup := by rw [List.map_reverse]; exact List.nodup_reverse.2 hl
  have hm : (i, u) ∈ l.reverse := List.mem_reverse.2 h
  generalize l.reverse = m at hnd hm
  clear h hl
  induction m with
  | nil => cases hm
  | cons e m ih =>
    obtain ⟨k, v⟩ := e
    rw [List.map_cons, List.nodup_cons] at hnd
    rcases List.mem_cons.1 hm with h | h
    · cases h
      simp [List.lookup]
    · have : i ≠ k := fun hik => hnd.1 (List.mem_map.2 ⟨(i, u), h, hik⟩)
      rw [List.lookup, show (i == k) = false by simpa using this]
      exact ih hnd.2 h

theorem dictGet_absent {l : List (ℕ × List K)} {i : ℕ} (h : ∀ u, (i, u) ∉ l) : dictGet l i = none := by
  unfold dictGet
  rw [List.lookup_eq_none_iff]
  rintro ⟨k, v⟩ hm
  have hm := List.mem_reverse.1 hm
  by_contra hk
  have : i = k := by simpa using hk
  subst this
  exact h v hm

/-- **C176**, what holds: pairs of a group number and its effects are used, groups not listed get drawn effects. (Missing: the documented array, see `C176_array_raises_violated` and
`C176_array_ignored_violated`.) -/
theorem C176_pairs_partial {a : GenArgs K} {r : GenRand K} {l : List (ℕ × List K)} (ha : a.trueEffects = some (.pairs l)) (hl : (l.map Prod.fst).Nodup)
    (hq : genNum (a.labelsOf r) isRandom a.fri ≠ 0) {out : GenOut K} (h : genCall a r = .ok out) :
    out.randomEffects.length = (a.sizesOf r).length ∧ ∀ i < (a.sizesOf r).length,
      (∀ u, (i, u) ∈ l → out.randomEffects[i]? = some (i, u)) ∧ ((∀ u, (i, u) ∉ l) → out.randomEffects[i]? = some (i, r.effects i)) := by
  obtain ⟨-, -, -, -, draws, P, cs, h5, -, rfl⟩ := (genCall_ok a r out).1 h
  obtain ⟨hlen, hd⟩ := mapM_range_get h5
  refine ⟨by simp [hlen], fun i hi => ?_⟩
  have hi1 : i < draws.length := by omega
  have hu := (drawOf_ok (hd i hi1)).2.2.2.2 hq
  unfold GenArgs.effectsOf at hu
  rw [ha] at hu
  simp only [Except.ok.injEq] at hu
  constructor
  · intro u hm
    rw [dictGet_unique hl hm] at hu
    simp only [Option.getD_some] at hu
    simp [List.getElem?_mapIdx, List.getElem?_eq_getElem hi1, hu]
  · intro hm
    rw [dictGet_absent hm] at hu
    simp only [Option.getD_none] at hu
    simp [List.getElem?_mapIdx, List.getElem?_eq_getElem hi1, hu]

/-- **C176**, generating again: the random effects reported by one call, handed to another with no more groups, are the random effects of the other. -/
theorem C176_again {a b : GenArgs K} {r s : GenRand K} {out out' : GenOut K} (h : genCall a r = .ok out) (hb : b.trueEffects = some (.pairs out.randomEffects))
    (hq : genNum (b.labelsOf s) isRandom b.fri ≠ 0) (hle : (b.sizesOf s).length ≤ (a.sizesOf r).length) (h' : genCall b s = .ok out') :
    out'.randomEffects = out.randomEffects.take (b.sizesOf s).length := by
  obtain ⟨-, -, -, -, draws, P, cs, h5, -, rfl⟩ := (genCall_ok a r out).1 h
  obtain ⟨hlen, -⟩ := mapM_range_get h5
  have hnd : ((draws.mapIdx fun i d => (i, d.u)).map Prod.fst).Nodup := by
    rw [show (draws.mapIdx fun i d => (i, d.u)).map Prod.fst = List.range draws.length by
      apply List.ext_getElem <;> simp]
    exact List.nodup_range
  obtain ⟨g1, g2⟩ := C176_pairs_partial hb hnd hq h'
  apply List.ext_getElem?
  intro i
  rw [List.getElem?_take]
  split_ifs with hi
  · have hi1 : i < draws.length := by omega
    have hm : (draws.mapIdx fun i d => (i, d.u))[i]? = some (i, draws[i].u) := by simp [List.getElem?_mapIdx, List.getElem?_eq_getElem hi1]
    show _ = (draws.mapIdx fun i d => (i, d.u))[i]?
    rw [hm]
    exact (g2 i hi).1 _ (List.mem_of_getElem? hm)
  · rw [List.getElem?_eq_none (by omega)]

/-! ## C177: the caller's list of group sizes -/

/-- **C177**, what holds: after a call that returns, the caller's list of group sizes is unchanged if and only if it has no entry `None`. (Missing: it is changed otherwise.) -/
theorem C177_sizes_partial {a : GenArgs K} {r : GenRand K} {out : GenOut K} (h : genCall a r = .ok out) :
    out.callerSizes = a.sizes ↔ ∀ l, a.sizes = some l → none ∉ l := by
  obtain ⟨-, -, -, -, draws, P, cs, -, -, rfl⟩ := (genCall_ok a r out).1 h
  show a.callerSizesOf r = a.sizes ↔ _
  unfold GenArgs.callerSizesOf
  cases hs : a.sizes with
  | none => simp
  | some l =>
    simp only [Option.map_some, Option.some.injEq]
    constructor
    · rintro h1 l' rfl hm
      rw [← h1, List.mem_mapIdx] at hm
      obtain ⟨i, hi, h2⟩ := hm
      cases h2
    · intro h1
      have h2 := h1 l rfl
      apply List.ext_getElem
      · simp
      · intro i g1 g2
        rw [List.getElem_mapIdx]
        cases h3 : l[i] with
        | none => exact absurd (h3 ▸ List.getElem_mem g2) h2
        | some k => rfl

/-- **C177 is violated**, and what follows: a second call with the same list gets the sizes drawn in the first call, whatever its own draws are. -/
theorem C177_second_violated {a b : GenArgs K} {r s : GenRand K} {out : GenOut K} {l : List (Option ℕ)} (ha : a.sizes = some l) (h : genCall a r = .ok out) (hb : b.sizes = out.callerSizes) :
    b.sizesOf s = a.sizesOf r := by
  obtain ⟨-, -, -, -, draws, P, cs, -, -, rfl⟩ := (genCall_ok a r out).1 h
  change b.sizes = a.callerSizesOf r at hb
  unfold GenArgs.callerSizesOf at hb
  unfold GenArgs.sizesOf
  rw [hb, ha]
  simp only [Option.map_some]
  apply List.ext_getElem
  · simp
  · intro i g1 g2
    simp

/-! ## C178: when `generate` returns -/

theorem genRow_len (labels : List String) (test : String → Bool) (b : Bool) (row : List K) (h : genNum labels test b ≠ 0) : (genRow labels test b row).length = genNum labels test b := by
  unfold genRow genNum at *
  simp only
  generalize (List.range labels.length).filter (fun i => test (labels.getD i "")) = idx at *
  cases idx with
  | nil =>
    cases b
    · simp at h
    · simp
  | cons a t =>
    rw [if_neg (by simp)]
    cases b <;> simp [Nat.add_comm]

theorem perGroupCoefs_ok (beta u : List K) : ∀ (labels : List String) (fc rc : ℕ), fc + labels.countP isFixed ≤ beta.length → rc + labels.countP isRandom ≤ u.length →
    ∃ c, perGroupCoefs beta u labels fc rc = .ok c
  | [], _, _, _, _ => ⟨[], rfl⟩
  | l :: ls, fc, rc, h1, h2 => by
    rw [List.countP_cons] at h1 h2
    unfold perGroupCoefs
    by_cases a1 : l = FIXED
    · subst a1
      rw [if_pos (by decide)] at h1
      rw [if_neg (by decide)] at h2
      obtain ⟨c, hc⟩ := perGroupCoefs_ok beta u ls (fc + 1) rc (by omega) (by omega)
      rw [if_pos rfl, List.getElem?_eq_getElem (show fc < beta.length by omega)]
      simp only [hc]
      exact ⟨_, rfl⟩
    by_cases a2 : l = RANDOM
    · subst a2
      rw [if_neg (by decide)] at h1
      rw [if_pos (by decide)] at h2
      obtain ⟨c, hc⟩ := perGroupCoefs_ok beta u ls fc (rc + 1) (by omega) (by omega)
      rw [if_neg a1, if_pos rfl, List.getElem?_eq_getElem (show rc < u.length by omega)]
      simp only [hc]
      exact ⟨_, rfl⟩
    by_cases a3 : l = FIXED_RANDOM
    · subst a3
      rw [if_pos (by decide)] at h1 h2
      obtain ⟨c, hc⟩ := perGroupCoefs_ok beta u ls (fc + 1) (rc + 1) (by omega) (by omega)
      rw [if_neg a1, if_neg a2, if_pos rfl, List.getElem?_eq_getElem (show fc < beta.length by omega), List.getElem?_eq_getElem (show rc < u.length by omega)]
      simp only [hc]
      exact ⟨_, rfl⟩
    · obtain ⟨c, hc⟩ := perGroupCoefs_ok beta u ls fc rc (by omega) (by omega)
      rw [if_neg a1, if_neg a2, if_neg a3, hc]
      exact ⟨_, rfl⟩

theorem getPerGroup_total {G : Type*} (beta : List K) (labels : List String) (hb : labels.countP isFixed ≤ beta.length) : ∀ (l : List (G × List K)),
    (∀ e ∈ l, labels.countP isRandom ≤ e.2.length) → ∃ c, getPerGroupCoefficients beta l labels = .ok c
  | [], _ => ⟨[], rfl⟩
  | (g, u) :: l, h => by
    obtain ⟨c, hc⟩ := perGroupCoefs_ok beta u labels 0 0 (by omega) (by have := h (g, u) List.mem_cons_self; simp only at this; omega)
    obtain ⟨c', hc'⟩ := getPerGroup_total beta labels hb l fun e he => h e (List.mem_cons_of_mem _ he)
    unfold getPerGroupCoefficients
    rw [hc]
    simp only [hc']
    exact ⟨_, rfl⟩

/-- A variance for all objects, or one variance per group. -/
def ObsVar.PerGroup (v : ObsVar K) (groups objects : ℕ) : Prop := ∀ l, v = .array l → l.length = groups ∧ groups ≠ objects

theorem genGroups_total (c : GenCfg K) (sizes : List ℕ) (hv : c.obsVar.PerGroup sizes.length sizes.sum) (hF : genNum c.labels isFixed c.ffi ≠ 0)
    (hb : c.beta.length = genNum c.labels isFixed c.ffi) : ∀ (ds : List (GenDraw K)) (start i : ℕ), i + ds.length ≤ sizes.length →
      (genNum c.labels isRandom c.fri ≠ 0 → ∀ d ∈ ds, d.u.length = genNum c.labels isRandom c.fri) → ∃ gs, genGroups c sizes start i ds = .ok gs
  | [], _, _, _, _ => ⟨[], rfl⟩
  | d :: ds, start, i, hi, hu => by
    rw [List.length_cons] at hi
    obtain ⟨rest, hrest⟩ := genGroups_total c sizes hv hF hb ds (start + d.rows.length) (i + 1) (by omega) fun hq e he => hu hq e (List.mem_cons_of_mem _ he)
    have h1 : ∃ v, genVariance c.obsVar sizes start d.rows.length i = .ok (.scalar v) := by
      unfold genVariance
      cases ho : c.obsVar with
      | scalar v => exact ⟨v, rfl⟩
      | array l =>
        obtain ⟨h2, h3⟩ := hv l ho
        simp only
        rw [if_neg (by rw [h2]; exact h3), if_pos h2, List.getElem?_eq_getElem (by omega)]
        exact ⟨_, rfl⟩
    obtain ⟨v, h1⟩ := h1
    have h2 : ∀ re ∈ d.rows.zip d.errors, ∃ y, genAnswer c d.u re.1 re.2 = .ok y := by
      intro re _
      unfold genAnswer genRandomPart listDot
      rw [if_pos (by rw [genRow_len _ _ _ _ hF, hb])]
      by_cases hq : genNum c.labels isRandom c.fri = 0
      · rw [if_pos hq]
        exact ⟨_, rfl⟩
      · rw [if_neg hq, if_pos (by rw [genRow_len _ _ _ _ hq, hu hq d List.mem_cons_self])]
        exact ⟨_, rfl⟩
    choose! f hf using h2
    exact ⟨_, (genGroups_cons ..).2 ⟨_, _, _, _, h1, rfl, mapM_ok _ _ f hf, hrest, rfl⟩⟩

theorem lmeGenerate_total (c : GenCfg K) (draws : List (GenDraw K)) (hv : c.obsVar.PerGroup draws.length (draws.map fun d => d.rows.length).sum) (hF : genNum c.labels isFixed c.ffi ≠ 0)
    (hb : c.beta.length = genNum c.labels isFixed c.ffi) (hu : genNum c.labels isRandom c.fri ≠ 0 → ∀ d ∈ draws, d.u.length = genNum c.labels isRandom c.fri) :
    ∃ P cs, lmeGenerate c draws = .ok (P, cs) := by
  obtain ⟨gs, hgs⟩ := genGroups_total c (draws.map fun d => d.rows.length) (by rw [List.length_map]; exact hv) hF hb draws 0 0 (by simp) hu
  have c1 : (GROUP :: (c.labels ++ [VARIANCE])).countP isFixed = c.labels.countP isFixed := by
    rw [List.countP_cons, List.countP_append]; simp [isFixed_GROUP, isFixed_VARIANCE]
  have c2 : (GROUP :: (c.labels ++ [VARIANCE])).countP isRandom = c.labels.countP isRandom := by
    rw [List.countP_cons, List.countP_append]; simp [isRandom_GROUP, isRandom_VARIANCE]
  obtain ⟨cs, hcs⟩ := getPerGroup_total c.beta (GROUP :: (c.labels ++ [VARIANCE])) (by rw [c1, hb, genNum_eq]; omega) (draws.mapIdx fun i d => (i, d.u)) (by
    intro e he
    obtain ⟨i, hi, rfl⟩ := List.mem_mapIdx.1 he
    rw [c2]
    by_cases hq : genNum c.labels isRandom c.fri = 0
    · rw [genNum_eq] at hq
      simp only
      omega
    · simp only
      rw [hu hq _ (List.getElem_mem hi), genNum_eq]
      omega)
  exact ⟨_, cs, (lmeGenerate_ok c draws _ cs).2 ⟨hF, hb, gs, hgs, hcs, rfl⟩⟩

theorem genNum_fixed_ne (labels : List String) (b : Bool) : genNum labels isFixed b ≠ 0 ↔ b = true ∨ "fixed" ∈ labels ∨ "fixed+random" ∈ labels := by
  rw [genNum_eq]
  constructor
  · intro h
    cases b with
    | true => exact .inl rfl
    | false =>
      right
      have : 0 < labels.countP isFixed := Nat.pos_of_ne_zero (by simpa only [Bool.false_eq_true, if_false, Nat.add_zero] using h)
      obtain ⟨l, hl, h1⟩ := List.countP_pos_iff.1 this
      unfold isFixed at h1
      simp only [Bool.or_eq_true, decide_eq_true_eq] at h1
      rcases h1 with rfl | rfl
      · exact .inl hl
      · exact .inr hl
  · rintro (h | h | h)
    · rw [h]; simp
    · have := List.countP_pos_iff.2 ⟨_, h, show isFixed "fixed" = true by decide⟩
      omega
    · have := List.countP_pos_iff.2 ⟨_, h, show isFixed "fixed+random" = true by decide⟩
      omega

/-- **C178**, the exact condition: with one variance for all objects or one per group, and no true random effects or pairs of the right lengths, `generate` returns if and only if there is a fixed effect,
coefficients, variances and covariance matrix given have the right sizes, and the chances of missing values and outliers are probabilities (or there is no group). (Missing: the default arguments return always,
see `C178_default_violated`.) -/
theorem C178_returns_partial {a : GenArgs K} {r : GenRand K} {mult : K} (hf : r.Fits a mult) (hv : a.obsVar.PerGroup (a.sizesOf r).length (a.sizesOf r).sum)
    (hu : a.trueEffects = none ∨ ∃ l, a.trueEffects = some (.pairs l) ∧ ∀ e ∈ l, e.2.length = (a.labelsOf r).countP (fun l => l = "random" ∨ l = "fixed+random") + if a.fri then 1 else 0) :
    (∃ out, genCall a r = .ok out) ↔
      (a.ffi = true ∨ "fixed" ∈ a.labelsOf r ∨ "fixed+random" ∈ a.labelsOf r) ∧
      (∀ b, a.beta = some b → b.length = (a.labelsOf r).countP (fun l => l = "fixed" ∨ l = "fixed+random") + if a.ffi then 1 else 0) ∧
      (∀ g, a.gamma = some g → g.length = (a.labelsOf r).countP (fun l => l = "random" ∨ l = "fixed+random") + if a.fri then 1 else 0) ∧
      (∀ s, a.covariance = some s → s = ((a.labelsOf r).length, (a.labelsOf r).length)) ∧
      (a.sizesOf r = [] ∨ 0 ≤ a.chanceMissing ∧ 0 ≤ a.chanceOutlier ∧ 0 ≤ 1 - a.chanceMissing - a.chanceOutlier) := by
  have eF : (fun l : String => decide (l = "fixed" ∨ l = "fixed+random")) = isFixed := by funext l; simp [isFixed, FIXED, FIXED_RANDOM]
  have eR : (fun l : String => decide (l = "random" ∨ l = "fixed+random")) = isRandom := by funext l; simp [isRandom, RANDOM, FIXED_RANDOM]
  have hfe := hf.effects
  have eR' : (fun l : String => decide (l = RANDOM ∨ l = FIXED_RANDOM)) = isRandom := eR
  rw [eR'] at hfe
  rw [eF, eR, ← genNum_eq, ← genNum_eq, ← genNum_fixed_ne]
  rw [eR, ← genNum_eq] at hu
  rw [← genNum_eq] at hfe
  constructor
  · rintro ⟨out, h⟩
    obtain ⟨h1, h2, h3, h4, draws, P, cs, h5, -, -⟩ := (genCall_ok a r out).1 h
    refine ⟨h1, fun b hb => by rw [hb] at h2; exact h2, fun g hg => by rw [hg] at h3; exact h3, fun s hs => ?_, ?_⟩
    · rcases h4 with h4 | h4
      · rw [h4] at hs; cases hs
      · rw [h4] at hs; cases hs; rfl
    · obtain ⟨hl, hd⟩ := mapM_range_get h5
      by_cases h0 : a.sizesOf r = []
      · exact .inl h0
      · exact .inr (drawOf_ok (hd 0 (by rw [hl]; exact List.length_pos_of_ne_nil h0))).1
  · rintro ⟨h1, h2, h3, h4, h5⟩
    have hb : (a.beta.getD (r.beta (genNum (a.labelsOf r) isFixed a.ffi))).length = genNum (a.labelsOf r) isFixed a.ffi := by
      cases hb : a.beta with
      | none => exact hf.beta _
      | some b => exact h2 b hb
    have hg : (a.gamma.getD (r.gamma (genNum (a.labelsOf r) isRandom a.fri))).length = genNum (a.labelsOf r) isRandom a.fri := by
      cases hg : a.gamma with
      | none => exact hf.gamma _
      | some g => exact h3 g hg
    have hc : a.covariance = none ∨ a.covariance = some ((a.labelsOf r).length, (a.labelsOf r).length) := by
      cases hc : a.covariance with
      | none => exact .inl rfl
      | some s => exact .inr (by rw [h4 s hc])
    have heff : ∀ i < (a.sizesOf r).length, ∃ u, a.effectsOf r i = .ok u ∧ u.length = genNum (a.labelsOf r) isRandom a.fri := by
      intro i hi
      unfold GenArgs.effectsOf
      rcases hu with hu | ⟨l, hu, hl⟩
      · rw [hu]
        exact ⟨_, rfl, hfe i hi⟩
      · rw [hu]
        refine ⟨_, rfl, ?_⟩
        cases hd : dictGet l i with
        | none => exact hfe i hi
        | some u =>
          unfold dictGet at hd
          obtain ⟨l1, l2, e, -⟩ := List.lookup_eq_some_iff.1 hd
          exact hl (i, u) (List.mem_reverse.1 (by rw [e]; simp))
    choose! ue hue1 hue2 using heff
    have hdraw : ∀ i ∈ List.range (a.sizesOf r).length, a.drawOf r i = .ok ⟨r.masked i, if genNum (a.labelsOf r) isRandom a.fri = 0 then [] else ue i, r.errors i⟩ := by
      intro i hi
      have hi := List.mem_range.1 hi
      have hp : 0 ≤ a.chanceMissing ∧ 0 ≤ a.chanceOutlier ∧ 0 ≤ 1 - a.chanceMissing - a.chanceOutlier := by
        rcases h5 with h5 | h5
        · rw [h5] at hi; simp at hi
        · exact h5
      unfold GenArgs.drawOf
      rw [if_neg (by push Not; exact hp), hue1 i hi]
      split_ifs <;> rfl
    obtain ⟨P, cs, hP⟩ := lmeGenerate_total ⟨a.labelsOf r, a.ffi, a.fri, a.obsVar, a.beta.getD (r.beta (genNum (a.labelsOf r) isFixed a.ffi))⟩
      ((List.range (a.sizesOf r).length).map fun i => ⟨r.masked i, if genNum (a.labelsOf r) isRandom a.fri = 0 then [] else ue i, r.errors i⟩) (by
        rw [List.length_map, List.length_range, List.map_map]
        have : (List.range (a.sizesOf r).length).map ((fun d : GenDraw K => d.rows.length) ∘ fun i => ⟨r.masked i, if genNum (a.labelsOf r) isRandom a.fri = 0 then [] else ue i, r.errors i⟩) =
            a.sizesOf r := by
          apply List.ext_getElem
          · simp
          · intro i g1 g2
            simp only [List.getElem_map, List.getElem_range, Function.comp_apply]
            rw [masked_length hf g2, List.getD_eq_getElem?_getD, List.getElem?_eq_getElem g2, Option.getD_some]
        rw [this]
        exact hv) h1 hb (by
        intro hq d hd
        obtain ⟨i, hi, rfl⟩ := List.mem_map.1 hd
        simp only
        rw [if_neg hq]
        exact hue2 i (List.mem_range.1 hi))
    exact ⟨_, (genCall_ok a r _).2 ⟨h1, hb, hg, hc, _, P, cs, mapM_ok _ _ _ hdraw, hP, rfl⟩⟩

/-- **C178 is violated**: with the default arguments (labels, coefficients and group sizes drawn, no intercept) every draw in which all labels are `random` raises `ValueError`. -/
theorem C178_default_violated (a : GenArgs K) (r : GenRand K) (h1 : a.labels = none) (h2 : a.ffi = false) (h3 : ∀ n, ∀ l ∈ r.labels n, l = "random") : genCall a r = .error .valueError := by
  have h4 : genNum (a.labelsOf r) isFixed a.ffi = 0 := by
    by_contra h
    rcases (genNum_fixed_ne _ _).1 h with h | h | h
    · rw [h2] at h; cases h
    all_goals
      unfold GenArgs.labelsOf at h
      rw [h1] at h
      exact absurd (h3 _ _ h) (by decide)
  unfold genCall
  simp only [h4]
  split_ifs <;> rfl

/-- Two groups, the size of the first left to the generator, one feature with a fixed and a random effect: the arguments of the following examples. -/
def twoArgs (te : Option (TrueEffects ℚ)) : GenArgs ℚ :=
  { sizes := some [none, some 1], labels := some ["fixed+random"], obsVar := .scalar 1, beta := some [2], gamma := some [1], trueEffects := te, chanceMissing := 1 / 4, chanceOutlier := 1 / 4 }

/-- Random numbers for `twoArgs`: two objects in the first group, an outlier in the second object. -/
def twoRand : GenRand ℚ where
  numFeatures := 1
  labels := fun n => List.replicate n "fixed"
  beta := fun n => List.replicate n 1
  gamma := fun n => List.replicate n 1
  numGroups := 1
  sizes := fun _ => 2
  features := fun i => if i = 0 then [[3], [4]] else [[5]]
  mask := fun i => if i = 0 then [[1], [5]] else [[0]]
  effects := fun _ => [7]
  errors := fun i => if i = 0 then [1, 2] else [3]

theorem two_fits (te : Option (TrueEffects ℚ)) : twoRand.Fits (twoArgs te) 5 := by
  have hs : (twoArgs te).sizesOf twoRand = [2, 1] := rfl
  have hl : (twoArgs te).labelsOf twoRand = ["fixed+random"] := rfl
  have hc : (1 / 4 : ℚ) ≠ 0 := by norm_num
  have h0 : ∀ i, i < ((twoArgs te).sizesOf twoRand).length → i = 0 ∨ i = 1 := by
    intro i hi
    rw [hs] at hi
    simp at hi
    omega
  refine ⟨fun n => ⟨List.length_replicate, fun l hl => .inl (List.eq_of_mem_replicate hl)⟩, fun n => List.length_replicate, fun n => List.length_replicate, fun i hi => ?_, fun i hi => ?_,
    fun i hi => ?_, fun i hi => ?_⟩
  · rw [hs, hl]
    rcases h0 i hi with rfl | rfl
    · exact ⟨rfl, by simp [twoRand]⟩
    · exact ⟨rfl, by simp [twoRand]⟩
  · rw [hs, hl]
    rcases h0 i hi with rfl | rfl
    · exact ⟨rfl, by simp [twoRand, twoArgs]⟩
    · exact ⟨rfl, by simp [twoRand, twoArgs]⟩
  · rw [hl]
    show 1 = List.countP (fun l => decide (l = RANDOM ∨ l = FIXED_RANDOM)) ["fixed+random"] + if false = true then 1 else 0
    decide
  · rw [hs]
    rcases h0 i hi with rfl | rfl <;> rfl

theorem two_call (te : Option (TrueEffects ℚ)) (h : te = none ∨ ∃ l, te = some (.pairs l) ∧ ∀ e ∈ l, e.2.length = 1) : ∃ out, genCall (twoArgs te) twoRand = .ok out := by
  refine (C178_returns_partial (two_fits te) (fun l hl => by cases hl) h).2 ⟨.inr (.inr (by show "fixed+random" ∈ ["fixed+random"]; simp)), ?_, ?_, ?_, .inr ?_⟩
  · intro b hb
    cases hb
    show 1 = List.countP (fun l => decide (l = FIXED ∨ l = FIXED_RANDOM)) ["fixed+random"] + if false = true then 1 else 0
    decide
  · intro b hb
    cases hb
    show 1 = List.countP (fun l => decide (l = RANDOM ∨ l = FIXED_RANDOM)) ["fixed+random"] + if false = true then 1 else 0
    decide
  · intro s hs
    cases hs
  · show (0 : ℚ) ≤ 1 / 4 ∧ (0 : ℚ) ≤ 1 / 4 ∧ (0 : ℚ) ≤ 1 - 1 / 4 - 1 / 4
    norm_num

/-- Non-vacuity of C174–C178: a call with a size to be drawn, random effects given for the second group only, a missing value and an outlier. The effects of the first group are drawn, the given ones are used for the
second, and the caller's list is changed from `[None, 1]` to `[2, 1]`. -/
example : ∃ out, genCall (twoArgs (some (.pairs [(1, [9])]))) twoRand = .ok out ∧ out.randomEffects = [(0, [7]), (1, [9])] ∧ out.callerSizes = some [some 2, some 1] ∧
    out.callerSizes ≠ some [none, some 1] := by
  obtain ⟨out, h⟩ := two_call (some (.pairs [(1, [9])])) (.inr ⟨_, rfl, by simp⟩)
  have hq : genNum ((twoArgs (some (.pairs [(1, [9])]))).labelsOf twoRand) isRandom (twoArgs (some (.pairs [(1, [9])]))).fri ≠ 0 := (by decide : genNum ["fixed+random"] isRandom false ≠ 0)
  obtain ⟨g1, g2⟩ := C176_pairs_partial rfl (by simp) hq h
  have g3 : out.randomEffects.length = 2 := g1
  have e0 := (g2 0 (by show 0 < 2; omega)).2 (by simp)
  have e1 := (g2 1 (by show 1 < 2; omega)).1 [9] (by simp)
  refine ⟨out, h, ?_, ?_, ?_⟩
  · obtain ⟨x, y, hxy⟩ := List.length_eq_two.1 g3
    rw [hxy] at e0 e1 ⊢
    simp only [List.getElem?_cons_zero, Option.some.injEq] at e0
    simp only [List.getElem?_cons_succ, List.getElem?_cons_zero, Option.some.injEq] at e1
    rw [e0, e1]
    rfl
  · obtain ⟨-, -, -, -, draws, P, cs, -, -, rfl⟩ := (genCall_ok _ _ out).1 h
    rfl
  · have := mt (C177_sizes_partial h).1 (fun h1 => h1 [none, some 1] rfl (by simp))
    exact this

/-- Non-vacuity of the violations of C176: a documented array for three groups, and one for two. -/
example : (∃ e, genCall { twoArgs (some (.array [[1 / 2, 1 / 3, 1 / 4]])) with sizes := some [some 1, some 1, some 1] } twoRand = .error e) ∧
    genCall (twoArgs (some (.array [[1 / 2, 1 / 3]]))) twoRand = genCall (twoArgs none) twoRand := by
  refine ⟨C176_array_raises_violated _ _ _ rfl (by simp) (by decide : genNum ["fixed+random"] isRandom false ≠ 0) ?_ (by show 3 ≠ 2; omega) (by show 3 ≠ 0; omega), ?_⟩
  · intro row hr
    rw [List.mem_singleton.1 hr]
    rfl
  · refine C176_array_ignored_violated _ _ _ rfl ?_ rfl ?_
    · intro row hr
      rw [List.mem_singleton.1 hr]
      rfl
    · intro row hr
      rw [List.mem_singleton.1 hr]
      simp

end Verif
