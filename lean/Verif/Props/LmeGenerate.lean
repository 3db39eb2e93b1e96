import Verif.Props.LmeColumns
import Mathlib.Tactic.LinearCombination

/-!
# Iteration, per-group coefficients and generated problems: C49-C52
-/

namespace Verif

variable {K : Type*} [Field K] [LinearOrder K]

universe u in
theorem ebind_ok {α β : Type u} {x : Except PyErr α} {f : α → Except PyErr β} {r : β} : (x >>= f) = .ok r ↔ ∃ a, x = .ok a ∧ f a = .ok r := by
  cases x with
  | error e => simp [bind, Except.bind]
  | ok a => simp [bind, Except.bind]

/-! ## C49 -/

theorem iterRun_append (m : ℕ) (pos : Option ℕ) (a b : List IterOp) :
    iterRun m pos (a ++ b) = ((iterRun m pos a).1 ++ (iterRun m (iterRun m pos a).2 b).1, (iterRun m (iterRun m pos a).2 b).2) := by
  induction a generalizing pos with
  | nil => rfl
  | cons o a ih => simp [iterRun, ih]

theorem iterRun_next (m j k : ℕ) (h : j + k ≤ m) :
    iterRun m (some j) (List.replicate k .next) = ((List.range' j k).map .group, some (j + k)) := by
  induction k generalizing j with
  | zero => rfl
  | succ k ih =>
    have hj : j < m := by omega
    simp only [List.replicate_succ, iterRun, iterStep, if_pos hj]
    rw [ih (j + 1) (by omega)]
    simp [List.range'_succ]
    omega

/-- **C49**, what holds: after `__iter__`, whatever happened before, an uninterrupted traversal yields every group exactly once, in order, and then stops, and keeps stopping. (Missing: traversals that
overlap in time.) -/
theorem C49_iteration_partial (m : ℕ) (before : List IterOp) (pos : Option ℕ) (extra : ℕ) :
    (iterRun m pos (before ++ .iter :: (List.replicate m .next ++ List.replicate extra .next))).1.drop before.length =
      .self :: ((List.range m).map .group ++ List.replicate extra .stop) := by
  have hlen : ∀ (ops : List IterOp) (q : Option ℕ), (iterRun m q ops).1.length = ops.length := by
    intro ops
    induction ops with
    | nil => intro q; rfl
    | cons o ops ih => intro q; simp [iterRun, ih]
  have hstop : ∀ k, iterRun m (some m) (List.replicate k .next) = (List.replicate k .stop, some m) := by
    intro k
    induction k with
    | zero => rfl
    | succ k ih => simp [List.replicate_succ, iterRun, iterStep, ih]
  rw [iterRun_append]
  simp only
  rw [← hlen before pos, List.drop_left]
  simp only [iterRun, iterStep]
  rw [iterRun_append, iterRun_next m 0 m (by omega)]
  simp only [Nat.zero_add, hstop, List.range_eq_range']

/-- **C49 is violated** by nested loops: a loop over the groups inside a loop over the groups of the same problem (`m ≥ 2` groups): after the inner loop ends, the outer loop ends too, having seen only
the first group. -/
theorem C49_nested_violated (m : ℕ) (_hm : 2 ≤ m) (pos : Option ℕ) :
    (iterRun m pos (.iter :: .next :: .iter :: (List.replicate m .next ++ [.next, .next]))).1 =
      .self :: .group 0 :: .self :: ((List.range m).map .group ++ [.stop, .stop]) := by
  have h0 : 0 < m := by omega
  simp only [iterRun, iterStep, if_pos h0]
  rw [iterRun_append, iterRun_next m 0 m (by omega)]
  simp [iterRun, iterStep, List.range_eq_range']

/-- **C49 is violated** by an inner loop that is left early: the outer loop then sees the second group again and again. -/
theorem C49_break_violated (m k : ℕ) (hm : 2 ≤ m) :
    (iterRun m (some 1) ((List.replicate k [IterOp.iter, .next, .next]).flatten)).1 = (List.replicate k [IterOut.self, .group 0, .group 1]).flatten := by
  have h0 : 0 < m := by omega
  have h1 : 1 < m := by omega
  have key : ∀ q : ℕ, (iterRun m (some q) ((List.replicate k [IterOp.iter, .next, .next]).flatten)).1 = (List.replicate k [IterOut.self, .group 0, .group 1]).flatten := by
    induction k with
    | zero => intro q; rfl
    | succ k ih =>
      intro q
      rw [List.replicate_succ, List.replicate_succ, List.flatten_cons, List.flatten_cons, iterRun_append]
      simp only [iterRun, iterStep, if_pos h0, if_pos h1]
      rw [ih]
  exact key 1

example : (2 : ℕ) ≤ 3 := by norm_num

/-! ## C50 -/

/-- Sum of products of two lists. -/
def dotL (a b : List K) : K := (List.zipWith (· * ·) a b).sum

theorem dotL_cons (a b : K) (l m : List K) : dotL (a :: l) (b :: m) = a * b + dotL l m := by simp [dotL]

theorem drop_cons {α : Type*} {l : List α} {k : ℕ} {a : α} (h : l[k]? = some a) : l.drop k = a :: l.drop (k + 1) := by
  obtain ⟨hk, rfl⟩ := List.getElem?_eq_some_iff.1 h
  exact List.drop_eq_getElem_cons hk

theorem perGroup_dot (beta u : List K) (labels : List String) (row : List K) (fc rc : ℕ) (hlen : row.length = labels.length)
    (hb : fc + labels.countP isFixed ≤ beta.length) (hu : rc + labels.countP isRandom ≤ u.length) :
    ∃ c, perGroupCoefs beta u labels fc rc = .ok c ∧ c.length = labels.length ∧
      dotL row c = dotL (selectBy isFixed labels row) (beta.drop fc) + dotL (selectBy isRandom labels row) (u.drop rc) := by
  induction labels generalizing row fc rc with
  | nil =>
    cases row with
    | nil => exact ⟨[], rfl, rfl, by simp [dotL, selectBy]⟩
    | cons a l => simp at hlen
  | cons l ls ih =>
    cases row with
    | nil => simp at hlen
    | cons a row =>
      have hlen' : row.length = ls.length := by simpa using hlen
      rw [List.countP_cons] at hb hu
      unfold perGroupCoefs
      by_cases h1 : l = FIXED
      · subst h1
        simp only [isFixed_FIXED, isRandom_FIXED, if_true] at hb hu
        rw [if_pos rfl, List.getElem?_eq_getElem (show fc < beta.length by omega)]
        obtain ⟨c, hc, hl, hd⟩ := ih row (fc + 1) rc hlen' (by omega) (by simpa using hu)
        refine ⟨beta[fc] :: c, by simp [hc, Except.map], by simp [hl], ?_⟩
        rw [selectBy_cons, selectBy_cons, isFixed_FIXED, isRandom_FIXED, if_pos rfl, if_neg (by simp), List.drop_eq_getElem_cons (show fc < beta.length by omega), dotL_cons, dotL_cons, hd]
        ring
      · rw [if_neg h1]
        by_cases h2 : l = RANDOM
        · subst h2
          simp only [isFixed_RANDOM, isRandom_RANDOM, if_true] at hb hu
          rw [if_pos rfl, List.getElem?_eq_getElem (show rc < u.length by omega)]
          obtain ⟨c, hc, hl, hd⟩ := ih row fc (rc + 1) hlen' (by simpa using hb) (by omega)
          refine ⟨u[rc] :: c, by simp [hc, Except.map], by simp [hl], ?_⟩
          rw [selectBy_cons, selectBy_cons, isFixed_RANDOM, isRandom_RANDOM, if_pos rfl, if_neg (by simp), List.drop_eq_getElem_cons (show rc < u.length by omega), dotL_cons, dotL_cons, hd]
          ring
        · rw [if_neg h2]
          by_cases h3 : l = FIXED_RANDOM
          · subst h3
            simp only [isFixed_FIXED_RANDOM, isRandom_FIXED_RANDOM, if_true] at hb hu
            rw [if_pos rfl, List.getElem?_eq_getElem (show fc < beta.length by omega), List.getElem?_eq_getElem (show rc < u.length by omega)]
            obtain ⟨c, hc, hl, hd⟩ := ih row (fc + 1) (rc + 1) hlen' (by omega) (by omega)
            refine ⟨(beta[fc] + u[rc]) :: c, by simp [hc, Except.map], by simp [hl], ?_⟩
            rw [selectBy_cons, selectBy_cons, isFixed_FIXED_RANDOM, isRandom_FIXED_RANDOM, if_pos rfl, if_pos rfl, List.drop_eq_getElem_cons (show rc < u.length by omega),
              List.drop_eq_getElem_cons (show fc < beta.length by omega), dotL_cons, dotL_cons, dotL_cons, hd]
            ring
          · rw [if_neg h3]
            have f1 : isFixed l = false := by simp [isFixed, h1, h3]
            have f2 : isRandom l = false := by simp [isRandom, h2, h3]
            rw [f1] at hb
            rw [f2] at hu
            obtain ⟨c, hc, hl, hd⟩ := ih row fc rc hlen' (by simpa using hb) (by simpa using hu)
            refine ⟨0 :: c, by simp [hc, Except.map], by simp [hl], ?_⟩
            rw [selectBy_cons, selectBy_cons, f1, f2, if_neg (by simp), if_neg (by simp), dotL_cons, hd]
            ring

/-- **C50.** Multiplying a feature row by the per-group coefficients of its group gives the fixed part of the prediction plus the random part: for all column labels, coefficients and random effects of the right length. -/
theorem C50_per_group {G : Type*} (beta : List K) (res : List (G × List K)) (labels : List String)
    (hb : beta.length = labels.countP (fun l => l = "fixed" ∨ l = "fixed+random"))
    (hu : ∀ lu ∈ res, lu.2.length = labels.countP (fun l => l = "random" ∨ l = "fixed+random")) :
    ∃ cs, getPerGroupCoefficients beta res labels = .ok cs ∧
      List.Forall₂ (fun (lu : G × List K) (lc : G × List K) => lc.1 = lu.1 ∧ lc.2.length = labels.length ∧
        ∀ row : List K, row.length = labels.length →
          dotL row lc.2 = dotL (((labels.zip row).filter fun lv => lv.1 = "fixed" ∨ lv.1 = "fixed+random").map Prod.snd) beta +
            dotL (((labels.zip row).filter fun lv => lv.1 = "random" ∨ lv.1 = "fixed+random").map Prod.snd) lu.2) res cs := by
  have eF : (fun l : String => decide (l = "fixed" ∨ l = "fixed+random")) = isFixed := by funext l; simp [isFixed]
  have eR : (fun l : String => decide (l = "random" ∨ l = "fixed+random")) = isRandom := by funext l; simp [isRandom]
  have eF' : (fun lv : String × K => decide (lv.1 = "fixed" ∨ lv.1 = "fixed+random")) = fun lv => isFixed lv.1 := by funext l; simp [isFixed]
  have eR' : (fun lv : String × K => decide (lv.1 = "random" ∨ lv.1 = "fixed+random")) = fun lv => isRandom lv.1 := by funext l; simp [isRandom]
  rw [eF] at hb
  rw [eR] at hu
  rw [eF', eR']
  induction res with
  | nil => exact ⟨[], rfl, .nil⟩
  | cons lu res ih =>
    obtain ⟨cs, hcs, hall⟩ := ih fun x hx => hu x (by simp [hx])
    have hul := hu lu (by simp)
    obtain ⟨c, hc, hl, -⟩ := perGroup_dot beta lu.2 labels (List.replicate labels.length 0) 0 0 (by simp) (by omega) (by omega)
    obtain ⟨l, u⟩ := lu
    refine ⟨(l, c) :: cs, by simp [getPerGroupCoefficients, hc, hcs, Except.map], .cons ⟨rfl, hl, fun row hrow => ?_⟩ hall⟩
    obtain ⟨c', hc', -, hd⟩ := perGroup_dot beta u labels row 0 0 hrow (by omega) (by simpa using hul.symm.le)
    rw [hc] at hc'
    cases hc'
    simpa only [List.drop_zero, selectBy] using hd

/-- Non-vacuity of C50. -/
example : ([2, 3] : List ℚ).length = ["group", "fixed", "fixed+random", "variance"].countP (fun l => l = "fixed" ∨ l = "fixed+random") ∧
    ∀ lu ∈ [("x", [(5 : ℚ)])], lu.2.length = ["group", "fixed", "fixed+random", "variance"].countP (fun l => l = "random" ∨ l = "fixed+random") := by
  constructor <;> decide

/-! ## C51 -/

/-- What a successful call of `generate` did. -/
theorem lmeGenerate_ok (c : GenCfg K) (draws : List (GenDraw K)) (P : LmeProblem K) (cs : List (ℕ × List K)) :
    lmeGenerate c draws = .ok (P, cs) ↔
      genNum c.labels isFixed c.ffi ≠ 0 ∧ c.beta.length = genNum c.labels isFixed c.ffi ∧
      ∃ gs, genGroups c (draws.map fun d => d.rows.length) 0 0 draws = .ok gs ∧
        getPerGroupCoefficients c.beta (draws.mapIdx fun i d => (i, d.u)) (GROUP :: (c.labels ++ [VARIANCE])) = .ok cs ∧
        P = {
          fixedFeatures := gs.map GenGroup.fixed
          randomFeatures := gs.map GenGroup.random
          obsVars := gs.map GenGroup.obsVars
          groupLabels := (List.range draws.length).map fun (i : ℕ) => (i : K)
          interceptLabel := interceptLabelOf c.ffi c.fri
          columnLabels := GROUP :: (c.labels ++ [VARIANCE])
          orderOfObjects := List.range (draws.map fun d => d.rows.length).sum
          answers := some (gs.map GenGroup.answers)
          feColumns := some (genNames c.labels isFixed c.ffi)
          reColumns := some (genNames c.labels isRandom c.fri)
          feWeights := List.replicate (genNum c.labels isFixed c.ffi) 1
          reWeights := List.replicate (genNum c.labels isRandom c.fri) 1 } := by
  unfold lmeGenerate
  by_cases h1 : genNum c.labels isFixed c.ffi = 0
  · rw [if_pos h1]
    simp [h1]
  rw [if_neg h1]
  by_cases h2 : c.beta.length ≠ genNum c.labels isFixed c.ffi
  · rw [if_pos h2]
    simp [h2]
  rw [if_neg h2]
  have h2' := not_not.1 h2
  simp only
  cases h3 : genGroups c (draws.map fun d => d.rows.length) 0 0 draws with
  | error e => simp [bind, Except.bind]
  | ok gs =>
    cases h4 : getPerGroupCoefficients c.beta (draws.mapIdx fun i d => (i, d.u)) (GROUP :: (c.labels ++ [VARIANCE])) with
    | error e => simp [bind, Except.bind]
    | ok cs' =>
      simp only [bind, Except.bind, pure, Except.pure, Except.ok.injEq, Prod.mk.injEq]
      constructor
      · rintro ⟨rfl, rfl⟩
        exact ⟨h1, h2', gs, rfl, rfl, rfl⟩
      · rintro ⟨-, -, gs', rfl, rfl, rfl⟩
        exact ⟨rfl, rfl⟩

theorem genGroups_cons (c : GenCfg K) (sizes : List ℕ) (start i : ℕ) (d : GenDraw K) (ds : List (GenDraw K)) (gs : List (GenGroup K)) :
    genGroups c sizes start i (d :: ds) = .ok gs ↔
      ∃ var vars ans rest, genVariance c.obsVar sizes start d.rows.length i = .ok var ∧ broadcastVar d.rows.length var = .ok vars ∧
        ((d.rows.zip d.errors).mapM fun re => genAnswer c d.u re.1 re.2) = .ok ans ∧ genGroups c sizes (start + d.rows.length) (i + 1) ds = .ok rest ∧
        gs = ⟨d.rows.map (genRow c.labels isFixed c.ffi),
          if genNum c.labels isRandom c.fri = 0 then .zeroDim else .rows (d.rows.map (genRow c.labels isRandom c.fri)), ans, vars⟩ :: rest := by
  rw [genGroups]
  constructor
  · intro h
    obtain ⟨var, h1, h⟩ := ebind_ok.1 h
    obtain ⟨vars, h2, h⟩ := ebind_ok.1 h
    obtain ⟨ans, h3, h⟩ := ebind_ok.1 h
    obtain ⟨rest, h4, h⟩ := ebind_ok.1 h
    cases h
    exact ⟨var, vars, ans, rest, h1, h2, h3, h4, rfl⟩
  · rintro ⟨var, vars, ans, rest, h1, h2, h3, h4, rfl⟩
    rw [h1]
    simp only [bind, Except.bind, h2, h3, h4]
    rfl

/-- **C51 is violated** with a fixed intercept: for one fixed feature `a ≠ 0` and true coefficients `b0 ≠ b1`, the reported "true" coefficient of the feature is the intercept's, so that the noise-free answer `b0 + b1 a` is not
reproduced, even after adding the intercept. -/
theorem C51_truth_violated (a b0 b1 e : K) (ha : a ≠ 0) (hb : b0 ≠ b1) :
    ∃ P cs, lmeGenerate (⟨[FIXED], true, false, .scalar 1, [b0, b1]⟩ : GenCfg K) [⟨[[a]], [], [e]⟩] = .ok (P, cs) ∧ P.answers = some [[b0 + b1 * a + e]] ∧ cs = [(0, [0, b0, 0])] ∧
      ∀ g v, dotL [g, a, v] [0, b0, 0] + b0 + e ≠ b0 + b1 * a + e := by
  have h1 : genRow [FIXED] isFixed true [a] = [1, a] := by
    simp [genRow, isFixed, List.range_succ]
  have h2 : genNum [FIXED] isFixed true = 2 := by decide
  have h3 : genNum [FIXED] isRandom false = 0 := by decide
  have hgs : genGroups (⟨[FIXED], true, false, .scalar 1, [b0, b1]⟩ : GenCfg K) [1] 0 0 [⟨[[a]], [], [e]⟩] = .ok [⟨[[1, a]], .zeroDim, [b0 + b1 * a + e], [1]⟩] := by
    rw [genGroups_cons]
    refine ⟨_, _, [b0 + b1 * a + e], _, rfl, rfl, ?_, rfl, ?_⟩
    · simp only [List.zip_cons_cons, List.zip_nil_right, List.mapM_cons, List.mapM_nil, genAnswer, genRandomPart, h1, h3, listDot]
      simp [bind, Except.bind, pure, Except.pure, mul_comm]
    · simp [h1, h3]
  refine ⟨_, [(0, [0, b0, 0])], (lmeGenerate_ok _ _ _ _).2 ⟨by rw [h2]; norm_num, by rw [h2]; rfl, _, hgs, rfl, rfl⟩, rfl, rfl, ?_⟩
  intro g v hcon
  simp only [dotL, List.zipWith_cons_cons, List.zipWith_nil_right, List.sum_cons, List.sum_nil] at hcon
  have : a * (b0 - b1) = 0 := by linear_combination hcon
  rcases mul_eq_zero.1 this with h | h
  · exact ha h
  · exact hb (sub_eq_zero.1 h)

theorem selectBy_append {α : Type*} (test : String → Bool) (l1 l2 : List String) (a1 a2 : List α) (h : l1.length = a1.length) :
    selectBy test (l1 ++ l2) (a1 ++ a2) = selectBy test l1 a1 ++ selectBy test l2 a2 := by
  unfold selectBy
  rw [List.zip_append h, List.filter_append, List.map_append]

theorem range_zip (labels : List String) (row : List K) (h : row.length = labels.length) :
    labels.zip row = (List.range labels.length).map fun i => (labels.getD i "", row.getD i 0) := by
  apply List.ext_getElem
  · simp [h]
  · intro i h1 h2
    have h3 : i < labels.length := by simpa using h2
    have h4 : i < row.length := by omega
    simp [List.getD_eq_getElem?_getD, List.getElem?_eq_getElem h3, List.getElem?_eq_getElem h4]

theorem genNum_eq (labels : List String) (test : String → Bool) (b : Bool) : genNum labels test b = labels.countP test + if b then 1 else 0 := by
  unfold genNum
  congr 1
  have : labels = (List.range labels.length).map fun i => labels.getD i "" := by
    apply List.ext_getElem
    · simp
    · intro i h1 h2
      simp [h1]
  conv_rhs => rw [this]
  rw [List.countP_map, List.countP_eq_length_filter]
  rfl

theorem genRow_eq (labels : List String) (test : String → Bool) (row : List K) (h : row.length = labels.length) (hn : genNum labels test false ≠ 0) :
    genRow labels test false row = selectBy test labels row := by
  unfold genRow
  simp only
  rw [if_neg]
  · unfold selectBy
    rw [range_zip labels row h, List.filter_map, List.map_map]
    rfl
  · intro hcon
    apply hn
    unfold genNum
    rw [hcon]
    rfl

theorem selectBy_none (test : String → Bool) (labels : List String) (row : List K) (h : labels.countP test = 0) : selectBy test labels row = [] := by
  unfold selectBy
  rw [List.map_eq_nil_iff, List.filter_eq_nil_iff]
  intro lv hlv
  exact List.countP_eq_zero.1 h lv.1 (List.of_mem_zip hlv).1

theorem genGroups_answers (c : GenCfg K) (sizes : List ℕ) (start i : ℕ) (ds : List (GenDraw K)) (gs : List (GenGroup K)) (h : genGroups c sizes start i ds = .ok gs) :
    List.Forall₂ (fun d g => ((d.rows.zip d.errors).mapM fun re => genAnswer c d.u re.1 re.2) = .ok g.answers) ds gs := by
  induction ds generalizing start i gs with
  | nil => cases h; exact .nil
  | cons d ds ih =>
    obtain ⟨var, vars, ans, rest, -, -, h3, h4, rfl⟩ := (genGroups_cons ..).1 h
    exact .cons h3 (ih _ _ _ h4)

/-- **C51**, what holds: without intercepts, every answer of the generated problem is the product of its row (as `to_x_y` lays it out: group label, features, variance) with the reported coefficients of its group, plus
the error drawn for it. (Missing: problems with intercepts.) -/
theorem C51_truth_partial (c : GenCfg K) (draws : List (GenDraw K)) (hffi : c.ffi = false) (hfri : c.fri = false)
    (hrows : ∀ d ∈ draws, ∀ row ∈ d.rows, row.length = c.labels.length) (hu : ∀ d ∈ draws, d.u.length = c.labels.countP (fun l => l = "random" ∨ l = "fixed+random"))
    (P : LmeProblem K) (cs : List (ℕ × List K)) (h : lmeGenerate c draws = .ok (P, cs)) :
    ∃ ans, P.answers = some ans ∧ ∀ (i : ℕ) (d : GenDraw K), draws[i]? = some d → ∃ b as, cs[i]? = some (i, b) ∧ ans[i]? = some as ∧
      ∀ (j : ℕ) (row : List K) (e : K), d.rows[j]? = some row → d.errors[j]? = some e →
        ∃ a, as[j]? = some a ∧ ∀ g v, a = dotL (g :: (row ++ [v])) b + e := by
  obtain ⟨hn, hbeta, gs, hgs, hcs, rfl⟩ := (lmeGenerate_ok c draws P cs).1 h
  rw [hffi] at hn hbeta
  have eR : (fun l : String => decide (l = "random" ∨ l = "fixed+random")) = isRandom := by funext l; simp [isRandom]
  rw [eR] at hu
  have cF : (GROUP :: (c.labels ++ [VARIANCE])).countP isFixed = c.labels.countP isFixed := by
    rw [List.countP_cons, List.countP_append]; simp [isFixed_GROUP, isFixed_VARIANCE]
  have cR : (GROUP :: (c.labels ++ [VARIANCE])).countP isRandom = c.labels.countP isRandom := by
    rw [List.countP_cons, List.countP_append]; simp [isRandom_GROUP, isRandom_VARIANCE]
  have hbl : c.beta.length = c.labels.countP isFixed := by rw [hbeta, genNum_eq]; simp
  obtain ⟨cs', hcs', hall⟩ := C50_per_group c.beta (draws.mapIdx fun i d => (i, d.u)) (GROUP :: (c.labels ++ [VARIANCE]))
    (by rw [show (fun l : String => decide (l = "fixed" ∨ l = "fixed+random")) = isFixed by funext l; simp [isFixed], cF, hbl])
    (by
      intro lu hlu
      rw [eR, cR]
      obtain ⟨i, hi, rfl⟩ := List.mem_mapIdx.1 hlu
      exact hu _ (List.getElem_mem hi))
  rw [hcs] at hcs'
  cases hcs'
  refine ⟨_, rfl, fun i d hd => ?_⟩
  obtain ⟨hi, hd'⟩ := List.getElem?_eq_some_iff.1 hd
  have hmem : d ∈ draws := hd' ▸ List.getElem_mem hi
  -- coefficients
  have hl1 := hall.length_eq
  have hi1 : i < (draws.mapIdx fun i d => (i, d.u)).length := by simpa using hi
  have hi2 : i < cs.length := by omega
  have hci := (List.forall₂_iff_get.1 hall).2 i hi1 hi2
  simp only [List.get_eq_getElem, List.getElem_mapIdx, hd'] at hci
  obtain ⟨hc1, hc2, hc3⟩ := hci
  -- answers
  have hga := genGroups_answers c _ _ _ _ _ hgs
  have hi3 : i < gs.length := by have := hga.length_eq; omega
  have hai := (List.forall₂_iff_get.1 hga).2 i hi hi3
  simp only [List.get_eq_getElem, hd'] at hai
  have hai' := mapM_ok_inv _ _ _ hai
  refine ⟨cs[i].2, gs[i].answers, ?_, ?_, ?_⟩
  · rw [List.getElem?_eq_getElem hi2]
    exact congrArg some (Prod.ext hc1 rfl)
  · simp [hi3]
  intro j row e hrow he
  obtain ⟨hj1, hrow'⟩ := List.getElem?_eq_some_iff.1 hrow
  obtain ⟨hj2, he'⟩ := List.getElem?_eq_some_iff.1 he
  have hj3 : j < (d.rows.zip d.errors).length := by simp; omega
  have hj4 : j < gs[i].answers.length := by have := hai'.length_eq; omega
  have hj := (List.forall₂_iff_get.1 hai').2 j hj3 hj4
  simp only [List.get_eq_getElem, List.getElem_zip, hrow', he'] at hj
  refine ⟨gs[i].answers[j], List.getElem?_eq_getElem hj4, fun g v => ?_⟩
  have hrl := hrows d hmem row (hrow' ▸ List.getElem_mem hj1)
  rw [hc3 (g :: (row ++ [v])) (by simp [hrl])]
  have eF' : (fun lv : String × K => decide (lv.1 = "fixed" ∨ lv.1 = "fixed+random")) = fun lv => isFixed lv.1 := by funext l; simp [isFixed]
  have eR' : (fun lv : String × K => decide (lv.1 = "random" ∨ lv.1 = "fixed+random")) = fun lv => isRandom lv.1 := by funext l; simp [isRandom]
  rw [eF', eR']
  have sF : (((GROUP :: (c.labels ++ [VARIANCE])).zip (g :: (row ++ [v]))).filter fun lv => isFixed lv.1).map Prod.snd = selectBy isFixed c.labels row := by
    change selectBy isFixed (GROUP :: (c.labels ++ [VARIANCE])) (g :: (row ++ [v])) = _
    rw [selectBy_cons, if_neg (by simp [isFixed_GROUP]), selectBy_append _ _ _ _ _ hrl.symm]
    simp [selectBy, isFixed_VARIANCE]
  have sR : (((GROUP :: (c.labels ++ [VARIANCE])).zip (g :: (row ++ [v]))).filter fun lv => isRandom lv.1).map Prod.snd = selectBy isRandom c.labels row := by
    change selectBy isRandom (GROUP :: (c.labels ++ [VARIANCE])) (g :: (row ++ [v])) = _
    rw [selectBy_cons, if_neg (by simp [isRandom_GROUP]), selectBy_append _ _ _ _ _ hrl.symm]
    simp [selectBy, isRandom_VARIANCE]
  rw [sF, sR]
  unfold genAnswer genRandomPart at hj
  rw [hffi, hfri, genRow_eq _ _ _ hrl hn] at hj
  obtain ⟨a1, ha1, hj⟩ := ebind_ok.1 hj
  obtain ⟨a2, ha2, hj⟩ := ebind_ok.1 hj
  have hsum : gs[i].answers[j] = a1 + a2 + e := (Except.ok.inj hj).symm
  have e1 : a1 = dotL (selectBy isFixed c.labels row) c.beta := by
    unfold listDot at ha1
    split_ifs at ha1
    exact (Except.ok.inj ha1).symm
  have e2 : a2 = dotL (selectBy isRandom c.labels row) d.u := by
    by_cases hz : genNum c.labels isRandom false = 0
    · rw [if_pos hz] at ha2
      rw [genNum_eq] at hz
      rw [selectBy_none isRandom c.labels row (by simpa using hz), ← Except.ok.inj ha2]
      rfl
    · rw [if_neg hz, genRow_eq _ _ _ hrl hz] at ha2
      unfold listDot at ha2
      split_ifs at ha2
      exact (Except.ok.inj ha2).symm
  rw [hsum, e1, e2]

/-- Non-vacuity of the partial C51: two groups, a mixed feature. -/
example : ∃ P cs, lmeGenerate (⟨[FIXED_RANDOM], false, false, .scalar 1, [2]⟩ : GenCfg ℚ) [⟨[[3], [4]], [5], [1, 1]⟩, ⟨[[7]], [6], [1]⟩] = .ok (P, cs) ∧ P.answers = some [[22, 29], [57]] := by
  have hgs : genGroups (⟨[FIXED_RANDOM], false, false, .scalar 1, [2]⟩ : GenCfg ℚ) [2, 1] 0 0 [⟨[[3], [4]], [5], [1, 1]⟩, ⟨[[7]], [6], [1]⟩] =
      .ok [⟨[[3], [4]], .rows [[3], [4]], [22, 29], [1, 1]⟩, ⟨[[7]], .rows [[7]], [57], [1]⟩] := by
    have h3 : genNum [FIXED_RANDOM] isRandom false = 1 := by decide
    have h1 : ∀ x : ℚ, genRow [FIXED_RANDOM] isFixed false [x] = [x] := fun x => by simp [genRow, isFixed, List.range_succ]
    have h2 : ∀ x : ℚ, genRow [FIXED_RANDOM] isRandom false [x] = [x] := fun x => by simp [genRow, isRandom, List.range_succ]
    rw [genGroups_cons]
    refine ⟨_, _, [22, 29], _, rfl, rfl, ?_, ?_, rfl⟩
    · simp only [List.zip_cons_cons, List.zip_nil_right, List.mapM_cons, List.mapM_nil, genAnswer, genRandomPart, h1, h2, h3, listDot]
      simp [bind, Except.bind, pure, Except.pure]
      norm_num
    · rw [genGroups_cons]
      refine ⟨_, _, [57], _, rfl, rfl, ?_, rfl, rfl⟩
      simp only [List.zip_cons_cons, List.zip_nil_right, List.mapM_cons, List.mapM_nil, genAnswer, genRandomPart, h1, h2, h3, listDot]
      simp [bind, Except.bind, pure, Except.pure]
      norm_num
  exact ⟨_, _, (lmeGenerate_ok _ _ _ _).2 ⟨by decide, by decide, _, hgs, rfl, rfl⟩, rfl⟩

/-! ## C52 -/

theorem slice_broadcast (a : List K) (start size : ℕ) (hstart : 0 < start) (hsize : 0 < size) (hle : size ≤ a.length) :
    broadcastVar size (.array ((a.take size).drop start)) = if size = start + 1 then .ok (List.replicate size (a.getD start 0)) else .error .valueError := by
  have hlen : ((a.take size).drop start).length = size - start := by simp [hle]
  unfold broadcastVar
  simp only
  rw [if_neg (by omega)]
  split_ifs with h
  · have hlt : start < (a.take size).length := by simp; omega
    have : (a.take size).drop start = [a.getD start 0] := by
      rw [List.drop_eq_getElem_cons hlt]
      have h2 : start < a.length := by omega
      simp [List.getD_eq_getElem?_getD, List.getElem?_eq_getElem h2, h]
    rw [this]
  · split
    · rename_i v hv
      rw [hv] at hlen
      simp at hlen
      omega
    · rfl

/-- **C52 is violated** for per-object variances and at least two (non-empty) groups: the call fails unless the second group happens to have exactly one object more than the first, and then all its objects get one
and the same variance. -/
theorem C52_slice_violated (c : GenCfg K) (a : List K) (d0 d1 : GenDraw K) (ds : List (GenDraw K)) (hvar : c.obsVar = .array a)
    (hlen : a.length = ((d0 :: d1 :: ds).map fun d => d.rows.length).sum) (h0 : 0 < d0.rows.length) (h1 : 0 < d1.rows.length)
    (P : LmeProblem K) (cs : List (ℕ × List K)) (h : lmeGenerate c (d0 :: d1 :: ds) = .ok (P, cs)) :
    d1.rows.length = d0.rows.length + 1 ∧ P.obsVars[1]? = some (List.replicate d1.rows.length (a.getD d0.rows.length 0)) := by
  obtain ⟨hn, hbeta, gs, hgs, hcs, rfl⟩ := (lmeGenerate_ok c _ P cs).1 h
  obtain ⟨var, vars, ans, rest, -, -, -, hrest, rfl⟩ := (genGroups_cons ..).1 hgs
  obtain ⟨var1, vars1, ans1, rest1, hv, hb, -, -, rfl⟩ := (genGroups_cons ..).1 hrest
  rw [hvar] at hv
  simp only [genVariance, hlen, if_true] at hv
  cases hv
  rw [Nat.zero_add, slice_broadcast a _ _ h0 h1 (by rw [hlen]; simp; omega)] at hb
  split_ifs at hb with hs
  cases hb
  exact ⟨hs, rfl⟩

/-- In particular two groups of the same size are rejected. -/
theorem C52_equal_sizes_violated (c : GenCfg K) (a : List K) (d0 d1 : GenDraw K) (hvar : c.obsVar = .array a)
    (hlen : a.length = d0.rows.length + d1.rows.length) (h0 : 0 < d0.rows.length) (heq : d1.rows.length = d0.rows.length) :
    ∀ r, lmeGenerate c [d0, d1] ≠ .ok r := by
  rintro ⟨P, cs⟩ h
  have := (C52_slice_violated c a d0 d1 [] hvar (by simp [hlen]) h0 (by omega) P cs h).1
  omega

/-- **C52**, what holds: a scalar, one variance per group, or per-object variances of a single group are used as described. (Missing: per-object variances of several groups.) -/
theorem C52_variance_partial (c : GenCfg K) (draws : List (GenDraw K)) (P : LmeProblem K) (cs : List (ℕ × List K)) (h : lmeGenerate c draws = .ok (P, cs)) :
    (∀ v, c.obsVar = .scalar v → P.obsVars = draws.map fun d => List.replicate d.rows.length v) ∧
    (∀ a, c.obsVar = .array a → a.length = draws.length → a.length ≠ (draws.map fun d => d.rows.length).sum →
      P.obsVars = (draws.zip a).map fun da => List.replicate da.1.rows.length da.2) ∧
    (∀ a d, c.obsVar = .array a → draws = [d] → a.length = d.rows.length → P.obsVars = [a]) := by
  obtain ⟨hn, hbeta, gs, hgs, hcs, rfl⟩ := (lmeGenerate_ok c draws P cs).1 h
  simp only
  refine ⟨?_, ?_, ?_⟩
  · intro v hv
    generalize (draws.map fun d => d.rows.length) = sizes at hgs
    clear h hcs
    generalize 0 = s at hgs
    revert hgs
    generalize hi : (if True then s else s) = i
    have : ∀ (draws : List (GenDraw K)) (s i : ℕ) (gs : List (GenGroup K)), genGroups c sizes s i draws = .ok gs → gs.map GenGroup.obsVars = draws.map fun d => List.replicate d.rows.length v := by
      intro draws
      induction draws with
      | nil => intro s i gs h; cases h; rfl
      | cons d ds ih =>
        intro s i gs h
        obtain ⟨var, vars, ans, rest, h1, h2, -, h4, rfl⟩ := (genGroups_cons ..).1 h
        rw [hv] at h1
        cases h1
        cases h2
        simp [ih _ _ _ h4]
    exact fun h => this _ _ _ _ h
  · intro a ha hl hne
    have : ∀ (ds : List (GenDraw K)) (s i : ℕ) (gs : List (GenGroup K)), genGroups c (draws.map fun d => d.rows.length) s i ds = .ok gs → i + ds.length = a.length →
        gs.map GenGroup.obsVars = (ds.zip (a.drop i)).map fun da => List.replicate da.1.rows.length da.2 := by
      intro ds
      induction ds with
      | nil => intro s i gs h _; cases h; rfl
      | cons d ds ih =>
        intro s i gs h hi
        obtain ⟨var, vars, ans, rest, h1, h2, -, h4, rfl⟩ := (genGroups_cons ..).1 h
        have hlt : i < a.length := by simp at hi; omega
        rw [ha] at h1
        simp only [genVariance] at h1
        rw [if_neg hne, if_pos (by simp [hl]), List.getElem?_eq_getElem hlt] at h1
        cases h1
        cases h2
        rw [List.drop_eq_getElem_cons hlt, List.map_cons, List.zip_cons_cons, List.map_cons, ih _ _ _ h4 (by simp at hi; omega)]
    simpa using this draws 0 0 gs hgs (by omega)
  · intro a d ha hd hl
    subst hd
    obtain ⟨var, vars, ans, rest, h1, h2, -, h4, rfl⟩ := (genGroups_cons ..).1 hgs
    cases h4
    rw [ha] at h1
    simp only [genVariance, List.map_cons, List.map_nil, List.sum_cons, List.sum_nil, Nat.add_zero, hl, if_true, List.drop_zero] at h1
    rw [← hl, List.take_length] at h1
    cases h1
    unfold broadcastVar at h2
    simp only [hl, if_true] at h2
    cases h2
    rfl

end Verif
