import Verif.Spec.LmeModel
import Verif.Props.LmeColumns
import Mathlib.Tactic.Positivity
import Mathlib.Data.List.Pairwise

/-!
# Predictions of the mixed-effects models: C71, C72, C75
-/

namespace Verif

open Matrix

variable {N k : ℕ}

theorem filter_range_eq {l : List ℝ} (hl : l.Nodup) {a : ℝ} {i : ℕ} (hi : i < l.length) (ha : l[i] = a) :
    labelPositions l a = [i] := by
  unfold labelPositions
  have : (List.range l.length).filter (fun j => decide (l.getD j 0 = a)) =
      (List.range l.length).filter (fun j => j == i) := by
    apply List.filter_congr
    intro j hj
    have hj' : j < l.length := List.mem_range.1 hj
    rw [Bool.eq_iff_iff]
    simp only [List.getD_eq_getElem?_getD, List.getElem?_eq_getElem hj', Option.getD_some, decide_eq_true_eq,
      beq_iff_eq]
    constructor
    · intro h
      exact (List.Nodup.getElem_inj_iff hl).1 (h.trans ha.symm)
    · rintro rfl; exact ha
  rw [this, List.filter_beq, List.count_eq_one_of_mem List.nodup_range (List.mem_range.2 hi)]
  rfl

theorem labelPositions_not_mem {l : List ℝ} {a : ℝ} (h : a ∉ l) : labelPositions l a = [] := by
  unfold labelPositions
  rw [List.filter_eq_nil_iff]
  intro j hj
  have hj' : j < l.length := List.mem_range.1 hj
  simp only [List.getD_eq_getElem?_getD, List.getElem?_eq_getElem hj', Option.getD_some, decide_eq_true_eq]
  rintro rfl
  exact h (List.getElem_mem hj')

theorem rowsDot_map {α : Type*} (rows : List α) (f : α → List ℝ) (v : List ℝ) (h : ∀ r ∈ rows, (f r).length = v.length) :
    rowsDot (rows.map f) v = .ok (rows.map fun r => sumProd (f r) v) := by
  unfold rowsDot
  refine mapM_map_ok rows f _ _ fun r hr => ?_
  simp [listDot, h r hr, sumProd]

theorem find_zip {us : List (List ℝ)} : ∀ {ls : List ℝ}, ls.Nodup → us.length = ls.length → ∀ {i : ℕ} (hi : i < ls.length)
    (hi' : i < us.length), (ls.zip us).find? (fun e => decide (e.1 = ls[i])) = some (ls[i], us[i]) := by
  induction us with
  | nil => intro ls _ _ i _ hi'; simp at hi'
  | cons u us ih =>
    intro ls hn hl i hi hi'
    cases ls with
    | nil => simp at hi
    | cons a ls =>
      cases i with
      | zero => simp
      | succ i =>
        have hna : a ≠ ls[i]'(by simpa using hi) := by
          intro hcon
          apply (List.nodup_cons.1 hn).1
          rw [hcon]
          exact List.getElem_mem _
        simp only [List.zip_cons_cons, List.getElem_cons_succ]
        rw [List.find?_cons_of_neg (by simpa using hna)]
        exact ih (List.nodup_cons.1 hn).2 (by simpa using hl) (by simpa using hi) (by simpa using hi')

theorem effectsOf_eq {c : LmeCoef} {p q : ℕ} (hc : c.Consistent p q) {i : ℕ} (hi : i < c.groupLabels.length) :
    c.effectsOf (c.groupLabels[i]) = c.randomEffects[i]'(by rw [hc.groups]; exact hi) := by
  unfold LmeCoef.effectsOf
  rw [find_zip hc.labels hc.groups hi (by rw [hc.groups]; exact hi)]
  rfl

theorem sumProd_nil_left (v : List ℝ) : sumProd [] v = 0 := by simp [sumProd]

/-- The prediction of one group. -/
theorem lmePredictGroup_ok {c : LmeCoef} {p q : ℕ} (hc : c.Consistent p q) (label : ℝ) (rows : List (Fin N))
    (F Z : Fin N → List ℝ) (hF : ∀ r, (F r).length = p) (hZ : ∀ r, (Z r).length = q)
    (hl : q = 0 ∨ label ∈ c.groupLabels) :
    lmePredictGroup c q label (rows.map F) (.rows (rows.map Z)) =
      .ok (rows.map fun r => sumProd (F r) c.beta + sumProd (Z r) (c.effectsOf label)) := by
  unfold lmePredictGroup
  rw [rowsDot_map rows F c.beta fun r _ => by rw [hF, hc.beta]]
  change (if 0 < q then _ else _) = _
  rcases Nat.eq_zero_or_pos q with h0 | h0
  · rw [if_neg (by omega)]
    have e : ∀ r, Z r = [] := fun r => List.eq_nil_of_length_eq_zero (by rw [hZ, h0])
    simp only [e, sumProd_nil_left, add_zero]
    rfl
  · rw [if_pos h0]
    have hl' : label ∈ c.groupLabels := hl.resolve_left (by omega)
    obtain ⟨i, hi, rfl⟩ := List.getElem_of_mem hl'
    have hiu : i < c.randomEffects.length := by rw [hc.groups]; exact hi
    have hu : (c.randomEffects[i]).length = q := hc.effects _ (List.getElem_mem hiu)
    have htake : takeIdx c.randomEffects [i] = .ok [c.randomEffects[i]] := by
      unfold takeIdx
      rw [List.mapM_cons, List.getElem?_eq_getElem hiu]
      rfl
    rw [filter_range_eq hc.labels hi rfl, htake]
    change (rowsDot (rows.map Z) ([c.randomEffects[i]].flatten) >>= _) = _
    rw [rowsDot_map rows Z _ fun r _ => by simp [hZ, hu], effectsOf_eq hc hi]
    change (if _ then _ else _) = _
    rw [if_pos (by simp)]
    simp only [List.flatten_cons, List.flatten_nil, List.append_nil]
    change Except.ok _ = _
    rw [List.zipWith_map, List.zipWith_self]

/-- A group with a label not seen in training, with random effects. -/
theorem lmePredictGroup_unseen {c : LmeCoef} {p q : ℕ} (hc : c.Consistent p q) (hq : 0 < q) (label : ℝ)
    (rows : List (Fin N)) (hrows : rows ≠ []) (F Z : Fin N → List ℝ) (hF : ∀ r, (F r).length = p)
    (hZ : ∀ r, (Z r).length = q) (hl : label ∉ c.groupLabels) :
    lmePredictGroup c q label (rows.map F) (.rows (rows.map Z)) = .error .valueError := by
  unfold lmePredictGroup
  rw [rowsDot_map rows F c.beta fun r _ => by rw [hF, hc.beta]]
  change (if 0 < q then _ else _) = _
  rw [if_pos hq, labelPositions_not_mem hl]
  change (rowsDot (rows.map Z) [] >>= _) = _
  cases rows with
  | nil => exact (hrows rfl).elim
  | cons r rows =>
    unfold rowsDot
    rw [List.map_cons, List.mapM_cons]
    have : listDot (Z r) [] = Except.error PyErr.valueError := by
      unfold listDot
      rw [if_neg]
      simp only [List.length_nil]
      rw [hZ]; omega
    rw [this]
    rfl

theorem selectBy_length (test : String → Bool) (labels : List String) (vals : List ℝ) (h : labels.length = vals.length) :
    (selectBy test labels vals).length = labels.countP test := by
  unfold selectBy
  rw [List.length_map, ← List.countP_eq_length_filter]
  have : labels = (labels.zip vals).map Prod.fst := (List.map_fst_zip h.le).symm
  conv_rhs => rw [this]
  rw [List.countP_map]
  rfl

theorem fixedEntries_eq (x : Matrix (Fin N) (Fin k) ℝ) (labels : List String) (hlen : labels.length = k) (ffi : Bool) (r : Fin N) :
    designRow x ffi (labelIdx labels isFixed) r = fixedEntries labels ffi x r := by
  rw [designRow_eq x labels hlen, selectBy]
  unfold fixedEntries
  congr 3
  funext lv
  rw [Bool.eq_iff_iff]
  simp [isFixed, FIXED, FIXED_RANDOM]

theorem randomEntries_eq (x : Matrix (Fin N) (Fin k) ℝ) (labels : List String) (hlen : labels.length = k) (fri : Bool) (r : Fin N) :
    designRow x fri (labelIdx labels isRandom) r = randomEntries labels fri x r := by
  rw [designRow_eq x labels hlen, selectBy]
  unfold randomEntries
  congr 3
  funext lv
  rw [Bool.eq_iff_iff]
  simp [isRandom, RANDOM, FIXED_RANDOM]

theorem fixedCount_eq (labels : List String) (ffi : Bool) : fixedCount labels ffi = labels.countP isFixed + ffi.toNat := by
  unfold fixedCount
  rw [← List.countP_eq_length_filter]
  congr 1
  · congr 1; funext l; rw [Bool.eq_iff_iff]; simp [isFixed, FIXED, FIXED_RANDOM]
  · cases ffi <;> rfl

theorem randomCount_eq (labels : List String) (fri : Bool) : randomCount labels fri = labels.countP isRandom + fri.toNat := by
  unfold randomCount
  rw [← List.countP_eq_length_filter]
  congr 1
  · congr 1; funext l; rw [Bool.eq_iff_iff]; simp [isRandom, RANDOM, FIXED_RANDOM]
  · cases fri <;> rfl

theorem designRow_fixed_length (x : Matrix (Fin N) (Fin k) ℝ) (labels : List String) (hlen : labels.length = k) (ffi : Bool) (r : Fin N) :
    (designRow x ffi (labelIdx labels isFixed) r).length = fixedCount labels ffi := by
  rw [designRow_eq x labels hlen, fixedCount_eq, List.length_append, selectBy_length _ _ _ (by simp [hlen])]
  cases ffi <;> simp [Nat.add_comm]

theorem designRow_random_length (x : Matrix (Fin N) (Fin k) ℝ) (labels : List String) (hlen : labels.length = k) (fri : Bool) (r : Fin N) :
    (designRow x fri (labelIdx labels isRandom) r).length = randomCount labels fri := by
  rw [designRow_eq x labels hlen, randomCount_eq, List.length_append, selectBy_length _ _ _ (by simp [hlen])]
  cases fri <;> simp [Nat.add_comm]

/-- Rows in the order in which predictions are returned. -/
noncomputable def groupedRows (x : Matrix (Fin N) (Fin k) ℝ) (g : Fin k) : List (Fin N) :=
  (uniqueLabels fun r => x r g).flatMap (groupRows fun r => x r g)

theorem groupedRows_sorted (x : Matrix (Fin N) (Fin k) ℝ) (g : Fin k) :
    (groupedRows x g).Pairwise fun a b => x a g < x b g ∨ x a g = x b g ∧ a < b := by
  unfold groupedRows
  rw [List.flatMap_def, List.pairwise_flatten]
  refine ⟨fun l hl => ?_, ?_⟩
  · obtain ⟨a, -, rfl⟩ := List.mem_map.1 hl
    refine (groupRows_sorted (fun r => x r g) a).imp_of_mem fun {r s} hr hs h => .inr ⟨?_, h⟩
    rw [(groupRows_mem (fun r => x r g) a r).1 hr, (groupRows_mem (fun r => x r g) a s).1 hs]
  · rw [List.pairwise_map]
    refine (uniqueLabels_sorted fun r => x r g).imp fun {a b} h r hr s hs => .inl ?_
    rw [(groupRows_mem (fun r => x r g) a r).1 hr, (groupRows_mem (fun r => x r g) b s).1 hs]
    exact h

/-- The group column is the one labelled so. -/
theorem group_column (labels : List String) (hlen : labels.length = k) (g g' : Fin k)
    (hg' : labelIdx labels (· = GROUP) = [g']) (hg : labels[(g : ℕ)]? = some "group") : g' = g := by
  have : g ∈ labelIdx (p := k) labels (fun l => decide (l = GROUP)) := by
    rw [mem_labelIdx]
    simp [List.getD_eq_getElem?_getD, hg, GROUP]
  rw [hg'] at this
  exact (List.mem_singleton.1 this).symm

theorem lmePredict_unfold (c : LmeCoef) (x : Matrix (Fin N) (Fin k) ℝ) (labels : List String) (ffi fri : Bool) (g : Fin k)
    (P : LmeProblem ℝ) (hP : lmeFromXY x none none labels ffi fri none none = .ok P) (hN : 0 < N)
    (hg : labels[(g : ℕ)]? = some "group") (hc : c.Consistent (fixedCount labels ffi) (randomCount labels fri)) :
    lmePredict (some c) x (some labels) ffi fri =
      (((uniqueLabels fun r => x r g).mapM fun l =>
        lmePredictGroup c (randomCount labels fri) l
          ((groupRows (fun r => x r g) l).map (designRow x ffi (labelIdx labels isFixed)))
          (.rows ((groupRows (fun r => x r g) l).map (designRow x fri (labelIdx labels isRandom))))) >>=
        fun ys => .ok ys.flatten) := by
  obtain ⟨g', v, feW, reW, hg', hv, hlen, -, -, -, -, -, -, -, hPe⟩ := lmeFromXY_ok x none none labels ffi fri none none P hP
  obtain rfl := group_column labels hlen g g' hg' hg
  have hF := numFixed_eq P ffi fri (by rw [hPe])
  have hR := numRandom_eq P ffi fri (by rw [hPe])
  have hcl : P.columnLabels = labels := by rw [hPe]
  rw [hcl, ← fixedCount_eq] at hF
  rw [hcl, ← randomCount_eq] at hR
  have h1 : P.groupLabels.zip (P.fixedFeatures.zip P.randomFeatures) = (uniqueLabels fun r => x r g').map fun l =>
      (l, (groupRows (fun r => x r g') l).map (designRow x ffi (labelIdx labels isFixed)),
        RandomDesign.rows ((groupRows (fun r => x r g') l).map (designRow x fri (labelIdx labels isRandom)))) := by
    rw [hPe]
    simp only [List.zip_map']
    conv_lhs => rw [← List.map_id (uniqueLabels fun r => x r g')]
    simp only [List.map_id, List.zip_map']
    rw [← List.map_id (uniqueLabels fun r => x r g'), List.map_map, List.zip_map', List.map_id]
    rfl
  have hne : uniqueLabels (fun r => x r g') ≠ [] := by
    have : x ⟨0, hN⟩ g' ∈ uniqueLabels (fun r => x r g') := (uniqueLabels_mem _ _).2 ⟨_, rfl⟩
    exact List.ne_nil_of_mem this
  unfold lmePredict
  simp only
  rw [if_neg (by have := g'.2; omega), hP]
  change lmePredictProblem (some c) P = _
  unfold lmePredictProblem
  simp only
  rw [if_neg, if_neg]
  · rw [h1, hR, List.mapM_map]
    simp only [Function.comp_def]
    generalize hm : (List.mapM _ (uniqueLabels fun r => x r g') : Except PyErr (List (List ℝ))) = m
    cases m with
    | error e => rfl
    | ok ys =>
      change (if ys = [] then _ else _) = _
      rw [if_neg]
      · rfl
      · rintro rfl
        have := (mapM_ok_inv _ _ _ hm)
        cases h : uniqueLabels (fun r => x r g') with
        | nil => exact hne h
        | cons a l => rw [h] at this; cases this
  · rw [hR]
    rintro ⟨u, hu, hne⟩
    exact hne (hc.effects u (List.mem_of_mem_head? hu)).symm
  · rw [hF, hc.beta]
    simp

theorem mapM_error {α β : Type*} (l : List α) (f : α → Except PyErr β) (e : PyErr)
    (h : ∀ a ∈ l, (∃ b, f a = .ok b) ∨ f a = .error e) (hex : ∃ a ∈ l, f a = .error e) : l.mapM f = .error e := by
  induction l with
  | nil => obtain ⟨a, ha, -⟩ := hex; cases ha
  | cons a l ih =>
    rw [List.mapM_cons]
    rcases h a (by simp) with ⟨b, hb⟩ | hb
    · rw [hb]
      obtain ⟨a', ha', he⟩ := hex
      rcases List.mem_cons.1 ha' with rfl | ha'
      · rw [hb] at he; cases he
      · change (List.mapM f l >>= _) = _
        rw [ih (fun a ha => h a (by simp [ha])) ⟨a', ha', he⟩]
        rfl
    · rw [hb]; rfl

theorem groupRows_ne_nil {v : Vec ℝ N} {l : ℝ} (h : l ∈ uniqueLabels v) : groupRows v l ≠ [] := by
  obtain ⟨r, hr⟩ := (uniqueLabels_mem v l).1 h
  exact List.ne_nil_of_mem ((groupRows_mem v l r).2 hr)

theorem lmePredict_ok (c : LmeCoef) (x : Matrix (Fin N) (Fin k) ℝ) (labels : List String) (ffi fri : Bool) (g : Fin k)
    (P : LmeProblem ℝ) (hP : lmeFromXY x none none labels ffi fri none none = .ok P) (hN : 0 < N)
    (hg : labels[(g : ℕ)]? = some "group") (hc : c.Consistent (fixedCount labels ffi) (randomCount labels fri))
    (hseen : randomCount labels fri = 0 ∨ ∀ r, x r g ∈ c.groupLabels) :
    lmePredict (some c) x (some labels) ffi fri =
      .ok ((groupedRows x g).map (rowPrediction c labels ffi fri x g)) := by
  have hlen : labels.length = k := by
    obtain ⟨_, _, _, _, -, -, hlen, -⟩ := lmeFromXY_ok x none none labels ffi fri none none P hP
    exact hlen
  rw [lmePredict_unfold c x labels ffi fri g P hP hN hg hc,
    mapM_ok _ _ (fun l => (groupRows (fun r => x r g) l).map (rowPrediction c labels ffi fri x g))]
  · change Except.ok _ = _
    unfold groupedRows
    rw [List.map_flatMap, List.flatMap_def]
  · intro l hl
    rw [lmePredictGroup_ok hc l _ _ _ (designRow_fixed_length x labels hlen ffi) (designRow_random_length x labels hlen fri)]
    · congr 1
      apply List.map_congr_left
      intro r hr
      have : x r g = l := (groupRows_mem (fun r => x r g) l r).1 hr
      unfold rowPrediction
      rw [fixedEntries_eq x labels hlen, randomEntries_eq x labels hlen, this]
    · rcases hseen with h | h
      · exact .inl h
      · obtain ⟨r, rfl⟩ := (uniqueLabels_mem _ l).1 hl
        exact .inr (h r)

/-- Lists sorted by the same strict order with the same elements are equal. -/
theorem groupedRows_unique (x : Matrix (Fin N) (Fin k) ℝ) (g : Fin k) (o : List (Fin N)) (hperm : o.Perm (List.finRange N))
    (ho : o.Pairwise fun a b => x a g < x b g ∨ x a g = x b g ∧ a < b) : o = groupedRows x g := by
  refine List.Perm.eq_of_pairwise ?_ ho (groupedRows_sorted x g) (hperm.trans (order_perm fun r => x r g).symm)
  intro a b _ _ h1 h2
  exfalso
  rcases h1 with h1 | ⟨h1, h1'⟩ <;> rcases h2 with h2 | ⟨h2, h2'⟩
  · exact absurd h1 (not_lt.2 h2.le)
  · exact h1.ne h2.symm
  · exact h2.ne h1.symm
  · exact absurd h1' (not_lt.2 h2'.le)

theorem groupedRows_monotone (x : Matrix (Fin N) (Fin k) ℝ) (g : Fin k) :
    groupedRows x g = List.finRange N ↔ ∀ r s : Fin N, r ≤ s → x r g ≤ x s g := by
  constructor
  · intro h r s hrs
    have hp := groupedRows_sorted x g
    rw [h] at hp
    rcases hrs.eq_or_lt with rfl | hlt
    · exact le_rfl
    · have := List.pairwise_iff_getElem.1 hp r s (by simp) (by simp) (by simpa using hlt)
      simp only [List.getElem_finRange] at this
      rcases this with h | h
      · exact h.le
      · exact h.1.le
  · intro h
    refine (groupedRows_unique x g _ (List.Perm.refl _) ?_).symm
    refine (List.pairwise_lt_finRange N).imp fun {a b} hab => ?_
    rcases (h a b hab.le).lt_or_eq with h | h
    · exact .inl h
    · exact .inr ⟨h, hab⟩

/-! ## C71 -/

/-- **C71**, what holds: on an accepted table whose groups were all seen in training, `predict` returns the prediction
of every row exactly once, ordered by group label and then by row number. Missing from the full statement: the order of
the input rows, see `C71_order_violated`. -/
theorem C71_predictions_partial (c : LmeCoef) (x : Matrix (Fin N) (Fin k) ℝ) (labels : List String) (ffi fri : Bool)
    (g : Fin k) (P : LmeProblem ℝ) (hP : lmeFromXY x none none labels ffi fri none none = .ok P) (hN : 0 < N)
    (hg : labels[(g : ℕ)]? = some "group") (hc : c.Consistent (fixedCount labels ffi) (randomCount labels fri))
    (hseen : ∀ r, x r g ∈ c.groupLabels) :
    ∃ o : List (Fin N), o.Perm (List.finRange N) ∧
      o.Pairwise (fun a b => x a g < x b g ∨ x a g = x b g ∧ a < b) ∧
      lmePredict (some c) x (some labels) ffi fri = .ok (o.map (rowPrediction c labels ffi fri x g)) :=
  ⟨groupedRows x g, order_perm _, groupedRows_sorted x g, lmePredict_ok c x labels ffi fri g P hP hN hg hc (.inr hseen)⟩

/-- **C71**, sorted tables: if the group column is nondecreasing then the predictions come in the order of the rows. -/
theorem C71_sorted_partial (c : LmeCoef) (x : Matrix (Fin N) (Fin k) ℝ) (labels : List String) (ffi fri : Bool)
    (g : Fin k) (P : LmeProblem ℝ) (hP : lmeFromXY x none none labels ffi fri none none = .ok P) (hN : 0 < N)
    (hg : labels[(g : ℕ)]? = some "group") (hc : c.Consistent (fixedCount labels ffi) (randomCount labels fri))
    (hseen : ∀ r, x r g ∈ c.groupLabels) (hmono : ∀ r s : Fin N, r ≤ s → x r g ≤ x s g) :
    lmePredict (some c) x (some labels) ffi fri = .ok (List.ofFn (rowPrediction c labels ffi fri x g)) := by
  rw [lmePredict_ok c x labels ffi fri g P hP hN hg hc (.inr hseen), (groupedRows_monotone x g).2 hmono, List.ofFn_eq_map]

/-- **C71** is violated: on every table whose rows have different predictions and whose group column is not sorted,
the predictions do not come in the order of the rows. -/
theorem C71_order_violated (c : LmeCoef) (x : Matrix (Fin N) (Fin k) ℝ) (labels : List String) (ffi fri : Bool)
    (g : Fin k) (P : LmeProblem ℝ) (hP : lmeFromXY x none none labels ffi fri none none = .ok P)
    (hg : labels[(g : ℕ)]? = some "group") (hc : c.Consistent (fixedCount labels ffi) (randomCount labels fri))
    (hseen : ∀ r, x r g ∈ c.groupLabels) (hinj : Function.Injective (rowPrediction c labels ffi fri x g))
    (r s : Fin N) (hrs : r < s) (hlab : x s g < x r g) :
    lmePredict (some c) x (some labels) ffi fri ≠ .ok (List.ofFn (rowPrediction c labels ffi fri x g)) := by
  rw [lmePredict_ok c x labels ffi fri g P hP (by have := r.2; omega) hg hc (.inr hseen), List.ofFn_eq_map]
  intro h
  simp only [Except.ok.injEq] at h
  have := (groupedRows_monotone x g).1 (List.map_injective_iff.2 hinj h) r s hrs.le
  linarith

/-! ## C72 -/

/-- **C72** is violated: with random effects in the model, a table containing a group not seen in training makes
`predict` raise. -/
theorem C72_unseen_violated (c : LmeCoef) (x : Matrix (Fin N) (Fin k) ℝ) (labels : List String) (ffi fri : Bool)
    (g : Fin k) (P : LmeProblem ℝ) (hP : lmeFromXY x none none labels ffi fri none none = .ok P)
    (hg : labels[(g : ℕ)]? = some "group") (hc : c.Consistent (fixedCount labels ffi) (randomCount labels fri))
    (hq : 0 < randomCount labels fri) (r : Fin N) (hr : x r g ∉ c.groupLabels) :
    lmePredict (some c) x (some labels) ffi fri = .error .valueError := by
  have hlen : labels.length = k := by
    obtain ⟨_, _, _, _, -, -, hlen, -⟩ := lmeFromXY_ok x none none labels ffi fri none none P hP
    exact hlen
  rw [lmePredict_unfold c x labels ffi fri g P hP (by have := r.2; omega) hg hc, mapM_error _ _ PyErr.valueError]
  · rfl
  · intro l hl
    by_cases hlc : l ∈ c.groupLabels
    · exact .inl ⟨_, lmePredictGroup_ok hc l _ _ _ (designRow_fixed_length x labels hlen ffi)
        (designRow_random_length x labels hlen fri) (.inr hlc)⟩
    · exact .inr (lmePredictGroup_unseen hc hq l _ (groupRows_ne_nil hl) _ _ (designRow_fixed_length x labels hlen ffi)
        (designRow_random_length x labels hlen fri) hlc)
  · exact ⟨x r g, (uniqueLabels_mem _ _).2 ⟨r, rfl⟩,
      lmePredictGroup_unseen hc hq _ _ (groupRows_ne_nil ((uniqueLabels_mem _ _).2 ⟨r, rfl⟩)) _ _
        (designRow_fixed_length x labels hlen ffi) (designRow_random_length x labels hlen fri) hr⟩

/-- **C72**, what holds: a model without random effects predicts every group, seen or not, by its fixed effects (in
the order of the groups). -/
theorem C72_unseen_partial (c : LmeCoef) (x : Matrix (Fin N) (Fin k) ℝ) (labels : List String) (ffi fri : Bool)
    (g : Fin k) (P : LmeProblem ℝ) (hP : lmeFromXY x none none labels ffi fri none none = .ok P) (hN : 0 < N)
    (hg : labels[(g : ℕ)]? = some "group") (hc : c.Consistent (fixedCount labels ffi) (randomCount labels fri))
    (hq : randomCount labels fri = 0) :
    ∃ o : List (Fin N), o.Perm (List.finRange N) ∧
      o.Pairwise (fun a b => x a g < x b g ∨ x a g = x b g ∧ a < b) ∧
      lmePredict (some c) x (some labels) ffi fri =
        .ok (o.map fun r => sumProd (fixedEntries labels ffi x r) c.beta) := by
  have hlen : labels.length = k := by
    obtain ⟨_, _, _, _, -, -, hlen, -⟩ := lmeFromXY_ok x none none labels ffi fri none none P hP
    exact hlen
  refine ⟨groupedRows x g, order_perm _, groupedRows_sorted x g, ?_⟩
  rw [lmePredict_ok c x labels ffi fri g P hP hN hg hc (.inl hq)]
  congr 1
  apply List.map_congr_left
  intro r _
  have : randomEntries labels fri x r = [] := by
    apply List.eq_nil_of_length_eq_zero
    rw [← randomEntries_eq x labels hlen, designRow_random_length x labels hlen, hq]
  unfold rowPrediction
  rw [this, sumProd_nil_left, add_zero]

/-- `predict` before any fit raises `NotFittedError` for every input. -/
theorem C72_not_fitted (x : Matrix (Fin N) (Fin k) ℝ) (labels : Option (List String)) (ffi fri : Bool) :
    lmePredict none x labels ffi fri = .error .notFitted := rfl

/-! ### Examples -/

/-- A table with two rows, the first in group 1, the second in group 0. -/
noncomputable def exTab : Matrix (Fin 2) (Fin 4) ℝ := !![1, 3, 1, 1; 0, 5, 1, 1]

/-- Labels of the table. -/
def exTabLabels : List String := ["group", "fixed", "random", "variance"]

/-- Coefficients of a model fitted to groups 0 and 1. -/
def exCoef : LmeCoef := ⟨[2], [1], [[10], [20]], [0, 1], []⟩

theorem exTab_ok (ffi fri : Bool) : ∃ P, lmeFromXY exTab none none exTabLabels ffi fri none none = .ok P := by
  refine lmeFromXY_succeeds exTab none none exTabLabels ffi fri none none 0 3 (by decide) (by decide) rfl (by decide)
    (by simp) ?_ ?_ (.inl rfl) (by simp) _ _ rfl rfl
  · intro r; fin_cases r <;> simp [exTab]
  · intro r; fin_cases r
    · exact ⟨1, by simp [exTab]⟩
    · exact ⟨0, by simp [exTab]⟩

theorem exTab_counts : fixedCount exTabLabels false = 1 ∧ randomCount exTabLabels false = 1 := by decide

theorem exCoef_consistent : exCoef.Consistent (fixedCount exTabLabels false) (randomCount exTabLabels false) := by
  rw [exTab_counts.1, exTab_counts.2]
  exact ⟨rfl, by simp [exCoef], rfl, by simp [exCoef]⟩

theorem exTab_prediction : rowPrediction exCoef exTabLabels false false exTab 0 = ![26, 20] := by
  have hF : ∀ r, fixedEntries exTabLabels false exTab r = [exTab r 1] := fun r => rfl
  have hR : ∀ r, randomEntries exTabLabels false exTab r = [exTab r 2] := fun r => rfl
  funext r
  unfold rowPrediction
  rw [hF, hR]
  fin_cases r
  · simp [exTab, exCoef, sumProd, LmeCoef.effectsOf]; norm_num
  · simp [exTab, exCoef, sumProd, LmeCoef.effectsOf]; norm_num

theorem exTab_seen (r : Fin 2) : exTab r 0 ∈ exCoef.groupLabels := by
  fin_cases r <;> simp [exTab, exCoef]

theorem exTab_injective : Function.Injective (rowPrediction exCoef exTabLabels false false exTab 0) := by
  rw [exTab_prediction]
  intro a b h
  fin_cases a <;> fin_cases b <;> simp at h ⊢

/-- Non-vacuity of C71: the predictions of the example are `26` and `20`, and are not returned in this order. -/
example : lmePredict (some exCoef) exTab (some exTabLabels) false false ≠ .ok [26, 20] := by
  obtain ⟨P, hP⟩ := exTab_ok false false
  have := C71_order_violated exCoef exTab exTabLabels false false 0 P hP rfl exCoef_consistent exTab_seen exTab_injective
    0 1 (by decide) (by simp [exTab])
  rwa [exTab_prediction] at this

/-- Non-vacuity of C72: the same table for a model that has not seen group 1. -/
example : lmePredict (some ⟨[2], [1], [[10]], [0], []⟩) exTab (some exTabLabels) false false = .error .valueError := by
  obtain ⟨P, hP⟩ := exTab_ok false false
  refine C72_unseen_violated _ exTab exTabLabels false false 0 P hP rfl ?_ (by decide) 0 (by simp [exTab])
  rw [exTab_counts.1, exTab_counts.2]
  exact ⟨rfl, by simp, rfl, by simp⟩

/-! ## C75 -/

theorem rSquared_ok (u v : ℝ) (hv : v ≠ 0) : rSquared u v = .ok ((1 - u / v : ℝ) : WithBot ℝ) := by
  unfold rSquared
  rw [if_neg hv]

/-- A nonconstant vector has positive sum of squared deviations from any number. -/
theorem deviations_pos (y : Vec ℝ N) (m : ℝ) (h : ∃ i j, y i ≠ y j) : 0 < ∑ i, (y i - m) ^ 2 := by
  obtain ⟨i, j, hij⟩ := h
  have : ∃ l, y l - m ≠ 0 := by
    by_contra hcon
    push Not at hcon
    apply hij
    have h1 := hcon i
    have h2 := hcon j
    linarith
  obtain ⟨l, hl⟩ := this
  exact Finset.sum_pos' (fun _ _ => sq_nonneg _) ⟨l, Finset.mem_univ _, by positivity⟩

/-- **C75.** Whenever `predict` returns one number per row, `score` of a nonconstant `y` is `1 - u / v` with `u` the sum
of squared differences between `y` and the returned predictions and `v` the sum of squared deviations of `y` from its
mean; it is at most 1, and 1 exactly for exact predictions. -/
theorem C75_score (st : LmeState) (x : Matrix (Fin N) (Fin k) ℝ) (y : Vec ℝ N) (labels : Option (List String))
    (ffi fri : Bool) (pred : Vec ℝ N) (hpred : lmePredict st x labels ffi fri = .ok (List.ofFn pred))
    (hy : ∃ i j, y i ≠ y j) :
    ∃ s : ℝ, lmeScore st x y labels ffi fri = .ok (s : WithBot ℝ) ∧
      s = 1 - (∑ i, (y i - pred i) ^ 2) / (∑ i, (y i - (∑ j, y j) / N) ^ 2) ∧ s ≤ 1 ∧ (s = 1 ↔ pred = y) := by
  have hv := deviations_pos y ((∑ j, y j) / N) hy
  have hasv : asVec N (List.ofFn pred) = .ok pred := by
    unfold asVec
    rw [dif_pos (by simp)]
    simp
  refine ⟨_, ?_, rfl, ?_, ?_⟩
  · unfold lmeScore
    rw [hpred]
    change (asVec N (List.ofFn pred) >>= _) = _
    rw [hasv]
    exact rSquared_ok _ _ hv.ne'
  · have : 0 ≤ (∑ i, (y i - pred i) ^ 2) / (∑ i, (y i - (∑ j, y j) / N) ^ 2) :=
      div_nonneg (Finset.sum_nonneg fun _ _ => sq_nonneg _) hv.le
    linarith
  · constructor
    · intro h
      have h0 : (∑ i, (y i - pred i) ^ 2) / (∑ i, (y i - (∑ j, y j) / N) ^ 2) = 0 := by linarith
      rcases div_eq_zero_iff.1 h0 with h1 | h1
      · rw [Finset.sum_eq_zero_iff_of_nonneg fun _ _ => sq_nonneg _] at h1
        funext i
        have := pow_eq_zero_iff (two_ne_zero) |>.1 (h1 i (Finset.mem_univ _))
        linarith
      · exact absurd h1 hv.ne'
    · rintro rfl
      simp

/-- For a constant `y` the score is not a number, or minus infinity when some prediction is wrong. -/
theorem C75_constant (st : LmeState) (x : Matrix (Fin N) (Fin k) ℝ) (a : ℝ) (labels : Option (List String))
    (ffi fri : Bool) (pred : Vec ℝ N) (hN : 0 < N) (hpred : lmePredict st x labels ffi fri = .ok (List.ofFn pred)) :
    lmeScore st x (fun _ => a) labels ffi fri = if pred = fun _ => a then .error .nan else .ok ⊥ := by
  have hasv : asVec N (List.ofFn pred) = .ok pred := by
    unfold asVec
    rw [dif_pos (by simp)]
    simp
  unfold lmeScore
  rw [hpred]
  change (asVec N (List.ofFn pred) >>= _) = _
  rw [hasv]
  change rSquared _ _ = _
  have hN' : (N : ℝ) ≠ 0 := by exact_mod_cast hN.ne'
  have hv : ∑ i : Fin N, (a - (∑ j : Fin N, a) / N) ^ 2 = 0 := by
    simp [hN']
  unfold rSquared
  rw [if_pos hv]
  congr 1
  rw [Finset.sum_eq_zero_iff_of_nonneg fun _ _ => sq_nonneg _, eq_iff_iff]
  constructor
  · intro h
    funext i
    have := pow_eq_zero_iff (two_ne_zero) |>.1 (h i (Finset.mem_univ _))
    linarith
  · rintro rfl i _
    simp

/-- The score of a model that predicts every row exactly is 1 only if the group column is sorted: `score` compares the
answers in the order of the rows with the predictions in the order of the groups. -/
theorem C75_exact_rows_score (c : LmeCoef) (x : Matrix (Fin N) (Fin k) ℝ) (labels : List String) (ffi fri : Bool)
    (g : Fin k) (P : LmeProblem ℝ) (hP : lmeFromXY x none none labels ffi fri none none = .ok P)
    (hg : labels[(g : ℕ)]? = some "group") (hc : c.Consistent (fixedCount labels ffi) (randomCount labels fri))
    (hseen : ∀ r, x r g ∈ c.groupLabels) (hinj : Function.Injective (rowPrediction c labels ffi fri x g)) (hN : 1 < N) :
    ∃ s : ℝ, lmeScore (some c) x (rowPrediction c labels ffi fri x g) (some labels) ffi fri = .ok (s : WithBot ℝ) ∧
      (s = 1 ↔ ∀ r s : Fin N, r ≤ s → x r g ≤ x s g) := by
  have hp := lmePredict_ok c x labels ffi fri g P hP (by omega) hg hc (.inr hseen)
  have hlenG : (groupedRows x g).length = N := by
    have := (order_perm fun r => x r g).length_eq
    rwa [List.length_finRange] at this
  set t : Vec ℝ N := fun i => rowPrediction c labels ffi fri x g ((groupedRows x g)[i.1]'(by rw [hlenG]; exact i.2)) with ht
  have hofFn : (groupedRows x g).map (rowPrediction c labels ffi fri x g) = List.ofFn t := by
    apply List.ext_getElem
    · simp [hlenG]
    · intro i h1 h2
      simp [ht]
  rw [hofFn] at hp
  obtain ⟨s, hs, -, -, h1⟩ := C75_score (some c) x (rowPrediction c labels ffi fri x g) (some labels) ffi fri t hp
    ⟨⟨0, by omega⟩, ⟨1, hN⟩, fun h => by have := hinj h; simp at this⟩
  refine ⟨s, hs, h1.trans ?_⟩
  rw [← groupedRows_monotone]
  constructor
  · intro h
    apply List.map_injective_iff.2 hinj
    rw [hofFn, h, List.ofFn_eq_map]
  · intro h
    have : List.ofFn t = List.ofFn (rowPrediction c labels ffi fri x g) := by
      rw [← hofFn, h, List.ofFn_eq_map]
    exact List.ofFn_injective this

/-- Non-vacuity of C75: the exact model of the example has a score below 1. -/
example : ∃ s : ℝ, lmeScore (some exCoef) exTab ![26, 20] (some exTabLabels) false false = .ok (s : WithBot ℝ) ∧ s ≠ 1 := by
  obtain ⟨P, hP⟩ := exTab_ok false false
  obtain ⟨s, hs, h⟩ := C75_exact_rows_score exCoef exTab exTabLabels false false 0 P hP rfl exCoef_consistent exTab_seen
    exTab_injective (by decide)
  rw [exTab_prediction] at hs
  refine ⟨s, hs, fun h1 => ?_⟩
  have := h.1 h1 0 1 (by decide)
  norm_num [exTab] at this

end Verif
