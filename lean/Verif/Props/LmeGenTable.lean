import Verif.Props.LmeGenerate

/-!
# Converting generated problems back to tables: C79
-/

namespace Verif

variable {K : Type*} [Field K] [LinearOrder K]

/-- The rows that a table of the generated data should have: group number, features, variance; `vs` are the variances of the objects of each group. -/
def genTableRows (K : Type*) [NatCast K] : ℕ → List (List (List K)) → List (List K) → List (List K)
  | k, rows :: rest, v :: vs => List.zipWith (fun row a => (k : K) :: (row ++ [a])) rows v ++ genTableRows K (k + 1) rest vs
  | _, _, _ => []

theorem genRow_eq' (labels : List String) (test : String → Bool) (b : Bool) (row : List K) (h : row.length = labels.length) (hn : genNum labels test b ≠ 0) :
    genRow labels test b row = (if b then [1] else []) ++ selectBy test labels row := by
  cases b with
  | false => rw [genRow_eq labels test row h hn]; rfl
  | true =>
    unfold genRow
    simp only [if_true]
    have e : selectBy test labels row = ((List.range labels.length).filter fun i => test (labels.getD i "")).map fun i => row.getD i 0 := by
      unfold selectBy
      rw [range_zip labels row h, List.filter_map, List.map_map]
      rfl
    rw [e]
    split_ifs with h0
    · rw [h0]; rfl
    · rfl

theorem takeIdx_range {α : Type*} (l : List α) : takeIdx l (argsortNat (List.range l.length)) = .ok l := by
  have h := takeIdx_argsort (N := l.length) (List.finRange l.length) (List.Perm.refl _) (fun i => l[i])
  have e1 : (List.finRange l.length).map (fun i => l[i]) = l := by
    rw [← List.ofFn_eq_map]
    exact List.ofFn_getElem
  have e2 : (List.finRange l.length).map Fin.val = List.range l.length := List.map_coe_finRange_eq_range
  rw [e1, e2] at h
  rw [h]
  congr 1
  exact List.ofFn_getElem

theorem zipWith_mapM (Q : LmeProblem K) (k : K) (rows : List (List K)) (vs : List K) (F R : List K → List K) (hl : vs.length = rows.length)
    (hrow : ∀ row ∈ rows, ∀ v, tableRow Q (k, v, F row, R row) = .ok (k :: (row ++ [v]))) :
    ((List.replicate rows.length k).zip (vs.zip ((rows.map F).zip (rows.map R)))).mapM (tableRow Q) = .ok (List.zipWith (fun row a => k :: (row ++ [a])) rows vs) := by
  induction rows generalizing vs with
  | nil => rfl
  | cons row rows ih =>
    cases vs with
    | nil => simp at hl
    | cons v vs =>
      rw [List.length_cons, List.replicate_succ, List.map_cons, List.map_cons, List.zip_cons_cons, List.zip_cons_cons, List.zip_cons_cons, List.mapM_cons, hrow row (by simp) v,
        ih vs (by simpa using hl) fun r hr => hrow r (by simp [hr])]
      rfl

theorem mapM_append_ok {α β : Type*} (f : α → Except PyErr β) (l m : List α) (a b : List β) (h1 : l.mapM f = .ok a) (h2 : m.mapM f = .ok b) :
    (l ++ m).mapM f = .ok (a ++ b) := by
  induction l generalizing a with
  | nil => cases h1; exact h2
  | cons x l ih =>
    rw [List.mapM_cons] at h1
    obtain ⟨y, hy, h1⟩ := ebind_ok.1 h1
    obtain ⟨ys, hys, h1⟩ := ebind_ok.1 h1
    cases h1
    rw [List.cons_append, List.mapM_cons, hy, ih ys hys]
    rfl

theorem genTable_mapM (Q : LmeProblem K) (F R : List K → List K) (P0 : List K → Prop)
    (hrow : ∀ row, P0 row → ∀ k v, tableRow Q (k, v, F row, R row) = .ok (k :: (row ++ [v])))
    (rs : List (List (List K))) (vs : List (List K)) (h : List.Forall₂ (fun rows v => v.length = rows.length ∧ ∀ row ∈ rows, P0 row) rs vs) (k : ℕ) :
    ((((List.range' k rs.length).map fun i : ℕ => (i : K)).zip (rs.map List.length)).flatMap (fun gs => List.replicate gs.2 gs.1)).zip
      (vs.flatten.zip ((rs.map (List.map F)).flatten.zip (rs.map (List.map R)).flatten)) |>.mapM (tableRow Q) |> (· = .ok (genTableRows K k rs vs)) := by
  induction h generalizing k with
  | nil => rfl
  | @cons rows v rs vs h1 _ ih =>
    simp only [List.length_cons, List.range'_succ, List.map_cons, List.zip_cons_cons, List.flatMap_cons, List.flatten_cons]
    rw [List.zip_append (by simp), List.zip_append (by simp [h1.1]), List.zip_append (by simp [h1.1])]
    exact mapM_append_ok _ _ _ _ _ (zipWith_mapM Q k rows v F R h1.1 fun row hr => hrow row (h1.2 row hr) k) (ih (k + 1))

/-- What the loop of `generate` stores for each group. -/
theorem genGroups_data (c : GenCfg K) (sizes : List ℕ) (start i : ℕ) (ds : List (GenDraw K)) (gs : List (GenGroup K)) (h : genGroups c sizes start i ds = .ok gs) :
    gs.map GenGroup.fixed = ds.map (fun d => d.rows.map (genRow c.labels isFixed c.ffi)) ∧
    (genNum c.labels isRandom c.fri ≠ 0 → gs.map GenGroup.random = (ds.map (fun d => d.rows.map (genRow c.labels isRandom c.fri))).map .rows) ∧
    (genNum c.labels isRandom c.fri = 0 → gs.map GenGroup.random = ds.map fun _ => .zeroDim) ∧
    List.Forall₂ (fun d v => v.length = d.rows.length) ds (gs.map GenGroup.obsVars) := by
  induction ds generalizing start i gs with
  | nil => cases h; simp
  | cons d ds ih =>
    obtain ⟨var, vars, ans, rest, -, h2, -, h4, rfl⟩ := (genGroups_cons ..).1 h
    obtain ⟨i1, i2, i3, i4⟩ := ih _ _ _ h4
    refine ⟨by simp [i1], fun hn => by simp [i2 hn, hn], fun hn => by simp [i3 hn, hn], .cons ?_ i4⟩
    cases var with
    | scalar v => cases h2; simp
    | array a =>
      unfold broadcastVar at h2
      simp only at h2
      split_ifs at h2 with h5
      · cases h2; exact h5
      · split at h2
        · cases h2; simp
        · cases h2

/-- **C79**, what holds: a generated problem with at least one random effect (random intercept included) is converted by `to_x_y` into the table of the drawn features, with the number of the group in front and the
variance behind, and the generated answers. (Missing: problems without random effects, see `C79_no_random_violated`.) -/
theorem C79_generated_table_partial (c : GenCfg K) (draws : List (GenDraw K)) (hne : draws ≠ []) (hlab : ∀ l ∈ c.labels, l = "fixed" ∨ l = "random" ∨ l = "fixed+random")
    (hrows : ∀ d ∈ draws, ∀ row ∈ d.rows, row.length = c.labels.length) (herr : ∀ d ∈ draws, d.errors.length = d.rows.length)
    (hrand : c.fri = true ∨ "random" ∈ c.labels ∨ "fixed+random" ∈ c.labels)
    (P : LmeProblem K) (cs : List (ℕ × List K)) (h : lmeGenerate c draws = .ok (P, cs)) :
    ∃ ans, P.answers = some ans ∧ toXY P = .ok (genTableRows K 0 (draws.map GenDraw.rows) P.obsVars, ans.flatten, "group" :: (c.labels ++ ["variance"])) := by
  obtain ⟨hn, hbeta, gs, hgs, hcs, hP⟩ := (lmeGenerate_ok c draws P cs).1 h
  obtain ⟨d1, d2, -, d4⟩ := genGroups_data c _ _ _ _ _ hgs
  have hn2 : genNum c.labels isRandom c.fri ≠ 0 := by
    rw [genNum_eq]
    rcases hrand with h1 | h1 | h1
    · rw [h1]; simp
    · have := List.countP_pos_iff.2 ⟨_, h1, isRandom_RANDOM⟩
      omega
    · have := List.countP_pos_iff.2 ⟨_, h1, isRandom_FIXED_RANDOM⟩
      omega
  replace d2 := d2 hn2
  have hpl : P.columnLabels = GROUP :: (c.labels ++ [VARIANCE]) := by rw [hP]
  have hpi : P.interceptLabel = interceptLabelOf c.ffi c.fri := by rw [hP]
  refine ⟨gs.map GenGroup.answers, by rw [hP], ?_⟩
  have htab : ∀ row : List K, row.length = c.labels.length → ∀ k v, tableRow P (k, v, genRow c.labels isFixed c.ffi row, genRow c.labels isRandom c.fri row) = .ok (k :: (row ++ [v])) := by
    intro row hl k v
    unfold tableRow
    simp only [hpl, hpi, interceptLabelOf_fixed, interceptLabelOf_random]
    have hk : ∀ lv ∈ c.labels.zip row, lv.1 ≠ GROUP ∧ lv.1 ≠ VARIANCE := by
      intro lv hlv
      rcases hlab lv.1 (List.of_mem_zip hlv).1 with h1 | h1 | h1 <;> rw [h1] <;> decide
    have hz : (GROUP :: (c.labels ++ [VARIANCE])).zip (k :: (row ++ [v])) = (GROUP, k) :: (c.labels.zip row ++ [(VARIANCE, v)]) := by
      rw [List.zip_cons_cons, List.zip_append hl.symm]; rfl
    refine fillRow_select _ _ _ _ _ _ _ _ (by simp [hl]) ?_ ?_ ?_ ?_ ?_
    · intro l hlm
      simp only [List.mem_cons, List.mem_append, List.mem_singleton, List.not_mem_nil, or_false] at hlm
      rcases hlm with rfl | hlm | rfl
      · decide
      · rcases hlab l hlm with rfl | rfl | rfl <;> decide
      · decide
    · intro lv hlv hG
      rw [hz] at hlv
      simp only [List.mem_cons, List.mem_append, List.not_mem_nil, or_false] at hlv
      rcases hlv with rfl | hlv | rfl
      · rfl
      · exact absurd hG (hk lv hlv).1
      · exact absurd hG (show VARIANCE ≠ GROUP by decide)
    · intro lv hlv hV
      rw [hz] at hlv
      simp only [List.mem_cons, List.mem_append, List.not_mem_nil, or_false] at hlv
      rcases hlv with rfl | hlv | rfl
      · exact absurd hV (show GROUP ≠ VARIANCE by decide)
      · exact absurd hV (hk lv hlv).2
      · rfl
    · have e : selectBy isFixed (GROUP :: (c.labels ++ [VARIANCE])) (k :: (row ++ [v])) = selectBy isFixed c.labels row := by
        rw [selectBy_cons, if_neg (by simp [isFixed_GROUP]), selectBy_append _ _ _ _ _ hl.symm]
        simp [selectBy, isFixed_VARIANCE]
      rw [e, genRow_eq' _ _ _ _ hl hn]
      cases c.ffi <;> rfl
    · have e : selectBy isRandom (GROUP :: (c.labels ++ [VARIANCE])) (k :: (row ++ [v])) = selectBy isRandom c.labels row := by
        rw [selectBy_cons, if_neg (by simp [isRandom_GROUP]), selectBy_append _ _ _ _ _ hl.symm]
        simp [selectBy, isRandom_VARIANCE]
      rw [e, genRow_eq' _ _ _ _ hl hn2]
      cases c.fri <;> rfl
  have hobs : P.obsVars = gs.map GenGroup.obsVars := by rw [hP]
  have hfix : P.fixedFeatures = (draws.map GenDraw.rows).map (List.map (genRow c.labels isFixed c.ffi)) := by rw [hP]; simp only [d1, List.map_map]; rfl
  have hran : P.randomFeatures = ((draws.map GenDraw.rows).map (List.map (genRow c.labels isRandom c.fri))).map .rows := by rw [hP]; simp only [d2, List.map_map]; rfl
  have hgl : P.groupLabels = (List.range' 0 (draws.map GenDraw.rows).length).map fun i : ℕ => (i : K) := by rw [hP]; simp [List.range_eq_range']
  have hord : P.orderOfObjects = List.range (draws.map fun d => d.rows.length).sum := by rw [hP]
  have hans : P.answers = some (gs.map GenGroup.answers) := by rw [hP]
  have hsz : P.groupsSizes = (draws.map GenDraw.rows).map List.length := by
    unfold LmeProblem.groupsSizes
    rw [hfix]
    simp
  have hF2 : List.Forall₂ (fun rows v => v.length = rows.length ∧ ∀ row ∈ rows, row.length = c.labels.length) (draws.map GenDraw.rows) P.obsVars := by
    rw [hobs, List.forall₂_map_left_iff]
    refine List.forall₂_iff_get.2 ⟨d4.length_eq, fun i h1 h2 => ⟨(List.forall₂_iff_get.1 d4).2 i h1 h2, hrows _ (List.get_mem _ _)⟩⟩
  have hm := genTable_mapM P _ _ _ htab _ _ hF2 0
  have hlen1 : (genTableRows K 0 (draws.map GenDraw.rows) P.obsVars).length = (draws.map fun d => d.rows.length).sum := by
    have key : ∀ (rs : List (List (List K))) (vs : List (List K)) (k : ℕ), List.Forall₂ (fun rows v => v.length = rows.length ∧ ∀ row ∈ rows, row.length = c.labels.length) rs vs →
        (genTableRows K k rs vs).length = (rs.map List.length).sum := by
      intro rs vs k hf
      induction hf generalizing k with
      | nil => rfl
      | cons h1 _ ih => simp [genTableRows, ih, h1.1]
    rw [key _ _ _ hF2]
    simp [Function.comp_def]
  have hlen2 : ((gs.map GenGroup.answers).flatten).length = (draws.map fun d => d.rows.length).sum := by
    have hga := genGroups_answers c _ _ _ _ _ hgs
    clear hm hlen1 hF2 hsz hans hord hgl hran hfix hobs htab hpl hpi d1 d2 d4 hP hcs hgs h hne
    induction hga with
    | nil => rfl
    | cons h1 _ ih =>
      simp only [List.map_cons, List.flatten_cons, List.length_append, List.sum_cons]
      rw [ih (fun d hd => hrows d (by simp [hd])) (fun d hd => herr d (by simp [hd]))]
      have := (mapM_ok_inv _ _ _ h1).length_eq
      simp only [List.length_zip, herr _ (List.mem_cons_self), Nat.min_self] at this
      omega
  unfold toXY
  rw [if_neg (by rw [hfix]; simpa using hne), hran, concatRandom_rows]
  simp only [hgl, hsz, hfix, hord, hans]
  change (do let rows ← List.mapM (tableRow P) _; _) = _
  rw [hm]
  simp only [bind, Except.bind]
  rw [← hlen1, takeIdx_range]
  simp only
  rw [hlen1, ← hlen2, takeIdx_range, hpl]
  rfl

/-- **C79 is violated** without random effects: `to_x_y` of every generated problem without random effects raises `ValueError`. -/
theorem C79_no_random_violated (c : GenCfg K) (draws : List (GenDraw K)) (hfri : c.fri = false) (hlab : ∀ l ∈ c.labels, l = "fixed")
    (P : LmeProblem K) (cs : List (ℕ × List K)) (h : lmeGenerate c draws = .ok (P, cs)) : toXY P = .error .valueError := by
  obtain ⟨hn, hbeta, gs, hgs, hcs, rfl⟩ := (lmeGenerate_ok c draws P cs).1 h
  obtain ⟨d1, -, d3, -⟩ := genGroups_data c _ _ _ _ _ hgs
  have hn2 : genNum c.labels isRandom c.fri = 0 := by
    rw [genNum_eq, hfri, List.countP_eq_zero.2]
    · rfl
    · intro l hl
      rw [hlab l hl]
      decide
  unfold toXY
  simp only [d1, d3 hn2]
  cases draws with
  | nil => rfl
  | cons d ds =>
    rw [if_neg (by simp)]
    rfl

/-- Non-vacuity of C79: the problem of `C51_truth_violated` has no random effects; the following has. -/
example : ∃ P cs, lmeGenerate (⟨[FIXED_RANDOM], false, false, .scalar 1, [2]⟩ : GenCfg ℚ) [⟨[[3]], [5], [1]⟩] = .ok (P, cs) ∧ toXY P = .ok ([[0, 3, 1]], [22], ["group", "fixed+random", "variance"]) := by
  have h3 : genNum [FIXED_RANDOM] isRandom false = 1 := by decide
  have h1 : ∀ x : ℚ, genRow [FIXED_RANDOM] isFixed false [x] = [x] := fun x => by simp [genRow, isFixed, List.range_succ]
  have h2 : ∀ x : ℚ, genRow [FIXED_RANDOM] isRandom false [x] = [x] := fun x => by simp [genRow, isRandom, List.range_succ]
  have hgs : genGroups (⟨[FIXED_RANDOM], false, false, .scalar 1, [2]⟩ : GenCfg ℚ) [1] 0 0 [⟨[[3]], [5], [1]⟩] = .ok [⟨[[3]], .rows [[3]], [22], [1]⟩] := by
    rw [genGroups_cons]
    refine ⟨_, _, [22], _, rfl, rfl, ?_, rfl, rfl⟩
    simp only [List.zip_cons_cons, List.zip_nil_right, List.mapM_cons, List.mapM_nil, genAnswer, genRandomPart, h1, h2, h3, listDot]
    simp [bind, Except.bind, pure, Except.pure]
    norm_num
  have hgen := (lmeGenerate_ok (⟨[FIXED_RANDOM], false, false, .scalar 1, [2]⟩ : GenCfg ℚ) [⟨[[3]], [5], [1]⟩] _ _).2 ⟨by decide, by decide, _, hgs, rfl, rfl⟩
  obtain ⟨ans, ha, ht⟩ := C79_generated_table_partial _ _ (by simp) (by simp) (by simp) (by simp) (by simp) _ _ hgen
  refine ⟨_, _, hgen, ?_⟩
  rw [ht]
  cases ha
  simp [genTableRows]

end Verif
