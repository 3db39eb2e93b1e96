import Verif.Model.LmeFrame
import Verif.Props.LmeColumns

/-!
# C128: problems and data frames

`to_dataframe` names the columns of its frame by their roles. A problem with two columns of the same role, or with an intercept, cannot be read back by `from_dataframe`; every other problem can.
-/

namespace Verif

section
variable {K : Type*} [Field K] [LinearOrder K]

/-! ## Frames with different names -/

theorem lmeFromXY_cast {N N' p p' : ℕ} (hN : N = N') (hp : p = p') (x : Matrix (Fin N) (Fin p) K) (x' : Matrix (Fin N') (Fin p') K) (y : Vec K N) (y' : Vec K N')
    (hx : ∀ i j, x i j = x' (Fin.cast hN i) (Fin.cast hp j)) (hy : ∀ i, y i = y' (Fin.cast hN i)) (columns : Option (List String)) (labels : List String) (ffi fri : Bool)
    (mf mr : Option (List String)) : lmeFromXY x (some y) columns labels ffi fri mf mr = lmeFromXY x' (some y') columns labels ffi fri mf mr := by
  subst hN hp
  have h1 : x = x' := by ext i j; exact hx i j
  have h2 : y = y' := by ext i; exact hy i
  rw [h1, h2]

theorem named_length (F : Frame K) (n : String) : (F.named n).length = F.header.count n := by
  unfold Frame.named Frame.header
  rw [List.length_map, List.count_eq_countP, List.countP_map, List.countP_eq_length_filter]
  rfl

theorem select_length (F : Frame K) (names : List String) : (F.select names).length = (names.map fun n => F.header.count n).sum := by
  unfold Frame.select
  rw [List.length_flatMap]
  simp only [named_length]

/-- The first column of a name. -/
def Frame.col (F : Frame K) (n : String) : Vec K F.size := (F.named n).headD 0

theorem named_nodup (F : Frame K) (h : F.header.Nodup) {n : String} (hn : n ∈ F.header) : F.named n = [F.col n] := by
  have h1 : (F.named n).length = 1 := by rw [named_length, List.count_eq_one_of_mem h hn]
  obtain ⟨a, ha⟩ := List.length_eq_one_iff.1 h1
  unfold Frame.col
  rw [ha]
  rfl

theorem select_nodup (F : Frame K) (h : F.header.Nodup) (names : List String) (hn : ∀ n ∈ names, n ∈ F.header) : F.select names = names.map F.col := by
  unfold Frame.select
  induction names with
  | nil => rfl
  | cons a l ih =>
    rw [List.flatMap_cons, ih fun n hn' => hn n (by simp [hn']), named_nodup F h (hn a (by simp))]
    rfl

/-- For frames with different names the general model is the one of `Model/LmeProblem.lean`. -/
theorem lmeFromFrame_nodup (F : Frame K) (h : F.header.Nodup) (fe re : List String) (groups variance target : String) (nf nr : List String) :
    lmeFromFrame F fe re groups variance target nf nr = lmeFromDataframe F.header F.col fe re groups variance target nf nr := by
  unfold lmeFromFrame lmeFromDataframe
  by_cases h1 : ¬ ((fe ++ re ++ [groups, variance, target] ++ nf ++ nr).all (· ∈ F.header)) = true
  · rw [if_pos h1, if_pos h1]
  rw [if_neg h1, if_neg h1]
  by_cases h2 : ¬ (nf.all (· ∈ fe)) = true
  · rw [if_pos h2, if_pos h2]
  rw [if_neg h2, if_neg h2]
  by_cases h3 : ¬ (nr.all (· ∈ re)) = true
  · rw [if_pos h3, if_pos h3]
  rw [if_neg h3, if_neg h3]
  have hall : ∀ e ∈ fe ++ re ++ [groups, variance, target] ++ nf ++ nr, e ∈ F.header := by
    intro e he
    have := not_not.1 h1
    rw [List.all_eq_true] at this
    simpa using this e he
  simp only
  rw [named_nodup F h (hall target (by simp))]
  simp only
  unfold lmeFromSelected
  have hnames : ∀ n ∈ groups :: ((dataframeColumns F.header fe re).map Prod.fst ++ [variance]), n ∈ F.header := by
    intro n hn
    rcases List.mem_cons.1 hn with rfl | hn
    · exact hall _ (by simp)
    rcases List.mem_append.1 hn with hn | hn
    · unfold dataframeColumns at hn
      rw [List.map_map] at hn
      obtain ⟨e, he, rfl⟩ := List.mem_map.1 hn
      exact (List.mem_filter.1 he).1
    · rw [List.mem_singleton.1 hn]
      exact hall _ (by simp)
  have hs := select_nodup F h _ hnames
  refine lmeFromXY_cast rfl (by rw [hs, List.length_map]) _ _ _ _ (fun i j => ?_) (fun i => rfl) _ _ _ _ _ _
  rw [Matrix.of_apply, Matrix.of_apply]
  have : ∀ (names : List String) (l : List (Vec K F.size)) (_ : l = names.map F.col) (hl' : l.length = names.length) (j : Fin l.length),
      l[j] i = F.col names[Fin.cast hl' j] i := by
    intro names l hl hl' j
    subst hl
    simp
  exact this _ _ hs _ j

/-! ## The frame of a problem -/

/-- The frame `to_dataframe` writes for a table. -/
def tableFrame {N p : ℕ} (x : Matrix (Fin N) (Fin p) K) (y : Vec K N) (labels : List String) : Frame K where
  size := N
  columns := (labels.mapIdx fun j l => (l, fun i => (List.ofFn (x i)).getD j 0)) ++ [("target", y)]

theorem tableFrame_header {N p : ℕ} (x : Matrix (Fin N) (Fin p) K) (y : Vec K N) (labels : List String) : (tableFrame x y labels).header = labels ++ ["target"] := by
  unfold tableFrame Frame.header
  rw [List.map_append]
  congr 1
  refine List.ext_getElem (by simp) fun j h1 h2 => ?_
  simp

omit [Field K] [LinearOrder K] in
theorem frame_congr {n n' : ℕ} (h : n = n') (c : List (String × Vec K n)) (c' : List (String × Vec K n')) (hl : c.length = c'.length)
    (hc : ∀ j (h1 : j < c.length) (h2 : j < c'.length), c[j].1 = c'[j].1 ∧ ∀ i, c[j].2 i = c'[j].2 (Fin.cast h i)) :
    (⟨n, c⟩ : Frame K) = ⟨n', c'⟩ := by
  subst h
  congr
  refine List.ext_getElem hl fun j h1 h2 => Prod.ext (hc j h1 h2).1 (funext fun i => (hc j h1 h2).2 i)

/-- `to_dataframe` succeeds for every problem made by `from_x_y` and returns the table with the labels as names and the target as last column. -/
theorem C128_frame {N p : ℕ} (x : Matrix (Fin N) (Fin p) K) (y : Vec K N) (columns : Option (List String)) (labels : List String) (ffi fri : Bool)
    (mustFe mustRe : Option (List String)) (P : LmeProblem K) (h : lmeFromXY x (some y) columns labels ffi fri mustFe mustRe = .ok P) :
    lmeToDataframe P = .ok (tableFrame x y labels) := by
  unfold lmeToDataframe
  rw [C44_round_trip x y columns labels ffi fri mustFe mustRe P h]
  simp only [Except.ok.injEq]
  unfold tableFrame
  refine frame_congr (List.length_ofFn) _ _ (by simp) fun j h1 h2 => ?_
  simp only [List.length_append, List.length_mapIdx, List.length_singleton] at h1 h2
  by_cases hj : j < labels.length
  · rw [List.getElem_append_left (by simpa using hj), List.getElem_append_left (by simpa using hj)]
    simp only [List.getElem_mapIdx, true_and]
    intro i
    have : (List.ofFn fun r => List.ofFn (x r))[i] = List.ofFn (x (Fin.cast List.length_ofFn i)) := by
      simp [Fin.cast]
    rw [this]
  · have : j = labels.length := by omega
    subst this
    rw [List.getElem_append_right (by simp), List.getElem_append_right (by simp)]
    simp only [List.length_mapIdx, Nat.sub_self, List.getElem_singleton, true_and]
    intro i
    have hi : (i : ℕ) < N := by simpa using i.2
    simp [hi, Fin.cast]

/-! ## What cannot be read back -/

theorem sum_count_lt (names : List String) (c : String → ℕ) (h1 : ∀ n ∈ names, 1 ≤ c n) (l : String) (hl : l ∈ names) (h2 : 2 ≤ c l) : names.length < (names.map c).sum := by
  induction names with
  | nil => cases hl
  | cons a t ih =>
    rw [List.length_cons, List.map_cons, List.sum_cons]
    have ha := h1 a (by simp)
    have hle : t.length ≤ (t.map c).sum := by
      have := List.card_nsmul_le_sum (t.map c) 1 (by simpa using fun n hn => h1 n (List.mem_cons_of_mem _ hn))
      simpa using this
    rcases List.mem_cons.1 hl with rfl | hl
    · omega
    · have := ih (fun n hn => h1 n (List.mem_cons_of_mem _ hn)) hl
      omega

/-- **C128**, violated: if two columns of a table have the same role, then the frame written by `to_dataframe` cannot be read with this role among the effects: for all (otherwise valid) arguments `from_dataframe` fails with
`AssertionError`, because `data[columns]` contains the columns of this name several times. -/
theorem C128_repeated_roles {N p : ℕ} (x : Matrix (Fin N) (Fin p) K) (y : Vec K N) (columns : Option (List String)) (labels : List String) (ffi fri : Bool)
    (mustFe mustRe : Option (List String)) (P : LmeProblem K) (h : lmeFromXY x (some y) columns labels ffi fri mustFe mustRe = .ok P)
    (l : String) (hl : 2 ≤ labels.count l) (fe re nf nr : List String) (hlin : l ∈ fe ∨ l ∈ re) (hnames : ∀ e, e ∈ fe ∨ e ∈ re → e ∈ labels) (hnf : nf ⊆ fe) (hnr : nr ⊆ re) :
    ∃ F, lmeToDataframe P = .ok F ∧ lmeFromFrame F fe re "group" "variance" "target" nf nr = .error .assertionError := by
  refine ⟨_, C128_frame x y columns labels ffi fri mustFe mustRe P h, ?_⟩
  obtain ⟨g, v, feW, reW, hg, hv, hlen, hknown, hN, -, -, -, -, -, -⟩ := lmeFromXY_ok x (some y) columns labels ffi fri mustFe mustRe P h
  have hN0 : 0 < N := hN rfl
  set F := tableFrame x y labels with hF
  have hhead : F.header = labels ++ ["target"] := tableFrame_header x y labels
  have hGmem : "group" ∈ labels := by
    have := (labelIdx_singleton labels hlen GROUP).1 ⟨g, hg⟩
    exact List.count_pos_iff.1 (by rw [this]; exact Nat.one_pos)
  have hVmem : "variance" ∈ labels := by
    have := (labelIdx_singleton labels hlen VARIANCE).1 ⟨v, hv⟩
    exact List.count_pos_iff.1 (by rw [this]; exact Nat.one_pos)
  have htar : "target" ∉ labels := fun hcon => absurd (hknown _ hcon) (by decide)
  have hint : "intercept" ∉ labels := fun hcon => absurd (hknown _ hcon) (by decide)
  have hlmem : l ∈ labels := List.count_pos_iff.1 (by omega)
  unfold lmeFromFrame
  rw [if_neg, if_neg, if_neg]
  · simp only
    obtain ⟨yy, ht⟩ : ∃ yy, F.named "target" = [yy] := by
      refine List.length_eq_one_iff.1 ?_
      rw [named_length, hhead, List.count_append, List.count_eq_zero_of_not_mem htar]
      rfl
    rw [ht]
    simp only
    set names := "group" :: ((dataframeColumns F.header fe re).map Prod.fst ++ ["variance"]) with hnames'
    have hin : ∀ n ∈ names, 1 ≤ F.header.count n := by
      intro n hn
      refine List.count_pos_iff.2 ?_
      rw [hhead]
      rcases List.mem_cons.1 hn with rfl | hn
      · simp [hGmem]
      rcases List.mem_append.1 hn with hn | hn
      · unfold dataframeColumns at hn
        rw [List.map_map] at hn
        obtain ⟨e, he, rfl⟩ := List.mem_map.1 hn
        rw [← hhead]
        exact (List.mem_filter.1 he).1
      · rw [List.mem_singleton.1 hn]
        simp [hVmem]
    have hlt : names.length < (F.select names).length := by
      rw [select_length]
      refine sum_count_lt names _ hin l ?_ ?_
      · rw [hnames']
        refine List.mem_cons_of_mem _ (List.mem_append_left _ ?_)
        unfold dataframeColumns
        rw [List.map_map]
        refine List.mem_map.2 ⟨l, List.mem_filter.2 ⟨by rw [hhead]; simp [hlmem], ?_⟩, rfl⟩
        have : l ≠ INTERCEPT := by rintro rfl; exact hint hlmem
        simp [hlin, this]
      · rw [hhead, List.count_append]
        omega
    have hne : (GROUP :: ((dataframeColumns F.header fe re).map Prod.snd ++ [VARIANCE])).length ≠ (F.select names).length := by
      have : (GROUP :: ((dataframeColumns F.header fe re).map Prod.snd ++ [VARIANCE])).length = names.length := by simp [hnames']
      omega
    exact C46_rejection _ _ _ _ _ _ _ _ ⟨hN0, Nat.lt_of_le_of_lt (Nat.zero_le _) hlt⟩ (.inr (.inl hne))
  · simpa using fun e he => hnr he
  · simpa using fun e he => hnf he
  · simp only [List.all_eq_true, decide_eq_true_eq, not_not, hhead, List.mem_append]
    rintro e ((((he | he) | he) | he) | he)
    · exact .inl (hnames e (.inl he))
    · exact .inl (hnames e (.inr he))
    · simp only [List.mem_cons, List.not_mem_nil, or_false] at he
      rcases he with rfl | rfl | rfl
      · exact .inl hGmem
      · exact .inl hVmem
      · simp
    · exact .inl (hnames e (.inl (hnf he)))
    · exact .inl (hnames e (.inr (hnr he)))

/-- **C128**, violated: a problem with an intercept cannot be read back from its frame: the frame has no column `intercept`, so that `from_dataframe` refuses to add an intercept, and every problem it does return has none. -/
theorem C128_intercepts {N p : ℕ} (x : Matrix (Fin N) (Fin p) K) (y : Vec K N) (columns : Option (List String)) (labels : List String) (ffi fri : Bool)
    (mustFe mustRe : Option (List String)) (P : LmeProblem K) (h : lmeFromXY x (some y) columns labels ffi fri mustFe mustRe = .ok P) (hi : ffi = true ∨ fri = true) :
    P.interceptLabel ≠ none ∧ ∃ F, lmeToDataframe P = .ok F ∧ ∀ (fe re : List String) (groups variance target : String) (nf nr : List String),
      ("intercept" ∈ fe ∨ "intercept" ∈ re → lmeFromFrame F fe re groups variance target nf nr = .error .valueError) ∧
      ∀ P', lmeFromFrame F fe re groups variance target nf nr = .ok P' → P'.interceptLabel = none := by
  obtain ⟨g, v, feW, reW, -, -, -, hknown, -, -, -, -, -, -, hP⟩ := lmeFromXY_ok x (some y) columns labels ffi fri mustFe mustRe P h
  have hint : "intercept" ∉ labels := fun hcon => absurd (hknown _ hcon) (by decide)
  refine ⟨?_, _, C128_frame x y columns labels ffi fri mustFe mustRe P h, ?_⟩
  · rw [hP]
    simp only
    rcases hi with rfl | rfl
    · cases fri <;> simp [interceptLabelOf]
    · cases ffi <;> simp [interceptLabelOf]
  set F := tableFrame x y labels with hF
  have hhead : F.header = labels ++ ["target"] := tableFrame_header x y labels
  intro fe re groups variance target nf nr
  have hno : "intercept" ∈ fe ∨ "intercept" ∈ re → lmeFromFrame F fe re groups variance target nf nr = .error .valueError := by
    intro hmem
    unfold lmeFromFrame
    rw [if_pos]
    intro hall
    rw [List.all_eq_true] at hall
    have := hall "intercept" (by rcases hmem with hm | hm <;> simp [hm])
    rw [hhead] at this
    simp [hint] at this
  refine ⟨hno, fun P' hP' => ?_⟩
  have hnot : ¬ ("intercept" ∈ fe ∨ "intercept" ∈ re) := fun hc => by rw [hno hc] at hP'; cases hP'
  rw [not_or] at hnot
  unfold lmeFromFrame at hP'
  split_ifs at hP'
  simp only at hP'
  split at hP'
  · obtain ⟨g', v', feW', reW', -, -, -, -, -, -, -, -, -, -, hPe⟩ := lmeFromXY_ok _ _ _ _ _ _ _ _ P' hP'
    rw [hPe]
    simp [interceptLabelOf, INTERCEPT, hnot.1, hnot.2]
  · cases hP'

/-! ## What can be read back -/

/-- What `from_dataframe` returns when the effects are among the columns, no intercept is asked for and everything is regularized. -/
theorem fromDataframe_explicit {N : ℕ} (header : List String) (col : String → Vec K N) (fe re : List String) (groups variance target : String) (hint : "intercept" ∉ header)
    (hmem : ∀ e, e ∈ fe ∨ e ∈ re ∨ e = groups ∨ e = variance ∨ e = target → e ∈ header) (hN : 0 < N) (hvar : ∀ r, col variance r ≠ 0) (hgr : ∀ r, IntValued (col groups r)) :
    ∃ P, lmeFromDataframe header col fe re groups variance target [] [] = .ok P ∧ P = {
      fixedFeatures := (uniqueLabels (col groups)).map fun l => (groupRows (col groups) l).map fun r => (header.filter fun e => decide (e ∈ fe)).map fun e => col e r
      randomFeatures := (uniqueLabels (col groups)).map fun l => .rows ((groupRows (col groups) l).map fun r => (header.filter fun e => decide (e ∈ re)).map fun e => col e r)
      obsVars := (uniqueLabels (col groups)).map fun l => (groupRows (col groups) l).map (col variance)
      groupLabels := uniqueLabels (col groups)
      interceptLabel := none
      columnLabels := P.columnLabels
      orderOfObjects := ((uniqueLabels (col groups)).flatMap (groupRows (col groups))).map Fin.val
      answers := some ((uniqueLabels (col groups)).map fun l => (groupRows (col groups) l).map (col target))
      feColumns := some (header.filter fun e => decide (e ∈ fe))
      reColumns := some (header.filter fun e => decide (e ∈ re))
      feWeights := List.replicate (header.filter fun e => decide (e ∈ fe)).length 1
      reWeights := List.replicate (header.filter fun e => decide (e ∈ re)).length 1 } := by
  have hfe : "intercept" ∉ fe := fun hc => hint (hmem _ (.inl hc))
  have hre : "intercept" ∉ re := fun hc => hint (hmem _ (.inr (.inl hc)))
  have hfilt : ∀ l : List String, (header.filter fun e => decide (e ∈ l) && decide (e ≠ "intercept")) = header.filter fun e => decide (e ∈ l) := by
    intro l
    refine List.filter_congr fun e he => ?_
    have : e ≠ "intercept" := by rintro rfl; exact hint he
    simp [this]
  unfold lmeFromDataframe
  rw [if_neg, if_neg (by simp), if_neg (by simp)]
  swap
  · simp only [List.all_eq_true, decide_eq_true_eq, not_not, List.mem_append, List.mem_cons, List.not_mem_nil, or_false]
    rintro e ((he | he) | he)
    · exact hmem e (.inl he)
    · exact hmem e (.inr (.inl he))
    · exact hmem e (.inr (.inr he))
  unfold lmeFromSelected
  set sel := dataframeColumns header fe re with hsel
  set columns := groups :: (sel.map Prod.fst ++ [variance]) with hcolumns
  set labels := GROUP :: (sel.map Prod.snd ++ [VARIANCE]) with hlabels
  have hlen : labels.length = columns.length := by simp [hlabels, hcolumns]
  have hselmem : ∀ l ∈ sel.map Prod.snd, l = FIXED ∨ l = RANDOM ∨ l = FIXED_RANDOM := by
    intro l hl
    rw [hsel] at hl
    unfold dataframeColumns at hl
    rw [List.map_map] at hl
    obtain ⟨e, -, rfl⟩ := List.mem_map.1 hl
    simp only [Function.comp_apply]
    split_ifs <;> simp
  have hcount : ∀ t : String, t ≠ FIXED → t ≠ RANDOM → t ≠ FIXED_RANDOM → (sel.map Prod.snd).count t = 0 := by
    intro t h1 h2 h3
    refine List.count_eq_zero_of_not_mem fun hc => ?_
    rcases hselmem t hc with hh | hh | hh
    exacts [h1 hh, h2 hh, h3 hh]
  have hGcount : labels.count GROUP = 1 := by
    rw [hlabels, List.count_cons, List.count_append, hcount GROUP (by decide) (by decide) (by decide)]
    decide
  have hVcount : labels.count VARIANCE = 1 := by
    rw [hlabels, List.count_cons, List.count_append, hcount VARIANCE (by decide) (by decide) (by decide)]
    decide
  obtain ⟨g, hg⟩ := (labelIdx_singleton labels hlen GROUP).2 hGcount
  obtain ⟨v, hv⟩ := (labelIdx_singleton labels hlen VARIANCE).2 hVcount
  have hofFn : ∀ {β : Type _} (f : String → β), (List.ofFn fun j : Fin columns.length => f columns[j]) = f groups :: (sel.map (f ∘ Prod.fst) ++ [f variance]) := by
    intro β f
    rw [show (List.ofFn fun j : Fin columns.length => f columns[j]) = columns.map f by
      conv_rhs => rw [← List.ofFn_getElem (xs := columns)]
      rw [List.map_ofFn]; rfl]
    simp [hcolumns]
  have hF0 : ∀ f : String → String, selectBy isFixed labels (f groups :: (sel.map (f ∘ Prod.fst) ++ [f variance])) = (header.filter fun e => decide (e ∈ fe)).map f := by
    intro f
    rw [← hfilt fe]
    refine select_sel header fe re f _ _ isFixed isFixed_GROUP isFixed_VARIANCE (fun e => decide (e ∈ fe)) ?_ (fun e he => .inl (by simpa using he))
    intro e he
    by_cases a : e ∈ fe <;> by_cases b : e ∈ re <;> simp [a, b, isFixed_FIXED, isFixed_RANDOM, isFixed_FIXED_RANDOM] at he ⊢
  have hF : ∀ f : String → K, selectBy isFixed labels (f groups :: (sel.map (f ∘ Prod.fst) ++ [f variance])) =
      (header.filter fun e => decide (e ∈ fe)).map f := by
    intro f
    rw [← hfilt fe]
    refine select_sel header fe re f _ _ isFixed isFixed_GROUP isFixed_VARIANCE (fun e => decide (e ∈ fe)) ?_ (fun e he => .inl (by simpa using he))
    intro e he
    by_cases a : e ∈ fe <;> by_cases b : e ∈ re <;> simp [a, b, isFixed_FIXED, isFixed_RANDOM, isFixed_FIXED_RANDOM] at he ⊢
  have hR0 : ∀ f : String → String, selectBy isRandom labels (f groups :: (sel.map (f ∘ Prod.fst) ++ [f variance])) = (header.filter fun e => decide (e ∈ re)).map f := by
    intro f
    rw [← hfilt re]
    refine select_sel header fe re f _ _ isRandom isRandom_GROUP isRandom_VARIANCE (fun e => decide (e ∈ re)) ?_ (fun e he => .inr (by simpa using he))
    intro e he
    by_cases a : e ∈ fe <;> by_cases b : e ∈ re <;> simp [a, b, isRandom_FIXED, isRandom_RANDOM, isRandom_FIXED_RANDOM] at he ⊢
  have hR : ∀ f : String → K, selectBy isRandom labels (f groups :: (sel.map (f ∘ Prod.fst) ++ [f variance])) =
      (header.filter fun e => decide (e ∈ re)).map f := by
    intro f
    rw [← hfilt re]
    refine select_sel header fe re f _ _ isRandom isRandom_GROUP isRandom_VARIANCE (fun e => decide (e ∈ re)) ?_ (fun e he => .inr (by simpa using he))
    intro e he
    by_cases a : e ∈ fe <;> by_cases b : e ∈ re <;> simp [a, b, isRandom_FIXED, isRandom_RANDOM, isRandom_FIXED_RANDOM] at he ⊢
  have hg0 : columns[g] = groups := by
    have : (⟨0, by simp [hcolumns]⟩ : Fin columns.length) ∈ labelIdx (p := columns.length) labels (· = GROUP) := by
      rw [mem_labelIdx]; simp [hlabels]
    rw [hg, List.mem_singleton] at this
    rw [← this]
    simp [hcolumns]
  have hv0 : columns[v] = variance := by
    have : (⟨sel.length + 1, by simp [hcolumns]⟩ : Fin columns.length) ∈ labelIdx (p := columns.length) labels (· = VARIANCE) := by
      rw [mem_labelIdx]; simp [hlabels]
    rw [hv, List.mem_singleton] at this
    rw [← this]
    simp [hcolumns]
  obtain ⟨P, hP⟩ := lmeFromXY_succeeds (Matrix.of fun (i : Fin N) (j : Fin columns.length) => col columns[j] i) (some (col target)) (some columns) labels
    (decide (INTERCEPT ∈ fe)) (decide (INTERCEPT ∈ re)) (some []) (some []) g v hg hv hlen
    (by
      intro l hl
      rw [hlabels] at hl
      rcases List.mem_cons.1 hl with rfl | hl
      · decide
      rcases List.mem_append.1 hl with hl | hl
      · rcases hselmem l hl with rfl | rfl | rfl <;> decide
      · rw [List.mem_singleton.1 hl]; decide)
    (fun _ => hN) (fun r => by rw [Matrix.of_apply, hv0]; exact hvar r) (fun r => by rw [Matrix.of_apply, hg0]; exact hgr r) (.inr (.inr rfl)) (by simp) _ _ rfl rfl
  refine ⟨P, hP, ?_⟩
  obtain ⟨g', v', feW, reW, hg', hv', -, -, -, -, -, -, hfw, hrw, hPe⟩ := lmeFromXY_ok _ _ _ _ _ _ _ _ P hP
  have hgg : g' = g := by rw [hg] at hg'; simpa using hg'.symm
  have hvv : v' = v := by rw [hv] at hv'; simpa using hv'.symm
  subst hgg hvv
  have hgcol : (fun r => (Matrix.of fun (i : Fin N) (j : Fin columns.length) => col columns[j] i) r g') = col groups := by
    funext r
    rw [Matrix.of_apply, hg0]
  have hvcol : (fun r => (Matrix.of fun (i : Fin N) (j : Fin columns.length) => col columns[j] i) r v') = col variance := by
    funext r
    rw [Matrix.of_apply, hv0]
  rw [hgcol, hvcol] at hPe
  have hrowF : (fun r => designRow (Matrix.of fun (i : Fin N) (j : Fin columns.length) => col columns[j] i) (decide (INTERCEPT ∈ fe)) (labelIdx labels isFixed) r) =
      fun r => (header.filter fun e => decide (e ∈ fe)).map fun e => col e r := by
    funext r
    rw [designRow_eq _ labels hlen, show (List.ofFn ((Matrix.of fun (i : Fin N) (j : Fin columns.length) => col columns[j] i) r)) =
      List.ofFn fun j : Fin columns.length => (fun e => col e r) columns[j] from rfl, hofFn (fun e => col e r), hF (fun e => col e r)]
    simp [INTERCEPT, hfe]
  have hrowR : (fun r => designRow (Matrix.of fun (i : Fin N) (j : Fin columns.length) => col columns[j] i) (decide (INTERCEPT ∈ re)) (labelIdx labels isRandom) r) =
      fun r => (header.filter fun e => decide (e ∈ re)).map fun e => col e r := by
    funext r
    rw [designRow_eq _ labels hlen, show (List.ofFn ((Matrix.of fun (i : Fin N) (j : Fin columns.length) => col columns[j] i) r)) =
      List.ofFn fun j : Fin columns.length => (fun e => col e r) columns[j] from rfl, hofFn (fun e => col e r), hR (fun e => col e r)]
    simp [INTERCEPT, hre]
  have hnames : ∀ test, namesOf (some columns) ((labelIdx (p := columns.length) labels test).map Fin.val) = some (selectBy test labels (groups :: (sel.map (id ∘ Prod.fst) ++ [variance]))) := by
    intro test
    have := names_idx labels columns hlen rfl test
    rw [hcolumns] at this ⊢
    simp only [namesOf, Option.some.injEq]
    exact this
  have hn1 := (hnames isFixed).trans (congrArg some ((hF0 id).trans (List.map_id _)))
  have hn2 := (hnames isRandom).trans (congrArg some ((hR0 id).trans (List.map_id _)))
  have hlenF : (labelIdx (p := columns.length) labels isFixed).length = (header.filter fun e => decide (e ∈ fe)).length := by
    have := congrArg List.length (hF fun _ => 0)
    rw [← hofFn (fun _ => (0 : K)), ← labelIdx_map labels hlen] at this
    simpa using this
  have hlenR : (labelIdx (p := columns.length) labels isRandom).length = (header.filter fun e => decide (e ∈ re)).length := by
    have := congrArg List.length (hR fun _ => 0)
    rw [← hofFn (fun _ => (0 : K)), ← labelIdx_map labels hlen] at this
    simpa using this
  have hw1 : feW = List.replicate (header.filter fun e => decide (e ∈ fe)).length 1 := by
    rw [← hlenF]
    simp only [regWeightsOf, Except.ok.injEq] at hfw
    rw [← hfw]
    simp [INTERCEPT, hfe]
  have hw2 : reW = List.replicate (header.filter fun e => decide (e ∈ re)).length 1 := by
    rw [← hlenR]
    simp only [regWeightsOf, Except.ok.injEq] at hrw
    rw [← hrw]
    simp [INTERCEPT, hre]
  have hil : interceptLabelOf (decide (INTERCEPT ∈ fe)) (decide (INTERCEPT ∈ re)) = none := by
    simp [interceptLabelOf, INTERCEPT, hfe, hre]
  rw [hn1, hn2, hw1, hw2, hil] at hPe
  have e1 : P.columnLabels = labels := by rw [hPe]
  rw [e1]
  refine hPe.trans ?_
  rw [← hrowF, ← hrowR]
  rfl

theorem col_of_mem (F : Frame K) (h : F.header.Nodup) (c : String × Vec K F.size) (hc : c ∈ F.columns) : F.col c.1 = c.2 := by
  have h1 : c.2 ∈ F.named c.1 := List.mem_map.2 ⟨c, List.mem_filter.2 ⟨hc, by simp⟩, rfl⟩
  rw [named_nodup F h (List.mem_map.2 ⟨c, hc, rfl⟩)] at h1
  exact (List.mem_singleton.1 h1).symm

/-- The frame of a table with different labels, read through `lmeFromDataframe`. -/
theorem tableFrame_read {N p : ℕ} (x : Matrix (Fin N) (Fin p) K) (y : Vec K N) (labels : List String) (hlen : labels.length = p) (hnd : (labels ++ ["target"]).Nodup) :
    ∃ c : String → Vec K N, (∀ (fe re : List String) (g v t : String) (nf nr : List String),
      lmeFromFrame (tableFrame x y labels) fe re g v t nf nr = lmeFromDataframe (labels ++ ["target"]) c fe re g v t nf nr) ∧
      (∀ j : Fin p, c (labels.getD j "") = fun i => x i j) ∧ c "target" = y := by
  have hnd' : (tableFrame x y labels).header.Nodup := by rw [tableFrame_header]; exact hnd
  refine ⟨(tableFrame x y labels).col, ?_, ?_, ?_⟩
  · intro fe re g v t nf nr
    rw [lmeFromFrame_nodup _ hnd']
    have : ∀ (h1 h2 : List String) (_ : h1 = h2), lmeFromDataframe h1 (tableFrame x y labels).col fe re g v t nf nr = lmeFromDataframe h2 (tableFrame x y labels).col fe re g v t nf nr := by
      intro h1 h2 hh
      rw [hh]
    exact this _ _ (tableFrame_header x y labels)
  · intro j
    have hj : (j : ℕ) < labels.length := by rw [hlen]; exact j.2
    have := col_of_mem (tableFrame x y labels) hnd' (labels[(j : ℕ)], fun i => (List.ofFn (x i)).getD j 0)
      (List.mem_append_left _ (List.mem_mapIdx.2 ⟨j, hj, rfl⟩))
    rw [show labels.getD (j : ℕ) "" = labels[(j : ℕ)] by simp [hj]]
    refine this.trans ?_
    funext i
    simp
  · exact col_of_mem (tableFrame x y labels) hnd' ("target", y) (List.mem_append_right _ (List.mem_singleton.2 rfl))

/-- **C128**, the part that holds: if the labels of the columns are different (at most one column of each role) and no intercept was asked for, then `to_dataframe` and `from_dataframe` with the columns `fixed`, `fixed+random` as
fixed effects and `random`, `fixed+random` as random effects give back the problem: the same designs, variances, groups, answers, order and weights; the columns of the new problem are in addition named. -/
theorem C128_round_trip_partial {N p : ℕ} (x : Matrix (Fin N) (Fin p) K) (y : Vec K N) (columns : Option (List String)) (labels : List String)
    (P : LmeProblem K) (h : lmeFromXY x (some y) columns labels false false none none = .ok P) (hnd : labels.Nodup) (fe re : List String)
    (hfe : ∀ e, e ∈ fe ↔ e ∈ labels ∧ (e = "fixed" ∨ e = "fixed+random")) (hre : ∀ e, e ∈ re ↔ e ∈ labels ∧ (e = "random" ∨ e = "fixed+random")) :
    ∃ F P', lmeToDataframe P = .ok F ∧ lmeFromFrame F fe re "group" "variance" "target" [] [] = .ok P' ∧
      P' = { P with
        columnLabels := P'.columnLabels
        feColumns := some (labels.filter fun e => decide (e ∈ fe))
        reColumns := some (labels.filter fun e => decide (e ∈ re)) } := by
  obtain ⟨g, v, feW, reW, hg, hv, hlen, hknown, hN, hvar, hint, -, hfw, hrw, hP⟩ := lmeFromXY_ok x (some y) columns labels false false none none P h
  have htar : "target" ∉ labels := fun hcon => absurd (hknown _ hcon) (by decide)
  have hintc : "intercept" ∉ labels := fun hcon => absurd (hknown _ hcon) (by decide)
  have hnd' : (labels ++ ["target"]).Nodup := by
    rw [List.nodup_append]
    refine ⟨hnd, by simp, ?_⟩
    rintro a ha b hb rfl
    rw [List.mem_singleton.1 hb] at ha
    exact htar ha
  obtain ⟨c, hread, hc, hct⟩ := tableFrame_read x y labels hlen hnd'
  have hidx : ∀ (t : String) (i : Fin p), labelIdx labels (· = t) = [i] → labels.getD i "" = t := by
    intro t i hi
    have : i ∈ labelIdx (p := p) labels (· = t) := by rw [hi]; simp
    simpa using (mem_labelIdx labels _ i).1 this
  have hcg : c "group" = fun i => x i g := (congrArg c (hidx _ g hg)).symm.trans (hc g)
  have hcv : c "variance" = fun i => x i v := (congrArg c (hidx _ v hv)).symm.trans (hc v)
  have hGmem : "group" ∈ labels := List.count_pos_iff.1 (by rw [(labelIdx_singleton labels hlen GROUP).1 ⟨g, hg⟩]; exact Nat.one_pos)
  have hVmem : "variance" ∈ labels := List.count_pos_iff.1 (by rw [(labelIdx_singleton labels hlen VARIANCE).1 ⟨v, hv⟩]; exact Nat.one_pos)
  obtain ⟨P', hP', hPe'⟩ := fromDataframe_explicit (labels ++ ["target"]) c fe re "group" "variance" "target" (by simp [hintc])
    (by
      rintro e (he | he | rfl | rfl | rfl)
      · exact List.mem_append_left _ ((hfe e).1 he).1
      · exact List.mem_append_left _ ((hre e).1 he).1
      · exact List.mem_append_left _ hGmem
      · exact List.mem_append_left _ hVmem
      · simp)
    (hN rfl) (fun r => by rw [hcv]; exact hvar r) (fun r => by rw [hcg]; exact hint r)
  have hzip : ∀ r, labels.zip (List.ofFn (x r)) = labels.map fun l => (l, c l r) := by
    intro r
    rw [zip_ofFn labels hlen]
    refine List.ext_getElem (by simp [hlen]) fun j h1 h2 => ?_
    have hj : j < labels.length := by simpa using h2
    have hjp : j < p := by omega
    have := congrFun (hc ⟨j, hjp⟩) r
    rw [show labels.getD ((⟨j, hjp⟩ : Fin p) : ℕ) "" = labels[j] by simp [hj]] at this
    simp [hj, this]
  have hsel : ∀ (test : String → Bool) (r : Fin N), selectBy test labels (List.ofFn (x r)) = (labels.filter test).map fun e => c e r := by
    intro test r
    unfold selectBy
    rw [hzip, List.filter_map, List.map_map]
    rfl
  have hfilt : ∀ (l : List String) (test : String → Bool) (_ : ∀ e, e ∈ l ↔ e ∈ labels ∧ test e = true), (labels ++ ["target"]).filter (fun e => decide (e ∈ l)) = labels.filter test := by
    intro l test hl
    rw [List.filter_append, (List.filter_eq_nil_iff (l := ["target"])).2, List.append_nil]
    · refine List.filter_congr fun e he => ?_
      rw [Bool.eq_iff_iff]
      simp [hl, he]
    · intro e he
      rw [List.mem_singleton.1 he]
      simp [hl, htar]
  have hfe' : ∀ e, e ∈ fe ↔ e ∈ labels ∧ isFixed e = true := by
    intro e
    rw [hfe]
    simp [isFixed, FIXED, FIXED_RANDOM]
  have hre' : ∀ e, e ∈ re ↔ e ∈ labels ∧ isRandom e = true := by
    intro e
    rw [hre]
    simp [isRandom, RANDOM, FIXED_RANDOM]
  have hlab : ∀ (l : List String) (test : String → Bool) (_ : ∀ e, e ∈ l ↔ e ∈ labels ∧ test e = true), labels.filter test = labels.filter fun e => decide (e ∈ l) := by
    intro l test hl
    refine List.filter_congr fun e he => ?_
    rw [Bool.eq_iff_iff]
    simp [hl, he]
  have hcount : ∀ test, (labelIdx (p := p) labels test).length = (labels.filter test).length := by
    intro test
    have := congrArg List.length (labelIdx_map labels hlen test fun _ : Fin p => (0 : K))
    rw [List.length_map] at this
    rw [this]
    have h2 := hsel test ⟨0, hN rfl⟩
    have h3 : (selectBy test labels (List.ofFn fun _ : Fin p => (0 : K))).length = (selectBy test labels (List.ofFn (x ⟨0, hN rfl⟩))).length := by
      rw [← labelIdx_map labels hlen, ← labelIdx_map labels hlen]
      simp
    rw [h3, h2, List.length_map]
  have hw1 : feW = List.replicate (labels.filter isFixed).length 1 := by
    rw [← hcount]
    simp only [regWeightsOf, Except.ok.injEq] at hfw
    rw [← hfw]
    simp
  have hw2 : reW = List.replicate (labels.filter isRandom).length 1 := by
    rw [← hcount]
    simp only [regWeightsOf, Except.ok.injEq] at hrw
    rw [← hrw]
    simp
  refine ⟨_, P', C128_frame x y columns labels false false none none P h, (hread _ _ _ _ _ _ _).trans hP', ?_⟩
  rw [hfilt fe isFixed hfe', hfilt re isRandom hre', hcg, hcv, hct] at hPe'
  have e1 : (designRow x false (labelIdx labels isFixed)) = fun r => (labels.filter isFixed).map fun e => c e r := by
    funext r
    rw [designRow_eq x labels hlen, hsel]
    simp
  have e2 : (designRow x false (labelIdx labels isRandom)) = fun r => (labels.filter isRandom).map fun e => c e r := by
    funext r
    rw [designRow_eq x labels hlen, hsel]
    simp
  rw [e1, e2, hw1, hw2] at hP
  rw [← hlab fe isFixed hfe', ← hlab re isRandom hre', hP]
  exact hPe'

end

/-! ## Examples -/

/-- A table with two `fixed` columns: accepted by `from_x_y`, written by `to_dataframe`, not readable. -/
example : ∃ (P : LmeProblem ℚ) (F : Frame ℚ), lmeFromXY (!![0, 1, 5, 2; 0, 1, 6, 3] : Matrix (Fin 2) (Fin 4) ℚ) (some ![1, 2]) none ["group", "variance", "fixed", "fixed"] false false none none = .ok P ∧
    lmeToDataframe P = .ok F ∧ lmeFromFrame F ["fixed"] [] "group" "variance" "target" [] [] = .error .assertionError := by
  obtain ⟨P, hP⟩ := (C46_validation (!![0, 1, 5, 2; 0, 1, 6, 3] : Matrix (Fin 2) (Fin 4) ℚ) ![1, 2] none ["group", "variance", "fixed", "fixed"] false false none none
    ⟨by simp, by simp, by simp⟩ (by
      intro g hg r
      fin_cases g <;> simp [GROUP] at hg
      fin_cases r <;> exact ⟨0, by simp⟩)).2 ⟨by norm_num, by simp, rfl, by decide, by decide, by
        intro v hv r
        fin_cases v <;> simp at hv
        fin_cases r <;> simp⟩
  obtain ⟨F, h1, h2⟩ := C128_repeated_roles _ _ _ _ _ _ _ _ P hP "fixed" (by decide) ["fixed"] [] [] [] (by simp) (by simp) (by simp) (by simp)
  exact ⟨P, F, hP, h1, h2⟩

/-- A table with an intercept: whatever is read from its frame has none. -/
example : ∃ (P : LmeProblem ℚ) (F : Frame ℚ), lmeFromXY (!![0, 1, 5; 0, 1, 6] : Matrix (Fin 2) (Fin 3) ℚ) (some ![1, 2]) none ["group", "variance", "fixed"] true false none none = .ok P ∧
    lmeToDataframe P = .ok F ∧ lmeFromFrame F ["fixed", "intercept"] [] "group" "variance" "target" [] [] = .error .valueError := by
  obtain ⟨P, hP⟩ := (C46_validation (!![0, 1, 5; 0, 1, 6] : Matrix (Fin 2) (Fin 3) ℚ) ![1, 2] none ["group", "variance", "fixed"] true false none none
    ⟨by simp, by simp, by simp⟩ (by
      intro g hg r
      fin_cases g <;> simp [GROUP] at hg
      fin_cases r <;> exact ⟨0, by simp⟩)).2 ⟨by norm_num, by simp, rfl, by decide, by decide, by
        intro v hv r
        fin_cases v <;> simp at hv
        fin_cases r <;> simp⟩
  obtain ⟨-, F, h1, h2⟩ := C128_intercepts _ _ _ _ _ _ _ _ P hP (.inl rfl)
  exact ⟨P, F, hP, h1, (h2 _ _ _ _ _ _ _).1 (by simp)⟩

/-- A table with three effects of different roles (and the variance before the group): read back. -/
example : ∃ (P : LmeProblem ℚ) (F : Frame ℚ) (P' : LmeProblem ℚ),
    lmeFromXY (!![1, 0, 5, 2, 7; 1, 3, 6, 3, 8] : Matrix (Fin 2) (Fin 5) ℚ) (some ![1, 2]) none ["variance", "group", "fixed", "random", "fixed+random"] false false none none = .ok P ∧
    lmeToDataframe P = .ok F ∧ lmeFromFrame F ["fixed", "fixed+random"] ["random", "fixed+random"] "group" "variance" "target" [] [] = .ok P' ∧
    P'.fixedFeatures = P.fixedFeatures ∧ P'.randomFeatures = P.randomFeatures ∧ P'.answers = P.answers := by
  obtain ⟨P, hP⟩ := (C46_validation (!![1, 0, 5, 2, 7; 1, 3, 6, 3, 8] : Matrix (Fin 2) (Fin 5) ℚ) ![1, 2] none ["variance", "group", "fixed", "random", "fixed+random"] false false none none
    ⟨by simp, by simp, by simp⟩ (by
      intro g hg r
      fin_cases g <;> simp [GROUP] at hg
      fin_cases r
      · exact ⟨0, by simp⟩
      · exact ⟨3, by simp⟩)).2 ⟨by norm_num, by simp, rfl, by decide, by decide, by
        intro v hv r
        fin_cases v <;> simp at hv
        fin_cases r <;> simp⟩
  obtain ⟨F, P', h1, h2, h3⟩ := C128_round_trip_partial _ _ _ _ P hP (by decide) ["fixed", "fixed+random"] ["random", "fixed+random"]
    (by intro e; simp only [List.mem_cons, List.not_mem_nil, or_false]; constructor
        · rintro (rfl | rfl) <;> simp
        · rintro ⟨-, h⟩; exact h)
    (by intro e; simp only [List.mem_cons, List.not_mem_nil, or_false]; constructor
        · rintro (rfl | rfl) <;> simp
        · rintro ⟨-, h⟩; exact h)
  exact ⟨P, F, P', hP, h1, h2, by rw [h3], by rw [h3], by rw [h3]⟩

end Verif
