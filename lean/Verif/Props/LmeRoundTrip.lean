import Verif.Props.LmeGenTable
import Verif.Props.LmeProblem
import Verif.Model.LmeModels

/-!
# C182: reading the table of a generated problem gives the problem back
-/

namespace Verif

section
variable {K : Type*} [Field K] [LinearOrder K]

/-- A list whose image is a concatenation of blocks is a concatenation of blocks. -/
theorem split_blocks {α β : Type*} (f : α → β) (T : List (List β)) (L : List α) (h : L.map f = T.flatten) : ∃ bs : List (List α), bs.flatten = L ∧ bs.map (List.map f) = T := by
  induction T generalizing L with
  | nil => exact ⟨[], by simpa using h.symm, rfl⟩
  | cons t T ih =>
    rw [List.flatten_cons] at h
    obtain ⟨L1, L2, rfl, h1, h2⟩ := List.map_eq_append_iff.1 h
    obtain ⟨bs, h3, h4⟩ := ih L2 h2
    exact ⟨L1 :: bs, by simp [h3], by simp [h1, h4]⟩

variable [IsStrictOrderedRing K]

/-- The blocks are recovered from their tags. -/
theorem filter_blocks {α : Type*} (tag : α → K) (bs : List (List α)) (off : ℕ) (h : ∀ k (hk : k < bs.length), ∀ a ∈ bs[k], tag a = ((off + k : ℕ) : K)) :
    (List.range' off bs.length).map (fun k : ℕ => bs.flatten.filter fun a => decide (tag a = (k : K))) = bs := by
  induction bs generalizing off with
  | nil => rfl
  | cons b bs ih =>
    have h0 : ∀ a ∈ b, tag a = (off : K) := fun a ha => by simpa using h 0 (by simp) a (by simpa using ha)
    have hs : ∀ k (hk : k < bs.length), ∀ a ∈ bs[k], tag a = ((off + 1 + k : ℕ) : K) := by
      intro k hk a ha
      rw [h (k + 1) (by simpa using hk) a (by simpa using ha)]
      congr 1
      omega
    rw [List.length_cons, List.range'_succ, List.map_cons]
    congr 1
    · rw [List.flatten_cons, List.filter_append, List.filter_eq_self.2 (by simpa using h0), List.filter_eq_nil_iff.2, List.append_nil]
      intro a ha
      obtain ⟨l, hl, ha⟩ := List.mem_flatten.1 ha
      obtain ⟨k, hk, rfl⟩ := List.mem_iff_getElem.1 hl
      rw [decide_eq_true_eq, hs k hk a ha, Nat.cast_inj]
      omega
    · refine Eq.trans (List.map_congr_left fun k hk => ?_) (ih (off + 1) hs)
      have hk' := (List.mem_range'_1.1 hk).1
      rw [List.flatten_cons, List.filter_append, List.filter_eq_nil_iff.2 (by
        intro a ha
        rw [decide_eq_true_eq, h0 a ha, Nat.cast_inj]
        omega), List.nil_append]

/-- The different labels of consecutive blocks. -/
theorem uniqueLabels_blocks {N : ℕ} (tag : Vec K N) (bs : List (List (Fin N))) (hflat : bs.flatten = List.finRange N) (hne : ∀ b ∈ bs, b ≠ [])
    (h : ∀ k (hk : k < bs.length), ∀ a ∈ bs[k], tag a = (k : K)) : uniqueLabels tag = (List.range bs.length).map fun k : ℕ => (k : K) := by
  have hnd : ((List.range bs.length).map fun k : ℕ => (k : K)).Nodup := (List.nodup_range).map Nat.cast_injective
  have hset : Finset.univ.image tag = ((List.range bs.length).map fun k : ℕ => (k : K)).toFinset := by
    ext a
    simp only [Finset.mem_image, Finset.mem_univ, true_and, List.mem_toFinset, List.mem_map, List.mem_range]
    constructor
    · rintro ⟨i, rfl⟩
      have hi : i ∈ bs.flatten := by rw [hflat]; simp
      obtain ⟨l, hl, hi⟩ := List.mem_flatten.1 hi
      obtain ⟨k, hk, rfl⟩ := List.mem_iff_getElem.1 hl
      exact ⟨k, hk, (h k hk i hi).symm⟩
    · rintro ⟨k, hk, rfl⟩
      obtain ⟨i, hi⟩ := List.exists_mem_of_ne_nil _ (hne _ (List.getElem_mem hk))
      exact ⟨i, h k hk i hi⟩
  unfold uniqueLabels
  rw [hset]
  refine (List.toFinset_sort _ hnd).2 ?_
  rw [List.pairwise_map]
  exact (List.pairwise_le_range).imp fun hab => Nat.cast_le.2 hab

end

universe u

variable {K : Type u} [Field K] [LinearOrder K]

/-- The rows of the table, by groups. -/
def tableBlocks : ℕ → List (List (List K)) → List (List K) → List (List (List K))
  | k, rows :: rest, v :: vs => List.zipWith (fun row a => (k : K) :: (row ++ [a])) rows v :: tableBlocks (k + 1) rest vs
  | _, _, _ => []

theorem genTableRows_blocks (k : ℕ) (rs : List (List (List K))) (vs : List (List K)) : genTableRows K k rs vs = (tableBlocks k rs vs).flatten := by
  induction rs generalizing k vs with
  | nil => rfl
  | cons r rs ih =>
    cases vs with
    | nil => rfl
    | cons v vs => rw [genTableRows, tableBlocks, List.flatten_cons, ih]

theorem tableBlocks_map {β : Type*} (F : List K → β) (G : List K → K → β) (Q : List K → Prop) (hF : ∀ (k : ℕ) row a, Q row → F ((k : K) :: (row ++ [a])) = G row a)
    (k : ℕ) (rs : List (List (List K))) (vs : List (List K)) (h : List.Forall₂ (fun rows v => v.length = rows.length ∧ ∀ row ∈ rows, Q row) rs vs) :
    (tableBlocks k rs vs).map (List.map F) = List.zipWith (List.zipWith G) rs vs := by
  induction h generalizing k with
  | nil => rfl
  | @cons rows v rs vs h1 _ ih =>
    rw [tableBlocks, List.map_cons, ih, List.zipWith_cons_cons, List.map_zipWith]
    congr 1
    have key : ∀ (rows : List (List K)) (v : List K), (∀ row ∈ rows, Q row) → List.zipWith (fun row a => F ((k : K) :: (row ++ [a]))) rows v = List.zipWith G rows v := by
      intro rows
      induction rows with
      | nil => intro v _; rfl
      | cons r rows ihr =>
        intro v hq
        cases v with
        | nil => rfl
        | cons a v => rw [List.zipWith_cons_cons, List.zipWith_cons_cons, hF k r a (hq r (by simp)), ihr v fun row hr => hq row (by simp [hr])]
    exact key rows v h1.2

theorem zipWith_left {β : Type*} (F : List K → β) (rs : List (List (List K))) (vs : List (List K)) (h : List.Forall₂ (fun rows v => v.length = rows.length) rs vs) :
    List.zipWith (List.zipWith fun row _ => F row) rs vs = rs.map (List.map F) := by
  induction h with
  | nil => rfl
  | @cons rows v rs vs h1 _ ih =>
    rw [List.zipWith_cons_cons, ih, List.map_cons]
    congr 1
    clear ih
    induction rows generalizing v with
    | nil => simp
    | cons r rows ihr =>
      cases v with
      | nil => simp at h1
      | cons a v => rw [List.zipWith_cons_cons, ihr (v := v) (by simpa using h1), List.map_cons]

theorem zipWith_right (rs : List (List (List K))) (vs : List (List K)) (h : List.Forall₂ (fun rows v => v.length = rows.length) rs vs) :
    List.zipWith (List.zipWith fun _ a => a) rs vs = vs := by
  induction h with
  | nil => rfl
  | @cons rows v rs vs h1 _ ih =>
    rw [List.zipWith_cons_cons, ih]
    congr 1
    clear ih
    induction rows generalizing v with
    | nil => cases v <;> simp_all
    | cons r rows ihr =>
      cases v with
      | nil => simp at h1
      | cons a v => rw [List.zipWith_cons_cons, ihr (v := v) (by simpa using h1)]

theorem tableBlocks_tag (off : ℕ) (rs : List (List (List K))) (vs : List (List K)) (k : ℕ) (hk : k < (tableBlocks off rs vs).length) :
    ∀ r ∈ (tableBlocks off rs vs)[k], r[0]? = some ((off + k : ℕ) : K) := by
  induction rs generalizing off vs k with
  | nil => simp [tableBlocks] at hk
  | cons rows rs ih =>
    cases vs with
    | nil => simp [tableBlocks] at hk
    | cons v vs =>
      intro r hr
      cases k with
      | zero =>
        simp only [tableBlocks, List.getElem_cons_zero] at hr
        rw [← List.map_uncurry_zip_eq_zipWith] at hr
        obtain ⟨⟨row, a⟩, -, rfl⟩ := List.mem_map.1 hr
        simp [Function.uncurry]
      | succ k =>
        simp only [tableBlocks, List.getElem_cons_succ] at hr
        rw [ih (off + 1) vs k (by simpa [tableBlocks] using hk) r hr]
        congr 2
        omega

/-- **C182**: let a problem be generated with at least one random effect, nonempty groups and nonzero variances, and let `x`, `y` be the table and the targets `to_x_y` gives. Then `from_x_y` on them, with the
labels `to_x_y` gives and the intercepts of the generation, returns the generated problem, except for the names of the effects, which the table does not have. -/
theorem C182_round_trip [IsStrictOrderedRing K] (c : GenCfg K) (draws : List (GenDraw K)) (hne : draws ≠ []) (hlab : ∀ l ∈ c.labels, l = "fixed" ∨ l = "random" ∨ l = "fixed+random")
    (hrows : ∀ d ∈ draws, d.rows ≠ [] ∧ ∀ row ∈ d.rows, row.length = c.labels.length) (herr : ∀ d ∈ draws, d.errors.length = d.rows.length)
    (hrand : c.fri = true ∨ "random" ∈ c.labels ∨ "fixed+random" ∈ c.labels)
    (P : LmeProblem K) (cs : List (ℕ × List K)) (h : lmeGenerate c draws = .ok (P, cs)) (hvar : ∀ v ∈ P.obsVars, ∀ a ∈ v, a ≠ 0)
    (N : ℕ) (x : Matrix (Fin N) (Fin (c.labels.length + 2)) K) (y : Vec K N) (labels : List String)
    (hxy : toXY P = .ok (List.ofFn fun i => List.ofFn (x i), List.ofFn y, labels)) :
    lmeFromXY x (some y) none labels c.ffi c.fri none none = .ok { P with feColumns := none, reColumns := none } := by
  obtain ⟨ans, hans, htab⟩ := C79_generated_table_partial c draws hne hlab (fun d hd => (hrows d hd).2) herr hrand P cs h
  rw [hxy] at htab
  obtain ⟨hT, hA⟩ := Prod.mk.inj (Except.ok.inj htab)
  obtain ⟨hA, hL⟩ := Prod.mk.inj hA
  obtain ⟨hn, hbeta, gs, hgs, hcs, hP⟩ := (lmeGenerate_ok c draws P cs).1 h
  obtain ⟨d1, d2, -, d4⟩ := genGroups_data c _ _ _ _ _ hgs
  have hn2 : genNum c.labels isRandom c.fri ≠ 0 := by
    rw [genNum_eq]
    rcases hrand with h1 | h1 | h1
    · rw [h1]; simp
    · have := List.countP_pos_iff.2 ⟨_, h1, isRandom_RANDOM⟩
      omega
    · have := List.countP_pos_iff.2 ⟨_, h1, isRandom_FIXED_RANDOM⟩
      omega
  replace d2 := d2 hn2
  have hobs : P.obsVars = gs.map GenGroup.obsVars := by rw [hP]
  have hfix : P.fixedFeatures = (draws.map GenDraw.rows).map (List.map (genRow c.labels isFixed c.ffi)) := by rw [hP]; simp only [d1, List.map_map]; rfl
  have hran : P.randomFeatures = ((draws.map GenDraw.rows).map (List.map (genRow c.labels isRandom c.fri))).map .rows := by rw [hP]; simp only [d2, List.map_map]; rfl
  have hF2 : List.Forall₂ (fun rows v => v.length = rows.length ∧ ∀ row ∈ rows, row.length = c.labels.length) (draws.map GenDraw.rows) P.obsVars := by
    rw [hobs, List.forall₂_map_left_iff]
    refine List.forall₂_iff_get.2 ⟨d4.length_eq, fun i h1 h2 => ⟨(List.forall₂_iff_get.1 d4).2 i h1 h2, (hrows _ (List.get_mem _ _)).2⟩⟩
  have hF1 : List.Forall₂ (fun rows v => v.length = rows.length) (draws.map GenDraw.rows) P.obsVars := hF2.imp fun _ _ h => h.1
  have hans' : ans = gs.map GenGroup.answers := by
    have : P.answers = some (gs.map GenGroup.answers) := by rw [hP]
    exact Option.some.inj (hans.symm.trans this)
  have hga := genGroups_answers c _ _ _ _ _ hgs
  -- the rows of the table, split by groups
  rw [genTableRows_blocks] at hT
  set B := tableBlocks 0 (draws.map GenDraw.rows) P.obsVars with hB
  obtain ⟨bs, hflat, hbs⟩ := split_blocks (fun i => List.ofFn (x i)) B (List.finRange N) (by rw [← List.ofFn_eq_map]; exact hT)
  have hmapB : ∀ {β : Type u} (F : List K → β) (G : List K → K → β), (∀ (k : ℕ) row a, row.length = c.labels.length → F ((k : K) :: (row ++ [a])) = G row a) →
      bs.map (List.map fun i => F (List.ofFn (x i))) = List.zipWith (List.zipWith G) (draws.map GenDraw.rows) P.obsVars := by
    intro β F G hFG
    rw [← tableBlocks_map F G _ hFG 0 _ _ hF2, ← hB, ← hbs, List.map_map]
    congr 1
    funext l
    simp [Function.comp_def]
  have hlen : bs.map List.length = draws.map fun d => d.rows.length := by
    have := congrArg (List.map List.length) (hmapB (fun _ => (0 : K)) (fun _ _ => 0) fun _ _ _ _ => rfl)
    rw [zipWith_left (fun _ => (0 : K)) _ _ hF1] at this
    simpa [Function.comp_def] using this
  have hbl : bs.length = draws.length := by simpa using congrArg List.length hlen
  have hbne : ∀ b ∈ bs, b ≠ [] := by
    intro b hb h0
    have : b.length ∈ draws.map fun d => d.rows.length := by rw [← hlen]; exact List.mem_map.2 ⟨b, hb, rfl⟩
    obtain ⟨d, hd, he⟩ := List.mem_map.1 this
    rw [h0] at he
    exact (hrows d hd).1 (List.eq_nil_of_length_eq_zero he)
  have htag : ∀ k (hk : k < bs.length), ∀ i ∈ bs[k], x i 0 = ((k : ℕ) : K) := by
    intro k hk i hi
    have hBl : k < B.length := by rw [← hbs]; simpa using hk
    have hmem : List.ofFn (x i) ∈ B[k] := by
      have : B[k] = bs[k].map fun i => List.ofFn (x i) := by simp [← hbs]
      rw [this]
      exact List.mem_map.2 ⟨i, hi, rfl⟩
    have := tableBlocks_tag 0 _ _ k hBl _ hmem
    simpa using this
  have hgroups : uniqueLabels (fun r => x r 0) = (List.range bs.length).map fun k : ℕ => (k : K) := uniqueLabels_blocks _ bs hflat hbne htag
  have hfilt : (uniqueLabels fun r => x r 0).map (groupRows fun r => x r 0) = bs := by
    rw [hgroups, List.map_map]
    have := filter_blocks (fun i => x i 0) bs 0 (by simpa using htag)
    rw [hflat, ← List.range_eq_range'] at this
    exact this
  have hby : bs.map (List.map y) = ans := by
    rw [List.eq_iff_flatten_eq]
    refine ⟨by rw [← List.map_flatten, hflat, ← List.ofFn_eq_map, hA], ?_⟩
    rw [List.map_map, hans', List.map_map]
    have e : bs.map (List.length ∘ List.map y) = bs.map List.length := by simp [Function.comp_def]
    rw [e, hlen]
    have key : ∀ (ds : List (GenDraw K)) (gs : List (GenGroup K)), (∀ d ∈ ds, d.errors.length = d.rows.length) →
        List.Forall₂ (fun d g => ((d.rows.zip d.errors).mapM fun re => genAnswer c d.u re.1 re.2) = .ok g.answers) ds gs →
        ds.map (fun d => d.rows.length) = gs.map (List.length ∘ GenGroup.answers) := by
      intro ds gs he hf
      induction hf with
      | nil => rfl
      | cons h1 _ ih =>
        have := (mapM_ok_inv _ _ _ h1).length_eq
        simp only [List.length_zip, he _ List.mem_cons_self, Nat.min_self] at this
        rw [List.map_cons, List.map_cons, ih fun d hd => he d (by simp [hd]), Function.comp, this]
    exact key _ _ herr hga
  -- the labels
  have hLl : labels.length = c.labels.length + 2 := by rw [hL]; simp
  have hcount : ∀ l : String, l = "group" ∨ l = "variance" → labels.count l = 1 := by
    intro l hl
    have h0 : c.labels.count l = 0 := List.count_eq_zero.2 fun hm => by
      rcases hl with rfl | rfl <;> rcases hlab _ hm with h | h | h <;> exact absurd h (by decide)
    rw [hL, List.count_cons, List.count_append, h0]
    rcases hl with rfl | rfl <;> decide
  have hg : labelIdx (p := c.labels.length + 2) labels (· = GROUP) = [0] := by
    obtain ⟨g, hg⟩ := (labelIdx_singleton labels hLl GROUP).2 (hcount _ (.inl rfl))
    have : (0 : Fin (c.labels.length + 2)) ∈ labelIdx labels (· = GROUP) := (mem_labelIdx _ _ _).2 (by rw [hL]; rfl)
    rw [hg] at this ⊢
    rw [List.mem_singleton.1 this]
  have hv : labelIdx (p := c.labels.length + 2) labels (· = VARIANCE) = [Fin.last _] := by
    obtain ⟨g, hg⟩ := (labelIdx_singleton labels hLl VARIANCE).2 (hcount _ (.inr rfl))
    have : Fin.last (c.labels.length + 1) ∈ labelIdx labels (· = VARIANCE) := (mem_labelIdx _ _ _).2 (by
      rw [hL]
      simp [List.getD_eq_getElem?_getD])
    rw [hg] at this ⊢
    rw [List.mem_singleton.1 this]
  have hknown : labels.all isKnown = true := by
    rw [List.all_eq_true]
    intro l hl
    rw [hL] at hl
    simp only [List.mem_cons, List.mem_append, List.not_mem_nil, or_false] at hl
    rcases hl with rfl | hl | rfl
    · decide
    · rcases hlab l hl with rfl | rfl | rfl <;> decide
    · decide
  -- the variances
  have hbv : bs.map (List.map fun i => x i (Fin.last _)) = P.obsVars := by
    have h1 := hmapB (fun row => row.getD (c.labels.length + 1) 0) (fun _ a => a) (by
      intro k row a hr
      rw [← hr]
      simp [List.getD_eq_getElem?_getD])
    rw [zipWith_right _ _ hF1] at h1
    rw [← h1]
    refine congrArg (List.map · bs) (congrArg List.map (funext fun i => ?_))
    rw [List.getD_eq_getElem?_getD, List.getElem?_ofFn, dif_pos (Nat.lt_succ_self _)]
    rfl
  have hx0 : ∀ r, x r (Fin.last _) ≠ 0 := by
    intro r
    have hr : r ∈ bs.flatten := by rw [hflat]; simp
    obtain ⟨b, hb, hr⟩ := List.mem_flatten.1 hr
    exact hvar _ (by rw [← hbv]; exact List.mem_map.2 ⟨b, hb, rfl⟩) _ (List.mem_map.2 ⟨r, hr, rfl⟩)
  have hint : ∀ r, IntValued (x r 0) := by
    intro r
    have hr : r ∈ bs.flatten := by rw [hflat]; simp
    obtain ⟨b, hb, hr⟩ := List.mem_flatten.1 hr
    obtain ⟨k, hk, rfl⟩ := List.mem_iff_getElem.1 hb
    exact ⟨(k : ℤ), by rw [htag k hk r hr]; simp⟩
  have hN : N ≠ 0 := by
    rintro rfl
    have hb0 : bs ≠ [] := fun h0 => hne (List.eq_nil_of_length_eq_zero (by rw [← hbl, h0]; rfl))
    obtain ⟨b, hb⟩ := List.exists_mem_of_ne_nil _ hb0
    obtain ⟨i, -⟩ := List.exists_mem_of_ne_nil _ (hbne b hb)
    exact i.elim0
  -- the designs
  have hdes : ∀ (test : String → Bool) (b : Bool), test GROUP = false → test VARIANCE = false → genNum c.labels test b ≠ 0 →
      bs.map (List.map (designRow x b (labelIdx labels test))) = (draws.map GenDraw.rows).map (List.map (genRow c.labels test b)) := by
    intro test b t1 t2 hnn
    have h1 := hmapB (fun row => (if b then [1] else []) ++ selectBy test labels row) (fun row _ => genRow c.labels test b row) (by
      intro k row a hr
      have e : selectBy test labels ((k : K) :: (row ++ [a])) = selectBy test c.labels row := by
        rw [hL, selectBy_cons, if_neg (by rw [t1]; decide), selectBy_append _ _ _ _ _ hr.symm]
        simp [selectBy, t2]
      rw [genRow_eq' _ _ _ _ hr hnn, e])
    rw [zipWith_left _ _ _ hF1] at h1
    rw [← h1]
    refine congrArg (List.map · bs) (congrArg List.map (funext fun i => ?_))
    unfold designRow
    rw [labelIdx_map labels hLl]
  have hw : ∀ (test : String → Bool) (b : Bool), test GROUP = false → test VARIANCE = false → (labelIdx (p := c.labels.length + 2) labels test).length + b.toNat = genNum c.labels test b := by
    intro test b t1 t2
    rw [labelIdx_length labels hLl, genNum_eq, hL, List.countP_cons, List.countP_append]
    cases b <;> simp [t1, t2]
  have hF := hdes isFixed c.ffi isFixed_GROUP isFixed_VARIANCE hn
  have hR := hdes isRandom c.fri isRandom_GROUP isRandom_VARIANCE hn2
  unfold lmeFromXY
  rw [if_neg (by simp [hN]), if_neg (by simp [hknown]), if_neg (by simp [hLl])]
  simp only [hg, hv]
  unfold fromXYCore
  rw [if_neg (by push Not; exact hx0), if_neg (by push Not; exact hint), if_neg (by simp), if_neg (by simp)]
  simp only [regWeightsOf, hw isFixed c.ffi isFixed_GROUP isFixed_VARIANCE, hw isRandom c.fri isRandom_GROUP isRandom_VARIANCE]
  have hmm : ∀ {β : Type u} (f : List (Fin N) → β), (uniqueLabels fun r => x r 0).map (fun l => f (groupRows (fun r => x r 0) l)) = bs.map f := by
    intro β f
    conv_rhs => rw [← hfilt]
    rw [List.map_map]
    rfl
  have e1 := hmm (List.map (designRow x c.ffi (labelIdx labels isFixed)))
  have e2 := hmm fun b => RandomDesign.rows (b.map (designRow x c.fri (labelIdx labels isRandom)))
  have e3 := hmm (List.map fun r => x r (Fin.last _))
  have e4 := hmm (List.map y)
  have e5 : (uniqueLabels fun r => x r 0).flatMap (groupRows fun r => x r 0) = List.finRange N := by
    rw [← hflat, List.flatMap_def]
    congr 1
  rw [e1, e2, e3, e5, hF, hbv, hgroups, hbl]
  simp only [Option.map_some, Except.ok.injEq, LmeProblem.mk.injEq]
  have hNs : N = (draws.map fun d => d.rows.length).sum := by
    rw [← hlen, ← List.length_flatten, hflat, List.length_finRange]
  refine ⟨hfix.symm, ?_, trivial, ?_, ?_, ?_, ?_, ?_, rfl, rfl, ?_, ?_⟩
  · rw [hran, ← hR, List.map_map]
    rfl
  · rw [hP]
  · rw [hP]
  · rw [hP]
    exact hL
  · rw [hP]
    simp only [List.map_coe_finRange_eq_range]
    rw [← hNs]
  · rw [hgroups, hbl] at e4
    rw [e4, hby, hans]
  · rw [hP]
  · rw [hP]

/-- A model without prior does not read the names of the effects. -/
theorem lmeFitProblem_names (M : LmeModelCfg) (hM : M.prior = none) (st : LmeState) (P : LmeProblem ℝ) (fe re : Option (List String)) (a : LmeFitArgs) :
    lmeFitProblem M st { P with feColumns := fe, reColumns := re } a = lmeFitProblem M st P a := by
  have hcore : lmeFitCore M st { P with feColumns := fe, reColumns := re } a = lmeFitCore M st P a := by
    unfold lmeFitCore
    rw [hM]
    rfl
  unfold lmeFitProblem
  rw [hcore, hM]
  cases lmeFitCore M st P a <;> rfl

/-- **C182**, the fit: without a prior, `fit` on the table and the labels of `to_x_y` (with the intercepts of the generation) ends as `fit_problem` on the generated problem: with the same exception or none, and
the same coefficients. -/
theorem C182_fit (M : LmeModelCfg) (hM : M.prior = none) (st : LmeState) (a : LmeFitArgs) (c : GenCfg ℝ) (draws : List (GenDraw ℝ)) (hne : draws ≠ [])
    (hlab : ∀ l ∈ c.labels, l = "fixed" ∨ l = "random" ∨ l = "fixed+random") (hrows : ∀ d ∈ draws, d.rows ≠ [] ∧ ∀ row ∈ d.rows, row.length = c.labels.length)
    (herr : ∀ d ∈ draws, d.errors.length = d.rows.length) (hrand : c.fri = true ∨ "random" ∈ c.labels ∨ "fixed+random" ∈ c.labels)
    (P : LmeProblem ℝ) (cs : List (ℕ × List ℝ)) (h : lmeGenerate c draws = .ok (P, cs)) (hvar : ∀ v ∈ P.obsVars, ∀ a ∈ v, a ≠ 0)
    (N : ℕ) (x : Matrix (Fin N) (Fin (c.labels.length + 2)) ℝ) (y : Vec ℝ N) (labels : List String)
    (hxy : toXY P = .ok (List.ofFn fun i => List.ofFn (x i), List.ofFn y, labels)) :
    lmeFit M st x y (some labels) c.ffi c.fri none none none a = ((lmeFitProblem M st P a).1.map fun _ => (), (lmeFitProblem M st P a).2) := by
  unfold lmeFit
  simp only [C182_round_trip c draws hne hlab hrows herr hrand P cs h hvar N x y labels hxy]
  have e := lmeFitProblem_names M hM st P none none a
  exact congrArg (fun r : Except PyErr (Logger (PyVal ℝ (P.numFixed + P.numRandom))) × LmeState => (r.1.map fun _ => (), r.2)) e

/-- Non-vacuity of C182: two groups with one and two objects. -/
theorem tripCase : ∃ P cs, lmeGenerate (⟨[FIXED_RANDOM], false, false, .scalar 1, [2]⟩ : GenCfg ℝ) [⟨[[3]], [5], [1]⟩, ⟨[[2], [4]], [1], [0, 1]⟩] = .ok (P, cs) ∧ (∀ v ∈ P.obsVars, ∀ a ∈ v, a ≠ 0) ∧
    toXY P = .ok (List.ofFn fun i => List.ofFn ((!![0, 3, 1; 1, 2, 1; 1, 4, 1] : Matrix (Fin 3) (Fin 3) ℝ) i), List.ofFn (![22, 6, 13] : Vec ℝ 3), ["group", "fixed+random", "variance"]) := by
  have h3 : genNum [FIXED_RANDOM] isRandom false = 1 := by decide
  have h1 : ∀ x : ℝ, genRow [FIXED_RANDOM] isFixed false [x] = [x] := fun x => by simp [genRow, isFixed, List.range_succ]
  have h2 : ∀ x : ℝ, genRow [FIXED_RANDOM] isRandom false [x] = [x] := fun x => by simp [genRow, isRandom, List.range_succ]
  have hgs : genGroups (⟨[FIXED_RANDOM], false, false, .scalar 1, [2]⟩ : GenCfg ℝ) [1, 2] 0 0 [⟨[[3]], [5], [1]⟩, ⟨[[2], [4]], [1], [0, 1]⟩] =
      .ok [⟨[[3]], .rows [[3]], [22], [1]⟩, ⟨[[2], [4]], .rows [[2], [4]], [6, 13], [1, 1]⟩] := by
    rw [genGroups_cons]
    refine ⟨_, _, [22], [⟨[[2], [4]], .rows [[2], [4]], [6, 13], [1, 1]⟩], rfl, rfl, ?_, ?_, ?_⟩
    · simp only [List.zip_cons_cons, List.zip_nil_right, List.mapM_cons, List.mapM_nil, genAnswer, genRandomPart, h1, h2, h3, listDot]
      simp [bind, Except.bind, pure, Except.pure]
      norm_num
    · rw [genGroups_cons]
      refine ⟨_, _, [6, 13], [], rfl, rfl, ?_, rfl, ?_⟩
      · simp only [List.zip_cons_cons, List.zip_nil_right, List.mapM_cons, List.mapM_nil, genAnswer, genRandomPart, h1, h2, h3, listDot]
        simp [bind, Except.bind, pure, Except.pure]
        norm_num
      · simp [h1, h2, h3]
    · simp [h1, h2, h3]
  have hgen := (lmeGenerate_ok (⟨[FIXED_RANDOM], false, false, .scalar 1, [2]⟩ : GenCfg ℝ) [⟨[[3]], [5], [1]⟩, ⟨[[2], [4]], [1], [0, 1]⟩] _ _).2 ⟨by decide, by decide, _, hgs, rfl, rfl⟩
  obtain ⟨ans, ha, ht⟩ := C79_generated_table_partial _ _ (by simp) (by simp) (by simp) (by simp) (by simp) _ _ hgen
  refine ⟨_, _, hgen, by simp, ?_⟩
  rw [ht]
  cases ha
  simp [genTableRows]

/-- The table is read back … -/
example : ∃ P cs, lmeGenerate (⟨[FIXED_RANDOM], false, false, .scalar 1, [2]⟩ : GenCfg ℝ) [⟨[[3]], [5], [1]⟩, ⟨[[2], [4]], [1], [0, 1]⟩] = .ok (P, cs) ∧
    lmeFromXY (!![0, 3, 1; 1, 2, 1; 1, 4, 1] : Matrix (Fin 3) (Fin 3) ℝ) (some ![22, 6, 13]) none ["group", "fixed+random", "variance"] false false none none =
      .ok { P with feColumns := none, reColumns := none } := by
  obtain ⟨P, cs, h, hv, ht⟩ := tripCase
  exact ⟨P, cs, h, C182_round_trip _ _ (by simp) (by simp) (by simp) (by simp) (by simp) P cs h hv 3 _ _ _ ht⟩

/-- … and fits agree. -/
example (M : LmeModelCfg) (hM : M.prior = none) (st : LmeState) (a : LmeFitArgs) : ∃ P cs, lmeGenerate (⟨[FIXED_RANDOM], false, false, .scalar 1, [2]⟩ : GenCfg ℝ)
      [⟨[[3]], [5], [1]⟩, ⟨[[2], [4]], [1], [0, 1]⟩] = .ok (P, cs) ∧
    (lmeFit M st (!![0, 3, 1; 1, 2, 1; 1, 4, 1] : Matrix (Fin 3) (Fin 3) ℝ) ![22, 6, 13] (some ["group", "fixed+random", "variance"]) false false none none none a).2 = (lmeFitProblem M st P a).2 := by
  obtain ⟨P, cs, h, hv, ht⟩ := tripCase
  exact ⟨P, cs, h, by rw [C182_fit M hM st a _ _ (by simp) (by simp) (by simp) (by simp) (by simp) P cs h hv 3 _ _ _ ht]⟩

end Verif
