import Verif.Props.LmeFitTotal
import Verif.Model.Linear

/-!
# Mixed models without column labels: property C116
-/

namespace Verif

open Matrix

variable {N k p q : ℕ}

/-- The labels `from_x_y` uses when none are given. -/
abbrev defaultLabels (k : ℕ) : List String := "group" :: (List.replicate k "fixed" ++ ["variance"])

theorem labelIdx_default (k : ℕ) (test : String → Bool) :
    labelIdx (p := k + 2) (defaultLabels k) test = (if test "group" then [0] else []) ++
      ((if test "fixed" then (List.finRange k).map (fun j => j.castSucc.succ) else []) ++ if test "variance" then [Fin.last _] else []) := by
  unfold labelIdx
  rw [List.finRange_succ, List.finRange_succ_last, List.filter_cons, List.map_append, List.filter_append, List.map_map]
  have h1 : ((List.finRange k).map (Fin.succ ∘ Fin.castSucc)).filter (fun i : Fin (k + 2) => test ((defaultLabels k).getD i "")) =
      if test "fixed" then (List.finRange k).map (fun j => j.castSucc.succ) else [] := by
    have hl : ∀ j : Fin k, (defaultLabels k).getD ((Fin.succ ∘ Fin.castSucc) j : Fin (k + 2)) "" = "fixed" := by
      intro j
      simp only [Function.comp, Fin.val_succ, Fin.val_castSucc, List.getD_eq_getElem?_getD, List.getElem?_cons_succ]
      rw [List.getElem?_append_left (by simp)]
      simp
    split_ifs with ht
    · refine List.filter_eq_self.2 fun i hi => ?_
      obtain ⟨j, -, rfl⟩ := List.mem_map.1 hi
      rw [hl, ht]
    · refine List.filter_eq_nil_iff.2 fun i hi => ?_
      obtain ⟨j, -, rfl⟩ := List.mem_map.1 hi
      rw [hl]
      exact ht
  have h2 : ((defaultLabels k).getD ((Fin.last k).succ : Fin (k + 2)) "") = "variance" := by
    simp [List.getD_eq_getElem?_getD]
  rw [h1]
  simp only [List.map_cons, List.map_nil, List.filter_cons, h2, List.filter_nil]
  split_ifs <;> simp_all

theorem defaultLabels_known (k : ℕ) : ∀ l ∈ defaultLabels k, isKnown l = true := by
  intro l hl
  rcases List.mem_cons.1 hl with rfl | hl
  · decide
  · rcases List.mem_append.1 hl with hl | hl
    · rw [List.eq_of_mem_replicate hl]; decide
    · rw [List.mem_singleton.1 hl]; decide

theorem uniqueLabels_const (hN : 0 < N) (a : ℝ) : uniqueLabels (fun _ : Fin N => a) = [a] := by
  unfold uniqueLabels
  have : Nonempty (Fin N) := ⟨⟨0, hN⟩⟩
  rw [Finset.image_const Finset.univ_nonempty]
  simp

theorem groupRows_const (a : ℝ) : groupRows (fun _ : Fin N => a) a = List.finRange N := by
  unfold groupRows
  simp

theorem sum_getD {n : ℕ} (row : List ℝ) (h : row.length = n) (b : Vec ℝ n) : ∑ j : Fin n, row.getD j 0 * b j = sumProd row (List.ofFn b) := by
  subst h
  unfold sumProd
  have : List.zipWith (· * ·) row (List.ofFn b) = List.ofFn fun j : Fin row.length => row.getD j 0 * b j := by
    refine List.ext_getElem (by simp) fun i h1 h2 => ?_
    simp at h2
    simp [h2]
  rw [this, List.sum_ofFn]

theorem sum_get {α : Type} (l : List α) (f : α → ℝ) : ∑ i : Fin l.length, f (l.get i) = (l.map f).sum := by
  have : l.map f = List.ofFn fun i : Fin l.length => f (l.get i) := by
    refine List.ext_getElem (by simp) fun i h1 h2 => ?_
    simp
  rw [this, List.sum_ofFn]

/-- The loss of one group without random effects and with unit variances. -/
theorem groupNLL_unit (g : LmeGroup p q) (hq : q = 0) (hl : g.l = fun _ => 1) (beta : Vec ℝ p) (gamma : Vec ℝ q) :
    groupNLL g beta gamma = 1 / 2 * ∑ i, residual g beta i ^ 2 := by
  subst hq
  have hm : margCov g gamma = 1 := by
    unfold margCov
    rw [hl, Matrix.diagonal_one]
    have : g.z * diagonal gamma * g.zᵀ = 0 := by
      ext i j
      rw [Matrix.mul_apply]
      simp
    rw [this, zero_add]
  unfold groupNLL
  rw [hm, inv_one, Matrix.one_mulVec, Matrix.det_one, Real.log_one, mul_zero, add_zero]
  congr 1
  exact Finset.sum_congr rfl fun i _ => (sq _).symm

/-- **C116**: a table without column labels and without a random intercept is accepted if it has a row; the problem has one group with all the rows in order, all
columns (after the optional intercept) as fixed effects, no random effects and unit variances; and the mixed-model loss is the
least-squares loss of linear regression. -/
theorem C116_default_labels (x : Matrix (Fin N) (Fin k) ℝ) (y : Vec ℝ N) (hN : 0 < N) (ffi : Bool) :
    ∃ P D, lmeFromXYDefault x (some y) none ffi false none none = .ok P ∧ lmeGroups P = .ok D ∧ P.groupLabels = [0] ∧
      P.fixedFeatures = [List.ofFn fun r => (if ffi then [1] else []) ++ List.ofFn (x r)] ∧ P.randomFeatures = [.rows (List.replicate N [])] ∧
      P.obsVars = [List.replicate N 1] ∧ P.answers = some [List.ofFn y] ∧ P.orderOfObjects = List.range N ∧
      P.numFixed = k + ffi.toNat ∧ P.numRandom = 0 ∧
      ∀ (b : Vec ℝ P.numFixed) (g : Vec ℝ P.numRandom) (b0 : ℝ) (beta : Vec ℝ k), List.ofFn b = (if ffi then [b0] else []) ++ List.ofFn beta →
        lmeLoss D .nonInformative b g = .ok (1 / 2 * ∑ r, (y r - ((if ffi then b0 else 0) + ∑ j, x r j * beta j)) ^ 2) := by
  obtain ⟨X, hX⟩ : ∃ X : Matrix (Fin N) (Fin (k + 2)) ℝ, X = Matrix.of fun i => Fin.cons 0 (Fin.snoc (x i) 1) := ⟨_, rfl⟩
  have hX0 : (fun r => X r 0) = fun _ => 0 := by rw [hX]; rfl
  have hXl : ∀ r, X r (Fin.last _) = 1 := by
    intro r
    rw [hX]
    change Fin.cons (α := fun _ => ℝ) 0 (Fin.snoc (x r) 1) (Fin.last (k + 1)) = 1
    rw [← Fin.succ_last, Fin.cons_succ, Fin.snoc_last]
  have hXm : ∀ r (j : Fin k), X r j.castSucc.succ = x r j := by
    intro r j
    rw [hX]
    change Fin.cons (α := fun _ => ℝ) 0 (Fin.snoc (x r) 1) j.castSucc.succ = x r j
    rw [Fin.cons_succ, Fin.snoc_castSucc]
  have ig : labelIdx (p := k + 2) (defaultLabels k) (· = GROUP) = [0] := by
    rw [labelIdx_default]; simp [GROUP]
  have iv : labelIdx (p := k + 2) (defaultLabels k) (· = VARIANCE) = [Fin.last _] := by
    rw [labelIdx_default]; simp [VARIANCE]
  have ifx : labelIdx (p := k + 2) (defaultLabels k) isFixed = (List.finRange k).map fun j => j.castSucc.succ := by
    rw [labelIdx_default]; simp [isFixed, FIXED, FIXED_RANDOM]
  have ir : labelIdx (p := k + 2) (defaultLabels k) isRandom = [] := by
    rw [labelIdx_default]; simp [isRandom, RANDOM, FIXED_RANDOM]
  have hdr : ∀ r, designRow X ffi (labelIdx (defaultLabels k) isFixed) r = (if ffi then [1] else []) ++ List.ofFn (x r) := by
    intro r
    unfold designRow
    rw [ifx, List.map_map, List.ofFn_eq_map]
    congr 1
    exact List.map_congr_left fun j _ => hXm r j
  obtain ⟨P, hP⟩ := lmeFromXY_succeeds X (some y) none (defaultLabels k) ffi false none none 0 (Fin.last _) ig iv (by simp)
    (defaultLabels_known k) (fun _ => hN) (fun r => by rw [hXl]; exact one_ne_zero) (fun r => ⟨0, by rw [congrFun hX0 r]; simp⟩)
    (.inl rfl) (fun _ => ⟨rfl, rfl⟩) _ _ rfl rfl
  have hP' : lmeFromXYDefault x (some y) none ffi false none none = .ok P := by
    rw [hX] at hP
    exact hP
  obtain ⟨g, v, hg, hv, -, hgr⟩ := lmeGroups_table hP
  rw [ig] at hg
  rw [iv] at hv
  cases hg
  cases hv
  obtain ⟨g, v, feW, reW, hg, hv, -, -, -, -, -, -, -, -, hPe⟩ := lmeFromXY_ok X (some y) none (defaultLabels k) ffi false none none P hP
  rw [ig] at hg
  rw [iv] at hv
  cases hg
  cases hv
  have hF := numFixed_eq P ffi false (by rw [hPe])
  have hR := numRandom_eq P ffi false (by rw [hPe])
  have hcl : P.columnLabels = defaultLabels k := by rw [hPe]
  rw [hcl, ← fixedCount_eq] at hF
  rw [hcl, ← randomCount_eq] at hR
  have hF' : P.numFixed = k + ffi.toNat := by
    rw [hF]
    unfold fixedCount
    have : (defaultLabels k).filter (fun l => l = "fixed" ∨ l = "fixed+random") = List.replicate k "fixed" := by
      simp [List.filter_cons, List.filter_append]
    rw [this]
    cases ffi <;> simp
  have hR' : P.numRandom = 0 := by
    rw [hR]
    unfold randomCount
    have : (defaultLabels k).filter (fun l => l = "random" ∨ l = "fixed+random") = [] := by
      simp [List.filter_cons, List.filter_append]
    rw [this]
    rfl
  rw [hX0, uniqueLabels_const hN] at hPe hgr
  simp only [List.map_cons, List.map_nil, List.flatMap_cons, List.flatMap_nil, List.append_nil, groupRows_const, ir] at hPe
  refine ⟨P, _, hP', hgr, by rw [hPe], ?_, ?_, ?_, ?_, ?_, hF', hR', ?_⟩
  · rw [hPe]
    simp only [List.cons.injEq, and_true]
    rw [List.ofFn_eq_map]
    exact List.map_congr_left fun r _ => hdr r
  · rw [hPe]
    have hd : designRow X false [] = fun _ => [] := rfl
    simp [hd]
  · rw [hPe]
    simp [hXl, List.map_const']
  · rw [hPe]
    simp [List.ofFn_eq_map]
  · rw [hPe]
    refine List.ext_getElem (by simp) fun i h1 h2 => ?_
    simp
  · intro b gam b0 beta hb
    obtain ⟨G, hG⟩ : ∃ G, G = tableGroup X y (defaultLabels k) ffi false 0 (Fin.last _) P.numFixed P.numRandom 0 := ⟨_, rfl⟩
    simp only [List.map_cons, List.map_nil, ← hG]
    have hl : G.l = fun _ => 1 := by
      rw [hG]
      funext i
      exact hXl _
    have hpos : PosVar [G] := by
      intro g hg i
      obtain rfl := List.mem_singleton.1 hg
      rw [hl]
      exact one_pos
    refine lmeLoss_ok.2 ⟨inDomain_of_nonneg hpos (fun j => by have := j.2; omega), ?_⟩
    have hnll : marginalNLL [G] b gam = 1 / 2 * ∑ i, residual G b i ^ 2 := by
      unfold marginalNLL
      rw [List.map_cons, List.map_nil, List.sum_cons, List.sum_nil, add_zero, groupNLL_unit G hR' hl]
    rw [hnll]
    change _ = _ + (0 : ℝ)
    rw [add_zero]
    congr 1
    have hres : ∀ i, residual G b i = (fun r => y r - ((if ffi then b0 else 0) + ∑ j, x r j * beta j))
        ((groupRows (fun r => X r 0) 0).get (Fin.cast (by rw [hG]; rfl) i)) := by
      intro i
      subst hG
      change y _ - ∑ j : Fin P.numFixed, (designRow X ffi (labelIdx (defaultLabels k) isFixed) _).getD j 0 * b j = _
      rw [hdr, sum_getD _ (by rw [hF']; cases ffi <;> simp <;> omega), hb]
      have hz : ∀ r, sumProd ((if ffi then [1] else []) ++ List.ofFn (x r)) ((if ffi then [b0] else []) ++ List.ofFn beta)
          = (if ffi then b0 else 0) + ∑ j, x r j * beta j := by
        intro r
        have h0 : sumProd (List.ofFn (x r)) (List.ofFn beta) = ∑ j, x r j * beta j := by
          rw [← sum_getD _ (by simp)]
          exact Finset.sum_congr rfl fun j _ => by simp
        unfold sumProd at h0 ⊢
        cases ffi
        · simpa using h0
        · simp [h0]
      rw [hz]
      rfl
    have hsum : ∑ i, residual G b i ^ 2 = ∑ i : Fin (groupRows (fun r => X r 0) 0).length,
        (fun r => (y r - ((if ffi then b0 else 0) + ∑ j, x r j * beta j)) ^ 2) ((groupRows (fun r => X r 0) 0).get i) := by
      subst hG
      exact Finset.sum_congr rfl fun i _ => by rw [hres]; rfl
    refine Eq.trans ?_ (hsum.trans (sum_get (groupRows (fun r => X r 0) 0)
      fun r => (y r - ((if ffi then b0 else 0) + ∑ j, x r j * beta j)) ^ 2)).symm
    rw [hX0, groupRows_const, ← List.ofFn_eq_map, List.sum_ofFn]

/-- Non-vacuity of C116: two rows of one column with an intercept; the coefficients 5 and 2 fit exactly. -/
example : ∃ P D, lmeFromXYDefault (Matrix.of ![![1], ![3]]) (some ![7, 11]) none true false none none = .ok P ∧ lmeGroups P = .ok D ∧
    ∃ b : Vec ℝ P.numFixed, List.ofFn b = [5, 2] ∧ ∀ g, lmeLoss D .nonInformative b g = .ok 0 := by
  obtain ⟨P, D, h1, h2, -, -, -, -, -, -, hF, -, h3⟩ := C116_default_labels (Matrix.of ![![1], ![3]]) ![7, 11] (by norm_num) true
  have hF : P.numFixed = 2 := hF
  refine ⟨P, D, h1, h2, fun i => ![5, 2] (Fin.cast hF i), ?_, fun g => ?_⟩
  · refine List.ext_getElem (by simpa using hF) fun i h1 h2 => ?_
    simp only [List.length_cons, List.length_nil] at h2
    interval_cases i <;> simp
  · rw [h3 _ g 5 ![2] (by
      refine List.ext_getElem (by simpa using hF) fun i h1 h2 => ?_
      simp at h2
      interval_cases i <;> simp)]
    norm_num [Fin.sum_univ_succ]

end Verif
