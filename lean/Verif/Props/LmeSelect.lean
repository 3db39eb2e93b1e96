import Verif.Lemmas.LmeSelect

/-!
# Covariate selection: C76-C78, C84-C86
-/

open Matrix

namespace Verif

variable {N : ℕ}

/-! ## C76 -/

/-- **C76**, the part that holds in general: if the selection returns, every model of the grid was fitted, the reported
names are the columns of the dataframe whose coefficients in the fit `c` are at least `0.01` in absolute value, and `c` is
the first fit with the smallest criterion. Missing from C76: effects called `intercept` (false, see C85) and that the
selection always returns (see `C76_returns_partial` and `C76_l0_violated`). -/
theorem C76_best_partial (S : SetOrder) (sort : NpSort) (header : List String) (hnd : header.Nodup) (col : String → Vec ℝ N)
    (target variance group : String) (covs pre : Option CovDict) (name : String) (fe re F R : List String)
    (hF : F = effectsOf covs .fixed ++ effectsOf pre .fixed) (hR : R = effectsOf covs .random ++ effectsOf pre .random)
    (hiF : "intercept" ∉ F) (hiR : "intercept" ∉ R)
    (h : (selectCovariates S sort header col target variance group covs pre name).1 = .ok (fe, re)) :
    ∃ (P : LmeProblem ℝ) (Ms : List LmeModelCfg) (fits : List (WithTop ℝ × LmeCoef)) (i : ℕ) (s : WithTop ℝ) (c : LmeCoef),
      lmeFromDataframe header col F R group variance target (effectsOf pre .fixed) (effectsOf pre .random) = .ok P ∧
      gridModels sort name (header.filter (· ∈ F)).length (header.filter (· ∈ R)).length = .ok Ms ∧
      List.Forall₂ (fun M f => ∃ L, lmeFitProblem M none P {} = (.ok L, some f.2) ∧
        L.get "jones_bic" = .ok (.atom (.num f.1))) Ms fits ∧
      fits[i]? = some (s, c) ∧ (∀ f ∈ fits, s ≤ f.1) ∧
      (∀ (j : ℕ) (f : WithTop ℝ × LmeCoef), j < i → fits[j]? = some f → s < f.1) ∧
      c.beta.length = (header.filter (· ∈ F)).length ∧ c.gamma.length = (header.filter (· ∈ R)).length ∧
      fe.Sublist (header.filter (· ∈ F)) ∧ re.Sublist (header.filter (· ∈ R)) ∧
      (∀ (k : ℕ) (n : String) (b : ℝ), (header.filter (· ∈ F))[k]? = some n → c.beta[k]? = some b →
        (n ∈ fe ↔ 0.01 ≤ |b|)) ∧
      ∀ (k : ℕ) (n : String) (b : ℝ), (header.filter (· ∈ R))[k]? = some n → c.gamma[k]? = some b →
        (n ∈ re ↔ 0.01 ≤ |b|) := by
  obtain ⟨P, hP, hsel⟩ := selectCovariates_ok h
  rw [← hF, ← hR] at hP
  obtain ⟨Ms, fits, i, s, c, hMs, hall, hi, hmin, hfirst, hfe, hre⟩ := selectOn_ok hsel
  obtain ⟨_, -, -, -, -, -, -, -, hfn, hrn⟩ := C53_roles header col F R group variance target _ _ P hP
  obtain ⟨hcF, hcR⟩ := dataframe_counts hP
  have hfil : ∀ L : List String, "intercept" ∉ L → (header.filter fun e => decide (e ∈ L) && decide (e ≠ "intercept")) =
      header.filter (· ∈ L) := by
    intro L hL
    refine List.filter_congr fun e _ => ?_
    by_cases he : e ∈ L
    · have : e ≠ "intercept" := by rintro rfl; exact hL he
      simp [he, this]
    · simp [he]
  rw [hfil F hiF] at hcF hfn
  rw [hfil R hiR] at hcR hrn
  rw [if_neg hiF, add_zero] at hcF
  rw [if_neg hiR, add_zero] at hcR
  rw [hfn] at hfe
  rw [hrn] at hre
  obtain ⟨a1, a2⟩ := namesAbove_ok hfe
  obtain ⟨b1, b2⟩ := namesAbove_ok hre
  have hlt := (List.getElem?_eq_some_iff.1 hi)
  obtain ⟨L, hL, -⟩ := hall.get (i := i) (by rw [hall.length_eq]; exact hlt.1) hlt.1
  have hsz := lmeFitProblem_sizes hL
  rw [List.get_eq_getElem, hlt.2, hcF, hcR] at hsz
  refine ⟨P, Ms, fits, i, s, c, hP, by rw [← hcF, ← hcR]; exact hMs, hall, hi, hmin, hfirst, hsz.1, hsz.2, a1, b1, ?_, ?_⟩
  · intro k n b h1 h2
    rw [a2 (hnd.filter _) k n b h1 h2]
  · intro k n b h1 h2
    rw [b2 (hnd.filter _) k n b h1 h2]

/-- **C76**, totality: for every supported model name the selection returns, if the columns exist, the groups are
integers, the variances are positive, effects that must not be regularized are given only together with an intercept (see
C84), and for the L0 models there are at least two fixed and two random effects. Missing from C76: L0 models with a single
effect (false, see `C76_l0_violated`). -/
theorem C76_returns_partial (S : SetOrder) (sort : NpSort) (header : List String) (hnd : header.Nodup) (col : String → Vec ℝ N)
    (hN : 0 < N) (target variance group : String) (covs pre : Option CovDict) (hcovs : ∀ d, covs = some d → d.Complete)
    (hpre : ∀ d, pre = some d → d.Complete) (name : String) (hname : name ∈ selectNames) (F R : List String)
    (hF : F = effectsOf covs .fixed ++ effectsOf pre .fixed) (hR : R = effectsOf covs .random ++ effectsOf pre .random)
    (hall : ∀ e ∈ [target, variance, group] ++ F ++ R, e ∈ header) (hvar : ∀ r, 0 < col variance r)
    (hint : ∀ r, ∃ z : ℤ, (z : ℝ) = col group r)
    (hpF : effectsOf pre .fixed = [] ∨ "intercept" ∈ F) (hpR : effectsOf pre .random = [] ∨ "intercept" ∈ R)
    (hl0 : (name ≠ "L0" ∧ name ≠ "L0_SR3") ∨ (2 ≤ (header.filter (· ∈ F)).length ∧ 2 ≤ (header.filter (· ∈ R)).length)) :
    ∃ fe re, (selectCovariates S sort header col target variance group covs pre name).1 = .ok (fe, re) := by
  rw [(selectCovariates_eq S sort header col target variance group covs pre name).2 hcovs hpre, ← hF, ← hR, if_pos hall]
  obtain ⟨P, hP⟩ := dataframe_succeeds (fe := F) (re := R) (groups := group) (nf := effectsOf pre .fixed) (nr := effectsOf pre .random)
    (header := header) (col := col) (variance := variance) (target := target) (by
      intro e he
      apply hall
      simp only [List.mem_append, List.mem_cons, List.not_mem_nil, or_false] at he ⊢
      tauto) (by intro e he; rw [hF]; simp [he]) (by intro e he; rw [hR]; simp [he]) hN (fun r => (hvar r).ne') hint
  obtain ⟨hcF, hcR⟩ := dataframe_counts hP
  have hcnt : ∀ L : List String, (∀ e ∈ L, e ∈ header) → (header.filter fun e => decide (e ∈ L) && decide (e ≠ "intercept")).length +
      (if "intercept" ∈ L then 1 else 0) = (header.filter (· ∈ L)).length := by
    intro L hL
    have h1 : (header.filter fun e => decide (e ∈ L)).length = ((header.filter fun e => decide (e ∈ L)).filter fun e => decide (e ≠ "intercept")).length +
        ((header.filter fun e => decide (e ∈ L)).filter fun e => !decide (e ≠ "intercept")).length :=
      List.length_eq_length_filter_add _
    rw [h1, List.filter_filter]
    congr 1
    · congr 1
      refine List.filter_congr fun e _ => by rw [Bool.and_comm]
    · have h2 : (header.filter fun e => decide (e ∈ L)).filter (fun e => !decide (e ≠ "intercept")) =
          (header.filter fun e => decide (e ∈ L)).filter (· == "intercept") := by
        refine List.filter_congr fun e _ => ?_
        rw [Bool.eq_iff_iff]
        simp
      rw [h2, ← List.countP_eq_length_filter, ← List.count_eq_countP]
      split_ifs with hi
      · rw [List.count_eq_one_of_mem (hnd.filter _) (by simp [hi, hL _ hi])]
      · rw [List.count_eq_zero.2 (by simp [hi])]
  rw [hcnt F (fun e he => hall e (by simp [he]))] at hcF
  rw [hcnt R (fun e he => hall e (by simp [he]))] at hcR
  obtain ⟨Ms, hMs, hne⟩ := gridModels_ok sort hname P.numFixed P.numRandom
  have hne' := hne (by rw [hcF, hcR]; exact hl0)
  obtain ⟨rs, hrs, hlen⟩ := searchLoop_total (fit := fitAndScore P) Ms (by
    intro M hM
    obtain ⟨h1, h2, h3⟩ := gridModels_robust hMs M hM
    exact fitAndScore_total hP hvar hpF hpR h1 h2 (by rw [h3]; simp))
  obtain ⟨b, hb⟩ : ∃ b, (rs.map fun r => ((r.1 : WithTop ℝ), some r.2)).foldl (fun b x => if x.1 < b.1 then x else b) (⊤, none) = b := ⟨_, rfl⟩
  have hbest : ∃ c, b.2 = some c := by
    rcases foldl_best (rs.map fun r => ((r.1 : WithTop ℝ), some r.2)) (⊤, none) with ⟨-, h2⟩ | ⟨i, r, h1, h2, -⟩
    · exfalso
      obtain ⟨r, hr⟩ : ∃ r, r ∈ rs := by
        cases rs with
        | nil => exact absurd (List.length_eq_zero_iff.1 hlen.symm) hne'
        | cons r _ => exact ⟨r, by simp⟩
      have := h2 _ (List.mem_map.2 ⟨r, hr, rfl⟩)
      simp at this
    · rw [hb] at h1
      rw [List.getElem?_map] at h2
      cases hx : rs[i]? with
      | none => rw [hx] at h2; cases h2
      | some x =>
        rw [hx, Option.map_some, Option.some.injEq] at h2
        exact ⟨x.2, by rw [h1, ← h2]⟩
  obtain ⟨c, hc⟩ := hbest
  have hloop : searchLoop (fitAndScore P) Ms (⊤, none) = .ok b := (searchLoop_ok _ _ _).2 ⟨_, hrs, hb⟩
  obtain ⟨_, -, -, -, -, -, -, -, hfn, hrn⟩ := C53_roles header col F R group variance target _ _ P hP
  obtain ⟨nF, hnF⟩ : ∃ l, namesAbove P.feColumns c.beta = .ok l := by rw [hfn]; exact ⟨_, rfl⟩
  obtain ⟨nR, hnR⟩ : ∃ l, namesAbove P.reColumns c.gamma = .ok l := by rw [hrn]; exact ⟨_, rfl⟩
  refine ⟨nF, nR, ebind_ok.2 ⟨P, hP, ?_⟩⟩
  unfold selectOn
  refine ebind_ok.2 ⟨Ms, hMs, ebind_ok.2 ⟨b, hloop, ?_⟩⟩
  rw [hc]
  exact ebind_ok.2 ⟨nF, hnF, ebind_ok.2 ⟨nR, hnR, rfl⟩⟩

/-- **C76 is violated**: with a single fixed or a single random effect the selection with an L0 model never returns (the
grid is empty and `None` has no coefficients). -/
theorem C76_l0_violated (S : SetOrder) (sort : NpSort) (header : List String) (col : String → Vec ℝ N)
    (target variance group : String) (covs pre : Option CovDict) (name : String) (hname : name = "L0" ∨ name = "L0_SR3")
    (F R : List String) (hF : F = effectsOf covs .fixed ++ effectsOf pre .fixed)
    (hR : R = effectsOf covs .random ++ effectsOf pre .random) (hiF : "intercept" ∉ F) (hiR : "intercept" ∉ R)
    (h1 : (header.filter (· ∈ F)).length ≤ 1 ∨ (header.filter (· ∈ R)).length ≤ 1) (r : List String × List String) :
    (selectCovariates S sort header col target variance group covs pre name).1 ≠ .ok r := by
  intro h
  obtain ⟨P, hP, hsel⟩ := selectCovariates_ok h
  rw [← hF, ← hR] at hP
  obtain ⟨Ms, fits, i, s, c, hMs, hall, hi, -⟩ := selectOn_ok (fe := r.1) (re := r.2) hsel
  obtain ⟨hcF, hcR⟩ := dataframe_counts hP
  rw [if_neg hiF, add_zero] at hcF
  rw [if_neg hiR, add_zero] at hcR
  have hle : ∀ L : List String, (header.filter fun e => decide (e ∈ L) && decide (e ≠ "intercept")).length ≤ (header.filter (· ∈ L)).length := by
    intro L
    refine List.Sublist.length_le (List.monotone_filter_right _ fun e he => ?_)
    simp only [Bool.and_eq_true] at he
    exact he.1
  have hnil : l0Grid P.numFixed P.numRandom = [] := by
    rw [List.eq_nil_iff_forall_not_mem]
    rintro ⟨a, b⟩ hab
    obtain ⟨c1, c2, c3, c4⟩ := (mem_l0Grid _ _ _ _).1 hab
    have := hle F
    have := hle R
    omega
  have hMs0 : Ms = [] := by
    rcases hname with rfl | rfl <;>
    · unfold gridModels at hMs
      simp only [hnil, List.map_nil] at hMs
      simpa using hMs.symm
  rw [hMs0] at hall
  cases hall
  simp at hi

/-! ## C77 -/

/-- **C77**, what does hold: the L0 grid consists exactly of the pairs with `1 ≤ q ≤ p`, `p` less than the number of fixed
and `q` less than the number of random effects, each once. Missing from C77: the pairs with `p` or `q` equal to the number of
effects (false, see `C77_grid_violated`). -/
theorem C77_grid_partial (sort : NpSort) (nf nr : ℕ) :
    ∃ budgets : List (ℤ × ℤ), budgets.Nodup ∧ (∀ p q : ℤ, (p, q) ∈ budgets ↔ 1 ≤ q ∧ q ≤ p ∧ p < nf ∧ q < nr) ∧
      gridModels sort "L0" nf nr = .ok (budgets.map fun b => gridPlain (.l0 (some b.1) (some b.2) sort)) ∧
      gridModels sort "L0_SR3" nf nr = .ok (budgets.map fun b => gridSr3 1000 (.l0 (some b.1) (some b.2) sort)) := by
  refine ⟨l0Grid nf nr, ?_, fun p q => mem_l0Grid nf nr p q, rfl, rfl⟩
  unfold l0Grid
  rw [List.nodup_flatMap]
  refine ⟨fun p _ => ?_, ?_⟩
  · refine ((List.nodup_range' (step := 1)).filter _).map ?_
    intro a b hab
    simpa using hab
  · refine (List.nodup_range' (step := 1)).imp ?_
    intro a b hab
    rw [Function.onFun, List.disjoint_left]
    rintro ⟨x, y⟩ h1 h2
    simp only [List.mem_map, Prod.mk.injEq] at h1 h2
    obtain ⟨_, -, h1, -⟩ := h1
    obtain ⟨_, -, h2, -⟩ := h2
    exact hab (by omega)

/-- **C77 is violated**: no model of the grid may keep all fixed effects, or all random effects. -/
theorem C77_grid_violated (sort : NpSort) (name : String) (hname : name = "L0" ∨ name = "L0_SR3") (nf nr : ℕ)
    (Ms : List LmeModelCfg) (h : gridModels sort name nf nr = .ok Ms) :
    ∀ M ∈ Ms, ∃ p q : ℤ, M.reg = .l0 (some p) (some q) sort ∧ p < nf ∧ q < nr := by
  intro M hM
  rcases hname with rfl | rfl
  · cases h
    obtain ⟨b, hb, rfl⟩ := List.mem_map.1 hM
    have := (mem_l0Grid nf nr b.1 b.2).1 hb
    exact ⟨b.1, b.2, rfl, this.2.2⟩
  · cases h
    obtain ⟨b, hb, rfl⟩ := List.mem_map.1 hM
    have := (mem_l0Grid nf nr b.1 b.2).1 hb
    exact ⟨b.1, b.2, rfl, this.2.2⟩

/-- Non-vacuity of C77: with three fixed and two random effects the grid consists of two models. -/
example (sort : NpSort) : gridModels sort "L0" 3 2 = .ok [gridPlain (.l0 (some 1) (some 1) sort), gridPlain (.l0 (some 2) (some 1) sort)] := rfl

/-! ## C78 -/

/-- **C78 is violated**: whatever the outcome, afterwards the caller's dictionary `covs` contains the pre-selected
effects. -/
theorem C78_covs_violated (S : SetOrder) (sort : NpSort) (header : List String) (col : String → Vec ℝ N)
    (target variance group : String) (f r f' r' : List String) (d d' : Bool) (name : String) (e : String)
    (he : e ∈ f') (hne : e ∉ f) :
    ∃ l c p, (selectCovariates S sort header col target variance group (some ⟨some f, some r, d⟩) (some ⟨some f', some r', d'⟩) name).2 =
      (some c, p) ∧ c.fixed = some l ∧ e ∈ l ∧ c ≠ ⟨some f, some r, d⟩ := by
  refine ⟨S.toList (f ++ f'), ⟨some (S.toList (f ++ f')), some (S.toList (r ++ r')), d⟩, some ⟨some f', some r', d'⟩, rfl, rfl,
    (S.mem _ _).2 (by simp [he]), ?_⟩
  intro hcon
  have h1 : S.toList (f ++ f') = f := by
    have := congrArg CovDict.fixed hcon
    simpa using this
  exact hne (h1 ▸ (S.mem (f ++ f') e).2 (by simp [he]))

/-- **C78**, what does hold: for dictionaries with both keys the dictionary of the pre-selected effects is not changed, and
if all pre-selected effects are in `covs`, then `covs` lists the same effects afterwards (each once, in any order).
Missing: pre-selected effects outside `covs` (false, see `C78_covs_violated`), the order and repetitions in `covs`. -/
theorem C78_covs_partial (S : SetOrder) (sort : NpSort) (header : List String) (col : String → Vec ℝ N)
    (target variance group : String) (f r f' r' : List String) (d d' : Bool) (name : String) (h1 : ∀ e ∈ f', e ∈ f)
    (h2 : ∀ e ∈ r', e ∈ r) :
    ∃ l l', (selectCovariates S sort header col target variance group (some ⟨some f, some r, d⟩) (some ⟨some f', some r', d'⟩) name).2 =
      (some ⟨some l, some l', d⟩, some ⟨some f', some r', d'⟩) ∧ (∀ e, e ∈ l ↔ e ∈ f) ∧ (∀ e, e ∈ l' ↔ e ∈ r) ∧
      l.Nodup ∧ l'.Nodup := by
  refine ⟨S.toList (f ++ f'), S.toList (r ++ r'), rfl, fun e => ?_, fun e => ?_, S.nodup _, S.nodup _⟩
  · rw [S.mem, List.mem_append]
    exact ⟨fun h => h.elim id (h1 e), .inl⟩
  · rw [S.mem, List.mem_append]
    exact ⟨fun h => h.elim id (h2 e), .inl⟩

/-- Non-vacuity of C78: `x2` is pre-selected, but not a candidate. -/
example (S : SetOrder) (sort : NpSort) : ∃ l c p, (selectCovariates S sort ["g", "x1", "x2", "v", "t"] (fun _ => (![1, 2] : Vec ℝ 2)) "t" "v" "g"
      (some ⟨some ["x1"], some [], false⟩) (some ⟨some ["x2"], some [], false⟩) "L1").2 = (some c, p) ∧ c.fixed = some l ∧ "x2" ∈ l ∧
      c ≠ ⟨some ["x1"], some [], false⟩ :=
  C78_covs_violated S sort _ _ _ _ _ _ _ _ _ _ _ _ _ (by simp) (by simp)

/-! ## C84 -/

theorem asVec_length {n : ℕ} {l : List ℝ} {v : Vec ℝ n} (h : asVec n l = .ok v) : l.length = n := by
  unfold asVec at h
  split_ifs at h with hl
  exact hl

/-- The models of the six grids over `lam` take exactly as many weights as there are coefficients. -/
theorem gridModels_lam {sort : NpSort} {name : String} (h0 : name ≠ "L0") (h0' : name ≠ "L0_SR3") {nf nr : ℕ} {Ms : List LmeModelCfg}
    (h : gridModels sort name nf nr = .ok Ms) : ∀ M ∈ Ms, ∀ (p q : ℕ) (ws : List ℝ) (w : Vec ℝ (p + q)),
      M.reg.weights p q ws = .ok w → ws.length = p + q := by
  unfold gridModels at h
  rw [if_neg h0, if_neg h0'] at h
  have hscad : ∀ (rho sigma lam : ℝ) (p q : ℕ) (ws : List ℝ) (w : Vec ℝ (p + q)),
      (LmeReg.scad rho sigma lam).weights p q ws = .ok w → ws.length = p + q := by
    intro rho sigma lam p q ws w hw
    unfold LmeReg.weights at hw
    simp only at hw
    split_ifs at hw with hl
    exact hl
  split_ifs at h <;> cases h <;> intro M hM <;> obtain ⟨lam, -, rfl⟩ := List.mem_map.1 hM <;> intro p q ws w hw
  · exact asVec_length hw
  · exact asVec_length hw
  · exact asVec_length hw
  · exact asVec_length hw
  · exact hscad _ _ _ p q ws w hw
  · exact hscad _ _ _ p q ws w hw

/-- **C84 is violated**: with the L1, CAD and SCAD models (SR3 or not) the selection never returns if there are
pre-selected fixed effects and no effect called `intercept`, or pre-selected random effects and no random effect of that
name: the weights have one entry too many. (With a single coefficient numpy would broadcast, hence `_h2`.) -/
theorem C84_lam_violated (S : SetOrder) (sort : NpSort) (header : List String) (col : String → Vec ℝ N)
    (target variance group : String) (covs pre : Option CovDict) (name : String) (h0 : name ≠ "L0") (h0' : name ≠ "L0_SR3")
    (F R : List String) (hF : F = effectsOf covs .fixed ++ effectsOf pre .fixed)
    (hR : R = effectsOf covs .random ++ effectsOf pre .random)
    (_h2 : 2 ≤ (header.filter (· ∈ F)).length + (header.filter (· ∈ R)).length)
    (hpre : (effectsOf pre .fixed ≠ [] ∧ "intercept" ∉ F) ∨ (effectsOf pre .random ≠ [] ∧ "intercept" ∉ R))
    (r : List String × List String) :
    (selectCovariates S sort header col target variance group covs pre name).1 ≠ .ok r := by
  intro h
  obtain ⟨P, hP, hsel⟩ := selectCovariates_ok h
  rw [← hF, ← hR] at hP
  obtain ⟨Ms, fits, i, s, c, hMs, hall, hi, -⟩ := selectOn_ok (fe := r.1) (re := r.2) hsel
  have hlt := (List.getElem?_eq_some_iff.1 hi)
  have hltM : i < Ms.length := by rw [hall.length_eq]; exact hlt.1
  obtain ⟨L, hL, -⟩ := hall.get (i := i) hltM hlt.1
  obtain ⟨c', x, L0, -, hcore⟩ := lmeFitProblem_ok hL
  obtain ⟨m, Pr, w, base, D, beta, gamma, us, per, -, -, hw, -⟩ := lmeFitCore_ok hcore
  have hlen := gridModels_lam h0 h0' hMs _ (List.get_mem Ms ⟨i, hltM⟩) _ _ _ _ hw
  obtain ⟨hcF, hcR⟩ := dataframe_counts hP
  obtain ⟨hwF, hwR⟩ := dataframe_weights hP
  have l1 : P.numFixed + (if effectsOf pre .fixed ≠ [] ∧ "intercept" ∉ F then 1 else 0) = P.feWeights.length := by
    rw [hwF]
    by_cases he : effectsOf pre .fixed = []
    · simp [he]
    · rw [if_neg he]
      by_cases hi : "intercept" ∈ F <;> simp [hi, he, hcF]
  have l2 : P.numRandom + (if effectsOf pre .random ≠ [] ∧ "intercept" ∉ R then 1 else 0) = P.reWeights.length := by
    rw [hwR]
    by_cases he : effectsOf pre .random = []
    · simp [he]
    · rw [if_neg he]
      by_cases hi : "intercept" ∈ R <;> simp [hi, he, hcR]
  simp only [Option.getD_none, List.length_append] at hlen
  rw [← l1, ← l2] at hlen
  rcases hpre with hp | hp
  · rw [if_pos hp] at hlen
    split_ifs at hlen <;> omega
  · rw [if_pos hp] at hlen
    split_ifs at hlen <;> omega

/-- **C84 is violated** for the L0 models too: the weights are shifted by one place. The first fixed effect is always
regularized, and the effect after a pre-selected one is exempt instead of it. -/
theorem C84_l0_violated (sort : NpSort) (header : List String) (col : String → Vec ℝ N) (F R nf nr : List String)
    (target variance group : String) (P : LmeProblem ℝ) (hP : lmeFromDataframe header col F R group variance target nf nr = .ok P)
    (hnf : nf ≠ []) (hi : "intercept" ∉ F) (hni : "intercept" ∉ nf) (nb ng : Option ℤ) (w : Vec ℝ (P.numFixed + P.numRandom))
    (hw : (LmeReg.l0 nb ng sort).weights P.numFixed P.numRandom (P.feWeights ++ P.reWeights) = .ok w) :
    P.numFixed = (header.filter (· ∈ F)).length ∧ (∀ h0 : 0 < P.numFixed + P.numRandom, w ⟨0, h0⟩ = 1) ∧
      ∀ (k : ℕ) (n : String) (_ : k + 1 < P.numFixed) (hk' : k + 1 < P.numFixed + P.numRandom), (header.filter (· ∈ F))[k]? = some n →
        w ⟨k + 1, hk'⟩ = if n ∈ nf then 0 else 1 := by
  obtain ⟨hcF, hcR⟩ := dataframe_counts hP
  obtain ⟨hwF, hwR⟩ := dataframe_weights hP
  rw [if_neg hnf, if_neg hni] at hwF
  rw [if_neg hi, add_zero] at hcF
  have hfil : (header.filter fun e => decide (e ∈ F) && decide (e ≠ "intercept")) = header.filter (· ∈ F) := by
    refine List.filter_congr fun e _ => ?_
    by_cases he : e ∈ F
    · have : e ≠ "intercept" := by intro hcon; rw [hcon] at he; exact hi he
      simp [he, this]
    · simp [he]
  rw [hfil] at hcF hwF
  unfold LmeReg.weights at hw
  simp only at hw
  split_ifs at hw with hl
  cases hw
  refine ⟨hcF, fun h0 => ?_, fun k n hk hk' hn => ?_⟩
  · simp [hwF]
  · have h1 : (P.feWeights ++ P.reWeights)[k + 1]? = some (if n ∈ nf then 0 else 1) := by
      rw [List.getElem?_append_left (by rw [hwF]; simp; omega), hwF, List.getElem?_cons_succ, List.getElem?_map, hn]
      rfl
    exact (List.getElem?_eq_some_iff.1 h1).2

/-! ## C85 -/

/-- **C85 is violated**: if an effect called `intercept` is among the fixed effects, the reported fixed effects are
shifted by one place: whether the column `names[k]` is reported depends on `beta[k]`, although `beta[k + 1]` is the
coefficient that multiplies this column in the model. -/
theorem C85_names_violated (S : SetOrder) (sort : NpSort) (header : List String) (hnd : header.Nodup) (col : String → Vec ℝ N)
    (target variance group : String) (covs pre : Option CovDict) (name : String) (fe re F R names : List String)
    (hF : F = effectsOf covs .fixed ++ effectsOf pre .fixed) (hR : R = effectsOf covs .random ++ effectsOf pre .random)
    (hi : "intercept" ∈ F) (hnames : names = header.filter fun e => decide (e ∈ F) && decide (e ≠ "intercept"))
    (h : (selectCovariates S sort header col target variance group covs pre name).1 = .ok (fe, re)) :
    ∃ (P : LmeProblem ℝ) (M : LmeModelCfg) (L : Logger (PyVal ℝ (P.numFixed + P.numRandom))) (c : LmeCoef) (blocks : List (List (Fin N))),
      lmeFromDataframe header col F R group variance target (effectsOf pre .fixed) (effectsOf pre .random) = .ok P ∧
      lmeFitProblem M none P {} = (.ok L, some c) ∧ c.beta.length = names.length + 1 ∧
      P.fixedFeatures = blocks.map (List.map fun r => 1 :: names.map fun e => col e r) ∧
      ∀ (k : ℕ) (n : String) (b : ℝ), names[k]? = some n → c.beta[k]? = some b → (n ∈ fe ↔ 0.01 ≤ |b|) := by
  obtain ⟨P, hP, hsel⟩ := selectCovariates_ok h
  rw [← hF, ← hR] at hP
  obtain ⟨Ms, fits, i, s, c, hMs, hall, hi', -, -, hfe, hre⟩ := selectOn_ok hsel
  obtain ⟨blocks, -, -, -, -, -, hff, -, hfn, -⟩ := C53_roles header col F R group variance target _ _ P hP
  obtain ⟨hcF, hcR⟩ := dataframe_counts hP
  rw [if_pos hi] at hcF
  simp only [if_pos hi, List.singleton_append] at hff
  rw [← hnames] at hcF hff hfn
  rw [hfn] at hfe
  obtain ⟨-, a2⟩ := namesAbove_ok hfe
  have hlt := (List.getElem?_eq_some_iff.1 hi')
  have hltM : i < Ms.length := by rw [hall.length_eq]; exact hlt.1
  obtain ⟨L, hL, -⟩ := hall.get (i := i) hltM hlt.1
  rw [List.get_eq_getElem (l := fits), hlt.2] at hL
  have hsz := lmeFitProblem_sizes hL
  exact ⟨P, _, L, c, blocks, hP, hL, by rw [hsz.1, hcF], hff, a2 (by rw [hnames]; exact hnd.filter _)⟩

/-! ## C86 -/

/-- **C86.** The selected covariates do not depend on the order in which the sets of effects are iterated. -/
theorem C86_order (S S' : SetOrder) (sort : NpSort) (header : List String) (col : String → Vec ℝ N)
    (target variance group : String) (covs pre : Option CovDict) (name : String) :
    (selectCovariates S sort header col target variance group covs pre name).1 =
      (selectCovariates S' sort header col target variance group covs pre name).1 := by
  obtain ⟨h1, h2⟩ := selectCovariates_eq S sort header col target variance group covs pre name
  obtain ⟨h3, h4⟩ := selectCovariates_eq S' sort header col target variance group covs pre name
  by_cases hc : (∀ d, covs = some d → d.Complete) ∧ ∀ d, pre = some d → d.Complete
  · rw [h2 hc.1 hc.2, h4 hc.1 hc.2]
  · rw [h1 hc, h3 hc]

theorem forall_mem_congr {α : Type} (x : List α) {a a' b b' h : List α} (h1 : ∀ e, e ∈ a ↔ e ∈ a') (h2 : ∀ e, e ∈ b ↔ e ∈ b') :
    (∀ e ∈ x ++ a ++ b, e ∈ h) ↔ ∀ e ∈ x ++ a' ++ b', e ∈ h := by
  simp only [List.mem_append, h1, h2]

/-- **C86**, for the candidates: only which effects are candidates matters, not how they are ordered or repeated. -/
theorem C86_candidates (S : SetOrder) (sort : NpSort) (header : List String) (col : String → Vec ℝ N)
    (target variance group : String) (f r f' r' : List String) (pre : Option CovDict) (name : String)
    (h1 : ∀ e, e ∈ f ↔ e ∈ f') (h2 : ∀ e, e ∈ r ↔ e ∈ r') :
    (selectCovariates S sort header col target variance group (some ⟨some f, some r, false⟩) pre name).1 =
      (selectCovariates S sort header col target variance group (some ⟨some f', some r', false⟩) pre name).1 := by
  have hcomp : ∀ a b : List String, ∀ d, some (CovDict.mk (some a) (some b) false) = some d → d.Complete := by
    intro a b d hd
    cases hd
    exact .inr ⟨rfl, rfl⟩
  obtain ⟨e1, e2⟩ := selectCovariates_eq S sort header col target variance group (some ⟨some f, some r, false⟩) pre name
  obtain ⟨e3, e4⟩ := selectCovariates_eq S sort header col target variance group (some ⟨some f', some r', false⟩) pre name
  by_cases hc : ∀ d, pre = some d → d.Complete
  · rw [e2 (hcomp _ _) hc, e4 (hcomp _ _) hc]
    have m1 : ∀ e, e ∈ effectsOf (some ⟨some f, some r, false⟩) .fixed ++ effectsOf pre .fixed ↔
        e ∈ effectsOf (some ⟨some f', some r', false⟩) .fixed ++ effectsOf pre .fixed := by
      intro e
      simp only [List.mem_append]
      exact or_congr (h1 e) Iff.rfl
    have m2 : ∀ e, e ∈ effectsOf (some ⟨some f, some r, false⟩) .random ++ effectsOf pre .random ↔
        e ∈ effectsOf (some ⟨some f', some r', false⟩) .random ++ effectsOf pre .random := by
      intro e
      simp only [List.mem_append]
      exact or_congr (h2 e) Iff.rfl
    rw [dataframe_congr m1 m2]
    simp only [forall_mem_congr [target, variance, group] (h := header) m1 m2]
  · rw [e1 (fun h => hc h.2), e3 (fun h => hc h.2)]

/-! ## Non-vacuity -/

/-- Three observations in two groups with two covariates. -/
def exSelCol : String → Vec ℝ 3
  | "g" => ![1, 1, 2]
  | "a" => ![1, 2, 3]
  | "b" => ![0, 1, 5]
  | "t" => ![2, 3, 1]
  | _ => ![1, 1, 1]

def exSelHeader : List String := ["g", "intercept", "a", "b", "v", "t"]

theorem exSel_int : ∀ r, ∃ z : ℤ, (z : ℝ) = exSelCol "g" r := by
  intro r
  fin_cases r
  · exact ⟨1, by simp [exSelCol]⟩
  · exact ⟨1, by simp [exSelCol]⟩
  · exact ⟨2, by simp [exSelCol]⟩

theorem exSel_var : ∀ r, 0 < exSelCol "v" r := by
  intro r
  fin_cases r <;> simp [exSelCol]

/-- Non-vacuity of `C76_returns_partial` and `C76_best_partial`: two fixed and two random candidates, all eight models. -/
theorem exSel_returns (S : SetOrder) (sort : NpSort) (name : String) (hname : name ∈ selectNames) :
    ∃ fe re, (selectCovariates S sort exSelHeader exSelCol "t" "v" "g" (some ⟨some ["b", "a"], some ["a", "b"], false⟩) none name).1 =
      .ok (fe, re) :=
  C76_returns_partial S sort exSelHeader (by decide) exSelCol (by norm_num) "t" "v" "g" _ _
    (by intro d hd; cases hd; exact .inr ⟨rfl, rfl⟩) (by intro d hd; cases hd) name hname ["b", "a"] ["a", "b"] rfl rfl
    (by decide) exSel_var exSel_int (.inl rfl) (.inl rfl) (.inr (by decide))

/-- Non-vacuity of C85 and of `C76_returns_partial` with pre-selected effects: an intercept is pre-selected. -/
theorem exSel_intercept (S : SetOrder) (sort : NpSort) :
    ∃ fe re, (selectCovariates S sort exSelHeader exSelCol "t" "v" "g" (some ⟨some ["b", "a"], some ["a", "b"], false⟩)
      (some ⟨some ["intercept"], some ["intercept"], false⟩) "CAD_SR3").1 = .ok (fe, re) :=
  C76_returns_partial S sort exSelHeader (by decide) exSelCol (by norm_num) "t" "v" "g" _ _
    (by intro d hd; cases hd; exact .inr ⟨rfl, rfl⟩) (by intro d hd; cases hd; exact .inr ⟨rfl, rfl⟩) _ (by decide)
    ["b", "a", "intercept"] ["a", "b", "intercept"] rfl rfl
    (by decide) exSel_var exSel_int (.inr (by decide)) (.inr (by decide)) (.inr (by decide))

/-- Non-vacuity of `C76_l0_violated`: two fixed effects and one random effect. -/
example (S : SetOrder) (sort : NpSort) (r : List String × List String) :
    (selectCovariates S sort exSelHeader exSelCol "t" "v" "g" (some ⟨some ["b", "a"], some ["a"], false⟩) none "L0").1 ≠ .ok r :=
  C76_l0_violated S sort exSelHeader exSelCol "t" "v" "g" _ _ _ (.inl rfl) ["b", "a"] ["a"] rfl rfl (by decide) (by decide) (.inr (by decide)) r

/-- Non-vacuity of `C84_lam_violated`: `a` is pre-selected. -/
example (S : SetOrder) (sort : NpSort) (r : List String × List String) :
    (selectCovariates S sort exSelHeader exSelCol "t" "v" "g" (some ⟨some ["b"], some ["a"], false⟩) (some ⟨some ["a"], some [], false⟩) "L1").1 ≠ .ok r :=
  C84_lam_violated S sort exSelHeader exSelCol "t" "v" "g" _ _ _ (by decide) (by decide) ["b", "a"] ["a"] rfl rfl (by decide)
    (.inl ⟨by decide, by decide⟩) r

/-- Non-vacuity of `C84_l0_violated`: `a` should be exempt, but it is regularized and `b` is exempt. -/
example (sort : NpSort) : ∃ (P : LmeProblem ℝ) (w : Vec ℝ (P.numFixed + P.numRandom)),
    lmeFromDataframe exSelHeader exSelCol ["a", "b"] ["a"] "g" "v" "t" ["a"] [] = .ok P ∧
    (LmeReg.l0 (some 1) (some 1) sort).weights P.numFixed P.numRandom (P.feWeights ++ P.reWeights) = .ok w ∧
    ∃ (h0 : 0 < P.numFixed + P.numRandom) (h1 : 1 < P.numFixed + P.numRandom), w ⟨0, h0⟩ = 1 ∧ w ⟨1, h1⟩ = 0 := by
  obtain ⟨P, hP⟩ := dataframe_succeeds (header := exSelHeader) (col := exSelCol) (fe := ["a", "b"]) (re := ["a"]) (groups := "g") (variance := "v")
    (target := "t") (nf := ["a"]) (nr := []) (by decide) (by decide) (by decide) (by norm_num) (fun r => (exSel_var r).ne') exSel_int
  obtain ⟨hcF, hcR⟩ := dataframe_counts hP
  obtain ⟨hwF, hwR⟩ := dataframe_weights hP
  have e1 : P.numFixed = 2 := hcF
  have e2 : P.numRandom = 1 := hcR
  obtain ⟨w, hw⟩ : ∃ w, (LmeReg.l0 (some 1) (some 1) sort).weights P.numFixed P.numRandom (P.feWeights ++ P.reWeights) = .ok w := by
    refine ⟨_, dif_pos ?_⟩
    rw [hwF, hwR, e1, e2]
    decide
  obtain ⟨-, h0, h1⟩ := C84_l0_violated sort exSelHeader exSelCol _ _ _ _ _ _ _ P hP (by decide) (by decide) (by decide) _ _ w hw
  refine ⟨P, w, hP, hw, by omega, by omega, h0 _, ?_⟩
  rw [h1 0 "a" (by omega) (by omega) rfl]
  rfl

end Verif
