import Verif.Props.LmeFisher
import Verif.Props.LmeGenTable
import Verif.Model.LmeModels

/-!
# Generated mixed-model problems follow the model the loss assumes (C143)
-/

open Matrix MeasureTheory ProbabilityTheory

namespace Verif

noncomputable section

variable {Ω : Type*} [MeasurableSpace Ω]

/-- What the random generator delivers for one group, as random variables; the feature rows are given (the statements are conditional on them). -/
structure RandDraw (Ω : Type*) where
  rows : List (List ℝ)
  u : Ω → List ℝ
  errors : Ω → List ℝ

/-- The draw in the outcome `ω`. -/
def RandDraw.at (d : RandDraw Ω) (ω : Ω) : GenDraw ℝ := ⟨d.rows, d.u ω, d.errors ω⟩

/-- The random effects are drawn with mean zero and covariance `diag gamma` (`np.random.multivariate_normal`, `lme/problems.py:450`), the errors with mean zero and variances `v`
(`np.random.normal`, `lme/problems.py:470`), all of them uncorrelated. -/
structure RandDraw.Lawful (d : RandDraw Ω) (μ : Measure Ω) (gamma v : List ℝ) : Prop where
  lenU : ∀ ω, (d.u ω).length = gamma.length
  lenE : ∀ ω, (d.errors ω).length = d.rows.length
  lenV : v.length = d.rows.length
  sqU : ∀ k, MemLp (fun ω => (d.u ω).getD k 0) 2 μ
  sqE : ∀ i, MemLp (fun ω => (d.errors ω).getD i 0) 2 μ
  meanU : ∀ k, ∫ ω, (d.u ω).getD k 0 ∂μ = 0
  meanE : ∀ i, ∫ ω, (d.errors ω).getD i 0 ∂μ = 0
  covU : ∀ k k', k < gamma.length → k' < gamma.length → cov[fun ω => (d.u ω).getD k 0, fun ω => (d.u ω).getD k' 0; μ] = if k = k' then gamma.getD k 0 else 0
  covE : ∀ i i', i < v.length → i' < v.length → cov[fun ω => (d.errors ω).getD i 0, fun ω => (d.errors ω).getD i' 0; μ] = if i = i' then v.getD i 0 else 0
  covUE : ∀ k i, k < gamma.length → i < v.length → cov[fun ω => (d.u ω).getD k 0, fun ω => (d.errors ω).getD i 0; μ] = 0

/-- The loss of an oracle with the problem attached, `LinearLMEOracle(problem).loss(beta, gamma)` (`lme/oracles.py:187-190`). -/
def lmeProblemLoss (P : LmeProblem ℝ) (beta gamma : List ℝ) : Except PyErr ℝ := do
  let D ← lmeGroups P
  let b ← asVec P.numFixed beta
  let g ← asVec P.numRandom gamma
  lmeLoss D .nonInformative b g

/-- `lmeGroups` with the numbers of effects given. -/
def lmeGroupsAt (p q : ℕ) (P : LmeProblem ℝ) : Except PyErr (List (LmeGroup p q)) :=
  match P.answers with
  | none => .error .typeError
  | some ys =>
    ((P.fixedFeatures.zip ys).zip (P.randomFeatures.zip P.obsVars)).mapM fun g =>
      g.2.1.toRows >>= fun z => lmeGroupOf p q g.1.1 g.1.2 z g.2.2

theorem lmeProblemLoss_eq {p q : ℕ} {P : LmeProblem ℝ} (hp : P.numFixed = p) (hq : P.numRandom = q) {D : List (LmeGroup p q)} (hD : lmeGroupsAt p q P = .ok D) {beta gamma : List ℝ}
    (hb : beta.length = p) (hg : gamma.length = q) :
    lmeProblemLoss P beta gamma = lmeLoss D .nonInformative (fun k => beta.getD k 0) (fun k => gamma.getD k 0) := by
  subst hp
  subst hq
  have h1 : lmeGroups P = .ok D := hD
  have h2 : ∀ {n : ℕ} {l : List ℝ}, l.length = n → asVec n l = .ok fun k => l.getD k 0 := by
    intro n l h
    unfold asVec
    rw [dif_pos h]
    congr 1
    funext i
    simp [List.getD, h]
  unfold lmeProblemLoss
  rw [h1, h2 hb, h2 hg]
  rfl

theorem dotL_eq_sum : ∀ {n : ℕ} {a b : List ℝ}, a.length = n → b.length = n → dotL a b = ∑ k : Fin n, a.getD k 0 * b.getD k 0
  | 0, a, b, ha, hb => by
    rw [List.length_eq_zero_iff.1 ha]
    simp [dotL]
  | n + 1, a, b, ha, hb => by
    cases a with
    | nil => simp at ha
    | cons x a =>
      cases b with
      | nil => simp at hb
      | cons y b =>
        rw [dotL_cons, dotL_eq_sum (n := n) (by simpa using ha) (by simpa using hb), Fin.sum_univ_succ]
        simp

theorem genRow_length (labels : List String) (test : String → Bool) (b : Bool) (row : List ℝ) (h : genNum labels test b ≠ 0) : (genRow labels test b row).length = genNum labels test b := by
  unfold genNum at h ⊢
  unfold genRow
  simp only
  generalize (List.range labels.length).filter (fun i => test (labels.getD i "")) = idx at h ⊢
  cases idx with
  | nil =>
    cases b
    · simp at h
    · simp
  | cons a t =>
    rw [if_neg (by simp)]
    cases b <;> simp [Nat.add_comm]

theorem genAnswer_ok {c : GenCfg ℝ} (hn : genNum c.labels isRandom c.fri ≠ 0) {u row : List ℝ} {e a : ℝ} (h : genAnswer c u row e = .ok a) :
    (genRow c.labels isFixed c.ffi row).length = c.beta.length ∧ (genRow c.labels isRandom c.fri row).length = u.length ∧
      a = dotL (genRow c.labels isFixed c.ffi row) c.beta + dotL (genRow c.labels isRandom c.fri row) u + e := by
  unfold genAnswer genRandomPart at h
  rw [if_neg hn] at h
  obtain ⟨x, h1, h⟩ := ebind_ok.1 h
  obtain ⟨y, h2, h⟩ := ebind_ok.1 h
  unfold listDot at h1 h2
  split_ifs at h1 h2 with l1 l2
  cases h1
  cases h2
  cases h
  exact ⟨l1, l2, rfl⟩

theorem mapM_zip_getD {c : GenCfg ℝ} {u : List ℝ} : ∀ {rows : List (List ℝ)} {es ans : List ℝ}, es.length = rows.length →
    ((rows.zip es).mapM fun re => genAnswer c u re.1 re.2) = .ok ans →
      ans.length = rows.length ∧ ∀ i < rows.length, genAnswer c u (rows.getD i []) (es.getD i 0) = .ok (ans.getD i 0)
  | [], es, ans, _, h => by
    simp [pure, Except.pure] at h
    subst h
    simp
  | r :: rows, [], ans, hl, h => by simp at hl
  | r :: rows, e :: es, ans, hl, h => by
    rw [List.zip_cons_cons, List.mapM_cons] at h
    obtain ⟨a, h1, h⟩ := ebind_ok.1 h
    obtain ⟨as, h2, h⟩ := ebind_ok.1 h
    cases h
    obtain ⟨i1, i2⟩ := mapM_zip_getD (by simpa using hl) h2
    refine ⟨by simp [i1], fun i hi => ?_⟩
    cases i with
    | zero => simpa using h1
    | succ i => simpa using i2 i (by simpa using hi)

theorem lmeGroupOf_eq {p q n : ℕ} {x z : List (List ℝ)} {y l : List ℝ} (hx : x.length = n) (hy : y.length = n) (hz : z.length = n) (hl : l.length = n)
    (hxr : ∀ r ∈ x, r.length = p) (hzr : ∀ r ∈ z, r.length = q) :
    lmeGroupOf p q x y z l = .ok ⟨n, Matrix.of fun i j => (x.getD i []).getD j 0, fun i => y.getD i 0, Matrix.of fun i j => (z.getD i []).getD j 0, fun i => l.getD i 0⟩ := by
  subst hy
  unfold lmeGroupOf
  rw [if_pos ⟨hx, hz, hl, hxr, hzr⟩]

/-- The random group of a draw. -/
def RandDraw.group (c : GenCfg ℝ) (p q : ℕ) (d : RandDraw Ω) (v : List ℝ) : RandGroup Ω p q where
  g := ⟨d.rows.length, Matrix.of fun i j => ((d.rows.map (genRow c.labels isFixed c.ffi)).getD i []).getD j 0, fun _ => 0,
    Matrix.of fun i j => ((d.rows.map (genRow c.labels isRandom c.fri)).getD i []).getD j 0, fun i => v.getD i 0⟩
  Y ω i := ∑ k : Fin p, ((d.rows.map (genRow c.labels isFixed c.ffi)).getD i []).getD k 0 * c.beta.getD k 0
    + ∑ k : Fin q, ((d.rows.map (genRow c.labels isRandom c.fri)).getD i []).getD k 0 * (d.u ω).getD k 0 + (d.errors ω).getD i 0

variable {μ : Measure Ω} [IsProbabilityMeasure μ]

theorem follows_of_effects {p q : ℕ} (r : RandGroup Ω p q) (beta : Vec ℝ p) (gamma : Vec ℝ q) (U : Fin q → Ω → ℝ) (E : Fin r.g.n → Ω → ℝ)
    (hY : ∀ ω i, r.Y ω i = ∑ k, r.g.x i k * beta k + (∑ k, r.g.z i k * U k ω + E i ω))
    (sqU : ∀ k, MemLp (U k) 2 μ) (sqE : ∀ i, MemLp (E i) 2 μ) (mU : ∀ k, ∫ ω, U k ω ∂μ = 0) (mE : ∀ i, ∫ ω, E i ω ∂μ = 0)
    (covU : ∀ k k', cov[U k, U k'; μ] = if k = k' then gamma k else 0) (covE : ∀ i i', cov[E i, E i'; μ] = if i = i' then r.g.l i else 0) (covUE : ∀ k i, cov[U k, E i; μ] = 0) :
    r.Follows μ beta gamma := by
  have sqW : ∀ i, MemLp (fun ω => ∑ k, r.g.z i k * U k ω) 2 μ := fun i => memLp_finset_sum _ fun k _ => (sqU k).const_mul _
  have sqS : ∀ i, MemLp (fun ω => ∑ k, r.g.z i k * U k ω + E i ω) 2 μ := fun i => (sqW i).add (sqE i)
  have hYf : ∀ i, (fun ω => r.Y ω i) = fun ω => ∑ k, r.g.x i k * beta k + (∑ k, r.g.z i k * U k ω + E i ω) := fun i => funext fun ω => hY ω i
  refine ⟨fun i => ?_, fun i => ?_, fun i j => ?_⟩
  · rw [hYf]
    exact (memLp_const (μ := μ) (p := 2) (∑ k, r.g.x i k * beta k)).add (sqS i)
  · rw [hYf, integral_add (integrable_const _) ((sqS i).integrable (by norm_num)), integral_add ((sqW i).integrable (by norm_num)) ((sqE i).integrable (by norm_num)), mE,
      integral_finset_sum _ fun k _ => ((sqU k).integrable (by norm_num)).const_mul _]
    simp_rw [integral_const_mul, mU]
    simp
  · rw [hYf, hYf, covariance_const_add_left ((sqS i).integrable (by norm_num)), covariance_const_add_right ((sqS j).integrable (by norm_num))]
    have h1 := covariance_add_left (sqW i) (sqE i) (sqS j)
    have h2 := covariance_add_right (sqW i) (sqW j) (sqE j)
    have h3 := covariance_add_right (sqE i) (sqW j) (sqE j)
    have e1 : cov[fun ω => ∑ k, r.g.z i k * U k ω, E j; μ] = 0 := by
      rw [covariance_fun_sum_left (fun k => (sqU k).const_mul _) (sqE j)]
      simp_rw [covariance_const_mul_left, covUE]
      simp
    have e2 : cov[E i, fun ω => ∑ k, r.g.z j k * U k ω; μ] = 0 := by
      rw [covariance_fun_sum_right (fun k => (sqU k).const_mul _) (sqE i)]
      refine Finset.sum_eq_zero fun k _ => ?_
      rw [covariance_const_mul_right, covariance_comm, covUE, mul_zero]
    have e3 : cov[fun ω => ∑ k, r.g.z i k * U k ω, fun ω => ∑ k, r.g.z j k * U k ω; μ] = ∑ k, r.g.z i k * gamma k * r.g.z j k := by
      rw [covariance_fun_sum_fun_sum (fun k => (sqU k).const_mul _) (fun k => (sqU k).const_mul _)]
      refine Finset.sum_congr rfl fun k _ => ?_
      simp_rw [covariance_const_mul_left, covariance_const_mul_right, covU]
      rw [Finset.sum_eq_single k]
      · rw [if_pos rfl]
        ring
      · intro k' _ hk
        rw [if_neg (Ne.symm hk)]
        ring
      · intro h
        exact absurd (Finset.mem_univ k) h
    rw [← e3, ← covE i j]
    have h1' : cov[fun ω => ∑ k, r.g.z i k * U k ω + E i ω, fun ω => ∑ k, r.g.z j k * U k ω + E j ω; μ] =
      cov[fun ω => ∑ k, r.g.z i k * U k ω, fun ω => ∑ k, r.g.z j k * U k ω + E j ω; μ] + cov[E i, fun ω => ∑ k, r.g.z j k * U k ω + E j ω; μ] := h1
    have h2' : cov[fun ω => ∑ k, r.g.z i k * U k ω, fun ω => ∑ k, r.g.z j k * U k ω + E j ω; μ] =
      cov[fun ω => ∑ k, r.g.z i k * U k ω, fun ω => ∑ k, r.g.z j k * U k ω; μ] + cov[fun ω => ∑ k, r.g.z i k * U k ω, E j; μ] := h2
    have h3' : cov[E i, fun ω => ∑ k, r.g.z j k * U k ω + E j ω; μ] = cov[E i, fun ω => ∑ k, r.g.z j k * U k ω; μ] + cov[E i, E j; μ] := h3
    rw [h1', h2', h3', e1, e2]
    ring

theorem RandDraw.group_follows (c : GenCfg ℝ) {p q : ℕ} (d : RandDraw Ω) {gamma v : List ℝ} (hq : gamma.length = q) (h : d.Lawful μ gamma v) :
    (d.group c p q v).Follows μ (fun k => c.beta.getD k 0) (fun k => gamma.getD k 0) := by
  have hlt : ∀ i : Fin (d.group c p q v).g.n, i.1 < v.length := fun i => h.lenV ▸ i.2
  refine follows_of_effects _ _ _ (fun k ω => (d.u ω).getD k 0) (fun i ω => (d.errors ω).getD i 0) (fun ω i => ?_) (fun k => h.sqU k) (fun i => h.sqE i) (fun k => h.meanU k) (fun i => h.meanE i)
    (fun k k' => ?_) (fun i i' => ?_) fun k i => h.covUE k i (hq ▸ k.2) (hlt i)
  · rw [← add_assoc]
    rfl
  · rw [h.covU k k' (hq ▸ k.2) (hq ▸ k'.2)]
    simp only [Fin.ext_iff]
  · rw [h.covE i i' (hlt i) (hlt i')]
    simp only [Fin.ext_iff]
    rfl

omit [MeasurableSpace Ω] in
theorem RandDraw.group_at (c : GenCfg ℝ) (hF : genNum c.labels isFixed c.ffi ≠ 0) (hR : genNum c.labels isRandom c.fri ≠ 0) (d : RandDraw Ω) (v : List ℝ) (ω : Ω)
    (hb : c.beta.length = genNum c.labels isFixed c.ffi) (hu : (d.u ω).length = genNum c.labels isRandom c.fri) (he : (d.errors ω).length = d.rows.length) (hv : v.length = d.rows.length)
    {ans : List ℝ} (h : ((d.rows.zip (d.errors ω)).mapM fun re => genAnswer c (d.u ω) re.1 re.2) = .ok ans) :
    lmeGroupOf (genNum c.labels isFixed c.ffi) (genNum c.labels isRandom c.fri) (d.rows.map (genRow c.labels isFixed c.ffi)) ans (d.rows.map (genRow c.labels isRandom c.fri)) v =
      .ok ((d.group c (genNum c.labels isFixed c.ffi) (genNum c.labels isRandom c.fri) v).at ω) := by
  obtain ⟨h1, h2⟩ := mapM_zip_getD he h
  rw [lmeGroupOf_eq (n := d.rows.length) (by simp) h1 (by simp) hv
    (fun r hr => by obtain ⟨a, -, rfl⟩ := List.mem_map.1 hr; exact genRow_length _ _ _ _ hF) (fun r hr => by obtain ⟨a, -, rfl⟩ := List.mem_map.1 hr; exact genRow_length _ _ _ _ hR)]
  unfold RandGroup.at RandDraw.group
  simp only
  congr 2
  funext i
  have h3 := (genAnswer_ok hR (h2 i i.2)).2.2
  have e1 : ∀ f : List ℝ → List ℝ, (d.rows.map f).getD i [] = f (d.rows.getD i []) := fun f => by
    simp [List.getD, List.getElem?_map, List.getElem?_eq_getElem i.2]
  rw [h3, e1, e1, dotL_eq_sum (genRow_length _ _ _ _ hF) hb, dotL_eq_sum (genRow_length _ _ _ _ hR) hu]

omit [MeasurableSpace Ω] in
theorem genGroups_random (c : GenCfg ℝ) (hF : genNum c.labels isFixed c.ffi ≠ 0) (hR : genNum c.labels isRandom c.fri ≠ 0) (hb : c.beta.length = genNum c.labels isFixed c.ffi) (ω : Ω)
    (sizes : List ℕ) : ∀ (ds : List (RandDraw Ω)) (V : List (List ℝ)) (start i : ℕ) (gs : List (GenGroup ℝ)),
      List.Forall₂ (fun d v => (d.u ω).length = genNum c.labels isRandom c.fri ∧ (d.errors ω).length = d.rows.length ∧ v.length = d.rows.length) ds V →
      genGroups c sizes start i (ds.map fun d => d.at ω) = .ok gs → gs.map GenGroup.obsVars = V →
      (((gs.map GenGroup.fixed).zip (gs.map GenGroup.answers)).zip ((gs.map GenGroup.random).zip V)).mapM (fun g =>
        g.2.1.toRows >>= fun z => lmeGroupOf (genNum c.labels isFixed c.ffi) (genNum c.labels isRandom c.fri) g.1.1 g.1.2 z g.2.2) =
      .ok (((ds.zip V).map fun dv => dv.1.group c (genNum c.labels isFixed c.ffi) (genNum c.labels isRandom c.fri) dv.2).map fun r => r.at ω)
  | [], V, start, i, gs, hV, h, hv => by
    cases hV
    cases h
    rfl
  | d :: ds, V, start, i, gs, hV, h, hv => by
    obtain ⟨var, vars, ans, rest, -, -, h3, h4, rfl⟩ := (genGroups_cons ..).1 h
    cases hV with
    | cons hd hds =>
      rename_i v V
      obtain ⟨rfl, hv'⟩ : vars = v ∧ rest.map GenGroup.obsVars = V := by simpa using hv
      have ih := genGroups_random c hF hR hb ω sizes ds V _ _ rest hds h4 hv'
      rw [if_neg hR]
      simp only [List.map_cons, List.zip_cons_cons, List.mapM_cons]
      have hg := d.group_at c hF hR vars ω hb hd.1 hd.2.1 hd.2.2 h3
      change ((lmeGroupOf (genNum c.labels isFixed c.ffi) (genNum c.labels isRandom c.fri) (d.rows.map (genRow c.labels isFixed c.ffi)) ans (d.rows.map (genRow c.labels isRandom c.fri)) vars) >>= _) = _
      rw [hg]
      simp only [bind, Except.bind] at ih ⊢
      rw [ih]
      rfl

theorem gen_numFixed {c : GenCfg ℝ} {P : LmeProblem ℝ} (h1 : P.columnLabels = GROUP :: (c.labels ++ [VARIANCE])) (h2 : P.interceptLabel = interceptLabelOf c.ffi c.fri) :
    P.numFixed = genNum c.labels isFixed c.ffi ∧ P.numRandom = genNum c.labels isRandom c.fri := by
  unfold LmeProblem.numFixed LmeProblem.numRandom
  rw [h1, h2, genNum_eq, genNum_eq]
  have cF : (GROUP :: (c.labels ++ [VARIANCE])).countP isFixed = c.labels.countP isFixed := by
    rw [List.countP_cons, List.countP_append]; simp [isFixed_GROUP, isFixed_VARIANCE]
  have cR : (GROUP :: (c.labels ++ [VARIANCE])).countP isRandom = c.labels.countP isRandom := by
    rw [List.countP_cons, List.countP_append]; simp [isRandom_GROUP, isRandom_VARIANCE]
  have eF : (fun l : String => decide (l = FIXED ∨ l = FIXED_RANDOM)) = isFixed := by funext l; simp [isFixed]
  have eR : (fun l : String => decide (l = RANDOM ∨ l = FIXED_RANDOM)) = isRandom := by funext l; simp [isRandom]
  rw [eF, eR, cF, cR]
  cases c.ffi <;> cases c.fri <;> simp [interceptLabelOf, FIXED, RANDOM, FIXED_RANDOM]

/-- The groups of a generated problem as random groups. -/
theorem generated_groups (c : GenCfg ℝ) (ds : List (RandDraw Ω)) (gamma : List ℝ) (V : List (List ℝ)) (hrand : c.fri = true ∨ "random" ∈ c.labels ∨ "fixed+random" ∈ c.labels)
    (hq : gamma.length = c.labels.countP (fun l => l = "random" ∨ l = "fixed+random") + if c.fri then 1 else 0)
    (hlaw : List.Forall₂ (fun d v => d.Lawful μ gamma v) ds V) (P : Ω → LmeProblem ℝ) (cs : Ω → List (ℕ × List ℝ))
    (hgen : ∀ ω, lmeGenerate c (ds.map fun d => d.at ω) = .ok (P ω, cs ω)) (hV : ∀ ω, (P ω).obsVars = V) :
    ∃ p q : ℕ, c.beta.length = p ∧ gamma.length = q ∧
      ∀ ω, (P ω).numFixed = p ∧ (P ω).numRandom = q ∧ lmeGroupsAt p q (P ω) = .ok (((ds.zip V).map fun dv => dv.1.group c p q dv.2).map fun r => r.at ω) := by
  have eR : (fun l : String => decide (l = "random" ∨ l = "fixed+random")) = isRandom := by funext l; simp [isRandom]
  rw [eR, ← genNum_eq] at hq
  have hR : genNum c.labels isRandom c.fri ≠ 0 := by
    rw [genNum_eq]
    rcases hrand with h1 | h1 | h1
    · rw [h1]; simp
    · have := List.countP_pos_iff.2 ⟨_, h1, isRandom_RANDOM⟩
      omega
    · have := List.countP_pos_iff.2 ⟨_, h1, isRandom_FIXED_RANDOM⟩
      omega
  obtain ⟨ω0⟩ : Nonempty Ω := nonempty_of_isProbabilityMeasure μ
  obtain ⟨hF, hb, -⟩ := (lmeGenerate_ok c _ _ _).1 (hgen ω0)
  refine ⟨_, _, hb, hq, fun ω => ?_⟩
  obtain ⟨-, -, gs, hgs, -, hP⟩ := (lmeGenerate_ok c _ _ _).1 (hgen ω)
  have hn := gen_numFixed (c := c) (P := P ω) (by rw [hP]) (by rw [hP])
  refine ⟨hn.1, hn.2, ?_⟩
  have hv : gs.map GenGroup.obsVars = V := by
    have := hV ω
    rw [hP] at this
    exact this
  have := genGroups_random c hF hR hb ω _ ds V _ _ gs (hlaw.imp fun d v h => ⟨(h.lenU ω).trans hq, h.lenE ω, h.lenV⟩) hgs hv
  unfold lmeGroupsAt
  rw [hP]
  simp only
  rw [hv]
  exact this

/-- **C143**: let `generate` be called with at least one random effect; given the drawn features, let the random effects be drawn with mean zero and covariance `diag gamma` and the errors with mean zero and
the variances which the problem reports, all uncorrelated. Then the groups an oracle sees in the generated problem have the mean and the covariance of the mixed model with the true coefficients; the
expectation of the oracle's loss is smallest at the true coefficients. (Non-vacuity: example at the end of `Props/LmeGenDensity.lean`, a call of `generate` with two groups.) -/
theorem C143_generated (c : GenCfg ℝ) (ds : List (RandDraw Ω)) (gamma : List ℝ) (V : List (List ℝ)) (hrand : c.fri = true ∨ "random" ∈ c.labels ∨ "fixed+random" ∈ c.labels)
    (hq : gamma.length = c.labels.countP (fun l => l = "random" ∨ l = "fixed+random") + if c.fri then 1 else 0)
    (hlaw : List.Forall₂ (fun d v => d.Lawful μ gamma v) ds V) (P : Ω → LmeProblem ℝ) (cs : Ω → List (ℕ × List ℝ))
    (hgen : ∀ ω, lmeGenerate c (ds.map fun d => d.at ω) = .ok (P ω, cs ω)) (hV : ∀ ω, (P ω).obsVars = V) :
    (∃ (p q : ℕ) (R : List (RandGroup Ω p q)), (∀ ω, (P ω).numFixed = p ∧ (P ω).numRandom = q ∧ lmeGroupsAt p q (P ω) = .ok (R.map fun r => r.at ω)) ∧
      c.beta.length = p ∧ gamma.length = q ∧ ∀ r ∈ R, r.Follows μ (fun k => c.beta.getD k 0) (fun k => gamma.getD k 0)) ∧
    ((∀ v ∈ V, ∀ x ∈ v, 0 < x) → (∀ x ∈ gamma, 0 ≤ x) → ∀ beta' gamma' : List ℝ, beta'.length = c.beta.length → gamma'.length = gamma.length → (∀ x ∈ gamma', 0 ≤ x) →
      ∃ L0 L : Ω → ℝ, (∀ ω, lmeProblemLoss (P ω) c.beta gamma = .ok (L0 ω)) ∧ (∀ ω, lmeProblemLoss (P ω) beta' gamma' = .ok (L ω)) ∧ Integrable L0 μ ∧ Integrable L μ ∧
        ∫ ω, L0 ω ∂μ ≤ ∫ ω, L ω ∂μ) := by
  obtain ⟨p, q, hb, hq, h1⟩ := generated_groups c ds gamma V hrand hq hlaw P cs hgen hV
  have main : ∃ R : List (RandGroup Ω p q), (∀ ω, (P ω).numFixed = p ∧ (P ω).numRandom = q ∧ lmeGroupsAt _ _ (P ω) = .ok (R.map fun r => r.at ω)) ∧
      (∀ r ∈ R, r.Follows μ (fun k => c.beta.getD k 0) (fun k => gamma.getD k 0)) ∧ ∀ r ∈ R, ∃ v ∈ V, v.length = r.g.n ∧ ∀ i, r.g.l i = v.getD i 0 := by
    refine ⟨(ds.zip V).map fun dv => dv.1.group c _ _ dv.2, h1, fun r hr => ?_, fun r hr => ?_⟩
    · obtain ⟨dv, hdv, rfl⟩ := List.mem_map.1 hr
      exact dv.1.group_follows c hq ((List.forall₂_iff_zip.1 hlaw).2 (show (dv.1, dv.2) ∈ ds.zip V from hdv))
    · obtain ⟨dv, hdv, rfl⟩ := List.mem_map.1 hr
      exact ⟨dv.2, (List.of_mem_zip (a := dv.1) (b := dv.2) hdv).2, ((List.forall₂_iff_zip.1 hlaw).2 (show (dv.1, dv.2) ∈ ds.zip V from hdv)).lenV, fun i => rfl⟩
  obtain ⟨R, h1, h2, h3⟩ := main
  refine ⟨⟨_, _, R, h1, hb, hq, h2⟩, fun hpos hg0 beta' gamma' hb' hq' hg' => ?_⟩
  have hnn : ∀ {l : List ℝ}, (∀ x ∈ l, 0 ≤ x) → ∀ k, 0 ≤ l.getD k 0 := by
    intro l hl k
    rw [List.getD_eq_getElem?_getD]
    cases h : l[k]? with
    | none => simp
    | some x => exact hl x (List.mem_of_getElem? h)
  obtain ⟨L0, L, a1, a2, a3, a4, a5, -⟩ := C142_truth_minimises R (fun k => c.beta.getD k 0) (fun k => gamma.getD k 0) h2
    (fun r hr i => by
      obtain ⟨v, hv, hl, he⟩ := h3 r hr
      rw [he, List.getD_eq_getElem?_getD, List.getElem?_eq_getElem (lt_of_lt_of_eq i.2 hl.symm)]
      exact hpos v hv _ (List.getElem_mem _)) (fun j => hnn hg0 j) (fun k => beta'.getD k 0) (fun k => gamma'.getD k 0) fun j => hnn hg' j
  refine ⟨L0, L, fun ω => ?_, fun ω => ?_, a3, a4, a5⟩
  · rw [lmeProblemLoss_eq (h1 ω).1 (h1 ω).2.1 (h1 ω).2.2 hb hq]
    exact a1 ω
  · rw [lmeProblemLoss_eq (h1 ω).1 (h1 ω).2.1 (h1 ω).2.2 (hb'.trans hb) (hq'.trans hq)]
    exact a2 ω

end

end Verif
