import Verif.Props.LinColumns
import Verif.Props.LmeTurnTable
import Verif.Props.LinZeroCol

/-!
# Features that are equal up to sign (C191)
-/

open Matrix

namespace Verif

noncomputable section

variable {m n N k : ℕ}

/-- The sign of the features `j` and `i`, one for all others. -/
def pairSign {n : ℕ} (j i : Fin n) (e : ℝ) (l : Fin n) : ℝ := if l = j ∨ l = i then e else 1

theorem pairSign_cases (j i : Fin n) {e : ℝ} (he : e = 1 ∨ e = -1) (l : Fin n) : pairSign j i e l = 1 ∨ pairSign j i e l = -1 := by
  unfold pairSign
  split_ifs
  · exact he
  · exact .inl rfl

/-- A vector with `v i = e v j` is the same after exchanging the two entries and multiplying them with the sign `e`. -/
theorem pairSign_swap {j i : Fin n} {e : ℝ} (he : e = 1 ∨ e = -1) {v : Vec ℝ n} (h : v i = e * v j) (l : Fin n) : pairSign j i e l * v (Equiv.swap j i l) = v l := by
  have h2 : e * e = 1 := by rcases he with h | h <;> rw [h] <;> norm_num
  unfold pairSign
  by_cases hj : l = j
  · subst hj
    rw [if_pos (.inl rfl), Equiv.swap_apply_left, h, ← mul_assoc, h2, one_mul]
  · by_cases hi : l = i
    · subst hi
      rw [if_pos (.inr rfl), Equiv.swap_apply_right, h]
    · rw [if_neg (by simp [hj, hi]), one_mul, Equiv.swap_apply_of_ne_of_ne hj hi]

/-- The part of **C191** that holds for linear models: whatever the class, except those with the L0 penalty, two features that agree up to a sign in all observations get coefficients that agree up to this sign, if they
have equal weights and the starting values do so too (for the default start only if the sign is positive). Missing: L0, see `C191_l0_violated`, and opposite features with the default start, see `C191_sign_violated`. -/
theorem C191_linear_partial (pen : LinPenalty) (hpen : ∀ nnz sort, pen ≠ .l0 nnz sort) (sr3 : Bool) (a : LinArgs) (A : Matrix (Fin m) (Fin n) ℝ) (b : Vec ℝ m) (rw : Option (Vec ℝ n)) (std : StdArg ℝ m)
    (x0 : Option (Vec ℝ n)) (warm : Bool) (w : Option (Vec ℝ n)) (j i : Fin n) (e : ℝ) (he : e = 1 ∨ e = -1) (hcol : ∀ r, A r i = e * A r j) (hw : ∀ v, w = some v → v i = v j)
    (hstart : (if warm then x0.getD fun _ => 1 else fun _ => 1) i = e * (if warm then x0.getD fun _ => 1 else fun _ => 1) j)
    (x : Vec ℝ n) (L : Logger (PyVal ℝ n)) (h : linClassFit pen sr3 a ⟨m, n, A, b, 1, rw, std⟩ x0 warm w = .ok (x, L)) : x i = e * x j := by
  have h2 : e * e = 1 := by rcases he with h | h <;> rw [h] <;> norm_num
  have hs : (∀ l, pairSign j i e l = 1) ∨ (warm = true ∧ x0.isSome) := by
    cases warm with
    | false =>
      have h1 : (1 : ℝ) = e * 1 := hstart
      rw [mul_one] at h1
      exact .inl fun l => by unfold pairSign; rw [← h1]; exact ite_self _
    | true =>
      cases x0 with
      | none =>
        have h1 : (1 : ℝ) = e * 1 := hstart
        rw [mul_one] at h1
        exact .inl fun l => by unfold pairSign; rw [← h1]; exact ite_self _
      | some v => exact .inr ⟨rfl, rfl⟩
  have key := C122_features_linear pen sr3 a A b rw std x0 warm w (Equiv.swap j i) (pairSign j i e) (pairSign_cases j i he) 1 (.inl rfl) (fun nnz sort h => absurd h (hpen nnz sort)) hs
  have e1 : (Matrix.of fun r l => 1 * pairSign j i e l * A r (Equiv.swap j i l)) = A := by
    ext r l
    show 1 * pairSign j i e l * A r (Equiv.swap j i l) = A r l
    rw [one_mul]
    exact pairSign_swap (v := A r) he (hcol r) l
  have e2 : (fun r => 1 * b r) = b := funext fun r => one_mul _
  have e3 : warm = true → (x0.map fun v l => pairSign j i e l * v (Equiv.swap j i l)) = x0 := fun hwm => by
    cases x0 with
    | none => rfl
    | some v =>
      rw [if_pos hwm] at hstart
      exact congrArg some (funext fun l => pairSign_swap (v := v) he hstart l)
  have e4 : w.map (· ∘ Equiv.swap j i) = w := by
    cases w with
    | none => rfl
    | some v =>
      refine congrArg some (funext fun l => ?_)
      have := pairSign_swap (j := j) (i := i) (v := v) (e := 1) (.inl rfl) (by rw [one_mul]; exact hw v rfl) l
      unfold pairSign at this
      rwa [ite_self, one_mul] at this
  have e5 : linClassFit pen sr3 a ⟨m, n, A, b, 1, rw, std⟩ (x0.map fun v l => pairSign j i e l * v (Equiv.swap j i l)) warm w = linClassFit pen sr3 a ⟨m, n, A, b, 1, rw, std⟩ x0 warm w := by
    cases warm with
    | true => rw [e3 rfl]
    | false => rfl
  rw [e1, e2, e4, e5, h] at key
  have h3 := congrFun (congrArg Prod.fst (Except.ok.inj key)) i
  have h4 : x i = pairSign j i e i * x (Equiv.swap j i i) := h3
  rw [Equiv.swap_apply_right] at h4
  rw [h4, pairSign, if_pos (.inr rfl)]

/-- The part of **C191** that holds for mixed-effects models: whatever the model, except those with the L0 penalty, for the default start and weights two columns of the same kind that are equal in all observations
get equal coefficients, variances and random effects; two random columns that are opposite to each other get equal variances and opposite random effects.
Missing: L0, and opposite columns of fixed effects, see `C191_sign_violated`. -/
theorem C191_mixed_partial (M : LmeModelCfg) (hpr : M.prior = none) (hreg : ¬ ∃ nb ng sort, M.reg = .l0 nb ng sort) (st : LmeState) {labels : List String} (hk : labels.length = k)
    (x : Matrix (Fin N) (Fin k) ℝ) (y : Vec ℝ N) (ffi fri : Bool) (j i : Fin k) (e : ℝ) (hlab : labels.getD i.1 "" = labels.getD j.1 "") (hcol : ∀ r, x r i = e * x r j)
    (he : e = 1 ∨ e = -1 ∧ labels.getD j.1 "" = "random") (res : Except PyErr Unit) (c : LmeCoef)
    (h : lmeFit M st x y (some labels) ffi fri none none none {} = (res, some c)) (hst : res = .ok () ∨ st = none) :
    ∃ β γ u, c = coefOf k labels ffi fri β γ u c.groupLabels ∧ (some j ∈ effectCols k labels "fixed" ffi → β (some i) = β (some j)) ∧
      (some j ∈ effectCols k labels "random" fri → γ (some i) = γ (some j) ∧ ∀ l ∈ c.groupLabels, u l (some i) = e * u l (some j)) := by
  have he' : e = 1 ∨ e = -1 := he.imp_right And.left
  have hx : Moved labels labels (Equiv.swap j i) (pairSign j i e) x x := by
    refine ⟨hk, fun l => ?_, fun r l => (pairSign_swap (v := x r) he' (hcol r) l).symm, pairSign_cases j i he', fun l hl => ?_⟩
    · by_cases hj : l = j
      · rw [hj, Equiv.swap_apply_left, hlab]
      · by_cases hi : l = i
        · rw [hi, Equiv.swap_apply_right, hlab]
        · rw [Equiv.swap_apply_of_ne_of_ne hj hi]
    · unfold pairSign
      split_ifs with h1
      · rcases he with h2 | ⟨-, h2⟩
        · exact h2
        · have h3 : labels.getD l.1 "" = "random" := by
            rcases h1 with h1 | h1 <;> rw [h1]
            · exact h2
            · rw [hlab, h2]
          rw [h3] at hl
          simp at hl
      · rfl
  have ha : MovedArgs labels labels (Equiv.swap j i) (pairSign j i e) 1 ffi fri {} {} := by
    refine ⟨.inl ⟨rfl, rfl, fun c hc => ?_⟩, .inl ⟨rfl, rfl⟩, .inl ⟨rfl, rfl⟩, .inl ⟨rfl, rfl⟩⟩
    rcases c with - | l
    · rfl
    · rw [mem_effectCols_some] at hc
      show 1 * pairSign j i e l = 1
      rw [one_mul, pairSign]
      split_ifs with h1
      · rcases he with h2 | ⟨-, h2⟩
        · exact h2
        · have h3 : labels.getD l.1 "" = "random" := by
            rcases h1 with h1 | h1 <;> rw [h1]
            · exact h2
            · rw [hlab, h2]
          rw [h3] at hc
          simp at hc
      · rfl
  obtain ⟨res', β, γ, u, h1, h2⟩ := C126_column_order M hpr st hx (.inl rfl) (y := y) (fun r => (one_mul _).symm) ffi fri ha (fun h => absurd h hreg) res c h hst
  rw [h] at h2
  have h3 : c = _ := Option.some.inj (congrArg Prod.snd h2)
  have hβ := (congrArg LmeCoef.beta h1).symm.trans (congrArg LmeCoef.beta h3)
  have hγ := (congrArg LmeCoef.gamma h1).symm.trans (congrArg LmeCoef.gamma h3)
  have hu := (congrArg LmeCoef.randomEffects h1).symm.trans (congrArg LmeCoef.randomEffects h3)
  refine ⟨β, γ, u, h1, fun hj => ?_, fun hj => ⟨?_, fun l hl => ?_⟩⟩
  · have h4 := List.map_inj_left.1 hβ _ hj
    have h5 : β (some j) = effectSign 1 (pairSign j i e) (some j) * β (some (Equiv.swap j i j)) := h4
    rw [Equiv.swap_apply_left] at h5
    rcases ha.beta with ⟨-, -, h6⟩ | ⟨B, h6, -⟩
    · rw [h6 _ hj, one_mul] at h5
      exact h5.symm
    · cases h6
  · have h5 : γ (some j) = γ (some (Equiv.swap j i j)) := List.map_inj_left.1 hγ _ hj
    rw [Equiv.swap_apply_left] at h5
    exact h5.symm
  · have h5 : u l (some j) = effectSign 1 (pairSign j i e) (some j) * u l (some (Equiv.swap j i j)) := List.map_inj_left.1 (List.map_inj_left.1 hu l hl) _ hj
    rw [Equiv.swap_apply_left] at h5
    have h6 : effectSign 1 (pairSign j i e) (some j) = e := by
      show 1 * pairSign j i e j = e
      rw [one_mul, pairSign, if_pos (.inl rfl)]
    have h7 : e * e = 1 := by rcases he' with h | h <;> rw [h] <;> norm_num
    rw [h5, h6, ← mul_assoc, h7, one_mul]

/-- One observation `0` of two features that are opposite to each other. -/
def oppositeFeatures : LinProblem ℝ := ⟨1, 2, !![1, -1], ![0], 1, none, .scalar 1⟩

/-- **C191**, violated for opposite features by `SimpleLinearModel` with the default start: both features get the coefficient one. -/
theorem C191_sign_violated (a : LinArgs) (x : Vec ℝ 2) (L : Logger (PyVal ℝ 2)) (h : linFit (linClass .dummy false a) oppositeFeatures none false none = .ok (x, L)) : x = fun _ => 1 := by
  unfold linFit at h
  obtain ⟨pr, hpr, h⟩ := except_bind_ok.1 h
  have hpr' : pr = .nonInformative := by
    unfold linOracleInstantiate at hpr
    cases hm : (linClass .dummy false a).prior with
    | none => rw [hm] at hpr; cases hpr; rfl
    | gaussian params => rw [hm] at hpr; simp [gaussInstantiateArg] at hpr
  subst hpr'
  obtain ⟨⟨⟨x', Ly⟩, sy⟩, hy, h⟩ := except_bind_ok.1 h
  obtain ⟨Lz, hLz, h⟩ := except_bind_ok.1 h
  cases h
  refine (pgdOptimize_inv (fun x : Vec ℝ 2 => x = fun _ => 1) (fun _ => True) (fun _ _ _ _ _ _ _ => trivial) (fun y s g s' hy _ hg => ⟨trivial, fun step z hp => ?_⟩) rfl trivial hy).1
  subst hy
  have e : g = linGradientValueFunction oppositeFeatures.a oppositeFeatures.b .nonInformative (fun _ => 1) := (Prod.mk.inj (Except.ok.inj hg)).1.symm
  have e2 : ∀ j : Fin 2, g j = 0 := fun j => by
    rw [e]
    show ∑ r : Fin 1, (!![1, -1] : Matrix (Fin 1) (Fin 2) ℝ) r j * ((∑ i : Fin 2, (!![1, -1] : Matrix (Fin 1) (Fin 2) ℝ) r i * 1) - (![0] : Vec ℝ 1) r) + 0 = _
    simp [Fin.sum_univ_two]
  cases hp
  funext j
  show (1 : ℝ) + step * -g j = 1
  rw [e2 j, neg_zero, mul_zero, add_zero]

/-- One observation `2` of two equal features. -/
def equalFeatures : LinProblem ℝ := ⟨1, 2, !![1, 1], ![2], 1, none, .scalar 1⟩

/-- **C191**, violated by `LinearL0Model(nnz=1)` with line search and the default step: for every tolerance and iteration limit that lets it do a step, the fit keeps one of two equal features and drops the other. -/
theorem C191_l0_violated (sort : NpSort) (tol : ℝ) (maxIter : ℤ) (hmax : 1 ≤ maxIter) :
    ∃ (x : Vec ℝ 2) (Lf : _), linFit (linClass (.l0 (some 1) sort) false { tol := tol, maxIter := maxIter }) equalFeatures none false none = .ok (x, Lf) ∧ x 0 ≠ x 1 := by
  obtain ⟨M, hM⟩ : ∃ M, M = linClass (.l0 (some 1) sort) false { tol := tol, maxIter := maxIter } := ⟨_, rfl⟩
  rw [← hM]
  have hstep : M.solver.fixedStepLen = 5 / 100 := by rw [hM]; norm_num [linClass, LinModelCfg.step, LinModelCfg.solver]
  have hmx : M.solver.maxIter = maxIter := by rw [hM]; rfl
  have hK : KeepsLargest 1 (M.regularizer equalFeatures.n fun _ => 1) fun y _ => maskedKMax (participation fun _ => 1) (sort.sub 2 fun _ => 1) y (1 : ℕ) := by
    rw [hM]
    exact l0_keepsLargest 1 (sort.all 2) ⟨fun _ => 1, sort.sub 2 fun _ => 1⟩ fun _ => one_ne_zero
  obtain ⟨g, hg⟩ : ∃ g : Vec ℝ equalFeatures.n → WithTop ℝ, ∀ x, (M.regularizer equalFeatures.n fun _ => 1).value x = .ok (g x) := by
    rw [hM]
    refine ⟨fun x => if (nnzCount x : ℤ) > 1 then ⊤ else 0, fun x => ?_⟩
    show (if (nnzCount x : ℤ) > 1 then Except.ok ⊤ else Except.ok 0) = _
    dsimp only
    split_ifs <;> rfl
  obtain ⟨x, Lf, s', h⟩ := C16_returns (linOracle equalFeatures.a equalFeatures.b .nonInformative) (M.regularizer equalFeatures.n fun _ => 1) _ _ _
    (fun x s => ⟨s, rfl⟩) (fun x s => ⟨s, rfl⟩) hg (fun y t => ⟨_, (hK y t).1⟩) M.solver (fun _ => 1) _
    (Logger.good_init ["converged"] (by simp)) ()
  obtain ⟨L', hL'⟩ := logIC_ok Lf (linAic equalFeatures.a equalFeatures.b .nonInformative x) (linBic equalFeatures.a equalFeatures.b .nonInformative x)
  have h01 : ∀ j : Fin 2, j = 0 ∨ j = 1 := by decide
  obtain ⟨k, X, Ls, s1, L1, -, h0, hk, -, -, hsteps, -, hend⟩ := pgdOptimize_trace _ _ M.solver _ _
    (fun (x : Vec ℝ 2) _ (x' : Vec ℝ 2) _ => (x = fun _ => 1) ∨ (∃ a b : Fin 2, a ≠ b ∧ 1 ≤ x a ∧ x a ≤ 2 ∧ x b = 0) → ∃ a b : Fin 2, a ≠ b ∧ 1 ≤ x' a ∧ x' a ≤ 2 ∧ x' b = 0)
    (fun x it L' s x' L'' s' hbd hx => by
      obtain ⟨gv, s1, t, s2, hgv, hst, hpx, -⟩ := pgdBody_ok _ _ _ _ _ _ _ _ _ _ _ hbd
      have e : gv = linGradientValueFunction equalFeatures.a equalFeatures.b .nonInformative x := (Prod.mk.inj (Except.ok.inj hgv)).1.symm
      have ej : ∀ j : Fin 2, gv j = x 0 + x 1 - 2 := fun j => by
        rw [e]
        show ∑ r : Fin 1, (!![1, 1] : Matrix (Fin 1) (Fin 2) ℝ) r j * ((∑ i : Fin 2, (!![1, 1] : Matrix (Fin 1) (Fin 2) ℝ) r i * x i) - (![2] : Vec ℝ 1) r) + 0 = _
        rcases h01 j with rfl | rfl <;> simp [Fin.sum_univ_two]
      obtain ⟨i, rfl⟩ := chooseStep_dyadic _ _ _ _ _ _ _ _ hst
      rw [hstep] at hpx
      obtain ⟨t, ht⟩ : ∃ t : ℝ, t = 5 / 100 * (1 / 2) ^ i := ⟨_, rfl⟩
      have ht0 : 0 < t := by rw [ht]; positivity
      have ht1 : t ≤ 5 / 100 := by
        rw [ht]
        have : ((1 : ℝ) / 2) ^ i ≤ 1 := pow_le_one₀ (by norm_num) (by norm_num)
        linarith
      rw [← ht] at hpx
      obtain ⟨hp, ⟨T, hT, hin, hout, hdom⟩, -⟩ := hK (fun i => x i - t * gv i) t
      have hx' : x' = _ := Except.ok.inj (hpx.symm.trans hp)
      rw [← hx'] at hin hout
      have hT1 : T.card = 1 := hT
      obtain ⟨a, rfl⟩ := Finset.card_eq_one.1 hT1
      obtain ⟨b, hb⟩ : ∃ b : Fin 2, a ≠ b := by
        rcases h01 a with rfl | rfl
        · exact ⟨(1 : Fin 2), show ¬ (0 : Fin 2) = 1 by decide⟩
        · exact ⟨(0 : Fin 2), show ¬ (1 : Fin 2) = 0 by decide⟩
      have hsum : ∀ a b : Fin 2, a ≠ b → x 0 + x 1 = x a + x b := fun a b hab => by
        rcases h01 a with rfl | rfl <;> rcases h01 b with rfl | rfl
        · exact absurd rfl hab
        · rfl
        · exact add_comm _ _
        · exact absurd rfl hab
      have hxa : x' a = x a - t * gv a := hin a (Finset.mem_singleton_self _)
      have hxb : x' b = 0 := hout b (fun h => hb (Finset.mem_singleton.1 h).symm)
      refine ⟨a, b, hb, ?_⟩
      rcases hx with h1 | ⟨a', b', hab', h1, h2, h3⟩
      · rw [hxa, ej a, h1]
        exact ⟨by norm_num, by norm_num, hxb⟩
      · have hs : x 0 + x 1 = x a' := by rw [hsum a' b' hab', h3, add_zero]
        have haa : a = a' := by
          by_contra hne
          have hab : a = b' := by
            rcases h01 a with rfl | rfl <;> rcases h01 a' with rfl | rfl <;> rcases h01 b' with rfl | rfl <;> first | rfl | exact absurd rfl hne | exact absurd rfl hab'
          have hd := hdom a (Finset.mem_singleton_self _) a' (fun h => hne (Finset.mem_singleton.1 h).symm)
          rw [ej a', ej a, hs, hab, h3, abs_of_nonneg (by nlinarith : (0 : ℝ) ≤ x a' - t * (x a' - 2)), abs_of_nonneg (by nlinarith : (0 : ℝ) ≤ 0 - t * (x a' - 2))] at hd
          linarith
        subst haa
        rw [hxa, ej a, hs]
        exact ⟨by nlinarith, by nlinarith, hxb⟩) _ _ _ _ h
  have hkpos : k ≠ 0 := by
    rintro rfl
    exact hend ⟨Or.inl (show 0 < 2 by norm_num), by rw [hmx]; push_cast; omega⟩
  have hall : ∀ i, i + 1 ≤ k → ∃ a b : Fin 2, a ≠ b ∧ 1 ≤ X (i + 1) a ∧ X (i + 1) a ≤ 2 ∧ X (i + 1) b = 0 := fun i => by
    induction i with
    | zero => exact fun hi => hsteps 0 (by omega) (Or.inl h0)
    | succ i ih => exact fun hi => hsteps (i + 1) (by omega) (Or.inr (ih (by omega)))
  obtain ⟨i, rfl⟩ := Nat.exists_eq_succ_of_ne_zero hkpos
  obtain ⟨p, q, hpq, h1, h2, h3⟩ := hall i le_rfl
  rw [show X (i + 1) = x from hk] at h1 h2 h3
  refine ⟨x, L', ?_, fun h4 => ?_⟩
  · unfold linFit
    rw [show M.sr3 = none by rw [hM]; rfl, show M.prior = .none by rw [hM]; rfl, show M.loggerKind = .tuple by rw [hM]; rfl, show M.loggerKeys = ["converged"] by rw [hM]; rfl]
    exact except_bind_ok.2 ⟨_, rfl, except_bind_ok.2 ⟨_, h, except_bind_ok.2 ⟨_, hL', rfl⟩⟩⟩
  · have h5 : x p = x q := by
      rcases h01 p with rfl | rfl <;> rcases h01 q with rfl | rfl <;> first | exact h4 | exact h4.symm | rfl
    rw [h5, h3] at h1
    norm_num at h1

/-! ## Examples -/

/-- `LinearL1Model` on the two equal features. -/
example : ∃ (x : Vec ℝ 2) (L : _), linClassFit (.l1 1) false {} equalFeatures none false none = .ok (x, L) ∧ x 1 = x 0 := by
  obtain ⟨x, L, h⟩ := C110_strength_partial 1 zero_le_one false (by norm_num) (.l1 1) (by simp [strengthPenalties]) false equalFeatures rfl none false
  exact ⟨x, L, h, by
    have h1 := C191_linear_partial (.l1 1) (fun _ _ h => by cases h) false {} !![1, 1] ![2] none (.scalar 1) none false none 0 1 1 (.inl rfl) (fun r => by simp) (by simp) (by simp) x L h
    rwa [one_mul] at h1⟩

/-- `LinearSCADModel` with an SR3 oracle on the two opposite features, started at opposite values. -/
example : ∃ (x : Vec ℝ 2) (L : _), linClassFit (.scad (1 / 2) 2 1) true {} oppositeFeatures (some (![3, -3] : Vec ℝ 2)) true none = .ok (x, L) ∧ x 1 = -x 0 := by
  obtain ⟨x, L, h⟩ := C110_strength_partial (1 / 2) (by norm_num) true (by norm_num) (.scad (1 / 2) 2 1) (by simp [strengthPenalties]) false oppositeFeatures rfl (some (![3, -3] : Vec ℝ 2)) true
  exact ⟨x, L, h, by
    have h1 := C191_linear_partial (.scad (1 / 2) 2 1) (fun _ _ h => by cases h) true {} !![1, -1] ![0] none (.scalar 1) (some (![3, -3] : Vec ℝ 2)) true none 0 1 (-1) (.inr rfl)
      (fun r => by simp) (by simp) (by simp) x L h
    rwa [neg_one_mul] at h1⟩

/-- `SimpleLinearModel()` fits the two opposite features. -/
example : ∃ (x : Vec ℝ 2) (L : _), linFit (linClass .dummy false {}) oppositeFeatures none false none = .ok (x, L) ∧ x 0 = x 1 ∧ x 0 ≠ 0 := by
  obtain ⟨x, L, h⟩ := linFit_plain_returns (linClass .dummy false {}) rfl rfl rfl (by simp [linClass]) _ (fun _ _ _ => rfl) (fun _ _ _ _ => ⟨_, rfl⟩) oppositeFeatures none false none
  have h1 := C191_sign_violated {} x L h
  exact ⟨x, L, h, by rw [h1], by rw [h1]; exact one_ne_zero⟩

/-- Two equal columns of fixed effects and two opposite columns of random effects. -/
def twinTab : Matrix (Fin 2) (Fin 6) ℝ := !![1, 3, 3, 2, -2, 1; 0, 5, 5, 1, -1, 1]

/-- Labels of this table. -/
def twinLabels : List String := ["group", "fixed", "fixed", "random", "random", "variance"]

theorem twinTab_ok (y : Vec ℝ 2) : ∃ P, lmeFromXY twinTab (some y) none twinLabels true true none none = .ok P := by
  refine lmeFromXY_succeeds twinTab (some y) none twinLabels true true none none 0 5 (by decide) (by decide) rfl (by decide)
    (by simp) ?_ ?_ (.inl rfl) (by simp) _ _ rfl rfl
  · intro r; fin_cases r <;> simp [twinTab]
  · intro r; fin_cases r
    · exact ⟨1, by simp [twinTab]⟩
    · exact ⟨0, by simp [twinTab]⟩

/-- All default models other than L0 on this table. -/
example (sort : NpSort) (cls : LmeClassName) (hcls : cls ≠ .l0) (sr3 : Bool) (y : Vec ℝ 2) :
    ∃ c β γ u, lmeFit (lmeDefaultModel sort cls sr3) none twinTab y (some twinLabels) true true none none none {} = (.ok (), some c) ∧
      c = coefOf 6 twinLabels true true β γ u c.groupLabels ∧ β (some 2) = β (some 1) ∧ γ (some 4) = γ (some 3) ∧ ∀ l ∈ c.groupLabels, u l (some 4) = -u l (some 3) := by
  obtain ⟨P, hP⟩ := twinTab_ok y
  have hpos : ∀ v : Fin 6, twinLabels[(v : ℕ)]? = some "variance" → ∀ r, 0 < twinTab r v := fun v hv r => by
    fin_cases v <;> simp [twinLabels] at hv
    fin_cases r <;> simp [twinTab]
  obtain ⟨c, hc, -⟩ := C117_defaults_fit sort cls sr3 none twinTab y _ true true P hP hpos none none (by simp) (by simp) false
  have hl0 : ¬ ∃ nb ng sort', (lmeDefaultModel sort cls sr3).reg = .l0 nb ng sort' := by
    rintro ⟨nb, ng, so, h⟩
    cases cls <;> first | exact hcls rfl | (cases sr3 <;> cases h)
  obtain ⟨β, γ, u, h1, h2, -⟩ := C191_mixed_partial (lmeDefaultModel sort cls sr3) rfl hl0 none (k := 6) (labels := twinLabels) rfl twinTab y true true 1 2 1 rfl (fun r => show twinTab r 2 = 1 * twinTab r 1 by fin_cases r <;> simp [twinTab]) (.inl rfl) _ c hc (.inl rfl)
  obtain ⟨β', γ', u', h1', -, h3⟩ := C191_mixed_partial (lmeDefaultModel sort cls sr3) rfl hl0 none (k := 6) (labels := twinLabels) rfl twinTab y true true 3 4 (-1) rfl (fun r => show twinTab r 4 = -1 * twinTab r 3 by fin_cases r <;> simp [twinTab]) (.inr ⟨rfl, rfl⟩) _ c hc (.inl rfl)
  obtain ⟨h4, h5⟩ := h3 (mem_effectCols_some.2 (.inl rfl))
  have hγ := (congrArg LmeCoef.gamma h1).symm.trans (congrArg LmeCoef.gamma h1')
  have hu := (congrArg LmeCoef.randomEffects h1).symm.trans (congrArg LmeCoef.randomEffects h1')
  have m3 : some (3 : Fin 6) ∈ effectCols 6 twinLabels "random" true := mem_effectCols_some.2 (.inl rfl)
  have m4 : some (4 : Fin 6) ∈ effectCols 6 twinLabels "random" true := mem_effectCols_some.2 (.inl rfl)
  refine ⟨c, β, γ, u, hc, h1, h2 (mem_effectCols_some.2 (.inl rfl)), ?_, fun l hl => ?_⟩
  · rw [List.map_inj_left.1 hγ _ m4, List.map_inj_left.1 hγ _ m3, h4]
  · rw [List.map_inj_left.1 (List.map_inj_left.1 hu l hl) _ m4, List.map_inj_left.1 (List.map_inj_left.1 hu l hl) _ m3, h5 l hl, neg_one_mul]

end

end Verif
