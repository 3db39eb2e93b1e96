import Verif.Props.LmeTurn
import Verif.Props.LinColumns

/-!
# Mixed models and the order and signs of the covariates: inner solver, random effects and optimisation
-/

namespace Verif

open Matrix

variable {p q p' q' : ℕ}

namespace Turn
variable (T : Turn p q p' q')

/-! ## The interior-point method -/

/-- Order of the stacked variables. -/
def stackE : Fin q' ⊕ (Fin p' ⊕ Fin q') ≃ Fin q ⊕ (Fin p ⊕ Fin q) := Equiv.sumCongr T.τ (Equiv.sumCongr T.σ T.τ)

/-- Signs of the stacked variables. -/
def stackS : Fin q' ⊕ (Fin p' ⊕ Fin q') → ℝ := Sum.elim (fun _ => 1) (Sum.elim T.b fun _ => 1)

theorem stack_sq (i : Fin q' ⊕ (Fin p' ⊕ Fin q')) : T.stackS i * T.stackS i = 1 := by
  rcases i with i | i | i
  · exact one_mul 1
  · exact T.bb i
  · exact one_mul 1

/-- The local variables. -/
def state (s : IpState p q) : IpState p' q' :=
  ⟨T.gamma s.v, T.beta s.beta, T.gamma s.gamma, T.beta s.tbeta, T.gamma s.tgamma, s.mu, s.stepLen, s.iteration,
    s.prev.map fun x => (T.beta x.1, T.gamma x.2.1, T.beta x.2.2.1, T.gamma x.2.2.2), s.conv, s.S⟩

/-- A pair of fixed effects and variances. -/
def pair (x : Vec ℝ p × Vec ℝ q) : Vec ℝ p' × Vec ℝ q' := (T.beta x.1, T.gamma x.2)

/-- The attributes of the SR3 oracle. -/
def attrs (o : IpOracle p q) : IpOracle p' q' := ⟨o.S, o.warm.map T.pair⟩

theorem beta_sub (x y : Vec ℝ p) : T.beta (x - y) = T.beta x - T.beta y := sVec_sub x y
theorem beta_add (x y : Vec ℝ p) : T.beta (x + y) = T.beta x + T.beta y := sVec_add x y
theorem beta_smul (a : ℝ) (x : Vec ℝ p) : T.beta (a • x) = a • T.beta x := sVec_smul a x
theorem beta_neg (x : Vec ℝ p) : T.beta (-x) = -T.beta x := sVec_neg x
theorem gamma_sub (x y : Vec ℝ q) : T.gamma (x - y) = T.gamma x - T.gamma y := rfl
theorem gamma_add (x y : Vec ℝ q) : T.gamma (x + y) = T.gamma x + T.gamma y := rfl
theorem gamma_smul (a : ℝ) (x : Vec ℝ q) : T.gamma (a • x) = a • T.gamma x := rfl
theorem gamma_neg (x : Vec ℝ q) : T.gamma (-x) = -T.gamma x := rfl

section ip
variable (D : List (LmeGroup p q))

theorem sr3GradientBeta (S : Sr3Params) (bet : Vec ℝ p) (gam : Vec ℝ q) (tb : Vec ℝ p) :
    lmeSr3GradientBeta (D.map T.group) .nonInformative S (T.beta bet) (T.gamma gam) (T.beta tb) = (lmeSr3GradientBeta D .nonInformative S bet gam tb).map T.beta := by
  unfold lmeSr3GradientBeta
  rw [T.gradientBeta]
  cases lmeGradientBeta D .nonInformative bet gam with
  | error e => rfl
  | ok v =>
    change Except.ok _ = Except.ok _
    rw [T.beta_add, T.beta_smul, T.beta_sub]

theorem sr3GradientGamma (S : Sr3Params) (bet : Vec ℝ p) (gam tg : Vec ℝ q) :
    lmeSr3GradientGamma (D.map T.group) .nonInformative S (T.beta bet) (T.gamma gam) (T.gamma tg) = (lmeSr3GradientGamma D .nonInformative S bet gam tg).map T.gamma := by
  unfold lmeSr3GradientGamma
  rw [T.gradientGamma]
  cases lmeGradientGamma D .nonInformative bet gam <;> rfl

theorem sr3HessianBeta (S : Sr3Params) (gam : Vec ℝ q) :
    lmeSr3HessianBeta (D.map T.group) .nonInformative S (T.gamma gam) = (lmeSr3HessianBeta D .nonInformative S gam).map (sMat T.b T.σ T.b T.σ) := by
  unfold lmeSr3HessianBeta
  rw [T.hessianBeta]
  cases lmeHessianBeta D .nonInformative gam with
  | error e => rfl
  | ok v =>
    change Except.ok _ = Except.ok _
    rw [sMat_add, sMat_smul, sMat_one T.bb]

theorem sr3HessianGamma (S : Sr3Params) (kind : HessKind) (bet : Vec ℝ p) (gam : Vec ℝ q) :
    lmeSr3HessianGamma (D.map T.group) .nonInformative S kind (T.beta bet) (T.gamma gam) =
      (lmeSr3HessianGamma D .nonInformative S kind bet gam).map (sMat (fun _ => 1) T.τ (fun _ => 1) T.τ) := by
  unfold lmeSr3HessianGamma
  rw [T.hessianGamma]
  cases lmeHessianGamma D .nonInformative kind bet gam with
  | error e => rfl
  | ok v =>
    change Except.ok _ = Except.ok _
    rw [sMat_add, sMat_smul, sMat_one (by norm_num)]

theorem ipF (s : IpState p q) : Verif.ipF (D.map T.group) .nonInformative (T.state s) = (Verif.ipF D .nonInformative s).map (sVec T.stackS T.stackE) := by
  unfold Verif.ipF
  simp only [state]
  rw [T.sr3GradientBeta, T.sr3GradientGamma]
  cases lmeSr3GradientBeta D .nonInformative s.S s.beta s.gamma s.tbeta with
  | error e => rfl
  | ok gb =>
    cases lmeSr3GradientGamma D .nonInformative s.S s.beta s.gamma s.tgamma with
    | error e => rfl
    | ok gg =>
      change Except.ok _ = Except.ok _
      congr 1
      funext i
      rcases i with i | i | i
      · exact (one_mul _).symm
      · rfl
      · exact (one_mul _).symm

theorem ipJac (kind : HessKind) (s : IpState p q) :
    Verif.ipJac (D.map T.group) .nonInformative kind (T.state s) = (Verif.ipJac D .nonInformative kind s).map (sMat T.stackS T.stackE T.stackS T.stackE) := by
  unfold Verif.ipJac
  simp only [state]
  rw [T.sr3HessianBeta, T.hessianBetaGamma, T.sr3HessianGamma]
  cases lmeSr3HessianBeta D .nonInformative s.S s.gamma with
  | error e => rfl
  | ok hb =>
    cases lmeHessianBetaGamma D .nonInformative s.beta s.gamma with
    | error e => rfl
    | ok hbg =>
      cases lmeSr3HessianGamma D .nonInformative s.S kind s.beta s.gamma with
      | error e => rfl
      | ok hg =>
        change Except.ok _ = Except.ok _
        congr 1
        ext i j
        rcases i with i | i | i <;> rcases j with j | j | j <;>
          simp [sMat, stackS, stackE, fromBlocks, fromCols, Matrix.fromRows_apply_inl, Matrix.fromRows_apply_inr, Matrix.diagonal_apply, Matrix.one_apply, gamma]

theorem perm_ofFn {α : Type*} (f : Fin q → α) : (List.ofFn fun j => f (T.τ j)).Perm (List.ofFn f) := by
  rw [List.ofFn_eq_map, List.ofFn_eq_map]
  have h : ((List.finRange q').map T.τ).Perm (List.finRange q) := by
    refine (List.perm_ext_iff_of_nodup ((List.nodup_finRange q').map T.τ.injective) (List.nodup_finRange q)).2 fun j => ?_
    simp only [List.mem_map, List.mem_finRange, true_and, iff_true]
    exact T.τ.surjective j
  have := h.map f
  rwa [List.map_map] at this

theorem maxStep (v dv gam dg : Vec ℝ q) : maxStepLen (stepPairs (T.gamma v) (T.gamma dv) ++ stepPairs (T.gamma gam) (T.gamma dg)) =
    maxStepLen (stepPairs v dv ++ stepPairs gam dg) := by
  have h : (stepPairs (T.gamma v) (T.gamma dv) ++ stepPairs (T.gamma gam) (T.gamma dg)).Perm (stepPairs v dv ++ stepPairs gam dg) :=
    (T.perm_ofFn fun j => (v j, dv j)).append (T.perm_ofFn fun j => (gam j, dg j))
  exact List.Perm.foldr_eq (lcomm := ⟨min_left_comm⟩) ((h.filter _).map _) 1

/-- Settings of the two interior-point methods. -/
structure Settings (c : IpCfg p q) (c' : IpCfg p' q') : Prop where
  nIter : c'.nIter = c.nIter
  tol : c'.tol = c.tol
  warmStart : c'.warmStart = c.warmStart
  kind : c'.kind = c.kind
  target : c'.target = c.target
  muDecay : c'.muDecay = c.muDecay
  lineSearch : c'.lineSearch = c.lineSearch
  increase : c'.increaseLambdas = c.increaseLambdas
  prox : ∀ it bet gam old, ipProx c' it (T.beta bet) (T.gamma gam) (T.pair old) = (ipProx c it bet gam old).map T.pair

variable {T} {c : IpCfg p q} {c' : IpCfg p' q'}

theorem Settings.ipStep (h : T.Settings c c') (s : IpState p q) (F : Fin q ⊕ (Fin p ⊕ Fin q) → ℝ) :
    Verif.ipStep (D.map T.group) .nonInformative c' (T.state s) (sVec T.stackS T.stackE F) = (Verif.ipStep D .nonInformative c s F).map T.state := by
  unfold Verif.ipStep
  rw [T.ipJac, h.kind]
  cases Verif.ipJac D .nonInformative c.kind s with
  | error e => rfl
  | ok J =>
    simp only [Except.map, bind, Except.bind]
    rw [← sVec_neg, npSolve_sMat T.stack_sq]
    cases npSolve J (-F) with
    | error e => rfl
    | ok d =>
      have hv : (fun j => sVec T.stackS T.stackE d (.inl j)) = T.gamma fun j => d (.inl j) := funext fun j => one_mul _
      have hb : (fun j => sVec T.stackS T.stackE d (.inr (.inl j))) = T.beta fun j => d (.inr (.inl j)) := rfl
      have hg : (fun j => sVec T.stackS T.stackE d (.inr (.inr j))) = T.gamma fun j => d (.inr (.inr j)) := funext fun j => one_mul _
      simp only [Except.map, hv, hb, hg]
      have e1 : (T.state s).v = T.gamma s.v := rfl
      have e2 : (T.state s).gamma = T.gamma s.gamma := rfl
      have e3 : (T.state s).beta = T.beta s.beta := rfl
      have e4 : (T.state s).iteration = s.iteration := rfl
      have e5 : ((T.state s).tbeta, (T.state s).tgamma) = T.pair (s.tbeta, s.tgamma) := rfl
      have e6 : ipStepLen c' = ipStepLen c := by
        funext it m
        unfold ipStepLen
        rw [h.lineSearch]
      rw [e1, e2, e3, e4, e5, e6, T.maxStep]
      generalize (fun j => d (Sum.inl j)) = dv
      generalize (fun j => d (Sum.inr (Sum.inl j))) = db
      generalize (fun j => d (Sum.inr (Sum.inr j))) = dg
      cases ipStepLen c s.iteration (maxStepLen (stepPairs s.v dv ++ stepPairs s.gamma dg)) with
      | error e => rfl
      | ok step =>
        simp only
        rw [← T.gamma_smul, ← T.gamma_smul, ← T.beta_smul, ← T.gamma_add, ← T.gamma_add, ← T.beta_add]
        generalize s.v + step • dv = v
        generalize s.beta + step • db = bet
        generalize s.gamma + step • dg = gam
        have e7 : ∀ x : ℝ, npNorm (fun j => T.gamma gam j * T.gamma v j - x) = npNorm (fun j => gam j * v j - x) := fun x => T.npNorm_gamma fun j => gam j * v j - x
        have hq : (q' : ℝ) = q := by exact_mod_cast T.dimQ
        have e8 : ∀ x : Vec ℝ p, npNorm (T.beta bet - T.beta x) = npNorm (bet - x) := fun x => by rw [← T.beta_sub, T.npNorm_beta]
        have e9 : ∀ x : Vec ℝ q, npNorm (T.gamma gam - T.gamma x) = npNorm (gam - x) := fun x => T.npNorm_gamma (gam - x)
        rw [T.gamma_dot, T.gamma_dot, e7, h.target, h.muDecay, h.increase, h.tol, h.prox, hq]
        split_ifs
        · rfl
        · cases ipProx c (s.iteration + 1) bet gam (s.tbeta, s.tgamma) with
          | error e => rfl
          | ok t =>
            simp only [Except.map, pair, e8, e9]
            rfl
        · cases ipProx c (s.iteration + 1) bet gam (s.tbeta, s.tgamma) with
          | error e => rfl
          | ok t => rfl

theorem ipMoved (tol : ℝ) (s : IpState p q) : Verif.ipMoved tol (T.state s) ↔ Verif.ipMoved tol s := by
  unfold Verif.ipMoved
  cases hs : s.prev with
  | none => simp [state, hs]
  | some x =>
    simp only [state, hs, Option.map_some, ← T.beta_sub, ← T.gamma_sub, T.npNorm_beta, T.npNorm_gamma]

theorem Settings.ipLoop (h : T.Settings c c') (s : IpState p q) :
    Verif.ipLoop (D.map T.group) .nonInformative c' (T.state s) = (Verif.ipLoop D .nonInformative c s).map T.state := by
  generalize hk : (c.nIter - s.iteration).toNat = k
  induction k using Nat.strong_induction_on generalizing s with
  | _ k ih =>
    rw [Verif.ipLoop, Verif.ipLoop.eq_def D .nonInformative c s, T.ipF, h.nIter]
    have e1 : (T.state s).stepLen = s.stepLen := rfl
    have e2 : (T.state s).iteration = s.iteration := rfl
    have e3 : (T.state s).mu = s.mu := rfl
    simp only [e1, e2, e3]
    split_ifs with h1
    · cases Verif.ipF D .nonInformative s with
      | error e => rfl
      | ok F =>
        have key : ((c'.tol < npNorm (sVec T.stackS T.stackE F) ∨ c'.tol < s.mu) ∧ Verif.ipMoved c'.tol (T.state s)) ↔
            ((c.tol < npNorm F ∨ c.tol < s.mu) ∧ Verif.ipMoved c.tol s) := by
          rw [h.tol, npNorm_sVec T.stack_sq, ipMoved]
        simp only [Except.map]
        by_cases h2 : (c.tol < npNorm F ∨ c.tol < s.mu) ∧ Verif.ipMoved c.tol s
        · rw [if_pos h2]
          rw [show (T.state s).mu = s.mu from rfl, if_pos (key.2 h2), h.ipStep D]
          cases Verif.ipStep D .nonInformative c s F with
          | error e => rfl
          | ok s' => exact ih (c.nIter - (s.iteration + 1 : ℕ)).toNat (by omega) { s' with iteration := s.iteration + 1 } rfl
        · rw [if_neg h2]
          rw [show (T.state s).mu = s.mu from rfl, if_neg fun h' => h2 (key.1 h')]
    · rfl

/-- The result of the inner solver. -/
def result (T : Turn p q p' q') (r : IpResult p q) : IpResult p' q' := ⟨T.beta r.beta, T.gamma r.gamma, T.beta r.tbeta, T.gamma r.tgamma⟩

theorem Settings.init (h : T.Settings c c') (o : IpOracle p q) (bet : Vec ℝ p) (gam : Vec ℝ q) (tb : Vec ℝ p) (tg : Vec ℝ q) :
    ipInit c' (T.attrs o) (T.beta bet) (T.gamma gam) (T.beta tb) (T.gamma tg) = T.state (ipInit c o bet gam tb tg) := by
  have hq : (q' : ℝ) = q := by exact_mod_cast T.dimQ
  have e : ipStart c' (T.attrs o) (T.beta bet) (T.gamma gam) = T.pair (ipStart c o bet gam) := by
    unfold ipStart
    rw [h.warmStart]
    split_ifs
    · cases ho : o.warm with
      | none => simp only [attrs, ho]; rfl
      | some w => simp only [attrs, ho]; rfl
    · rfl
  unfold ipInit
  simp only [e]
  generalize ipStart c o bet gam = bg
  unfold state
  simp only [pair]
  congr 1
  rw [hq]
  congr 2
  exact T.τ.sum_comp bg.2

theorem Settings.findIp (h : T.Settings c c') (o : IpOracle p q) (bet : Vec ℝ p) (gam : Vec ℝ q) (tb : Vec ℝ p) (tg : Vec ℝ q) :
    lmeFindIp (D.map T.group) .nonInformative c' (T.attrs o) (T.beta bet) (T.gamma gam) (T.beta tb) (T.gamma tg) =
      (lmeFindIp D .nonInformative c o bet gam tb tg).map fun r => (T.result r.1, T.attrs r.2) := by
  unfold lmeFindIp
  have hq : q' = 0 ↔ q = 0 := by rw [T.dimQ]
  by_cases h0 : q = 0
  · rw [if_pos h0, if_pos (hq.2 h0)]
    have e : (T.attrs o).S = o.S := rfl
    rw [e, T.sr3OptimalBeta]
    cases lmeSr3OptimalBeta D o.S tg tb <;> rfl
  · rw [if_neg h0, if_neg fun h' => h0 (hq.1 h'), h.init, h.ipLoop]
    cases Verif.ipLoop D .nonInformative c (ipInit c o bet gam tb tg) with
    | error e => rfl
    | ok s =>
      change Except.ok (_, (⟨_, if c'.warmStart = true then _ else _⟩ : IpOracle p' q')) = Except.ok (_, (⟨_, Option.map _ (if c.warmStart = true then _ else _)⟩ : IpOracle p' q'))
      rw [h.warmStart]
      split_ifs <;> rfl

end ip

/-! ## Vectors of fixed effects and variances -/

/-- Order of the coordinates. -/
def vecE : Fin (p' + q') ≃ Fin (p + q) := finSumFinEquiv.symm.trans ((Equiv.sumCongr T.σ T.τ).trans finSumFinEquiv)

/-- Signs of the coordinates. -/
def vecS : Fin (p' + q') → ℝ := joinX T.b fun _ => 1

theorem vecE_beta (i : Fin p') : T.vecE (Fin.castAdd q' i) = Fin.castAdd q (T.σ i) := by simp [vecE]

theorem vecE_gamma (i : Fin q') : T.vecE (Fin.natAdd p' i) = Fin.natAdd p (T.τ i) := by simp [vecE]

theorem vec_eq (x : Vec ℝ (p + q)) : T.vec x = sVec T.vecS T.vecE x := by
  funext i
  refine Fin.addCases (fun i => ?_) (fun i => ?_) i
  · simp [vec, joinX, sVec, vecS, vecE_beta, beta, xBeta]
  · simp [vec, joinX, sVec, vecS, vecE_gamma, gamma, xGamma]

theorem vecS_sign (i : Fin (p' + q')) : T.vecS i = 1 ∨ T.vecS i = -1 := by
  refine Fin.addCases (fun i => ?_) (fun i => ?_) i
  · simpa [vecS, joinX] using T.hb i
  · simp [vecS, joinX]

theorem vec_sq (i : Fin (p' + q')) : T.vecS i * T.vecS i = 1 := by
  rcases T.vecS_sign i with h | h <;> rw [h] <;> norm_num

theorem xBeta_vec (x : Vec ℝ (p + q)) : xBeta (T.vec x) = T.beta (xBeta x) := by
  funext i
  simp [vec, xBeta, joinX]

theorem xGamma_vec (x : Vec ℝ (p + q)) : xGamma (T.vec x) = T.gamma (xGamma x) := by
  funext i
  simp [vec, xGamma, joinX]

theorem vec_join (b : Vec ℝ p) (g : Vec ℝ q) : T.vec (joinX b g) = joinX (T.beta b) (T.gamma g) := by
  unfold vec
  congr 1
  · congr 1
    funext i
    simp [xBeta, joinX]
  · congr 1
    funext i
    simp [xGamma, joinX]

/-! ## Oracles -/

section oracles
variable (D : List (LmeGroup p q))

/-- The plain oracle and its solver. -/
theorem plain {R : Regularizer ℝ (p + q)} {R' : Regularizer ℝ (p' + q')} (hp : ∀ y t, R'.prox (T.vec y) t = (R.prox y t).map T.vec)
    (hv : ∀ x, R'.value (T.vec x) = R.value x) :
    Transforms T.vec id (lmeOracle D .nonInformative) (lmeOracle (D.map T.group) .nonInformative) R R' where
  dim := by rw [T.dimP, T.dimQ]
  add x y := by simp only [T.vec_eq, sVec_add]
  smul t x := by simp only [T.vec_eq, sVec_smul]
  dot x y := by
    simp only [T.vec_eq]
    exact sVec_dot T.vec_sq x y
  value x s := by
    change (lmeLoss _ _ _ _).map _ = ((lmeLoss _ _ _ _).map _).map _
    rw [T.xBeta_vec, T.xGamma_vec, T.loss]
    cases lmeLoss D .nonInformative (xBeta x) (xGamma x) <;> rfl
  grad x s := by
    simp only [lmeOracle]
    rw [T.xBeta_vec, T.xGamma_vec, T.gradientBeta, T.gradientGamma]
    cases lmeGradientBeta D .nonInformative (xBeta x) (xGamma x) with
    | error e => rfl
    | ok gb =>
      cases lmeGradientGamma D .nonInformative (xBeta x) (xGamma x) with
      | error e => rfl
      | ok gg =>
        change Except.ok _ = Except.ok (T.vec (joinX gb gg), _)
        rw [T.vec_join]
  prox := hp
  pen := hv

variable {T} {c : IpCfg p q} {c' : IpCfg p' q'}

theorem Settings.valueFunction (h : T.Settings c c') (o : IpOracle p q) (tb : Vec ℝ p) (tg : Vec ℝ q) :
    lmeSr3ValueFunction (D.map T.group) .nonInformative c' (T.attrs o) (T.beta tb) (T.gamma tg) =
      (lmeSr3ValueFunction D .nonInformative c o tb tg).map fun r => (r.1, T.attrs r.2) := by
  unfold lmeSr3ValueFunction
  rw [← T.beta_smul, ← T.gamma_smul, h.findIp]
  cases lmeFindIp D .nonInformative c o ((2 : ℝ) • tb) ((2 : ℝ) • tg) tb tg with
  | error e => rfl
  | ok r =>
    change (lmeSr3Loss (D.map T.group) .nonInformative r.2.S (T.beta r.1.beta) (T.gamma r.1.gamma) (T.beta r.1.tbeta) (T.gamma r.1.tgamma) >>= fun v => _) =
      Except.map _ (lmeSr3Loss D .nonInformative r.2.S r.1.beta r.1.gamma r.1.tbeta r.1.tgamma >>= fun v => _)
    rw [T.sr3Loss]
    cases lmeSr3Loss D .nonInformative r.2.S r.1.beta r.1.gamma r.1.tbeta r.1.tgamma <;> rfl

theorem Settings.gradientValueFunction (h : T.Settings c c') (o : IpOracle p q) (tb : Vec ℝ p) (tg : Vec ℝ q) :
    lmeSr3GradientValueFunction (D.map T.group) .nonInformative c' (T.attrs o) (T.beta tb) (T.gamma tg) =
      (lmeSr3GradientValueFunction D .nonInformative c o tb tg).map fun r => (T.pair r.1, T.attrs r.2) := by
  unfold lmeSr3GradientValueFunction
  rw [← T.beta_smul, ← T.gamma_smul, h.findIp]
  cases lmeFindIp D .nonInformative c o ((2 : ℝ) • tb) ((2 : ℝ) • tg) tb tg with
  | error e => rfl
  | ok r =>
    change Except.ok _ = Except.ok _
    congr 2
    unfold pair
    simp only [T.beta_neg, T.beta_smul, T.beta_sub]
    rfl

theorem Settings.findOptimal (h : T.Settings c c') (o : IpOracle p q) (tb : Vec ℝ p) (tg : Vec ℝ q) :
    lmeSr3FindOptimal (D.map T.group) .nonInformative c' (T.attrs o) (T.beta tb) (T.gamma tg) =
      (lmeSr3FindOptimal D .nonInformative c o tb tg).map fun r => (T.pair r.1, T.attrs r.2) := by
  unfold lmeSr3FindOptimal
  rw [← T.beta_smul, ← T.gamma_smul, h.findIp]
  cases lmeFindIp D .nonInformative c o ((2 : ℝ) • tb) ((2 : ℝ) • tg) tb tg <;> rfl

/-- The SR3 oracle and its solver. -/
theorem Settings.sr3 (h : T.Settings c c') {R : Regularizer ℝ (p + q)} {R' : Regularizer ℝ (p' + q')} (hp : ∀ y t, R'.prox (T.vec y) t = (R.prox y t).map T.vec)
    (hv : ∀ x, R'.value (T.vec x) = R.value x) :
    Transforms T.vec T.attrs (lmeSr3Oracle D .nonInformative c) (lmeSr3Oracle (D.map T.group) .nonInformative c') R R' where
  dim := by rw [T.dimP, T.dimQ]
  add x y := by simp only [T.vec_eq, sVec_add]
  smul t x := by simp only [T.vec_eq, sVec_smul]
  dot x y := by
    simp only [T.vec_eq]
    exact sVec_dot T.vec_sq x y
  value x s := by
    simp only [lmeSr3Oracle]
    rw [T.xBeta_vec, T.xGamma_vec, h.valueFunction]
    rfl
  grad x s := by
    simp only [lmeSr3Oracle]
    rw [T.xBeta_vec, T.xGamma_vec, h.gradientValueFunction]
    cases lmeSr3GradientValueFunction D .nonInformative c s (xBeta x) (xGamma x) with
    | error e => rfl
    | ok r =>
      change Except.ok _ = Except.ok (T.vec (joinX r.1.1 r.1.2), _)
      rw [T.vec_join]
      rfl
  prox := hp
  pen := hv

variable (T)

theorem settings_ip (s : LmeSr3Cfg) : T.Settings (s.ip p q) (s.ip p' q') := ⟨rfl, rfl, rfl, rfl, rfl, rfl, rfl, rfl, fun _ _ _ _ => rfl⟩

theorem settings_practical (s : LmeSr3Cfg) {R : Regularizer ℝ (p + q)} {R' : Regularizer ℝ (p' + q')} (hp : ∀ y t, R'.prox (T.vec y) t = (R.prox y t).map T.vec) :
    T.Settings (s.ipPractical R) (s.ipPractical R') where
  nIter := rfl
  tol := rfl
  warmStart := rfl
  kind := rfl
  target := rfl
  muDecay := rfl
  lineSearch := rfl
  increase := rfl
  prox it bet gam old := by
    unfold ipProx
    change (if _ then Except.map _ (R'.prox (joinX (T.beta bet) (T.gamma gam)) 1) else _) = Except.map _ (if _ then Except.map _ (R.prox (joinX bet gam) 1) else _)
    rw [← T.vec_join, hp]
    change (if 0 < s.updateProxEvery ∧ (it : ℤ) % s.updateProxEvery = 0 then _ else _) = Except.map _ (if 0 < s.updateProxEvery ∧ (it : ℤ) % s.updateProxEvery = 0 then _ else _)
    split_ifs
    · cases R.prox (joinX bet gam) 1 with
      | error e => rfl
      | ok x =>
        change Except.ok (xBeta (T.vec x), xGamma (T.vec x)) = Except.ok _
        rw [T.xBeta_vec, T.xGamma_vec]
        rfl
    · rfl

/-! ## Random effects -/

/-- The participating random effects. -/
def mask (gam : Vec ℝ q) : LmeMask (T.gamma gam) ≃ LmeMask gam := T.τ.subtypeEquiv fun _ => Iff.rfl

/-- The signs of the participating random effects. -/
def maskS (gam : Vec ℝ q) (j : LmeMask (T.gamma gam)) : ℝ := T.c j.1

theorem mask_sq (gam : Vec ℝ q) (j : LmeMask (T.gamma gam)) : T.maskS gam j * T.maskS gam j = 1 := T.cc j.1

theorem zMasked (g : LmeGroup p q) (gam : Vec ℝ q) :
    (T.group g).zMasked (T.gamma gam) = sMat (fun _ => T.s) (Equiv.refl _) (T.maskS gam) (T.mask gam) (g.zMasked gam) := rfl

open Classical in
theorem weighted (g : LmeGroup p q) (gam : Vec ℝ q) :
    ((T.group g).zMasked (T.gamma gam))ᵀ * diagonal (fun i => 1 / (T.group g).l i) =
      sMat (T.maskS gam) (T.mask gam) (fun _ => T.s) (Equiv.refl _) ((g.zMasked gam)ᵀ * diagonal (fun i => 1 / g.l i)) := by
  rw [T.zMasked, sMat_transpose, ← sMat_mul (r := fun _ => T.s) (f := Equiv.refl _) fun _ => T.ss, T.rows]

open Classical in
theorem reKernel (g : LmeGroup p q) (gam : Vec ℝ q) :
    Verif.reKernel (T.group g) (T.gamma gam) = sMat (T.maskS gam) (T.mask gam) (T.maskS gam) (T.mask gam) (Verif.reKernel g gam) := by
  unfold Verif.reKernel
  rw [T.weighted, T.zMasked, sMat_mul (fun _ => T.ss), sMat_add, sMat_diagonal (T.mask_sq gam)]
  rfl

open Classical in
theorem randomEffect (g : LmeGroup p q) (bet : Vec ℝ p) (gam : Vec ℝ q) :
    lmeRandomEffect (T.group g) (T.beta bet) (T.gamma gam) = (lmeRandomEffect g bet gam).map T.effects := by
  unfold lmeRandomEffect
  rw [T.weighted, T.reKernel, T.xi, sMat_mulVec (fun _ => T.ss), npSolve_sMat (T.mask_sq gam)]
  cases npSolve (Verif.reKernel g gam) (((g.zMasked gam)ᵀ * diagonal (fun i => 1 / g.l i)) *ᵥ g.xi bet) with
  | error e => rfl
  | ok u =>
    change Except.ok _ = Except.ok _
    congr 1
    funext j
    unfold scatterMask effects sVec
    change (if h : 1e-10 < |gam (T.τ j)| then _ else _) = T.c j * (if h : 1e-10 < |gam (T.τ j)| then _ else _)
    split_ifs
    · rfl
    · rw [mul_zero]

theorem randomEffects (bet : Vec ℝ p) (gam : Vec ℝ q) :
    lmeRandomEffects (D.map T.group) (T.beta bet) (T.gamma gam) = (lmeRandomEffects D bet gam).map (List.map T.effects) := by
  unfold lmeRandomEffects
  rw [T.recalculate]
  cases lmeRecalculate D gam with
  | error e => rfl
  | ok fs =>
    change (D.map T.group).mapM (fun g => lmeRandomEffect g (T.beta bet) (T.gamma gam)) = Except.map _ (D.mapM fun g => lmeRandomEffect g bet gam)
    clear fs
    induction D with
    | nil => rfl
    | cons g D ih =>
      rw [List.map_cons, List.mapM_cons, List.mapM_cons, ih, T.randomEffect]
      cases lmeRandomEffect g bet gam with
      | error e => rfl
      | ok u => cases List.mapM (fun g => lmeRandomEffect g bet gam) D <;> rfl

theorem start (init : Option String) {ob : Vec ℝ q → Vec ℝ p → Except PyErr (Vec ℝ p)} {ob' : Vec ℝ q' → Vec ℝ p' → Except PyErr (Vec ℝ p')}
    (ho : ∀ g b, ob' (T.gamma g) (T.beta b) = (ob g b).map T.beta) (bet : Vec ℝ p) (gam : Vec ℝ q) :
    lmeInitialize init (D.map T.group) ob' (T.beta bet) (T.gamma gam) = (lmeInitialize init D ob bet gam).map T.pair := by
  unfold lmeInitialize
  split_ifs
  · rw [ho]
    cases ob gam bet with
    | error e => rfl
    | ok b =>
      change (lmeRandomEffects (D.map T.group) (T.beta b) (T.gamma gam) >>= fun us => _) = Except.map _ (lmeRandomEffects D b gam >>= fun us => _)
      rw [T.randomEffects]
      cases lmeRandomEffects D b gam with
      | error e => rfl
      | ok us =>
        change Except.ok _ = Except.ok _
        congr 1
        unfold pair
        congr 1
        funext j
        change _ = (us.map fun u => u (T.τ j) ^ 2).sum / _
        rw [List.map_map, List.length_map]
        congr 2
        refine List.map_congr_left fun u _ => ?_
        change (T.c j * u (T.τ j)) ^ 2 = _
        rw [mul_pow, pow_two (T.c j), T.cc, one_mul]
  · rfl

/-- The optimisation. -/
theorem optimize (M : LmeModelCfg) {R : Regularizer ℝ (p + q)} {R' : Regularizer ℝ (p' + q')} (hp : ∀ y t, R'.prox (T.vec y) t = (R.prox y t).map T.vec)
    (hv : ∀ x, R'.value (T.vec x) = R.value x) (bet : Vec ℝ p) (gam : Vec ℝ q) :
    lmeOptimize M (D.map T.group) .nonInformative R' (T.beta bet) (T.gamma gam) =
      (lmeOptimize M D .nonInformative R bet gam).map fun r => (T.vec r.1, r.2.mapVal (PyVal.mapVec T.vec)) := by
  have hL : (Logger.init M.loggerKind M.loggerKeys : Logger (PyVal ℝ (p' + q'))) = (Logger.init M.loggerKind M.loggerKeys : Logger (PyVal ℝ (p + q))).mapVal (PyVal.mapVec T.vec) := by
    unfold Logger.init Logger.mapVal
    congr 1
    funext k
    simp only
    split_ifs <;> rfl
  unfold lmeOptimize
  rw [hL]
  cases M.sr3 with
  | none =>
    simp only
    rw [T.start D M.initializer (ob := fun g _ => lmeOptimalBeta D g) fun g b => T.optimalBeta D g]
    cases lmeInitialize M.initializer D (fun g _ => lmeOptimalBeta D g) bet gam with
    | error e => rfl
    | ok bg =>
      have h := (T.plain D hp hv).pgdOptimize M.solver (joinX bg.1 bg.2) (Logger.init M.loggerKind M.loggerKeys) ()
      rw [T.vec_join] at h
      simp only [Except.map, bind, Except.bind, pair, id] at h ⊢
      rw [h]
      cases pgdOptimize (lmeOracle D .nonInformative) R M.solver (joinX bg.1 bg.2) (Logger.init M.loggerKind M.loggerKeys) () <;> rfl
  | some s =>
    simp only
    rw [T.start D M.initializer (ob := fun g b => lmeSr3OptimalBeta D ⟨s.ell, s.ell⟩ g b) fun g b => T.sr3OptimalBeta D g _ b]
    cases lmeInitialize M.initializer D (fun g b => lmeSr3OptimalBeta D ⟨s.ell, s.ell⟩ g b) bet gam with
    | error e => rfl
    | ok bg =>
      have hT := (T.settings_ip s).sr3 D hp hv
      have ho : T.attrs (⟨⟨s.ell, s.ell⟩, none⟩ : IpOracle p q) = ⟨⟨s.ell, s.ell⟩, none⟩ := rfl
      simp only [Except.map, bind, Except.bind, pair]
      split_ifs
      · have h := hT.fakeOptimize (opt := fun x st => (lmeSr3FindOptimal D .nonInformative (s.ipPractical R) st (xBeta x) (xGamma x)).map fun r => (joinX r.1.1 r.1.2, r.2))
          (opt' := fun x st => (lmeSr3FindOptimal (D.map T.group) .nonInformative (s.ipPractical R') st (xBeta x) (xGamma x)).map fun r => (joinX r.1.1 r.1.2, r.2)) ?_
          (joinX bg.1 bg.2) (Logger.init M.loggerKind M.loggerKeys) ⟨⟨s.ell, s.ell⟩, none⟩
        · rw [T.vec_join, ho] at h
          simp only [Except.map] at h
          rw [h]
          generalize fakeOptimize _ _ R _ _ _ = r
          cases r <;> rfl
        · intro x st
          simp only
          rw [T.xBeta_vec, T.xGamma_vec, (T.settings_practical s hp).findOptimal]
          cases lmeSr3FindOptimal D .nonInformative (s.ipPractical R) st (xBeta x) (xGamma x) with
          | error e => rfl
          | ok r =>
            change Except.ok _ = Except.ok (T.vec (joinX r.1.1 r.1.2), _)
            rw [T.vec_join]
            rfl
      · have h := hT.pgdOptimize M.solver (joinX bg.1 bg.2) (Logger.init M.loggerKind M.loggerKeys) ⟨⟨s.ell, s.ell⟩, none⟩
        rw [T.vec_join, ho] at h
        simp only [Except.map] at h
        rw [h]
        cases pgdOptimize (lmeSr3Oracle D .nonInformative (s.ip p q)) R M.solver (joinX bg.1 bg.2) (Logger.init M.loggerKind M.loggerKeys) ⟨⟨s.ell, s.ell⟩, none⟩ <;> rfl

end oracles

/-! ## Regularizers -/

/-- The second regularizer is the first after the transformation. -/
def Follows (R : Regularizer ℝ (p + q)) (R' : Regularizer ℝ (p' + q')) : Prop :=
  (∀ y t, R'.prox (T.vec y) t = (R.prox y t).map T.vec) ∧ ∀ x, R'.value (T.vec x) = R.value x

variable {T}

theorem Follows.elastic {R : Regularizer ℝ (p + q)} {R' : Regularizer ℝ (p' + q')} (h : T.Follows R R') (eps : ℝ) :
    T.Follows (Verif.elastic eps (some R)) (Verif.elastic eps (some R')) := by
  refine ⟨fun y t => ?_, fun x => ?_⟩
  · refine Eq.trans (congrArg (fun z => R'.prox z _) ?_) (h.1 (fun i => y i / (1 + t * eps)) (t / (1 + t * eps)))
    funext i
    rw [T.vec_eq, T.vec_eq]
    exact mul_div_assoc _ _ _
  · have e : normSq (T.vec x) = normSq x := by
      rw [T.vec_eq]
      exact sVec_sq_sum T.vec_sq x
    simp only [Verif.elastic]
    rw [h.2, e]

theorem Follows.positive {R : Regularizer ℝ (p + q)} {R' : Regularizer ℝ (p' + q')} (h : T.Follows R R') :
    T.Follows (positiveQuadrant (positiveMask p q) (some R)) (positiveQuadrant (positiveMask p' q') (some R')) := by
  have b1 : ∀ i : Fin p, positiveMask p q (Fin.castAdd q i) = false := fun i => by simp [positiveMask]
  have b2 : ∀ i : Fin q, positiveMask p q (Fin.natAdd p i) = true := fun i => by simp [positiveMask]
  have b1' : ∀ i : Fin p', positiveMask p' q' (Fin.castAdd q' i) = false := fun i => by simp [positiveMask]
  have b2' : ∀ i : Fin q', positiveMask p' q' (Fin.natAdd p' i) = true := fun i => by simp [positiveMask]
  refine ⟨fun y t => ?_, fun x => ?_⟩
  · refine Eq.trans (congrArg (fun z => R'.prox z t) ?_) (h.1 (fun i => if positiveMask p q i = true then clip0 (y i) else y i) t)
    funext i
    refine Fin.addCases (fun i => ?_) (fun i => ?_) i
    · rw [b1', T.vec_eq, T.vec_eq]
      simp only [sVec, T.vecE_beta, b1]
      rfl
    · rw [b2', T.vec_eq, T.vec_eq]
      simp only [sVec, T.vecE_gamma, b2, if_true, vecS, joinX, Fin.append_right, one_mul]
  · simp only [positiveQuadrant]
    have e : (∃ i, positiveMask p' q' i = true ∧ T.vec x i < 0) ↔ ∃ i, positiveMask p q i = true ∧ x i < 0 := by
      constructor
      · rintro ⟨i, h1, h2⟩
        refine Fin.addCases (fun i h1 _ => ?_) (fun i _ h2 => ?_) i h1 h2
        · rw [b1'] at h1
          exact absurd h1 Bool.false_ne_true
        · refine ⟨Fin.natAdd p (T.τ i), b2 _, ?_⟩
          rw [T.vec_eq] at h2
          simpa only [sVec, T.vecE_gamma, vecS, joinX, Fin.append_right, one_mul] using h2
      · rintro ⟨i, h1, h2⟩
        refine Fin.addCases (fun i h1 _ => ?_) (fun i _ h2 => ?_) i h1 h2
        · rw [b1] at h1
          exact absurd h1 Bool.false_ne_true
        · refine ⟨Fin.natAdd p' (T.τ.symm i), b2' _, ?_⟩
          rw [T.vec_eq]
          simpa only [sVec, T.vecE_gamma, vecS, joinX, Fin.append_right, one_mul, Equiv.apply_symm_apply] using h2
    rw [h.2]
    simp only [e]

theorem Follows.wrap {R : Regularizer ℝ (p + q)} {R' : Regularizer ℝ (p' + q')} (h : T.Follows R R') (eps : ℝ) :
    T.Follows (wrapReg p q eps R) (wrapReg p' q' eps R') := (h.elastic eps).positive

variable (T)

theorem follows_pen (pen : LinPenalty) (hp : ∀ nnz sort, pen ≠ .l0 nnz sort) (w : Vec ℝ (p + q)) : T.Follows (pen.build (p + q) w) (pen.build (p' + q') (w ∘ T.vecE)) := by
  obtain rfl := T.dimP
  obtain rfl := T.dimQ
  have h := pen.signed (σ := T.vecE) T.vecS_sign (fun nnz sort e => absurd e (hp nnz sort)) w
  have e : T.vec = fun x i => T.vecS i * x (T.vecE i) := funext T.vec_eq
  unfold Follows
  rw [e]
  exact h

/-- Nothing is reordered. -/
def InPlace : Prop := (∀ i, (T.σ i).1 = i.1) ∧ ∀ j, (T.τ j).1 = j.1

theorem follows_l0 (nb ng : Option ℤ) (sort : NpSort) (hi : T.InPlace) (m : List ℤ) (w : Vec ℝ (p + q)) :
    T.Follows (l0LmeRegularizer ((⟨nb, ng, false⟩ : L0LmeCfg).instantiate p q) (fun i => mapEntry q m i)
      (some ⟨xBeta w, xGamma w, sort.sub p (xBeta w), sort.sub q (xGamma w)⟩) (sort.all p))
      (l0LmeRegularizer ((⟨nb, ng, false⟩ : L0LmeCfg).instantiate p' q') (fun i => mapEntry q' m i)
      (some ⟨xBeta (w ∘ T.vecE), xGamma (w ∘ T.vecE), sort.sub p' (xBeta (w ∘ T.vecE)), sort.sub q' (xGamma (w ∘ T.vecE))⟩) (sort.all p')) := by
  obtain rfl := T.dimP
  obtain rfl := T.dimQ
  have h1 : ∀ i, T.σ i = i := fun i => Fin.ext (hi.1 i)
  have h2 : ∀ i, T.τ i = i := fun i => Fin.ext (hi.2 i)
  have e : w ∘ T.vecE = w := by
    funext i
    refine Fin.addCases (fun i => ?_) (fun i => ?_) i
    · simp [T.vecE_beta, h1]
    · simp [T.vecE_gamma, h2]
  have hb : ∀ x, T.beta x = fun i => T.b i * x i := fun x => funext fun i => by simp [beta, sVec, h1]
  have hg : ∀ x, T.gamma x = x := fun x => funext fun i => by simp [gamma, h2]
  rw [e]
  refine ⟨fun y t => ?_, fun x => ?_⟩
  · simp only [l0LmeRegularizer, optimalTbeta, optimalTgamma, L0LmeCfg.instantiate, if_true, bind, Except.bind, pure, Except.pure, Except.map]
    rw [T.xBeta_vec, T.xGamma_vec, T.vec_join, hg, hg, hb, hb, maskedKMax_sign _ _ T.hb]
    have z : ∀ j (x : ℝ), T.b j * x = 0 ↔ x = 0 := fun j x => by rcases T.hb j with h | h <;> simp [h]
    simp only [z]
  · simp only [l0LmeRegularizer, L0LmeCfg.instantiate]
    have hn : nnzCount (T.vec x) = nnzCount x := by
      rw [T.vec_eq]
      exact nnzCount_signed T.vecS_sign x
    rw [hn]

/-- The regularizers of the two models. -/
theorem build (reg : LmeReg) (m m' : List ℤ) (hl0 : ∀ nb ng sort, reg = .l0 nb ng sort → T.InPlace ∧ m' = m) (w : Vec ℝ (p + q)) :
    (∃ e, reg.build p q m w = .error e ∧ reg.build p' q' m' (w ∘ T.vecE) = .error e) ∨
      ∃ R R', reg.build p q m w = .ok R ∧ reg.build p' q' m' (w ∘ T.vecE) = .ok R' ∧ T.Follows R R' := by
  cases reg with
  | dummy => exact .inr ⟨_, _, rfl, rfl, T.follows_pen .dummy (fun _ _ => nofun) w⟩
  | l0 nb ng sort =>
    obtain ⟨h, rfl⟩ := hl0 nb ng sort rfl
    exact .inr ⟨_, _, rfl, rfl, T.follows_l0 nb ng sort h m' w⟩
  | l1 lam => exact .inr ⟨_, _, rfl, rfl, T.follows_pen (.l1 lam) (fun _ _ => nofun) w⟩
  | cad rho lam => exact .inr ⟨_, _, rfl, rfl, T.follows_pen (.cad lam rho) (fun _ _ => nofun) w⟩
  | scad rho sigma lam =>
    by_cases h : rho > 1
    · exact .inr ⟨_, _, by simp only [LmeReg.build, scadInit, if_pos h]; rfl, by simp only [LmeReg.build, scadInit, if_pos h]; rfl, T.follows_pen (.scad lam rho sigma) (fun _ _ => nofun) w⟩
    · exact .inl ⟨.assertionError, by simp only [LmeReg.build, scadInit, if_neg h]; rfl, by simp only [LmeReg.build, scadInit, if_neg h]; rfl⟩

end Turn

end Verif
