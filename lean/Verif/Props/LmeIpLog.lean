import Verif.Model.LmeIpLog
import Verif.Props.LmeSr3Last

/-!
# C179: the log of practical SR3 mixed-effects fits; C180: what `good_stopping_reason` says about an L1 fit
-/

open Matrix

namespace Verif

variable {p q : ℕ}

/-! ## The passes -/

/-- `T` lists the states after the passes of the loop from `s` to `r`. -/
def IpPasses (D : List (LmeGroup p q)) (P : LmeInstPrior ℝ p q) (c : IpCfg p q) : IpState p q → List (IpState p q) → IpState p q → Prop
  | s, [], r => s = r
  | s, s' :: T, r => (∃ F, ipF D P s = .ok F ∧ ipStep D P c s F = .ok s') ∧ IpPasses D P c s' T r

/-- The effect of several calls of `log` on an entry. -/
def logMany {V : Type*} (o : List V) : LVal V → LVal V
  | .list l => .list (l ++ o)
  | .atom a => .atom a

open Classical in
/-- The passes of the list that are not correction steps. -/
noncomputable def tightened (c : IpCfg p q) (T : List (IpState p q)) : List (IpState p q) := T.filter fun s => ¬ ipCorrects c s

theorem mem_tightened {c : IpCfg p q} {T : List (IpState p q)} {s : IpState p q} : s ∈ tightened c T ↔ s ∈ T ∧ ¬ ipCorrects c s := by
  unfold tightened
  rw [List.mem_filter]
  simp

theorem IpPasses.mem {D : List (LmeGroup p q)} {P : LmeInstPrior ℝ p q} {c : IpCfg p q} {T : List (IpState p q)} : ∀ {s r : IpState p q}, IpPasses D P c s T r →
    ∀ {s' : IpState p q}, s' ∈ T → ∃ s1 F, ipF D P s1 = .ok F ∧ ipStep D P c s1 F = .ok s' := by
  induction T with
  | nil => intro s r _ s' h; cases h
  | cons a T ih =>
    rintro s r ⟨⟨F, h1, h2⟩, h⟩ s' hs'
    rcases List.mem_cons.1 hs' with rfl | hs'
    · exact ⟨s, F, h1, h2⟩
    · exact ih h hs'

/-- The two kinds of passes. -/
theorem ipStep_corrects {D : List (LmeGroup p q)} {P : LmeInstPrior ℝ p q} {c : IpCfg p q} {s s' : IpState p q} {F : Fin q ⊕ (Fin p ⊕ Fin q) → ℝ} (h : ipStep D P c s F = .ok s') :
    (ipCorrects c s' ∧ s'.mu = s.mu ∧ s'.tbeta = s.tbeta ∧ s'.tgamma = s.tgamma ∧ s'.S = s.S) ∨
    (¬ ipCorrects c s' ∧ s'.mu = c.muDecay * (s'.v ⬝ᵥ s'.gamma) / q ∧ ipProx c (s.iteration + 1) s'.beta s'.gamma (s.tbeta, s.tgamma) = .ok (s'.tbeta, s'.tgamma) ∧
      s'.S = if c.increaseLambdas then ⟨1.2 * (1 + s.S.lb), 1.2 * (1 + s.S.lg)⟩ else s.S) := by
  unfold ipStep at h
  obtain ⟨dF, h1, h⟩ := ebind_ok.1 h
  obtain ⟨d, h2, h⟩ := ebind_ok.1 h
  obtain ⟨step, h3, h⟩ := ebind_ok.1 h
  by_cases h4 : c.target * ((s.gamma + step • fun j => d (.inr (.inr j))) ⬝ᵥ (s.v + step • fun j => d (.inl j))) / q <
      npNorm (fun j => (s.gamma + step • fun j => d (.inr (.inr j))) j * (s.v + step • fun j => d (.inl j)) j
        - ((s.gamma + step • fun j => d (.inr (.inr j))) ⬝ᵥ (s.v + step • fun j => d (.inl j))) / q)
  · rw [if_pos h4] at h
    cases h
    exact .inl ⟨h4, rfl, rfl, rfl, rfl⟩
  · rw [if_neg h4] at h
    obtain ⟨t, h6, h⟩ := ebind_ok.1 h
    cases h
    exact .inr ⟨h4, rfl, h6, rfl⟩

theorem ipLogPass_spec {c : IpCfg p q} {s : IpState p q} {L : Logger (PyVal ℝ (p + q))} (hL : L.Good) :
    ∃ L', ipLogPass c s L = .ok L' ∧ L'.Good ∧ L'.keys = L.keys ∧
      ∀ k, L'.dict k = (L.dict k).map (logMany ((tightened c [s]).filterMap fun s => ipLocals s k)) := by
  unfold ipLogPass tightened
  have hid : ∀ o : Option (LVal (PyVal ℝ (p + q))), o = o.map (logMany []) := by
    intro o
    rcases o with - | (l | a) <;> simp [logMany]
  by_cases hc : ipCorrects c s
  · rw [if_pos hc]
    refine ⟨L, rfl, hL, rfl, fun k => ?_⟩
    simp only [hc, not_true_eq_false, decide_false, List.filter_cons, Bool.false_eq_true, if_false, List.filter_nil, List.filterMap_nil]
    exact hid _
  · rw [if_neg hc]
    by_cases hk : 0 < L.keys.length
    · rw [if_pos hk]
      obtain ⟨L', h1, h2, h3, h4⟩ := hL.log (ipLocals s)
      refine ⟨L', h1, h2, h3, fun k => ?_⟩
      rw [h4]
      congr 1
      funext v
      simp only [hc, not_false_eq_true, decide_true, List.filter_cons, if_true, List.filter_nil]
      cases v <;> cases hk' : ipLocals s k <;> simp [logMany, logEffect, hk']
    · rw [if_neg hk]
      refine ⟨L, rfl, hL, rfl, fun k => ?_⟩
      have : L.keys = [] := List.eq_nil_of_length_eq_zero (by omega)
      have h0 : L.dict k = none := by
        have := (not_congr (hL.dom k)).2 (by rw [this]; simp)
        simpa using this
      rw [h0]
      rfl

theorem ipLoopLog_spec (D : List (LmeGroup p q)) (P : LmeInstPrior ℝ p q) (c : IpCfg p q) :
    ∀ (m : ℕ) (s r : IpState p q) (L L' : Logger (PyVal ℝ (p + q))), (c.nIter - s.iteration).toNat = m → L.Good → ipLoopLog D P c s L = .ok (r, L') →
      ipLoop D P c s = .ok r ∧ L'.Good ∧ L'.keys = L.keys ∧ ∃ T, IpPasses D P c s T r ∧ r.iteration = s.iteration + T.length ∧
        ∀ k, L'.dict k = (L.dict k).map (logMany ((tightened c T).filterMap fun s => ipLocals s k)) := by
  intro m
  have hid : ∀ o : Option (LVal (PyVal ℝ (p + q))), o = o.map (logMany []) := by
    intro o
    rcases o with - | (l | a) <;> simp [logMany]
  induction m using Nat.strong_induction_on with
  | _ m ih =>
    intro s r L L' hm hL h
    unfold ipLoopLog at h
    unfold ipLoop
    split_ifs at h with h1
    · rw [dif_pos h1]
      cases hF : ipF D P s with
      | error e => rw [hF] at h; cases h
      | ok F =>
        rw [hF] at h
        simp only at h ⊢
        split_ifs at h with h2
        · rw [if_pos h2]
          cases hs : ipStep D P c s F with
          | error e => rw [hs] at h; cases h
          | ok s' =>
            rw [hs] at h
            have e : { s' with iteration := s.iteration + 1 } = s' := by
              rw [← (ipStep_prev hs).2.1]
            simp only at h ⊢
            obtain ⟨L1, g1, g2, g3, g4⟩ := ipLogPass_spec (c := c) (s := s') hL
            rw [g1] at h
            simp only at h
            rw [e] at h ⊢
            obtain ⟨k1, k2, k3, T, k4, k5, k6⟩ := ih _ (by
              rw [← hm, (ipStep_prev hs).2.1]
              have := h1.2
              push_cast
              omega) s' r L1 L' rfl g2 h
            refine ⟨k1, k2, k3.trans g3, s' :: T, ⟨⟨F, hF, hs⟩, k4⟩, ?_, fun k => ?_⟩
            · rw [k5, (ipStep_prev hs).2.1, List.length_cons]
              omega
            · rw [k6, g4, Option.map_map]
              congr 1
              funext v
              have : tightened c (s' :: T) = tightened c [s'] ++ tightened c T := by
                unfold tightened
                rw [← List.filter_append]
                rfl
              rw [this, List.filterMap_append]
              cases v <;> simp [logMany]
        · rw [if_neg h2]
          cases h
          exact ⟨rfl, hL, rfl, [], rfl, rfl, fun k => hid _⟩
    · rw [dif_neg h1]
      cases h
      exact ⟨rfl, hL, rfl, [], rfl, rfl, fun k => hid _⟩

/-! ## Agreement outside the entries of the inner method -/

/-- The entries that the inner method may write. -/
def ipTouched : List String :=
  ["mu", "mu_effective", "iteration", "step_len", "v", "beta", "gamma", "tbeta", "tgamma", "good_stopping_reason"] ++ ipLocalNames

theorem ipLocals_none {k : String} (hk : k ∉ ipTouched) (s : IpState p q) : ipLocals s k = none := by
  unfold ipTouched at hk
  simp only [List.mem_append, List.mem_cons, List.not_mem_nil, or_false, not_or] at hk
  obtain ⟨⟨h1, h2, h3, h4, h5, h6, h7, h8, h9, -⟩, h⟩ := hk
  unfold ipLocals
  rw [if_neg h1, if_neg h2, if_neg h3, if_neg h4, if_neg h5, if_neg h6, if_neg h7, if_neg h8, if_neg h9, if_neg h]

/-- Two loggers that agree on all entries the inner method does not write. -/
structure LogAgree {V : Type*} (L' L : Logger V) : Prop where
  good' : L'.Good
  good : L.Good
  eq : ∀ k, k ∉ ipTouched → L'.dict k = L.dict k

theorem LogAgree.mem {V : Type*} {L' L : Logger V} (h : LogAgree L' L) {k : String} (hk : k ∉ ipTouched) : k ∈ L'.keys ↔ k ∈ L.keys := by
  rw [← h.good'.dom, ← h.good.dom, h.eq k hk]

theorem LogAgree.add {V : Type*} {L' L L1' : Logger V} (h : LogAgree L' L) (k : String) (v : LVal V) (h' : L'.add k v = .ok L1') :
    ∃ L1, L.add k v = .ok L1 ∧ LogAgree L1' L1 := by
  obtain ⟨A, a1, a2, -, a4⟩ := h.good'.add k v
  obtain ⟨B, b1, b2, -, b4⟩ := h.good.add k v
  rw [a1] at h'
  cases h'
  refine ⟨B, b1, a2, b2, fun j hj => ?_⟩
  rw [a4, b4, h.eq j hj]

theorem LogAgree.logIf {n : ℕ} {L' L L1' : Logger (PyVal ℝ n)} (h : LogAgree L' L) {k : String} (hk : k ∉ ipTouched) {v : Except PyErr (PyVal ℝ n)}
    (h' : Verif.logIf L' k v = .ok L1') : ∃ L1, Verif.logIf L k v = .ok L1 ∧ LogAgree L1' L1 := by
  unfold Verif.logIf at h' ⊢
  by_cases hm : k ∈ L.keys
  · rw [if_pos ((h.mem hk).2 hm)] at h'
    rw [if_pos hm]
    obtain ⟨r, hr, h'⟩ := ebind_ok.1 h'
    obtain ⟨L1, e1, e2⟩ := h.add k _ h'
    exact ⟨L1, ebind_ok.2 ⟨r, hr, e1⟩, e2⟩
  · rw [if_neg (fun hc => hm ((h.mem hk).1 hc))] at h'
    cases h'
    rw [if_neg hm]
    exact ⟨L, rfl, h⟩

theorem LogAgree.criteria {n : ℕ} {L' L L1' : Logger (PyVal ℝ n)} (h : LogAgree L' L) {tol : ℝ} {D : List (LmeGroup p q)} {Pr : LmeInstPrior ℝ p q}
    {hess : Except PyErr (Matrix (Fin p) (Fin p) ℝ)} {beta : Vec ℝ p} {gamma : Vec ℝ q} (h' : lmeLogCriteria tol D Pr hess beta gamma L' = .ok L1') :
    ∃ L1, lmeLogCriteria tol D Pr hess beta gamma L = .ok L1 ∧ LogAgree L1' L1 := by
  unfold lmeLogCriteria at h' ⊢
  obtain ⟨A1, a1, h'⟩ := ebind_ok.1 h'
  obtain ⟨A2, a2, h'⟩ := ebind_ok.1 h'
  obtain ⟨A3, a3, h'⟩ := ebind_ok.1 h'
  obtain ⟨A4, a4, h'⟩ := ebind_ok.1 h'
  obtain ⟨B1, b1, h1⟩ := h.logIf (by decide) a1
  obtain ⟨B2, b2, h2⟩ := h1.logIf (by decide) a2
  obtain ⟨B3, b3, h3⟩ := h2.logIf (by decide) a3
  obtain ⟨B4, b4, h4⟩ := h3.logIf (by decide) a4
  obtain ⟨B5, b5, h5⟩ := h4.logIf (by decide) h'
  exact ⟨B5, ebind_ok.2 ⟨B1, b1, ebind_ok.2 ⟨B2, b2, ebind_ok.2 ⟨B3, b3, ebind_ok.2 ⟨B4, b4, b5⟩⟩⟩⟩, h5⟩

/-- What `find_optimal_parameters_ip` writes to the log, and that it returns what it returns without a logger. -/
theorem lmeFindIpLog_spec {D : List (LmeGroup p q)} {P : LmeInstPrior ℝ p q} {c : IpCfg p q} {o : IpOracle p q} {beta tbeta : Vec ℝ p} {gamma tgamma : Vec ℝ q}
    {L L' : Logger (PyVal ℝ (p + q))} (hL : L.Good) {r : IpResult p q × IpOracle p q} (h : lmeFindIpLog D P c o beta gamma tbeta tgamma L = .ok (r, L')) :
    lmeFindIp D P c o beta gamma tbeta tgamma = .ok r ∧ LogAgree L' L ∧ (q = 0 → L' = L) ∧ (q ≠ 0 → ∃ T sI F, IpPasses D P c (ipInit c o beta gamma tbeta tgamma) T sI ∧
      ipF D P sI = .ok F ∧ r.1 = ⟨sI.beta, sI.gamma, sI.tbeta, sI.tgamma⟩ ∧ L'.get "iteration" = .ok (.atom (.int T.length)) ∧
      (∃ b : Bool, L'.get "good_stopping_reason" = .ok (.atom (.bool b)) ∧ (b = true ↔ npNorm F < c.tol ∧ sI.mu < c.tol)) ∧
      L'.get "mu" = .ok (.list ((tightened c T).map fun s => .num s.mu)) ∧
      L'.get "mu_effective" = .ok (.list ((tightened c T).map fun s => .num ((s.v ⬝ᵥ s.gamma / q : ℝ)))) ∧
      ipLoop D P c (ipInit c o beta gamma tbeta tgamma) = .ok sI ∧ sI.iteration = T.length) := by
  unfold lmeFindIpLog at h
  unfold lmeFindIp
  by_cases hq : q = 0
  · rw [if_pos hq] at h ⊢
    obtain ⟨b, hb, h⟩ := ebind_ok.1 h
    cases h
    exact ⟨ebind_ok.2 ⟨b, hb, rfl⟩, ⟨hL, hL, fun k _ => rfl⟩, fun _ => rfl, fun h => absurd hq h⟩
  · rw [if_neg hq] at h ⊢
    obtain ⟨L1, a1, h⟩ := ebind_ok.1 h
    obtain ⟨L2, a2, h⟩ := ebind_ok.1 h
    obtain ⟨⟨sI, L2'⟩, hl, h⟩ := ebind_ok.1 h
    obtain ⟨F, hF, h⟩ := ebind_ok.1 h
    obtain ⟨L3, a3, h⟩ := ebind_ok.1 h
    obtain ⟨L4, a4, h⟩ := ebind_ok.1 h
    cases h
    obtain ⟨L1x, e1, g1, -, d1⟩ := hL.add "mu_effective" (.list [])
    cases e1.symm.trans a1
    obtain ⟨L2x, e2, g2, -, d2⟩ := g1.add "mu" (.list [])
    cases e2.symm.trans a2
    obtain ⟨hip, g2', -, T, hT, hit, d2'⟩ := ipLoopLog_spec D P c _ _ _ _ _ rfl g2 hl
    obtain ⟨L3x, e3, g3, -, d3⟩ := g2'.add "good_stopping_reason" _
    cases e3.symm.trans a3
    obtain ⟨L4x, e4, g4, -, d4⟩ := g3.add "iteration" _
    cases e4.symm.trans a4
    refine ⟨ebind_ok.2 ⟨sI, hip, rfl⟩, ⟨g4, hL, fun k hk => ?_⟩, fun h => absurd h hq, fun _ => ⟨T, sI, F, hT, hF, rfl, ?_, ⟨_, ?_, decide_eq_true_iff⟩, ?_, ?_, hip,
      by rw [hit]; exact Nat.zero_add _⟩⟩
    · have hne : ∀ j ∈ ipTouched, k ≠ j := fun j hj e => hk (e ▸ hj)
      rw [d4, if_neg (hne _ (by decide)), d3, if_neg (hne _ (by decide)), d2', d2, if_neg (hne _ (by decide)), d1, if_neg (hne _ (by decide))]
      simp only [ipLocals_none hk, List.filterMap_none]
      rcases L.dict k with - | (l | a) <;> simp [logMany]
    · unfold Logger.get
      rw [d4, if_pos rfl]
      have : sI.iteration = T.length := by rw [hit]; exact Nat.zero_add _
      rw [this]
    · unfold Logger.get
      rw [d4, if_neg (by decide), d3, if_pos rfl]
    · unfold Logger.get
      rw [d4, if_neg (by decide), d3, if_neg (by decide), d2', d2, if_pos rfl]
      simp only [Option.map_some, logMany, List.nil_append]
      rw [show (fun s : IpState p q => ipLocals s "mu") = fun s => some (.num s.mu) from funext fun s => if_pos rfl]
      rw [List.filterMap_eq_map']
    · unfold Logger.get
      rw [d4, if_neg (by decide), d3, if_neg (by decide), d2', d2, if_neg (by decide), d1, if_pos rfl]
      simp only [Option.map_some, logMany, List.nil_append]
      rw [show (fun s : IpState p q => ipLocals s "mu_effective") = fun s => some (.num ((s.v ⬝ᵥ s.gamma / q : ℝ))) from
        funext fun s => by unfold ipLocals; rw [if_neg (by decide), if_pos rfl]]
      rw [List.filterMap_eq_map']

theorem lmeOptimizeLog_spec {M : LmeModelCfg} {s : LmeSr3Cfg} (hs : M.sr3 = some s) (hpr : s.practical = true) (hk : M.loggerKind = .tuple) (hn : M.loggerKeys.Nodup)
    {D : List (LmeGroup p q)} {Pr : LmeInstPrior ℝ p q} {R : Regularizer ℝ (p + q)} {beta : Vec ℝ p} {gamma : Vec ℝ q} {x : Vec ℝ (p + q)} {L' : Logger (PyVal ℝ (p + q))}
    (h : lmeOptimizeLog M D Pr R beta gamma = .ok (x, L')) :
    ∃ bg, lmeInitialize M.initializer D (fun g b => lmeSr3OptimalBeta D ⟨s.ell, s.ell⟩ g b) beta gamma = .ok bg ∧
      (∃ L, lmeOptimize M D Pr R beta gamma = .ok (x, L) ∧ LogAgree L' L) ∧
      (q = 0 → ∀ k, k ≠ "loss" → k ≠ "converged" → L'.dict k = if k ∈ M.loggerKeys then some (.list []) else none) ∧
      (q ≠ 0 → ∃ T sI F, IpPasses D Pr (s.ipPractical R) (ipInit (s.ipPractical R) ⟨⟨s.ell, s.ell⟩, none⟩ ((2 : ℝ) • bg.1) ((2 : ℝ) • bg.2) bg.1 bg.2) T sI ∧
        ipF D Pr sI = .ok F ∧ xBeta x = sI.tbeta ∧ xGamma x = sI.tgamma ∧ L'.get "iteration" = .ok (.atom (.int T.length)) ∧
        (∃ b : Bool, L'.get "good_stopping_reason" = .ok (.atom (.bool b)) ∧ (b = true ↔ npNorm F < s.tolOracle ∧ sI.mu < s.tolOracle)) ∧
        L'.get "mu" = .ok (.list ((tightened (s.ipPractical R) T).map fun s => .num s.mu)) ∧
        L'.get "mu_effective" = .ok (.list ((tightened (s.ipPractical R) T).map fun s => .num ((s.v ⬝ᵥ s.gamma / q : ℝ)))) ∧
        ipLoop D Pr (s.ipPractical R) (ipInit (s.ipPractical R) ⟨⟨s.ell, s.ell⟩, none⟩ ((2 : ℝ) • bg.1) ((2 : ℝ) • bg.2) bg.1 bg.2) = .ok sI ∧ sI.iteration = T.length) := by
  unfold lmeOptimizeLog at h
  simp only [hs, hpr, if_true] at h
  obtain ⟨bg, hbg, h⟩ := ebind_ok.1 h
  obtain ⟨⟨r, Lr⟩, hr, h⟩ := ebind_ok.1 h
  obtain ⟨L1, h1, h⟩ := ebind_ok.1 h
  obtain ⟨L2, h2, h⟩ := ebind_ok.1 h
  cases h
  have hg0 : (Logger.init M.loggerKind M.loggerKeys : Logger (PyVal ℝ (p + q))).Good := by
    rw [hk]
    exact Logger.good_init _ hn
  obtain ⟨f1, f2, f3, f4⟩ := lmeFindIpLog_spec hg0 hr
  have hmid : ∃ K1, (if "loss" ∈ (Logger.init M.loggerKind M.loggerKeys : Logger (PyVal ℝ (p + q))).keys then do
          let l ← lossAt (lmeSr3Oracle D Pr (s.ip p q)) R (joinX r.1.tbeta r.1.tgamma) 
          callReg ((Logger.init M.loggerKind M.loggerKeys : Logger (PyVal ℝ (p + q))).add "loss" (.atom (.num l)))
        else return Logger.init M.loggerKind M.loggerKeys : PyM (IpOracle p q) (Logger (PyVal ℝ (p + q)))) r.2 = .ok K1 ∧ LogAgree L1 K1.1 := by
    have hm := f2.mem (k := "loss") (by decide)
    by_cases hl : "loss" ∈ Lr.keys
    · rw [if_pos hl] at h1
      rw [if_pos (hm.1 hl)]
      obtain ⟨⟨l, o2⟩, e1, e2⟩ := ebind_ok.1 h1
      obtain ⟨K1, k1, k2⟩ := f2.add "loss" _ e2
      exact ⟨(K1, o2), bind_ok.2 ⟨l, o2, e1, callReg_ok.2 ⟨k1, rfl⟩⟩, k2⟩
    · rw [if_neg hl] at h1
      cases h1
      rw [if_neg (fun hc => hl (hm.2 hc))]
      exact ⟨_, rfl, f2⟩
  have hkeep : ∀ k, k ≠ "loss" → k ≠ "converged" → L'.dict k = Lr.dict k := by
    intro k n1 n2
    have hL1 : L1.dict k = Lr.dict k := by
      by_cases hl : "loss" ∈ Lr.keys
      · rw [if_pos hl] at h1
        obtain ⟨⟨l, o2⟩, -, e2⟩ := ebind_ok.1 h1
        obtain ⟨A, a1, -, -, a4⟩ := f2.good'.add "loss" (.atom (.num l))
        cases a1.symm.trans e2
        rw [a4, if_neg n1]
      · rw [if_neg hl] at h1
        cases h1
        rfl
    obtain ⟨_, _, hg1⟩ := hmid
    obtain ⟨A, a1, -, -, a4⟩ := hg1.good'.add "converged" (.atom (.bool true))
    cases a1.symm.trans h2
    rw [a4, if_neg n2, hL1]
  refine ⟨bg, hbg, ?_, fun hq k n1 n2 => ?_, fun hq => ?_⟩
  · obtain ⟨K1, k1, k2⟩ := hmid
    obtain ⟨K2, k3, k4⟩ := k2.add "converged" _ h2
    refine ⟨K2, ?_, k4⟩
    unfold lmeOptimize
    simp only [hs, hpr, if_true]
    refine ebind_ok.2 ⟨bg, hbg, ebind_ok.2 ⟨((joinX r.1.tbeta r.1.tgamma, K2), K1.2), ?_, rfl⟩⟩
    unfold fakeOptimize
    refine bind_ok.2 ⟨joinX r.1.tbeta r.1.tgamma, r.2, ?_, bind_ok.2 ⟨K1.1, K1.2, k1, bind_ok.2 ⟨K2, K1.2, callReg_ok.2 ⟨k3, rfl⟩, rfl⟩⟩⟩
    simp only
    unfold lmeSr3FindOptimal
    rw [xBeta_join, xGamma_join, f1]
    rfl
  · rw [hkeep k n1 n2, f3 hq]
    rfl
  · obtain ⟨T, sI, F, t1, t2, t3, t4, ⟨b, t5, t5'⟩, t6, t7, t8⟩ := f4 hq
    unfold Logger.get at t4 t5 t6 t7 ⊢
    refine ⟨T, sI, F, t1, t2, ?_, ?_, ?_, ⟨b, ?_, t5'⟩, ?_, ?_, t8⟩
    · rw [xBeta_join, t3]
    · rw [xGamma_join, t3]
    · rw [hkeep "iteration" (by decide) (by decide)]; exact t4
    · rw [hkeep "good_stopping_reason" (by decide) (by decide)]; exact t5
    · rw [hkeep "mu" (by decide) (by decide)]; exact t6
    · rw [hkeep "mu_effective" (by decide) (by decide)]; exact t7

/-! ## C179 -/

/-- The parts of a practical fit that returned. -/
theorem lmeFitLog_spec {M : LmeModelCfg} {st : LmeState} {P : LmeProblem ℝ} {a : LmeFitArgs} {L : Logger (PyVal ℝ (P.numFixed + P.numRandom))} {c : LmeState}
    (h : lmeFitProblemLog M st P a = (.ok L, c)) :
    ∃ m Pr w base D b0 g0 x L1 coef, betaToGammaMap P = .ok m ∧ lmePriorFor M.prior P = .ok Pr ∧
      M.reg.weights P.numFixed P.numRandom (a.feWeights.getD P.feWeights ++ a.reWeights.getD P.reWeights) = .ok w ∧ M.reg.build P.numFixed P.numRandom m w = .ok base ∧
      lmeGroups P = .ok D ∧ asVec P.numFixed (lmeStart st P a).1 = .ok b0 ∧ asVec P.numRandom (lmeStart st P a).2 = .ok g0 ∧
      lmeOptimizeLog M D Pr (wrapReg P.numFixed P.numRandom M.elasticEps base) b0 g0 = .ok (x, L1) ∧
      lmeLogCriteria M.solverTol D Pr (M.hessian D Pr (xGamma x)) (xBeta x) (xGamma x) L1 = .ok L ∧ c = some coef ∧ coef.beta = List.ofFn (xBeta x) ∧
      coef.gamma = List.ofFn (xGamma x) ∧
      ∀ L0, lmeOptimize M D Pr (wrapReg P.numFixed P.numRandom M.elasticEps base) b0 g0 = .ok (x, L0) → LogAgree L1 L0 →
        ∃ L', lmeFitProblem M st P a = (.ok L', c) ∧ LogAgree L L' := by
  unfold lmeFitProblemLog at h
  cases hcore : lmeFitCoreLog M st P a with
  | error e => rw [hcore] at h; cases h
  | ok r =>
    rw [hcore] at h
    simp only [Prod.mk.injEq] at h
    obtain ⟨h, hc⟩ := h
    obtain ⟨D', hD', h⟩ := ebind_ok.1 h
    obtain ⟨Pr', hPr', h⟩ := ebind_ok.1 h
    unfold lmeFitCoreLog at hcore
    obtain ⟨m, hm, hcore⟩ := ebind_ok.1 hcore
    obtain ⟨Pr, hPr, hcore⟩ := ebind_ok.1 hcore
    obtain ⟨w, hw, hcore⟩ := ebind_ok.1 hcore
    obtain ⟨base, hbase, hcore⟩ := ebind_ok.1 hcore
    obtain ⟨D, hD, hcore⟩ := ebind_ok.1 hcore
    obtain ⟨b0, hb0, hcore⟩ := ebind_ok.1 hcore
    obtain ⟨g0, hg0, hcore⟩ := ebind_ok.1 hcore
    obtain ⟨⟨x, L1⟩, hopt, hcore⟩ := ebind_ok.1 hcore
    obtain ⟨us, hus, hcore⟩ := ebind_ok.1 hcore
    obtain ⟨per, hper, hcore⟩ := ebind_ok.1 hcore
    cases hcore
    obtain rfl : D' = D := Except.ok.inj (hD'.symm.trans hD)
    obtain rfl : Pr' = Pr := Except.ok.inj (hPr'.symm.trans hPr)
    refine ⟨m, _, w, base, _, b0, g0, x, L1, _, hm, hPr, hw, hbase, hD, hb0, hg0, hopt, h, hc.symm, rfl, rfl, fun L0 h0 hag => ?_⟩
    obtain ⟨L', k1, k2⟩ := hag.criteria h
    refine ⟨L', ?_, k2⟩
    unfold lmeFitProblem
    have : lmeFitCore M st P a = .ok (⟨List.ofFn (xBeta x), List.ofFn (xGamma x), us.map (fun u => List.ofFn u), P.groupLabels, per.map (·.2)⟩, x, L0) :=
      ebind_ok.2 ⟨m, hm, ebind_ok.2 ⟨_, hPr, ebind_ok.2 ⟨w, hw, ebind_ok.2 ⟨base, hbase, ebind_ok.2 ⟨_, hD, ebind_ok.2 ⟨b0, hb0, ebind_ok.2 ⟨g0, hg0,
        ebind_ok.2 ⟨(x, L0), h0, ebind_ok.2 ⟨us, hus, ebind_ok.2 ⟨per, hper, rfl⟩⟩⟩⟩⟩⟩⟩⟩⟩⟩
    rw [this]
    simp only [Prod.mk.injEq]
    exact ⟨ebind_ok.2 ⟨_, hD, ebind_ok.2 ⟨_, hPr, k1⟩⟩, hc⟩

/-- The logging inside the oracle changes nothing else: a practical fit that returns gives the same coefficients as the model without it, and the same log except for the entries
named after local variables of the inner method and `good_stopping_reason`. -/
theorem C179_same (M : LmeModelCfg) (s : LmeSr3Cfg) (hs : M.sr3 = some s) (hpr : s.practical = true) (hk : M.loggerKind = .tuple) (hn : M.loggerKeys.Nodup) (st : LmeState)
    (P : LmeProblem ℝ) (a : LmeFitArgs) (L : Logger (PyVal ℝ (P.numFixed + P.numRandom))) (c : LmeState) (h : lmeFitProblemLog M st P a = (.ok L, c)) :
    ∃ L', lmeFitProblem M st P a = (.ok L', c) ∧ ∀ k, k ∉ ipTouched → L.get k = L'.get k := by
  obtain ⟨m, Pr, w, base, D, b0, g0, x, L1, coef, -, -, -, -, -, -, -, hopt, -, -, -, -, hsame⟩ := lmeFitLog_spec h
  obtain ⟨bg, -, ⟨L0, h0, hag⟩, -⟩ := lmeOptimizeLog_spec hs hpr hk hn hopt
  obtain ⟨L', k1, k2⟩ := hsame L0 h0 hag
  refine ⟨L', k1, fun k hk => ?_⟩
  unfold Logger.get
  rw [k2.eq k hk]

/-- The part of **C179** that holds: on a problem with random effects, with a tuple of distinct log keys, a practical SR3 fit that returns made the passes `T` of the inner method (from its start to the
state `sI`), returns the relaxed coefficients of `sI`, and logs: under `iteration` the number of passes; under `good_stopping_reason` whether the norm of the residual `F` and `mu` are both below the
tolerance of the oracle; under `mu` the barrier parameters after all passes that were not correction steps, and under `mu_effective` the complementarity `v · gamma / q` they were computed from.
The passes ended because of a zero step, the budget of the oracle, the tolerance, or because nothing moved.
Missing: problems without random effects, `C179_no_random_violated`, and lists or sets of keys, `C179_list_violated`. -/
theorem C179_log_partial (M : LmeModelCfg) (s : LmeSr3Cfg) (hs : M.sr3 = some s) (hpr : s.practical = true) (hk : M.loggerKind = .tuple) (hn : M.loggerKeys.Nodup) (st : LmeState)
    (P : LmeProblem ℝ) (hq : P.numRandom ≠ 0) (a : LmeFitArgs) (L : Logger (PyVal ℝ (P.numFixed + P.numRandom))) (c : LmeState) (h : lmeFitProblemLog M st P a = (.ok L, c)) :
    ∃ (D : List (LmeGroup P.numFixed P.numRandom)) (Pr : LmeInstPrior ℝ P.numFixed P.numRandom) (R base : Regularizer ℝ (P.numFixed + P.numRandom)) (m : List ℤ) (w : _) (b b0 : Vec ℝ P.numFixed)
      (g g0 : Vec ℝ P.numRandom) (T : List (IpState P.numFixed P.numRandom)) (sI : IpState P.numFixed P.numRandom) (F : _) (coef : LmeCoef) (good : Bool),
      lmeGroups P = .ok D ∧ lmePriorFor M.prior P = .ok Pr ∧ betaToGammaMap P = .ok m ∧
      M.reg.weights P.numFixed P.numRandom (a.feWeights.getD P.feWeights ++ a.reWeights.getD P.reWeights) = .ok w ∧ M.reg.build P.numFixed P.numRandom m w = .ok base ∧
      R = wrapReg P.numFixed P.numRandom M.elasticEps base ∧ asVec P.numFixed (lmeStart st P a).1 = .ok b0 ∧ asVec P.numRandom (lmeStart st P a).2 = .ok g0 ∧
      lmeInitialize M.initializer D (fun g b => lmeSr3OptimalBeta D ⟨s.ell, s.ell⟩ g b) b0 g0 = .ok (b, g) ∧
      IpPasses D Pr (s.ipPractical R) (ipInit (s.ipPractical R) ⟨⟨s.ell, s.ell⟩, none⟩ ((2 : ℝ) • b) ((2 : ℝ) • g) b g) T sI ∧ ipF D Pr sI = .ok F ∧
      c = some coef ∧ coef.beta = List.ofFn sI.tbeta ∧ coef.gamma = List.ofFn sI.tgamma ∧
      L.get "iteration" = .ok (.atom (.int T.length)) ∧
      L.get "good_stopping_reason" = .ok (.atom (.bool good)) ∧ (good = true ↔ npNorm F < s.tolOracle ∧ sI.mu < s.tolOracle) ∧
      L.get "mu" = .ok (.list ((tightened (s.ipPractical R) T).map fun s => .num s.mu)) ∧
      L.get "mu_effective" = .ok (.list ((tightened (s.ipPractical R) T).map fun s => .num ((s.v ⬝ᵥ s.gamma / P.numRandom : ℝ)))) ∧
      (∀ sT ∈ tightened (s.ipPractical R) T, sT.mu = 0.5 * (sT.v ⬝ᵥ sT.gamma / P.numRandom)) ∧
      (sI.stepLen = 0 ∨ s.maxIterOracle ≤ T.length ∨ (npNorm F ≤ s.tolOracle ∧ sI.mu ≤ s.tolOracle) ∨ ¬ ipMoved s.tolOracle sI) := by
  obtain ⟨m, Pr, w, base, D, b0, g0, x, L1, coef, hm, hPr, hw, hbase, hD, hb0, hg0, hopt, hcr, hc, hcb, hcg, -⟩ := lmeFitLog_spec h
  obtain ⟨bg, hbg, -, -, hrun⟩ := lmeOptimizeLog_spec hs hpr hk hn hopt
  obtain ⟨T, sI, F, t1, t2, t3, t4, t5, ⟨b, t6, t6'⟩, t7, t8, t9, t10⟩ := hrun hq
  refine ⟨D, Pr, _, base, m, w, bg.1, b0, bg.2, g0, T, sI, F, coef, b, hD, hPr, hm, hw, hbase, rfl, hb0, hg0, hbg, t1, t2, hc, by rw [hcb, t3], by rw [hcg, t4], ?_, ?_, t6', ?_, ?_, ?_, ?_⟩
  · rw [lmeLogCriteria_other hcr (by decide)]; exact t5
  · rw [lmeLogCriteria_other hcr (by decide)]; exact t6
  · rw [lmeLogCriteria_other hcr (by decide)]; exact t7
  · rw [lmeLogCriteria_other hcr (by decide)]; exact t8
  · intro sT hsT
    obtain ⟨hm, hnc⟩ := mem_tightened.1 hsT
    obtain ⟨s1, F1, -, hst⟩ := t1.mem hm
    rcases ipStep_corrects hst with ⟨hcor, -⟩ | ⟨-, hmu, -⟩
    · exact absurd hcor hnc
    · rw [hmu]
      change (0.5 : ℝ) * _ / _ = _
      rw [mul_div_assoc]
  · rcases ipLoop_exit _ _ _ _ _ _ rfl t9 with h0 | h0 | ⟨F', hF', h0⟩
    · exact .inl h0
    · rw [t10] at h0
      exact .inr (.inl h0)
    · obtain rfl : F' = F := Except.ok.inj (hF'.symm.trans t2)
      by_cases hm : ipMoved s.tolOracle sI
      · refine .inr (.inr (.inl ⟨not_lt.1 fun hlt => h0 ⟨.inl hlt, hm⟩, not_lt.1 fun hlt => h0 ⟨.inr hlt, hm⟩⟩))
      · exact .inr (.inr (.inr hm))

/-! ### Nothing more fails -/

theorem LogAgree.symm {V : Type*} {L' L : Logger V} (h : LogAgree L' L) : LogAgree L L' := ⟨h.good, h.good', fun k hk => (h.eq k hk).symm⟩

theorem ipLoopLog_total (D : List (LmeGroup p q)) (P : LmeInstPrior ℝ p q) (c : IpCfg p q) :
    ∀ (m : ℕ) (s r : IpState p q) (L : Logger (PyVal ℝ (p + q))), (c.nIter - s.iteration).toNat = m → L.Good → ipLoop D P c s = .ok r →
      ∃ L', ipLoopLog D P c s L = .ok (r, L') := by
  intro m
  induction m using Nat.strong_induction_on with
  | _ m ih =>
    intro s r L hm hL h
    unfold ipLoop at h
    unfold ipLoopLog
    split_ifs at h with h1
    · rw [dif_pos h1]
      cases hF : ipF D P s with
      | error e => rw [hF] at h; cases h
      | ok F =>
        rw [hF] at h
        simp only at h ⊢
        split_ifs at h with h2
        · rw [if_pos h2]
          cases hs : ipStep D P c s F with
          | error e => rw [hs] at h; cases h
          | ok s' =>
            rw [hs] at h
            simp only at h ⊢
            obtain ⟨L1, g1, g2, -, -⟩ := ipLogPass_spec (c := c) (s := s') hL
            rw [g1]
            simp only
            refine ih _ ?_ _ r L1 rfl g2 h
            have := h1.2
            rw [← hm]
            simp only
            push_cast
            omega
        · rw [if_neg h2]
          cases h
          exact ⟨L, rfl⟩
    · rw [dif_neg h1]
      cases h
      exact ⟨L, rfl⟩

open Classical in
theorem lmeFindIpLog_total {D : List (LmeGroup p q)} (hD : PosVar D) {P : LmeInstPrior ℝ p q} (hP : P.Reachable) {c : IpCfg p q} (hls : c.lineSearch = none) {o : IpOracle p q}
    {beta tbeta : Vec ℝ p} {gamma tgamma : Vec ℝ q} (hg : ∀ j, 0 ≤ (ipStart c o beta gamma).2 j) {L : Logger (PyVal ℝ (p + q))} (hL : L.Good) {r : IpResult p q × IpOracle p q}
    (h : lmeFindIp D P c o beta gamma tbeta tgamma = .ok r) : ∃ L', lmeFindIpLog D P c o beta gamma tbeta tgamma L = .ok (r, L') := by
  unfold lmeFindIp at h
  unfold lmeFindIpLog
  by_cases hq : q = 0
  · rw [if_pos hq] at h ⊢
    obtain ⟨b, hb, h⟩ := ebind_ok.1 h
    cases h
    exact ⟨L, ebind_ok.2 ⟨b, hb, rfl⟩⟩
  · rw [if_neg hq] at h ⊢
    obtain ⟨sI, hs, h⟩ := ebind_ok.1 h
    cases h
    obtain ⟨L1, e1, g1, -, -⟩ := hL.add "mu_effective" (.list [])
    obtain ⟨L2, e2, g2, -, -⟩ := g1.add "mu" (.list [])
    obtain ⟨L2', hl⟩ := ipLoopLog_total D P c _ _ _ L2 rfl g2 hs
    obtain ⟨-, g2', -⟩ := ipLoopLog_spec D P c _ _ _ _ _ rfl g2 hl
    obtain ⟨F, hF⟩ := ipF_total hD hP (ipLoop_signs hls (fun _ => one_pos) hg hs).2.1
    obtain ⟨L3, e3, g3, -, -⟩ := g2'.add "good_stopping_reason" (.atom (.bool (decide (npNorm F < c.tol ∧ sI.mu < c.tol))))
    obtain ⟨L4, e4, -⟩ := g3.add "iteration" (.atom (.int sI.iteration))
    exact ⟨L4, ebind_ok.2 ⟨L1, e1, ebind_ok.2 ⟨L2, e2, ebind_ok.2 ⟨(sI, L2'), hl, ebind_ok.2 ⟨F, hF, ebind_ok.2 ⟨L3, e3, ebind_ok.2 ⟨L4, e4, rfl⟩⟩⟩⟩⟩⟩⟩

/-- The logging inside the oracle raises nothing: with a tuple of distinct keys and from nonnegative variances, a practical fit to data with positive observation variances that returns without it returns
with it, with the same coefficients. -/
theorem C179_returns (M : LmeModelCfg) (s : LmeSr3Cfg) (hs : M.sr3 = some s) (hpr : s.practical = true) (hk : M.loggerKind = .tuple) (hn : M.loggerKeys.Nodup)
    (hinit : M.initializer ≠ some "EM") (hprior : M.prior = none) (st : LmeState) (P : LmeProblem ℝ) (D : List (LmeGroup P.numFixed P.numRandom)) (hD : lmeGroups P = .ok D)
    (hpos : PosVar D) (a : LmeFitArgs) (hg : ∀ v ∈ a.gamma.getD (List.replicate P.numRandom 1), 0 ≤ v)
    (L' : Logger (PyVal ℝ (P.numFixed + P.numRandom))) (c : LmeState) (h : lmeFitProblem M st P a = (.ok L', c)) :
    ∃ L, lmeFitProblemLog M st P a = (.ok L, c) := by
  unfold lmeFitProblem at h
  cases hcore : lmeFitCore M st P a with
  | error e => rw [hcore] at h; cases h
  | ok r =>
    rw [hcore] at h
    simp only [Prod.mk.injEq] at h
    obtain ⟨h, hc⟩ := h
    obtain ⟨D', hD', h⟩ := ebind_ok.1 h
    obtain ⟨Pr', hPr', h⟩ := ebind_ok.1 h
    unfold lmeFitCore at hcore
    obtain ⟨m, hm, hcore⟩ := ebind_ok.1 hcore
    obtain ⟨Pr, hPr, hcore⟩ := ebind_ok.1 hcore
    obtain ⟨w, hw, hcore⟩ := ebind_ok.1 hcore
    obtain ⟨base, hbase, hcore⟩ := ebind_ok.1 hcore
    obtain ⟨D2, hD2, hcore⟩ := ebind_ok.1 hcore
    obtain ⟨b0, hb0, hcore⟩ := ebind_ok.1 hcore
    obtain ⟨g0, hg0, hcore⟩ := ebind_ok.1 hcore
    obtain ⟨⟨x, L0⟩, hopt, hcore⟩ := ebind_ok.1 hcore
    obtain ⟨us, hus, hcore⟩ := ebind_ok.1 hcore
    obtain ⟨per, hper, hcore⟩ := ebind_ok.1 hcore
    cases hcore
    obtain rfl : D' = D := Except.ok.inj (hD'.symm.trans hD)
    obtain rfl : D2 = D' := Except.ok.inj (hD2.symm.trans hD)
    obtain rfl : Pr = Pr' := Except.ok.inj (hPr.symm.trans hPr')
    have hPn : Pr = .nonInformative := by
      rw [hprior] at hPr
      exact (Except.ok.inj hPr).symm
    subst hPn
    have hstart : lmeStart st P a = (a.beta.getD (List.replicate P.numFixed 1), a.gamma.getD (List.replicate P.numRandom 1)) := by
      unfold lmeStart
      simp only [sklearnCheckTruth, Bool.and_false, Bool.false_eq_true, if_false]
      cases st <;> rfl
    have hg0' : ∀ j, 0 ≤ g0 j := by
      intro j
      have e : List.ofFn g0 = a.gamma.getD (List.replicate P.numRandom 1) := by
        have := asVec_ok.1 hg0
        rwa [hstart] at this
      refine hg _ ?_
      rw [← e]
      exact List.mem_ofFn.2 ⟨j, rfl⟩
    have hgood : (Logger.init M.loggerKind M.loggerKeys : Logger (PyVal ℝ (P.numFixed + P.numRandom))).Good := by
      rw [hk]
      exact Logger.good_init _ hn
    have hopt' : ∃ L1, lmeOptimizeLog M D2 .nonInformative (wrapReg P.numFixed P.numRandom M.elasticEps base) b0 g0 = .ok (x, L1) ∧ LogAgree L0 L1 := by
      unfold lmeOptimize at hopt
      simp only [hs, hpr, if_true] at hopt
      obtain ⟨bg, hbg, hopt⟩ := ebind_ok.1 hopt
      obtain ⟨⟨⟨x', K2⟩, o'⟩, hr, hopt⟩ := ebind_ok.1 hopt
      cases hopt
      have hbg' := hbg
      unfold lmeInitialize at hbg'
      rw [if_neg hinit] at hbg'
      cases hbg'
      unfold fakeOptimize at hr
      obtain ⟨x1, o1, e1, hr⟩ := bind_ok.1 hr
      obtain ⟨K1, o2, e2, hr⟩ := bind_ok.1 hr
      obtain ⟨K2', o3, e3, hr⟩ := bind_ok.1 hr
      obtain ⟨he, rfl⟩ := pure_ok.1 hr
      cases he
      simp only at e1
      unfold lmeSr3FindOptimal at e1
      rw [xBeta_join, xGamma_join] at e1
      cases hf : lmeFindIp D2 .nonInformative (s.ipPractical (wrapReg P.numFixed P.numRandom M.elasticEps base)) ⟨⟨s.ell, s.ell⟩, none⟩ ((2 : ℝ) • b0) ((2 : ℝ) • g0) b0 g0 with
      | error e => rw [hf] at e1; cases e1
      | ok res =>
        rw [hf] at e1
        cases e1
        obtain ⟨Lr, hLr⟩ := lmeFindIpLog_total hpos (P := .nonInformative) trivial (c := s.ipPractical (wrapReg P.numFixed P.numRandom M.elasticEps base)) rfl
          (o := ⟨⟨s.ell, s.ell⟩, none⟩) (beta := (2 : ℝ) • b0) (gamma := (2 : ℝ) • g0) (by
            intro j
            unfold ipStart
            split_ifs <;> exact mul_nonneg (by norm_num) (hg0' j)) hgood hf
        obtain ⟨-, hag, -⟩ := lmeFindIpLog_spec hgood hLr
        have hmid : ∃ L1, (if "loss" ∈ Lr.keys then do
              let l ← lossAt (lmeSr3Oracle D2 .nonInformative (s.ip _ _)) (wrapReg P.numFixed P.numRandom M.elasticEps base) (joinX res.1.tbeta res.1.tgamma) res.2
              Lr.add "loss" (.atom (.num l.1))
            else return Lr : Except PyErr (Logger (PyVal ℝ (P.numFixed + P.numRandom)))) = .ok L1 ∧ LogAgree L1 K1 := by
          have hm := hag.mem (k := "loss") (by decide)
          by_cases hl : "loss" ∈ Lr.keys
          · rw [if_pos (hm.1 hl)] at e2
            rw [if_pos hl]
            obtain ⟨l, o4, k1, k2⟩ := bind_ok.1 e2
            obtain ⟨k2, -⟩ := callReg_ok.1 k2
            obtain ⟨L1, k3, k4⟩ := hag.symm.add "loss" _ k2
            exact ⟨L1, ebind_ok.2 ⟨(l, o4), k1, k3⟩, k4.symm⟩
          · rw [if_neg (fun hc => hl (hm.2 hc))] at e2
            obtain ⟨he, -⟩ := pure_ok.1 e2
            rw [if_neg hl]
            exact ⟨Lr, rfl, he ▸ hag⟩
        obtain ⟨L1, l1, l2⟩ := hmid
        obtain ⟨L2, l3, l4⟩ := l2.symm.add "converged" _ (callReg_ok.1 e3).1
        refine ⟨L2, ?_, l4⟩
        unfold lmeOptimizeLog
        simp only [hs, hpr, if_true]
        exact ebind_ok.2 ⟨(b0, g0), hbg, ebind_ok.2 ⟨(res, Lr), hLr, ebind_ok.2 ⟨L1, l1, ebind_ok.2 ⟨L2, l3, rfl⟩⟩⟩⟩
    obtain ⟨L1, hL1, hag⟩ := hopt'
    obtain ⟨L2, k1, k2⟩ := hag.criteria h
    refine ⟨L2, ?_⟩
    unfold lmeFitProblemLog
    have : lmeFitCoreLog M st P a = .ok (⟨List.ofFn (xBeta x), List.ofFn (xGamma x), us.map (fun u => List.ofFn u), P.groupLabels, per.map (·.2)⟩, x, L1) :=
      ebind_ok.2 ⟨m, hm, ebind_ok.2 ⟨_, hPr, ebind_ok.2 ⟨w, hw, ebind_ok.2 ⟨base, hbase, ebind_ok.2 ⟨_, hD2, ebind_ok.2 ⟨b0, hb0, ebind_ok.2 ⟨g0, hg0,
        ebind_ok.2 ⟨(x, L1), hL1, ebind_ok.2 ⟨us, hus, ebind_ok.2 ⟨per, hper, rfl⟩⟩⟩⟩⟩⟩⟩⟩⟩⟩
    rw [this]
    simp only [Prod.mk.injEq]
    exact ⟨ebind_ok.2 ⟨_, hD2, ebind_ok.2 ⟨_, hPr, k1⟩⟩, hc⟩

/-- **C179 is violated** without random effects: the inner method returns before it touches the log, so that a practical fit logs neither `good_stopping_reason`, `mu` nor `mu_effective`, and
an `iteration` that was asked for stays an empty list. -/
theorem C179_no_random_violated (M : LmeModelCfg) (s : LmeSr3Cfg) (hs : M.sr3 = some s) (hpr : s.practical = true) (hk : M.loggerKind = .tuple) (hn : M.loggerKeys.Nodup) (st : LmeState)
    (P : LmeProblem ℝ) (hq : P.numRandom = 0) (a : LmeFitArgs) (L : Logger (PyVal ℝ (P.numFixed + P.numRandom))) (c : LmeState) (h : lmeFitProblemLog M st P a = (.ok L, c)) :
    ∀ k ∈ ["iteration", "good_stopping_reason", "mu", "mu_effective"], L.get k = if k ∈ M.loggerKeys then .ok (.list []) else .error .keyError := by
  obtain ⟨m, Pr, w, base, D, b0, g0, x, L1, coef, -, hPr, -, -, hD, -, -, hopt, hcr, hc, hcb, hcg, -⟩ := lmeFitLog_spec h
  obtain ⟨bg, -, -, hrun, -⟩ := lmeOptimizeLog_spec hs hpr hk hn hopt
  intro k hkm
  have h1 : k ≠ "loss" ∧ k ≠ "converged" ∧ k ∉ ["vaida_aic", "vaida_aic_marginalized", "jones_bic", "muller_ic", "flip_probabilities_beta"] := by
    revert k
    decide
  rw [lmeLogCriteria_other hcr h1.2.2]
  unfold Logger.get
  rw [hrun hq k h1.1 h1.2.1]
  split_ifs <;> rfl

/-- **C179 is violated** if the keys of the log are a list or a set: on a problem with random effects a practical fit then never returns (unless all four entries were asked for), even if
`converged` was asked for. -/
theorem C179_list_violated (M : LmeModelCfg) (s : LmeSr3Cfg) (hs : M.sr3 = some s) (hpr : s.practical = true) (hk : M.loggerKind ≠ .tuple) (st : LmeState)
    (P : LmeProblem ℝ) (hq : P.numRandom ≠ 0) (a : LmeFitArgs) (hm : "mu_effective" ∉ M.loggerKeys) : ∃ e, (lmeFitProblemLog M st P a).1 = .error e := by
  cases hf : (lmeFitProblemLog M st P a).1 with
  | error e => exact ⟨e, rfl⟩
  | ok L =>
    obtain ⟨m, Pr, w, base, D, b0, g0, x, L1, coef, -, hPr, -, -, hD, -, -, hopt, -⟩ := lmeFitLog_spec (h := (Prod.ext hf rfl : lmeFitProblemLog M st P a = (.ok L, _)))
    unfold lmeOptimizeLog at hopt
    simp only [hs, hpr, if_true] at hopt
    obtain ⟨bg, hbg, hopt⟩ := ebind_ok.1 hopt
    obtain ⟨⟨r, Lr⟩, hr, hopt⟩ := ebind_ok.1 hopt
    unfold lmeFindIpLog at hr
    rw [if_neg hq] at hr
    obtain ⟨L1, a1, hr⟩ := ebind_ok.1 hr
    unfold Logger.add at a1
    dsimp only at a1
    rw [if_neg (show "mu_effective" ∉ (Logger.init M.loggerKind M.loggerKeys : Logger (PyVal ℝ (P.numFixed + P.numRandom))).keys from hm)] at a1
    change (match M.loggerKind with | .tuple => _ | _ => _) = _ at a1
    cases hK : M.loggerKind with
    | tuple => exact absurd hK hk
    | list => rw [hK] at a1; cases a1
    | set => rw [hK] at a1; cases a1

/-! ## C180 -/

/-- Along the passes the multipliers and variances stay positive and the relaxation constants do not change. -/
theorem IpPasses.keep {D : List (LmeGroup p q)} {P : LmeInstPrior ℝ p q} {c : IpCfg p q} (hls : c.lineSearch = none) (hinc : c.increaseLambdas = false) {T : List (IpState p q)} :
    ∀ {s r : IpState p q}, (∀ j, 0 < s.v j) → (∀ j, 0 < s.gamma j) → IpPasses D P c s T r →
      (∀ x ∈ T, (∀ j, 0 < x.v j) ∧ ∀ j, 0 < x.gamma j) ∧ (∀ j, 0 < r.v j) ∧ (∀ j, 0 < r.gamma j) ∧ r.S = s.S := by
  induction T with
  | nil =>
    intro s r hv hg h
    cases h
    exact ⟨by simp, hv, hg, rfl⟩
  | cons a T ih =>
    rintro s r hv hg ⟨⟨F, h1, h2⟩, h⟩
    obtain ⟨dF, d, step, -, -, hl, ev, -, eg, -⟩ := ipStep_ok h2
    obtain ⟨m, hm, hm0, -, -, h5, h6, -⟩ := C63_any_direction s.v s.gamma (fun j => d (.inl j)) (fun j => d (.inr (.inr j))) hv hg
    rw [← hm] at hl
    unfold ipStepLen at hl
    rw [hls] at hl
    have hstep : step = 0.99 * m := (Except.ok.inj hl).symm
    have av : ∀ j, 0 < a.v j := by rw [ev, hstep]; exact h5
    have ag : ∀ j, 0 < a.gamma j := by rw [eg, hstep]; exact h6
    have aS : a.S = s.S := by
      rcases ipStep_corrects h2 with ⟨-, -, -, -, e⟩ | ⟨-, -, -, e⟩
      · exact e
      · rw [e, hinc]; rfl
    obtain ⟨k1, k2, k3, k4⟩ := ih av ag h
    refine ⟨fun x hx => ?_, k2, k3, k4.trans aS⟩
    rcases List.mem_cons.1 hx with rfl | hx
    · exact ⟨av, ag⟩
    · exact k1 x hx

/-- The relaxed coefficients at the end are the prox of the coefficients after the last pass that was not a correction step. -/
theorem IpPasses.last_prox {D : List (LmeGroup p q)} {P : LmeInstPrior ℝ p q} {c : IpCfg p q} {prox} (hreg : c.reg = some prox) (hev : c.updateProxEvery = 1) {T : List (IpState p q)} :
    ∀ {s r : IpState p q}, IpPasses D P c s T r → (tightened c T = [] → r.tbeta = s.tbeta ∧ r.tgamma = s.tgamma) ∧
      (tightened c T ≠ [] → ∃ x ∈ T, prox c.proxStepLen (x.beta, x.gamma) = .ok (r.tbeta, r.tgamma) ∧ ((∀ y ∈ T, ¬ ipCorrects c y) → x = r)) := by
  induction T with
  | nil =>
    intro s r h
    cases h
    exact ⟨fun _ => ⟨rfl, rfl⟩, fun h => absurd rfl h⟩
  | cons a T ih =>
    rintro s r ⟨⟨F, h1, h2⟩, h⟩
    obtain ⟨k1, k2⟩ := ih h
    have hcons : tightened c (a :: T) = tightened c [a] ++ tightened c T := by
      unfold tightened
      rw [← List.filter_append]
      rfl
    by_cases hT : tightened c T = []
    · obtain ⟨e1, e2⟩ := k1 hT
      rcases ipStep_corrects h2 with ⟨hc, -, f1, f2, -⟩ | ⟨hc, -, f1, -⟩
      · have ha : tightened c [a] = [] := by unfold tightened; simp [hc]
        rw [hcons, ha, hT]
        exact ⟨fun _ => ⟨e1.trans f1, e2.trans f2⟩, fun h => absurd rfl h⟩
      · have ha : tightened c [a] = [a] := by unfold tightened; simp [hc]
        rw [hcons, ha]
        refine ⟨fun h => absurd h (by simp), fun _ => ⟨a, List.mem_cons_self, ?_, fun hall => ?_⟩⟩
        · unfold ipProx at f1
          rw [hreg] at f1
          simp only [hev, Int.emod_one, zero_lt_one, and_self, if_true] at f1
          rw [f1, e1, e2]
        · have : T = [] := by
            cases T with
            | nil => rfl
            | cons b T =>
              have : b ∈ tightened c (b :: T) := mem_tightened.2 ⟨List.mem_cons_self, hall b (by simp)⟩
              rw [hT] at this
              cases this
          subst this
          exact h
    · obtain ⟨x, hx, p1, p2⟩ := k2 hT
      refine ⟨fun h => ?_, fun _ => ⟨x, List.mem_cons_of_mem _ hx, p1, fun hall => p2 fun y hy => hall y (List.mem_cons_of_mem _ hy)⟩⟩
      rw [hcons] at h
      exact absurd (List.append_eq_nil_iff.1 h).2 hT

/-- **C180**: let a practical SR3 L1 mixed-effects model (without prior and EM initializer, projecting in every pass) be fitted from positive variances to data with positive observation variances, and
let the fit log `good_stopping_reason = True` and at least one value of `mu`. With `tb, tg` the result, there are coefficients `beta, gamma > 0` and multipliers `v > 0` (the last ones of the inner method)
and `b, g` (those after the last projection, equal to `beta, gamma` if there is one random effect) such that, with the derivatives `Gb, Gg` of the negative log-likelihood at `beta, gamma`, the optimality
conditions of the likelihood with the penalty **multiplied by `ell`** hold up to the tolerance of the oracle plus `ell |beta - b|` and `ell |gamma - g|`:
`Gb + ell (eps tb + lam w sign(tb)) = 0` at the nonzero fixed effects, `|Gb| ≤ ell lam w` at the zero ones, `Gg - v + ell (eps tg + lam w) = 0` at the positive variances and `Gg - v ≥ -ell lam w` at the zero
ones, with `v gamma` below twice the tolerance. -/
theorem C180_l1 (M : LmeModelCfg) (s : LmeSr3Cfg) (lam : ℝ) (hreg : M.reg = .l1 lam) (hlam : 0 ≤ lam) (heps : 0 ≤ M.elasticEps) (hsr : M.sr3 = some s) (hell : 0 ≤ s.ell)
    (hprac : s.practical = true) (hev : s.updateProxEvery = 1) (hpr : M.prior = none) (hinit : M.initializer ≠ some "EM") (hk : M.loggerKind = .tuple) (hn : M.loggerKeys.Nodup)
    (st : LmeState) (P : LmeProblem ℝ) (a : LmeFitArgs)
    (D : List (LmeGroup P.numFixed P.numRandom)) (hD : lmeGroups P = .ok D) (hpos : PosVar D) (hq : P.numRandom ≠ 0)
    (hg0p : ∀ v ∈ a.gamma.getD (List.replicate P.numRandom 1), 0 < v)
    (wb : Vec ℝ P.numFixed) (wg : Vec ℝ P.numRandom) (hwb : List.ofFn wb = a.feWeights.getD P.feWeights) (hwg : List.ofFn wg = a.reWeights.getD P.reWeights)
    (hwb0 : ∀ i, 0 ≤ wb i) (hwg0 : ∀ j, 0 ≤ wg j)
    (Lf : Logger (PyVal ℝ (P.numFixed + P.numRandom))) (c : LmeState) (h : lmeFitProblemLog M st P a = (.ok Lf, c))
    (hgood : Lf.get "good_stopping_reason" = .ok (.atom (.bool true))) (hmu : Lf.get "mu" ≠ .ok (.list [])) :
    ∃ (coef : LmeCoef) (tb b beta Gb : Vec ℝ P.numFixed) (tg g gamma v Gg : Vec ℝ P.numRandom),
      c = some coef ∧ coef.beta = List.ofFn tb ∧ coef.gamma = List.ofFn tg ∧ (P.numRandom = 1 → 0 ≤ s.target → b = beta ∧ g = gamma) ∧
      (∀ j, 0 ≤ tg j ∧ 0 < gamma j ∧ 0 < v j ∧ v j * gamma j < 2 * s.tolOracle) ∧
      (∀ i, HasDerivAt (fun τ => marginalNLL D (beta + Pi.single i τ) gamma) (Gb i) 0) ∧
      (∀ j, HasDerivAt (fun τ => marginalNLL D beta (gamma + Pi.single j τ)) (Gg j) 0) ∧
      (∀ i, (0 < tb i → |Gb i + s.ell * (M.elasticEps * tb i + lam * wb i)| ≤ s.tolOracle + s.ell * |beta i - b i|) ∧
        (tb i < 0 → |Gb i + s.ell * (M.elasticEps * tb i - lam * wb i)| ≤ s.tolOracle + s.ell * |beta i - b i|) ∧
        (tb i = 0 → |Gb i| ≤ s.ell * (lam * wb i) + (s.tolOracle + s.ell * |beta i - b i|))) ∧
      ∀ j, (0 < tg j → |Gg j - v j + s.ell * (M.elasticEps * tg j + lam * wg j)| ≤ s.tolOracle + s.ell * |gamma j - g j|) ∧
        (tg j = 0 → -(s.ell * (lam * wg j)) - (s.tolOracle + s.ell * |gamma j - g j|) ≤ Gg j - v j) := by
  obtain ⟨m, Pr, w, base, D', b0, g0, x, L1, coef, hm, hPr, hw, hbase, hD', hb0, hg0, hopt, hcr, hc, hcb, hcg, -⟩ := lmeFitLog_spec h
  obtain rfl : D' = D := Except.ok.inj (hD'.symm.trans hD)
  have hPn : Pr = .nonInformative := by
    rw [hpr] at hPr
    exact (Except.ok.inj hPr).symm
  subst hPn
  obtain ⟨bg, hbg, -, -, hrun⟩ := lmeOptimizeLog_spec hsr hprac hk hn hopt
  obtain ⟨T, sI, F, t1, t2, t3, t4, -, ⟨bo, t6, t6'⟩, t7, -⟩ := hrun hq
  unfold lmeInitialize at hbg
  rw [if_neg hinit] at hbg
  cases hbg
  rw [lmeLogCriteria_other hcr (by decide)] at hgood hmu
  rw [t6] at hgood
  cases hgood
  obtain ⟨hF, hmuT⟩ := t6'.1 rfl
  have hstart : lmeStart st P a = (a.beta.getD (List.replicate P.numFixed 1), a.gamma.getD (List.replicate P.numRandom 1)) := by
    unfold lmeStart
    simp only [sklearnCheckTruth, Bool.and_false, Bool.false_eq_true, if_false]
    cases st <;> rfl
  have hg0' : ∀ j, 0 < g0 j := by
    intro j
    have e : List.ofFn g0 = a.gamma.getD (List.replicate P.numRandom 1) := by
      have := asVec_ok.1 hg0
      rwa [hstart] at this
    refine hg0p _ ?_
    rw [← e]
    exact List.mem_ofFn.2 ⟨j, rfl⟩
  obtain ⟨kT, kv, kg, kS⟩ := t1.keep rfl rfl (fun _ => one_pos) (by
    intro j
    change 0 < (ipStart _ _ _ _).2 j
    unfold ipStart
    split_ifs <;> exact mul_pos (by norm_num) (hg0' j))
  replace kS : sI.S = ⟨s.ell, s.ell⟩ := kS
  have hne : tightened (s.ipPractical (wrapReg P.numFixed P.numRandom M.elasticEps base)) T ≠ [] := by
    intro he
    rw [he] at t7
    exact hmu t7
  obtain ⟨y, hyT, hy, hyr⟩ := (t1.last_prox (prox := fun step bg => (((wrapReg P.numFixed P.numRandom M.elasticEps base).prox (joinX bg.1 bg.2) step).map fun x => (xBeta x, xGamma x)))
    rfl hev).2 hne
  -- the prox
  have hW : w = joinX wb wg := by
    rcases LmeReg.weights_mem hw with ⟨h0, -⟩ | ⟨hlen, hw'⟩
    · rw [hreg] at h0
      cases h0
    · refine List.ofFn_injective (hw'.trans ?_)
      unfold joinX
      rw [List.ofFn_fin_append, ← hwb, ← hwg, List.take_of_length_le (by simp)]
  subst hW
  rw [hreg] at hbase
  cases hbase
  have hz : (∀ i, sI.tbeta i = soft (1 / (1 + 1 * M.elasticEps) * wb i * lam) (y.beta i / (1 + 1 * M.elasticEps))) ∧
      ∀ j, sI.tgamma j = soft (1 / (1 + 1 * M.elasticEps) * wg j * lam) (max (y.gamma j) 0 / (1 + 1 * M.elasticEps)) := by
    change ((wrapReg P.numFixed P.numRandom M.elasticEps _).prox (joinX y.beta y.gamma) 1).map _ = _ at hy
    rw [wrapReg_prox_eq] at hy
    have hz' := Except.ok.inj hy
    obtain ⟨e1, e2⟩ := Prod.mk.inj hz'
    refine ⟨fun i => ?_, fun j => ?_⟩
    · rw [← e1]
      simp only [xBeta, xGamma, joinX, Fin.append_left]
    · rw [← e2]
      simp only [xBeta, xGamma, joinX, Fin.append_right]
  have hq1 : (0 : ℝ) < 1 + 1 * M.elasticEps := by linarith
  -- the residual
  have hdom := inDomain_of_nonneg hpos fun j => (kg j).le
  obtain ⟨Gb, hGb⟩ : ∃ Gb : Vec ℝ P.numFixed, Gb = (D'.map fun g => -(g.xᵀ *ᵥ ((margCov g sI.gamma)⁻¹ *ᵥ residual g sI.beta))).sum := ⟨_, rfl⟩
  obtain ⟨Gg, hGg⟩ : ∃ Gg : Vec ℝ P.numRandom, Gg = (D'.map fun g => nllGradGamma g sI.beta sI.gamma).sum := ⟨_, rfl⟩
  have hFe : ipF D' .nonInformative sI = .ok (Sum.elim (fun j => sI.v j * sI.gamma j - sI.mu)
      (Sum.elim (Gb + s.ell • (sI.beta - sI.tbeta)) (Gg + s.ell • (sI.gamma - sI.tgamma) - sI.v))) := by
    unfold ipF lmeSr3GradientBeta lmeSr3GradientGamma
    have h1 : lmeGradientBeta D' .nonInformative sI.beta sI.gamma = .ok Gb := lmeGradientBeta_ok.2 ⟨hdom, by rw [hGb]; exact (add_zero _).symm⟩
    have h2 : lmeGradientGamma D' .nonInformative sI.beta sI.gamma = .ok Gg := lmeGradientGamma_ok'.2 ⟨hdom, by rw [hGg]; exact (add_zero _).symm⟩
    rw [h1, h2, kS]
    rfl
  obtain rfl := Except.ok.inj (t2.symm.trans hFe)
  refine ⟨coef, sI.tbeta, y.beta, sI.beta, Gb, sI.tgamma, y.gamma, sI.gamma, sI.v, Gg, hc, by rw [hcb, t3], by rw [hcg, t4], fun h1 ht => ?_, fun j => ⟨?_, kg j, kv j, ?_⟩, fun i => ?_, fun j => ?_,
    fun i => ?_, fun j => ?_⟩
  · have : y = sI := by
      refine hyr fun z hz => ?_
      obtain ⟨z1, z2⟩ := kT z hz
      unfold ipCorrects
      have h0 : npNorm (fun j => z.gamma j * z.v j - (z.gamma ⬝ᵥ z.v) / P.numRandom) = 0 := by
        unfold npNorm
        have : ∀ j, z.gamma j * z.v j - (z.gamma ⬝ᵥ z.v) / P.numRandom = 0 := by
          intro j
          have hj : ∀ i, i = j := fun i => Fin.ext (by omega)
          unfold dotProduct
          rw [Finset.sum_eq_single j (fun i _ hi => absurd (hj i) hi) (fun hj => absurd (Finset.mem_univ _) hj), show (P.numRandom : ℝ) = 1 from by exact_mod_cast h1]
          simp
        simp [this]
      rw [h0, not_lt]
      have h2 : 0 ≤ z.gamma ⬝ᵥ z.v := Finset.sum_nonneg fun j _ => (mul_pos (z2 j) (z1 j)).le
      exact div_nonneg (mul_nonneg ht h2) (Nat.cast_nonneg _)
    rw [this]
    exact ⟨rfl, rfl⟩
  · exact (soft_step one_pos hlam (hwg0 j) hq1 (hz.2 j)).2.2.2 (le_max_right _ _)
  · have hr := (coord_le_npNorm _ (.inl j)).trans_lt hF
    simp only [Sum.elim_inl] at hr
    have := (abs_lt.1 hr).2
    linarith
  · rw [hGb]
    exact (marginalNLL_expansion D' sI.gamma).hasDerivAt sI.beta i
  · rw [hGg, list_sum_apply]
    exact marginalNLL_deriv hdom sI.beta j
  · have hr : |Gb i + s.ell * (sI.beta i - sI.tbeta i)| ≤ s.tolOracle := by
      have := (coord_le_npNorm _ (.inr (.inl i))).trans hF.le
      exact this
    obtain ⟨h1, h2, h3, -⟩ := soft_step one_pos hlam (hwb0 i) hq1 (hz.1 i)
    have ha : |s.ell * (sI.beta i - y.beta i)| = s.ell * |sI.beta i - y.beta i| := by rw [abs_mul, abs_of_nonneg hell]
    refine ⟨fun hb => ?_, fun hb => ?_, fun hb => ?_⟩
    · have e : Gb i + s.ell * (M.elasticEps * sI.tbeta i + lam * wb i) = (Gb i + s.ell * (sI.beta i - sI.tbeta i)) - s.ell * (sI.beta i - y.beta i) := by
        have := h1 hb
        rw [← this]
        ring
      rw [e, ← ha]
      exact (abs_sub _ _).trans (add_le_add_left hr _)
    · have e : Gb i + s.ell * (M.elasticEps * sI.tbeta i - lam * wb i) = (Gb i + s.ell * (sI.beta i - sI.tbeta i)) - s.ell * (sI.beta i - y.beta i) := by
        have := h2 hb
        rw [← this]
        ring
      rw [e, ← ha]
      exact (abs_sub _ _).trans (add_le_add_left hr _)
    · have e : Gb i = (Gb i + s.ell * (sI.beta i - sI.tbeta i)) - s.ell * (sI.beta i - y.beta i) - s.ell * y.beta i := by
        rw [hb]
        ring
      have h4 := h3 hb
      have h5 : |s.ell * y.beta i| ≤ s.ell * (lam * wb i) := by
        rw [abs_mul, abs_of_nonneg hell]
        exact mul_le_mul_of_nonneg_left (by linarith) hell
      rw [e]
      have h6 := abs_sub (Gb i + s.ell * (sI.beta i - sI.tbeta i)) (s.ell * (sI.beta i - y.beta i))
      have h7 := abs_sub (Gb i + s.ell * (sI.beta i - sI.tbeta i) - s.ell * (sI.beta i - y.beta i)) (s.ell * y.beta i)
      rw [ha] at h6
      linarith
  · have hr : |Gg j + s.ell * (sI.gamma j - sI.tgamma j) - sI.v j| ≤ s.tolOracle := by
      have := (coord_le_npNorm _ (.inr (.inr j))).trans hF.le
      exact this
    obtain ⟨h1, -, h3, -⟩ := soft_step one_pos hlam (hwg0 j) hq1 (hz.2 j)
    have hyg := (kT y hyT).2 j
    rw [max_eq_left hyg.le] at h1 h3
    have ha : |s.ell * (sI.gamma j - y.gamma j)| = s.ell * |sI.gamma j - y.gamma j| := by rw [abs_mul, abs_of_nonneg hell]
    refine ⟨fun hb => ?_, fun hb => ?_⟩
    · have e : Gg j - sI.v j + s.ell * (M.elasticEps * sI.tgamma j + lam * wg j) = (Gg j + s.ell * (sI.gamma j - sI.tgamma j) - sI.v j) - s.ell * (sI.gamma j - y.gamma j) := by
        have := h1 hb
        rw [← this]
        ring
      rw [e, ← ha]
      exact (abs_sub _ _).trans (add_le_add_left hr _)
    · have h4 := h3 hb
      have h5 : s.ell * y.gamma j ≤ s.ell * (lam * wg j) := by
        refine mul_le_mul_of_nonneg_left ?_ hell
        have := (abs_le.1 h4).2
        linarith
      have h6 := (abs_le.1 hr).1
      have h7 := le_abs_self (s.ell * (sI.gamma j - y.gamma j))
      rw [ha] at h7
      rw [hb] at h6
      linarith

end Verif
