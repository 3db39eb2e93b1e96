import Verif.Props.ResumeFits

/-!
# C189: a smaller tolerance or a larger iteration limit continues the same run
-/

namespace Verif

variable {K : Type} [Field K] [LinearOrder K] [IsStrictOrderedRing K] [FloorSemiring K] {n : ℕ} {σ : Type}

/-- `strict` is `loose` with a tolerance at most as large and an iteration limit at least as large. -/
structure Stricter (strict loose : PGDCfg K) : Prop where
  tol : strict.tol ≤ loose.tol
  maxIter : loose.maxIter ≤ strict.maxIter
  stepping : strict.stepping = loose.stepping
  step : strict.fixedStepLen = loose.fixedStepLen

theorem farApart_mono {t1 t2 : K} (h : t2 ≤ t1) {xp : Option (Vec K n)} {x : Vec K n} (hf : farApart t1 xp x) : farApart t2 xp x := by
  unfold farApart at hf ⊢
  cases xp with
  | none => exact hf.imp id fun h1 => h.trans_lt h1
  | some y =>
    rcases hf with h1 | h1
    · exact .inl (h.trans_lt h1)
    · by_cases h2 : t2 < 0
      · exact .inl h2
      · exact .inr ((pow_le_pow_left₀ (not_lt.1 h2) h 2).trans_lt h1)

theorem pgdBody_same {strict loose : PGDCfg K} (hc : Stricter strict loose) (o : Oracle K n σ) (R : Regularizer K n) (x0 x : Vec K n) (it : ℕ) (L : Logger (PyVal K n)) :
    pgdBody o R strict x0 x it L = pgdBody o R loose x0 x it L := by
  unfold pgdBody chooseStep
  rw [hc.stepping, hc.step]

/-- Where the loop of the loose run stops, the loop of the strict run goes on. -/
theorem pgdLoop_continue {strict loose : PGDCfg K} (hc : Stricter strict loose) (o : Oracle K n σ) (R : Regularizer K n) (x0 : Vec K n) (x : Vec K n) (xp : Option (Vec K n)) (it : ℕ)
    (L : Logger (PyVal K n)) (s s2 : σ) (x2 : Vec K n) (N2 : ℕ) (L2 : Logger (PyVal K n)) (h : pgdLoop o R strict x0 x xp it L s = .ok ((x2, N2, L2), s2)) :
    ∃ x1 N1 L1 s1 xp1, pgdLoop o R loose x0 x xp it L s = .ok ((x1, N1, L1), s1) ∧ pgdLoop o R strict x0 x1 xp1 N1 L1 s1 = .ok ((x2, N2, L2), s2) := by
  induction x, xp, it, L using pgdLoop.induct (cfg := strict) generalizing s with
  | case1 x xp it L hg ih =>
    have h0 := h
    rw [pgdLoop, dif_pos hg] at h
    obtain ⟨⟨x', L'⟩, s', hb, h⟩ := bind_ok.1 h
    by_cases hl : farApart loose.tol xp x ∧ (it : ℤ) < loose.maxIter
    · obtain ⟨x1, N1, L1, s1, xp1, e1, e2⟩ := ih ⟨x', L'⟩ s' h
      refine ⟨x1, N1, L1, s1, xp1, ?_, e2⟩
      rw [pgdLoop, dif_pos hl]
      refine bind_ok.2 ⟨_, _, ?_, e1⟩
      rw [← pgdBody_same hc]
      exact hb
    · refine ⟨x, it, L, s, xp, ?_, h0⟩
      rw [pgdLoop, dif_neg hl]
      rfl
  | case2 x xp it L hg =>
    refine ⟨x, it, L, s, xp, ?_, h⟩
    rw [pgdLoop, dif_neg fun hl => hg ⟨farApart_mono hc.tol hl.1, hl.2.trans_le hc.maxIter⟩]
    rfl

/-- A relation between a state of the loop and a later one, from the relation for single passes. -/
theorem pgdLoop_rel {cfg : PGDCfg K} (o : Oracle K n σ) (R : Regularizer K n) (x0 : Vec K n) (Q : Vec K n × Logger (PyVal K n) → Vec K n × Logger (PyVal K n) → Prop) (hrefl : ∀ a, Q a a)
    (htrans : ∀ a b c, Q a b → Q b c → Q a c) (hstep : ∀ x it L s x' L' s', pgdBody o R cfg x0 x it L s = .ok ((x', L'), s') → Q (x, L) (x', L'))
    (x : Vec K n) (xp : Option (Vec K n)) (it : ℕ) (L : Logger (PyVal K n)) (s s2 : σ) (x2 : Vec K n) (N2 : ℕ) (L2 : Logger (PyVal K n))
    (h : pgdLoop o R cfg x0 x xp it L s = .ok ((x2, N2, L2), s2)) : Q (x, L) (x2, L2) ∧ it ≤ N2 ∧ (it = N2 → x = x2 ∧ L = L2 ∧ s = s2) := by
  induction x, xp, it, L using pgdLoop.induct (cfg := cfg) generalizing s with
  | case1 x xp it L hg ih =>
    rw [pgdLoop, dif_pos hg] at h
    obtain ⟨⟨x', L'⟩, s', hb, h⟩ := bind_ok.1 h
    obtain ⟨h1, h2, -⟩ := ih ⟨x', L'⟩ s' h
    exact ⟨htrans _ _ _ (hstep _ _ _ _ _ _ _ hb) h1, by omega, fun e => by omega⟩
  | case2 x xp it L hg =>
    rw [pgdLoop, dif_neg hg] at h
    obtain ⟨e, e2⟩ := pure_ok.1 h
    cases e
    exact ⟨hrefl _, le_rfl, fun _ => ⟨rfl, rfl, e2⟩⟩

/-- What one logging block adds to a log. -/
theorem logBlock_adds {o : Oracle K n σ} {R : Regularizer K n} {L L' : Logger (PyVal K n)} (hg : L.Good) {x : Vec K n} {vars : String → Option (PyVal K n)} {s s' : σ}
    (h : logBlock o R L x vars s = .ok (L', s')) :
    L'.Good ∧ L'.keys = L.keys ∧ ∀ key, ∃ v : Option (PyVal K n), (key ≠ "loss" → key ∈ L.keys → v = vars key) ∧ L'.dict key = (L.dict key).map (logEffect v) := by
  unfold logBlock at h
  obtain ⟨loss, s1, -, h2⟩ := bind_ok.1 h
  by_cases hk : L.keys.length > 0
  · rw [if_pos hk] at h2
    obtain ⟨M, m1, m2, m3, m4⟩ := hg.log fun k => if k = "loss" then loss else vars k
    rw [m1] at h2
    obtain ⟨e, -⟩ := callReg_ok.1 h2
    cases e
    exact ⟨m2, m3, fun key => ⟨_, fun h3 _ => if_neg h3, m4 key⟩⟩
  · rw [if_neg hk] at h2
    obtain ⟨e, -⟩ := pure_ok.1 h2
    cases e
    refine ⟨hg, rfl, fun key => ⟨none, fun _ h4 => absurd (List.length_pos_of_mem h4) hk, ?_⟩⟩
    cases L.dict key with
    | none => rfl
    | some v => cases v <;> simp [logEffect]

/-- The later log extends the earlier one: every list of the earlier log is the beginning of the list of the later log. -/
def LogExtends (a b : Logger (PyVal K n)) : Prop :=
  a.Good → b.Good ∧ b.keys = a.keys ∧ ∀ key l, a.dict key = some (.list l) → ∃ l', b.dict key = some (.list (l ++ l'))

/-- The last logged point is the current one. -/
def LastLogged (a : Vec K n × Logger (PyVal K n)) : Prop :=
  a.2.Good ∧ ∀ l, a.2.dict "x" = some (.list l) → l.getLast? = some (.vec a.1)

theorem logBlock_extends {o : Oracle K n σ} {R : Regularizer K n} {L L' : Logger (PyVal K n)} {x : Vec K n} {vars : String → Option (PyVal K n)} {s s' : σ}
    (h : logBlock o R L x vars s = .ok (L', s')) : LogExtends L L' := by
  intro hg
  obtain ⟨h1, h2, h3⟩ := logBlock_adds hg h
  refine ⟨h1, h2, fun key l hl => ?_⟩
  obtain ⟨v, -, h4⟩ := h3 key
  rw [h4, hl]
  exact ⟨v.toList, rfl⟩

theorem logBlock_last {o : Oracle K n σ} {R : Regularizer K n} {L L' : Logger (PyVal K n)} {x : Vec K n} {vars : String → Option (PyVal K n)} {s s' : σ} (hv : vars "x" = some (.vec x))
    (hg : L.Good) (h : logBlock o R L x vars s = .ok (L', s')) : LastLogged (x, L') := by
  obtain ⟨h1, h2, h3⟩ := logBlock_adds hg h
  refine ⟨h1, fun l hl => ?_⟩
  have hx : "x" ∈ L.keys := by
    rw [← h2, ← h1.dom]
    simp only at hl
    rw [hl]
    rfl
  obtain ⟨v, h4, h5⟩ := h3 "x"
  rw [h4 (by decide) hx, hv] at h5
  simp only at hl
  rw [h5] at hl
  cases hd : L.dict "x" with
  | none => rw [hd] at hl; cases hl
  | some w =>
    rw [hd] at hl
    cases w with
    | atom a => cases hl
    | list l0 =>
      cases hl
      simp

/-- **C189** for the solver.  Let `strict` differ from `loose` in a smaller tolerance and a larger iteration limit, and let the strict run return `x2`.  Then the loose run returns as well; it makes
at most as many iterations, and returns `x2` if it makes as many; every list of its log is the beginning of the list of the strict log; the point it returns is the entry with its number of
iterations of the points logged by the strict run. -/
theorem C189_solver (o : Oracle K n σ) (R : Regularizer K n) (strict loose : PGDCfg K) (hc : Stricter strict loose) (x0 x2 : Vec K n) (keys : List String) (hk : keys.Nodup)
    (L2 : Logger (PyVal K n)) (s s2 : σ) (h : pgdOptimize o R strict x0 (Logger.init .tuple keys) s = .ok ((x2, L2), s2)) :
    ∃ x1 L1 s1 k1 k2, pgdOptimize o R loose x0 (Logger.init .tuple keys) s = .ok ((x1, L1), s1) ∧
      L1.get "iteration" = .ok (.atom (.int (k1 : ℕ))) ∧ L2.get "iteration" = .ok (.atom (.int (k2 : ℕ))) ∧ k1 ≤ k2 ∧ (k1 = k2 → x1 = x2) ∧
      (∀ key ∈ keys, key ≠ "iteration" → key ≠ "converged" → ∃ l l', L1.get key = .ok (.list l) ∧ L2.get key = .ok (.list (l ++ l'))) ∧
      (∀ l, L1.get "x" = .ok (.list l) → l.getLast? = some (.vec x1)) ∧
      ∀ Q : Vec K n → Vec K n → Prop, (∀ a, Q a a) → (∀ a b c, Q a b → Q b c → Q a c) →
        (∀ x it L s x' L' s', pgdBody o R strict x0 x it L s = .ok ((x', L'), s') → Q x x') → Q x1 x2 := by
  unfold pgdOptimize at h
  obtain ⟨L0, s0, h0, h⟩ := bind_ok.1 h
  obtain ⟨⟨y2, k2, M2⟩, t2, h1, h⟩ := bind_ok.1 h
  obtain ⟨A2, t3, h2, h⟩ := bind_ok.1 h
  obtain ⟨B2, t4, h3, h⟩ := bind_ok.1 h
  obtain ⟨e, -⟩ := pure_ok.1 h
  cases e
  obtain ⟨h2, -⟩ := callReg_ok.1 h2
  obtain ⟨h3, -⟩ := callReg_ok.1 h3
  obtain ⟨x1, k1, M1, s1, xp1, e1, e2⟩ := pgdLoop_continue hc o R x0 x0 none 0 L0 s0 t2 _ k2 M2 h1
  have good0 : L0.Good := (logBlock_extends h0 (Logger.good_init keys hk)).1
  have keys0 : L0.keys = keys := (logBlock_extends h0 (Logger.good_init keys hk)).2.1
  have hext : ∀ (cfg : PGDCfg K) x it (L : Logger (PyVal K n)) s x' L' s', pgdBody o R cfg x0 x it L s = .ok ((x', L'), s') → LogExtends L L' := by
    intro cfg x it L s x' L' s' hb
    obtain ⟨g, _, step, _, -, -, -, hlog⟩ := pgdBody_ok _ _ _ _ _ _ _ _ _ _ _ hb
    exact logBlock_extends hlog
  have trans : ∀ a b c : Logger (PyVal K n), LogExtends a b → LogExtends b c → LogExtends a c := by
    intro a b c h1 h2 ha
    obtain ⟨a1, a2, a3⟩ := h1 ha
    obtain ⟨b1, b2, b3⟩ := h2 a1
    refine ⟨b1, b2.trans a2, fun key l hl => ?_⟩
    obtain ⟨l1, h5⟩ := a3 key l hl
    obtain ⟨l2, h6⟩ := b3 key _ h5
    exact ⟨l1 ++ l2, by rw [h6, List.append_assoc]⟩
  have refl : ∀ a : Logger (PyVal K n), LogExtends a a := fun a ha => ⟨ha, rfl, fun key l hl => ⟨[], by rw [hl, List.append_nil]⟩⟩
  obtain ⟨p1, -, -⟩ := pgdLoop_rel o R x0 (fun a b => LogExtends a.2 b.2 ∧ (LastLogged a → LastLogged b)) (fun a => ⟨refl _, id⟩)
    (fun a b c h1 h2 => ⟨trans _ _ _ h1.1 h2.1, h2.2 ∘ h1.2⟩) (fun x it L s x' L' s' hb => ⟨hext _ _ _ _ _ _ _ _ hb, fun hl => by
      obtain ⟨g, _, step, _, -, -, -, hlog⟩ := pgdBody_ok _ _ _ _ _ _ _ _ _ _ _ hb
      exact logBlock_last (by simp [localsIter]) hl.1 hlog⟩) _ _ _ _ _ _ _ _ _ e1
  obtain ⟨p2, hle, heq⟩ := pgdLoop_rel o R x0 (fun a b => LogExtends a.2 b.2) (fun a => refl _) (fun a b c => trans _ _ _) (hext strict) _ _ _ _ _ _ _ _ _ e2
  obtain ⟨good1, keys1, -⟩ := p1.1 good0
  obtain ⟨good2, keys2, pre⟩ := p2 good1
  have last1 : LastLogged (x1, M1) := p1.2 (logBlock_last (by simp [localsInit]) (Logger.good_init keys hk) h0)
  obtain ⟨A1, a1, a2, -, a4⟩ := good1.add "converged" (.atom (.bool (decide ((k1 : ℤ) < loose.maxIter))))
  obtain ⟨B1, b1, -, -, b4⟩ := a2.add "iteration" (.atom (.int k1))
  have other1 : ∀ key, key ≠ "iteration" → key ≠ "converged" → B1.get key = M1.get key := fun key h5 h6 => by simp [Logger.get, b4, a4, h5, h6]
  have other2 : ∀ key, key ≠ "iteration" → key ≠ "converged" → L2.get key = M2.get key := fun key h5 h6 => by
    rw [(Logger.add_get h3).2 _ h5, (Logger.add_get h2).2 _ h6]
  refine ⟨x1, B1, s1, k1, k2, ?_, by simp [Logger.get, b4], (Logger.add_get h3).1, hle, fun e => (heq e).1, fun key hkey h5 h6 => ?_, fun l hl => ?_, fun Q q1 q2 q3 => ?_⟩
  · unfold pgdOptimize
    exact bind_ok.2 ⟨L0, s0, h0, bind_ok.2 ⟨_, s1, e1, bind_ok.2 ⟨A1, s1, by simp only [a1]; rfl, bind_ok.2 ⟨B1, s1, by simp only [b1]; rfl, rfl⟩⟩⟩⟩
  · obtain ⟨-, -, pre0⟩ := (trans _ _ _ (logBlock_extends h0) p1.1) (Logger.good_init keys hk)
    obtain ⟨l, hl⟩ := pre0 key [] (by simp [Logger.init, hkey])
    rw [List.nil_append] at hl
    obtain ⟨l', hl'⟩ := pre key l hl
    refine ⟨l, l', ?_, ?_⟩
    · rw [other1 key h5 h6, Logger.get, show M1.dict key = _ from hl]
    · rw [other2 key h5 h6, Logger.get, show M2.dict key = _ from hl']
  · rw [other1 "x" (by decide) (by decide)] at hl
    refine last1.2 l ?_
    unfold Logger.get at hl
    cases hd : M1.dict "x" with
    | none => rw [hd] at hl; cases hl
    | some v => rw [hd] at hl; cases hl; rfl
  · exact (pgdLoop_rel o R x0 (fun a b => Q a.1 b.1) (fun a => q1 _) (fun a b c => q2 _ _ _) (fun x it L s x' L' s' hb => q3 _ _ _ _ _ _ _ hb) _ _ _ _ _ _ _ _ _ e2).1

end Verif
