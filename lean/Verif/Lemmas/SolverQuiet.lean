import Verif.Lemmas.Solver

/-!
# Runs of the solvers with and without logging
-/

namespace Verif

section
variable {K : Type} [Field K] [LinearOrder K] [IsStrictOrderedRing K] [FloorSemiring K] {σ : Type} {n : ℕ}

/-- Asking for values does not change the state of the oracle. -/
def Quiet (o : Oracle K n σ) : Prop := ∀ x s v s', o.value x s = .ok (v, s') → s' = s

/-- A logger without keys, as `Logger(())` makes it. -/
def noLog : Logger (PyVal K n) := Logger.init .tuple []

theorem call_state {α : Type} {e : Except PyErr α} {s s' : σ} {a : α} (h : callReg e s = .ok (a, s')) : e = .ok a ∧ s' = s := by
  unfold callReg at h
  cases e with
  | error e => cases h
  | ok b => cases h; exact ⟨rfl, rfl⟩

theorem lossAt_quiet {o : Oracle K n σ} (ho : Quiet o) {R : Regularizer K n} {x : Vec K n} {s s' : σ} {l : WithTop K}
    (h : lossAt o R x s = .ok (l, s')) : s' = s := by
  unfold lossAt at h
  obtain ⟨f, s1, h1, h⟩ := bind_ok.1 h
  obtain ⟨g, s2, h2, h⟩ := bind_ok.1 h
  cases h
  rw [(call_state h2).2, ho _ _ _ _ h1]

theorem logBlock_quiet {o : Oracle K n σ} (ho : Quiet o) {R : Regularizer K n} {L L' : Logger (PyVal K n)} {x : Vec K n}
    {vars : String → Option (PyVal K n)} {s s' : σ} (h : logBlock o R L x vars s = .ok (L', s')) : s' = s := by
  unfold logBlock at h
  obtain ⟨l, s1, h1, h⟩ := bind_ok.1 h
  have e1 : s1 = s := by
    split_ifs at h1
    · obtain ⟨v, s2, h2, h1⟩ := bind_ok.1 h1
      cases h1
      exact lossAt_quiet ho h2
    · cases h1
      rfl
  split_ifs at h
  · rw [(call_state h).2, e1]
  · cases h
    exact e1

theorem logBlock_noLog (o : Oracle K n σ) (R : Regularizer K n) (x : Vec K n) (vars : String → Option (PyVal K n)) (s : σ) :
    logBlock o R noLog x vars s = .ok (noLog, s) := by
  unfold logBlock noLog Logger.init
  simp only [List.not_mem_nil, if_false, List.length_nil, gt_iff_lt, lt_self_iff_false]
  rfl

theorem pgdBody_quiet {o : Oracle K n σ} (ho : Quiet o) {R : Regularizer K n} {cfg : PGDCfg K} {x0 x x' : Vec K n} {it : ℕ}
    {L L' : Logger (PyVal K n)} {s s' : σ} (h : pgdBody o R cfg x0 x it L s = .ok ((x', L'), s')) :
    pgdBody o R cfg x0 x it noLog s = .ok ((x', noLog), s') := by
  unfold pgdBody at h ⊢
  obtain ⟨g, s1, h1, h⟩ := bind_ok.1 h
  obtain ⟨st, s2, h2, h⟩ := bind_ok.1 h
  obtain ⟨y, s3, h3, h⟩ := bind_ok.1 h
  obtain ⟨L1, s4, h4, h⟩ := bind_ok.1 h
  cases h
  refine bind_ok.2 ⟨_, _, h1, bind_ok.2 ⟨_, _, h2, bind_ok.2 ⟨_, _, h3, bind_ok.2 ⟨_, _, logBlock_noLog .., ?_⟩⟩⟩⟩
  rw [logBlock_quiet ho h4]
  rfl

theorem pgdLoop_quiet {o : Oracle K n σ} (ho : Quiet o) (R : Regularizer K n) (cfg : PGDCfg K) (x0 x : Vec K n)
    (xprev : Option (Vec K n)) (it : ℕ) (L : Logger (PyVal K n)) (s : σ) (r : Vec K n × ℕ × Logger (PyVal K n)) (s' : σ)
    (h : pgdLoop o R cfg x0 x xprev it L s = .ok (r, s')) :
    pgdLoop o R cfg x0 x xprev it noLog s = .ok ((r.1, r.2.1, noLog), s') := by
  generalize hk : (cfg.maxIter - it).toNat = k
  induction k using Nat.strong_induction_on generalizing x xprev it L s with
  | _ k ih =>
    rw [pgdLoop.eq_def] at h ⊢
    split_ifs at h ⊢ with hc
    · obtain ⟨⟨x', L'⟩, s1, h1, h⟩ := bind_ok.1 h
      exact bind_ok.2 ⟨_, _, pgdBody_quiet ho h1, ih _ (by omega) x' (some x) (it + 1) L' s1 h rfl⟩
    · cases h
      rfl

/-- The logger without keys after a run. -/
def flagsOnly (conv : Bool) (it : ℕ) : Logger (PyVal K n) where
  kind := .tuple
  keys := ["converged", "iteration"]
  dict := fun k => if k = "iteration" then some (.atom (.int it)) else if k = "converged" then some (.atom (.bool conv)) else none

/-- The logger without keys after a run of `FakePGDSolver`. -/
def doneOnly : Logger (PyVal K n) where
  kind := .tuple
  keys := ["converged"]
  dict := Function.update (fun _ => none) "converged" (some (.atom (.bool true)))

theorem add_dict {V : Type} {L L' : Logger V} {k : String} {v : LVal V} (h : L.add k v = .ok L') : L'.dict = Function.update L.dict k (some v) := by
  unfold Logger.add at h
  simp only at h
  split_ifs at h
  · cases h; rfl
  · cases hk : L.kind <;> simp only [hk] at h <;> cases h
    rfl

/-- If a run of `PGDSolver` with logging returns, then the run without logging returns the same point, and the same
convergence flag and number of iterations. -/
theorem pgdOptimize_quiet {o : Oracle K n σ} (ho : Quiet o) {R : Regularizer K n} {cfg : PGDCfg K} {x0 x : Vec K n}
    {L L' : Logger (PyVal K n)} {s s' : σ} (h : pgdOptimize o R cfg x0 L s = .ok ((x, L'), s')) :
    ∃ conv it, pgdOptimize o R cfg x0 noLog s = .ok ((x, flagsOnly conv it), s') ∧
      L'.dict "converged" = some (.atom (.bool conv)) ∧ L'.dict "iteration" = some (.atom (.int it)) := by
  unfold pgdOptimize at h
  obtain ⟨L0, s1, h1, h⟩ := bind_ok.1 h
  obtain ⟨⟨x1, it, Ll⟩, s2, h2, h⟩ := bind_ok.1 h
  obtain ⟨L1, s3, h3, h⟩ := bind_ok.1 h
  obtain ⟨L2, s4, h4, h⟩ := bind_ok.1 h
  cases h
  rw [logBlock_quiet ho h1] at h2
  obtain ⟨e3, rfl⟩ := call_state h3
  obtain ⟨e4, rfl⟩ := call_state h4
  refine ⟨decide ((it : ℤ) < cfg.maxIter), it, ?_, ?_, ?_⟩
  · unfold pgdOptimize
    refine bind_ok.2 ⟨_, _, logBlock_noLog .., bind_ok.2 ⟨_, _, pgdLoop_quiet ho _ _ _ _ _ _ _ _ _ _ h2, ?_⟩⟩
    refine bind_ok.2 ⟨{ noLog with keys := ["converged"], dict := Function.update noLog.dict "converged" (some (.atom (.bool _))) }, _, rfl, ?_⟩
    refine bind_ok.2 ⟨flagsOnly _ it, _, ?_, rfl⟩
    have : Function.update (Function.update (noLog (K := K) (n := n)).dict "converged" (some (.atom (.bool (decide ((it : ℤ) < cfg.maxIter)))))) "iteration"
        (some (.atom (.int it))) = (flagsOnly (decide ((it : ℤ) < cfg.maxIter)) it).dict := by
      funext k
      simp only [Function.update_apply, flagsOnly, noLog, Logger.init, List.not_mem_nil, if_false]
    unfold flagsOnly at this ⊢
    simp only at this
    rw [← this]
    rfl
  · rw [add_dict e4, add_dict e3, Function.update_of_ne (by decide), Function.update_self]
  · rw [add_dict e4, Function.update_self]

/-- If a run of `FakePGDSolver` with logging returns, then the run without logging returns the same point, whatever
the oracle. -/
theorem fakeOptimize_quiet {o : Oracle K n σ} {opt : Vec K n → PyM σ (Vec K n)} {R : Regularizer K n} {x0 x : Vec K n}
    {L L' : Logger (PyVal K n)} {s s' : σ} (h : fakeOptimize o opt R x0 L s = .ok ((x, L'), s')) :
    ∃ s1 L1, fakeOptimize o opt R x0 noLog s = .ok ((x, L1), s1) ∧ L1.keys = ["converged"] ∧
      L1.dict "converged" = some (.atom (.bool true)) ∧ L'.dict "converged" = some (.atom (.bool true)) := by
  unfold fakeOptimize at h
  obtain ⟨x1, s1, h1, h⟩ := bind_ok.1 h
  obtain ⟨Ll, s2, h2, h⟩ := bind_ok.1 h
  obtain ⟨L2, s3, h3, h⟩ := bind_ok.1 h
  cases h
  obtain ⟨e3, rfl⟩ := call_state h3
  refine ⟨s1, doneOnly, ?_, rfl, rfl, ?_⟩
  · unfold fakeOptimize
    refine bind_ok.2 ⟨_, _, h1, bind_ok.2 ⟨noLog, s1, ?_, bind_ok.2 ⟨_, s1, rfl, rfl⟩⟩⟩
    rw [if_neg (show "loss" ∉ (noLog (K := K) (n := n)).keys from List.not_mem_nil)]
    rfl
  · rw [add_dict e3, Function.update_self]

end

end Verif
