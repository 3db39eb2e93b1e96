import Verif.Lemmas.SolverShift

/-!
# Runs of the solvers when a constant is added to the loss
-/

namespace Verif

/-- Logged losses are raised by `c`. -/
def raiseVal {n : ℕ} (c : ℝ) (k : String) : PyVal ℝ n → PyVal ℝ n
  | .num v => if k = "loss" then .num (v + (c : WithTop ℝ)) else .num v
  | v => v

section
variable {σ : Type} {n : ℕ}

/-- The second oracle has the same gradients as the first and values larger by `c`. -/
structure Raises (c : ℝ) (o o' : Oracle ℝ n σ) : Prop where
  value : ∀ x, Sim id (· + c) (o.value x) (o'.value x)
  grad : ∀ x, Sim id id (o.grad x) (o'.grad x)

namespace Raises
variable {c : ℝ} {o o' : Oracle ℝ n σ} (T : Raises c o o') (R : Regularizer ℝ n)
include T

theorem lineSearch (x d : Vec ℝ n) (step : ℝ) : Sim id id (lineSearch o R x d step) (lineSearch o' R x d step) := by
  generalize hk : ⌈step * 10 ^ 14⌉₊ = k
  induction k using Nat.strong_induction_on generalizing step with
  | _ k ih =>
    rw [Verif.lineSearch.eq_def o, Verif.lineSearch.eq_def o']
    split_ifs with h
    · refine Sim.bind (φ := id) (Sim.call (by cases R.prox (x + step • d) step <;> rfl)) fun z => Sim.bind (T.value z) fun fz => Sim.bind (T.value x) fun fx => ?_
      have ha : Accept (fz + c) (fx + c) x d z step ↔ Accept fz fx x d z step := by
        unfold Accept
        constructor <;> intro h <;> linarith
      simp only [id, ha]
      split_ifs with hc
      · exact Sim.pure (φ := id) step
      · exact ih _ (by rw [← hk]; exact halving_lt step h) _ rfl
    · exact Sim.pure (φ := id) step

theorem chooseStep (cfg : PGDCfg ℝ) (x d : Vec ℝ n) : Sim id id (chooseStep o R cfg x d) (chooseStep o' R cfg x d) := by
  unfold Verif.chooseStep
  split_ifs
  · exact T.lineSearch R x d _
  · exact Sim.pure (φ := id) _

theorem lossAt (x : Vec ℝ n) : Sim id (· + (c : WithTop ℝ)) (lossAt o R x) (lossAt o' R x) := by
  unfold Verif.lossAt
  refine Sim.bind (T.value x) fun v => Sim.bind (φ := id) (Sim.call ?_) fun w => ?_
  · cases R.value x <;> rfl
  · have : ((v + c : ℝ) : WithTop ℝ) + w = (v : WithTop ℝ) + w + (c : WithTop ℝ) := by
      rw [WithTop.coe_add]
      exact add_right_comm _ _ _
    rw [id, this]
    exact Sim.pure (φ := (· + (c : WithTop ℝ))) _

theorem logBlock (L : Logger (PyVal ℝ n)) (x : Vec ℝ n) (vars : String → Option (PyVal ℝ n)) (hv : ∀ k, (vars k).map (raiseVal c k) = vars k) :
    Sim id (Logger.mapKey (raiseVal c)) (logBlock o R L x vars) (logBlock o' R (L.mapKey (raiseVal c)) x vars) := by
  unfold Verif.logBlock
  refine Sim.bind (φ := Option.map (raiseVal c "loss")) ?_ fun loss => ?_
  · change Sim id _ (if "loss" ∈ L.keys then _ else _) (if "loss" ∈ L.keys then _ else _)
    split_ifs
    · exact Sim.bind (T.lossAt R x) fun l => Sim.pure (φ := Option.map (raiseVal c "loss")) (some (PyVal.num l))
    · exact Sim.pure (φ := Option.map (raiseVal c "loss")) none
  · change Sim id _ (if L.keys.length > 0 then _ else _) (if L.keys.length > 0 then _ else _)
    split_ifs
    · refine Sim.call ?_
      rw [← Logger.log_mapKey]
      congr 1
      funext k
      split_ifs with hk
      · rw [hk]
      · exact (hv k).symm
    · exact Sim.pure (φ := Logger.mapKey (raiseVal c)) L

omit T in
theorem localsInit (x0 : Vec ℝ n) (k : String) : (Verif.localsInit x0 k).map (raiseVal c k) = Verif.localsInit x0 k := by
  unfold Verif.localsInit
  split_ifs with h1 h2
  · rfl
  · subst h2
    rfl
  all_goals rfl

omit T in
theorem localsIter (x0 xprev d y x : Vec ℝ n) (step : ℝ) (iteration : ℕ) (k : String) :
    (Verif.localsIter x0 xprev d y x step iteration k).map (raiseVal c k) = Verif.localsIter x0 xprev d y x step iteration k := by
  unfold Verif.localsIter
  split_ifs with h1 h2 h3 h4 h5
  any_goals rfl
  · subst h3
    rfl
  all_goals exact localsInit x0 k

theorem body (cfg : PGDCfg ℝ) (x0 x : Vec ℝ n) (it : ℕ) (L : Logger (PyVal ℝ n)) :
    Sim id (fun r => (r.1, r.2.mapKey (raiseVal c))) (pgdBody o R cfg x0 x it L) (pgdBody o' R cfg x0 x it (L.mapKey (raiseVal c))) := by
  unfold pgdBody
  refine Sim.bind (T.grad x) fun d => ?_
  simp only
  refine Sim.bind (T.chooseStep R cfg x (-d)) fun step => ?_
  simp only [id]
  refine Sim.bind (φ := id) (Sim.call (by cases R.prox (x + step • -d) step <;> rfl)) fun x' => ?_
  exact Sim.bind (T.logBlock R L x' _ (localsIter _ _ _ _ _ _ _)) fun L' => Sim.pure (φ := fun r : Vec ℝ n × Logger (PyVal ℝ n) => (r.1, r.2.mapKey (raiseVal c))) (x', L')

theorem loop (cfg : PGDCfg ℝ) (x0 x : Vec ℝ n) (xprev : Option (Vec ℝ n)) (it : ℕ) (L : Logger (PyVal ℝ n)) :
    Sim id (fun r => (r.1, r.2.1, r.2.2.mapKey (raiseVal c))) (pgdLoop o R cfg x0 x xprev it L) (pgdLoop o' R cfg x0 x xprev it (L.mapKey (raiseVal c))) := by
  generalize hk : (cfg.maxIter - it).toNat = k
  induction k using Nat.strong_induction_on generalizing x xprev it L with
  | _ k ih =>
    rw [pgdLoop.eq_def o, pgdLoop.eq_def o']
    split_ifs with h
    · exact Sim.bind (T.body R cfg x0 x it L) fun r => ih _ (by omega) r.1 (some x) (it + 1) r.2 rfl
    · exact Sim.pure (φ := fun r : Vec ℝ n × ℕ × Logger (PyVal ℝ n) => (r.1, r.2.1, r.2.2.mapKey (raiseVal c))) (x, it, L)

/-- Runs of `PGDSolver` are the same, with the logged losses raised. -/
theorem pgdOptimize (cfg : PGDCfg ℝ) (x0 : Vec ℝ n) (L : Logger (PyVal ℝ n)) :
    Sim id (fun r => (r.1, r.2.mapKey (raiseVal c))) (pgdOptimize o R cfg x0 L) (pgdOptimize o' R cfg x0 (L.mapKey (raiseVal c))) := by
  unfold Verif.pgdOptimize
  refine Sim.bind (T.logBlock R L x0 _ (localsInit x0)) fun L0 => Sim.bind (T.loop R cfg x0 x0 none 0 L0) fun r => ?_
  refine Sim.bind (φ := Logger.mapKey (raiseVal c)) (Sim.call ?_) fun L1 => Sim.bind (φ := Logger.mapKey (raiseVal c)) (Sim.call ?_) fun L2 => ?_
  · rw [← Logger.add_mapKey]
    rfl
  · rw [← Logger.add_mapKey]
    rfl
  · exact Sim.pure (φ := fun r : Vec ℝ n × Logger (PyVal ℝ n) => (r.1, r.2.mapKey (raiseVal c))) (r.1, L2)

/-- Runs of `FakePGDSolver` are the same, with the logged losses raised. -/
theorem fakeOptimize {opt opt' : Vec ℝ n → PyM σ (Vec ℝ n)} (h : ∀ x, Sim id id (opt x) (opt' x)) (x0 : Vec ℝ n) (L : Logger (PyVal ℝ n)) :
    Sim id (fun r => (r.1, r.2.mapKey (raiseVal c))) (fakeOptimize o opt R x0 L) (fakeOptimize o' opt' R x0 (L.mapKey (raiseVal c))) := by
  unfold Verif.fakeOptimize
  refine Sim.bind (h x0) fun x => Sim.bind (φ := Logger.mapKey (raiseVal c)) ?_ fun L1 => Sim.bind (φ := Logger.mapKey (raiseVal c)) (Sim.call ?_) fun L2 => ?_
  · change Sim id _ (if "loss" ∈ L.keys then _ else _) (if "loss" ∈ L.keys then _ else _)
    split_ifs
    · refine Sim.bind (T.lossAt R x) fun l => Sim.call ?_
      rw [← Logger.add_mapKey]
      rfl
    · exact Sim.pure (φ := Logger.mapKey (raiseVal c)) L
  · rw [← Logger.add_mapKey]
    rfl
  · exact Sim.pure (φ := fun r : Vec ℝ n × Logger (PyVal ℝ n) => (r.1, r.2.mapKey (raiseVal c))) (x, L2)

end Raises
end

end Verif
