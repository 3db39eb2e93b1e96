import Verif.Spec.Solver
import Verif.Props.Logger

/-!
# Execution lemmas for the solver
-/

namespace Verif

variable {K : Type} [Field K] [LinearOrder K] {n : ℕ} {σ : Type} {α β : Type}

theorem bind_ok {m : PyM σ α} {f : α → PyM σ β} {s : σ} {r : β × σ} :
    (m >>= f) s = .ok r ↔ ∃ a s1, m s = .ok (a, s1) ∧ f a s1 = .ok r := by
  show (m s >>= fun p => f p.1 p.2) = _ ↔ _
  cases h : m s with
  | error e => simp [bind, Except.bind]
  | ok p => 
    obtain ⟨a, s1⟩ := p
    simp [bind, Except.bind]

theorem pure_ok {a b : α} {s s' : σ} : (pure a : PyM σ α) s = .ok (b, s') ↔ a = b ∧ s = s' := by
  show Except.ok (a, s) = _ ↔ _
  simp

theorem callReg_ok {r : Except PyErr α} {s s' : σ} {a : α} : callReg r s = .ok (a, s') ↔ r = .ok a ∧ s' = s := by
  unfold callReg
  cases r with
  | error e => simp [Except.map]
  | ok v => simp [Except.map, eq_comm]

omit [LinearOrder K] in
theorem move_eq (x g : Vec K n) (step : K) : x + step • (-g) = fun i => x i - step * g i := by
  funext i; simp [sub_eq_add_neg]

theorem accept_iff (f : Vec K n → K) (x d z : Vec K n) (step : K) :
    Accept (f z) (f x) x d z step ↔ SufficientDecrease f d step x z := by
  unfold Accept SufficientDecrease dot normSq
  simp only [Pi.sub_apply]
  rw [one_div, mul_comm (2 * step)⁻¹, ← div_eq_mul_inv]

section
variable [IsStrictOrderedRing K] [FloorSemiring K]

/-- Whatever the line search does, the step length it returns is the initial one divided by a power of two. -/
theorem lineSearch_pow (o : Oracle K n σ) (R : Regularizer K n) (x d : Vec K n) (step : K) (s s' : σ) (t : K)
    (h : lineSearch o R x d step s = .ok (t, s')) : ∃ j : ℕ, t = step / 2 ^ j := by
  induction step using lineSearch.induct (K := K) generalizing s with
  | case1 step hstep ih =>
    rw [lineSearch, dif_pos hstep] at h
    obtain ⟨z, s1, hz, h⟩ := bind_ok.1 h
    obtain ⟨fz, s2, hfz, h⟩ := bind_ok.1 h
    obtain ⟨fx, s3, hfx, h⟩ := bind_ok.1 h
    split_ifs at h with hacc
    · obtain ⟨rfl, _⟩ := pure_ok.1 h
      exact ⟨0, by simp⟩
    · obtain ⟨j, hj⟩ := ih _ h
      exact ⟨j + 1, by rw [hj, pow_succ]; field_simp⟩
  | case2 step hstep =>
    rw [lineSearch, dif_neg hstep] at h
    obtain ⟨rfl, _⟩ := pure_ok.1 h
    exact ⟨0, by simp⟩

theorem chooseStep_pos (o : Oracle K n σ) (R : Regularizer K n) (cfg : PGDCfg K) (x d : Vec K n) (s s' : σ) (t : K)
    (hpos : 0 < cfg.fixedStepLen) (h : chooseStep o R cfg x d s = .ok (t, s')) : 0 < t := by
  unfold chooseStep at h
  split_ifs at h
  · obtain ⟨j, rfl⟩ := lineSearch_pow o R x d _ s s' t h
    positivity
  · obtain ⟨rfl, _⟩ := pure_ok.1 h
    exact hpos

/-- What one pass through the loop body did. -/
theorem pgdBody_ok (o : Oracle K n σ) (R : Regularizer K n) (cfg : PGDCfg K) (x0 x : Vec K n) (it : ℕ) (L : Logger (PyVal K n))
    (s s' : σ) (x' : Vec K n) (L' : Logger (PyVal K n)) (h : pgdBody o R cfg x0 x it L s = .ok ((x', L'), s')) :
    ∃ g s1 step s2, o.grad x s = .ok (g, s1) ∧ chooseStep o R cfg x (-g) s1 = .ok (step, s2) ∧
      R.prox (fun i => x i - step * g i) step = .ok x' ∧
      logBlock o R L x' (localsIter x0 x (-g) (x + step • (-g)) x' step (it + 1)) s2 = .ok (L', s') := by
  unfold pgdBody at h
  obtain ⟨g, s1, hg, h⟩ := bind_ok.1 h
  obtain ⟨step, s2, hst, h⟩ := bind_ok.1 h
  obtain ⟨y, s3, hy, h⟩ := bind_ok.1 h
  obtain ⟨L1, s4, hL, h⟩ := bind_ok.1 h
  obtain ⟨he, rfl⟩ := pure_ok.1 h
  cases he
  obtain ⟨hy2, rfl⟩ := callReg_ok.1 hy
  refine ⟨g, s1, step, s3, hg, hst, ?_, hL⟩
  rw [← hy2, move_eq]

/-- The guard of the main loop after `i` passes, for the sequence of visited points `X`. -/
def guardAt (cfg : PGDCfg K) (X : ℕ → Vec K n) (it i : ℕ) (xprev : Option (Vec K n)) : Prop :=
  farApart cfg.tol (match i with | 0 => xprev | j + 1 => some (X j)) (X i) ∧ ((it + i : ℕ) : ℤ) < cfg.maxIter

/-- The main loop as a sequence of points. `P x L x' L'` is any relation established by the body. -/
theorem pgdLoop_trace (o : Oracle K n σ) (R : Regularizer K n) (cfg : PGDCfg K) (x0 : Vec K n)
    (P : Vec K n → Logger (PyVal K n) → Vec K n → Logger (PyVal K n) → Prop)
    (hP : ∀ x it L s x' L' s', pgdBody o R cfg x0 x it L s = .ok ((x', L'), s') → P x L x' L')
    (x : Vec K n) (xprev : Option (Vec K n)) (it : ℕ) (L : Logger (PyVal K n)) (s s' : σ) (xf : Vec K n) (itf : ℕ)
    (Lf : Logger (PyVal K n)) (h : pgdLoop o R cfg x0 x xprev it L s = .ok ((xf, itf, Lf), s')) :
    ∃ (k : ℕ) (X : ℕ → Vec K n) (Ls : ℕ → Logger (PyVal K n)), X 0 = x ∧ Ls 0 = L ∧ X k = xf ∧ Ls k = Lf ∧ itf = it + k ∧
      (∀ i < k, P (X i) (Ls i) (X (i + 1)) (Ls (i + 1))) ∧ (∀ i < k, guardAt cfg X it i xprev) ∧ ¬ guardAt cfg X it k xprev := by
  induction x, xprev, it, L using pgdLoop.induct (cfg := cfg) generalizing s with
  | case1 x xprev it L hg ih =>
    rw [pgdLoop, dif_pos hg] at h
    obtain ⟨⟨x', L'⟩, s1, hb, h⟩ := bind_ok.1 h
    obtain ⟨k, X, Ls, h0, hl0, hk, hlk, hit, hsteps, hguards, hend⟩ := ih (x', L') s1 h
    refine ⟨k + 1, fun i => match i with | 0 => x | j + 1 => X j, fun i => match i with | 0 => L | j + 1 => Ls j, rfl, rfl, hk, hlk,
      by omega, ?_, ?_, ?_⟩
    · intro i hi
      cases i with
      | zero => simp only [h0, hl0]; exact hP _ _ _ _ _ _ _ hb
      | succ i => exact hsteps i (by omega)
    · intro i hi
      cases i with
      | zero => exact hg
      | succ i =>
        have := hguards i (by omega)
        unfold guardAt at this ⊢
        refine ⟨?_, by push_cast at this ⊢; omega⟩
        cases i with
        | zero => exact this.1
        | succ i => exact this.1
    · intro hcon
      apply hend
      unfold guardAt at hcon ⊢
      refine ⟨?_, by push_cast at hcon ⊢; omega⟩
      cases k with
      | zero => exact hcon.1
      | succ i => exact hcon.1
  | case2 x xprev it L hg =>
    rw [pgdLoop, dif_neg hg] at h
    obtain ⟨he, rfl⟩ := pure_ok.1 h
    cases he
    exact ⟨0, fun _ => xf, fun _ => Lf, rfl, rfl, rfl, rfl, rfl, by simp, by simp, fun hc => hg hc⟩

/-- `PGDSolver.optimize` as a sequence of points. -/
theorem pgdOptimize_trace (o : Oracle K n σ) (R : Regularizer K n) (cfg : PGDCfg K) (x0 : Vec K n) (L : Logger (PyVal K n))
    (P : Vec K n → Logger (PyVal K n) → Vec K n → Logger (PyVal K n) → Prop)
    (hP : ∀ x it L s x' L' s', pgdBody o R cfg x0 x it L s = .ok ((x', L'), s') → P x L x' L')
    (s s' : σ) (xf : Vec K n) (Lf : Logger (PyVal K n)) (h : pgdOptimize o R cfg x0 L s = .ok ((xf, Lf), s')) :
    ∃ (k : ℕ) (X : ℕ → Vec K n) (Ls : ℕ → Logger (PyVal K n)) (s1 : σ) (L1 : Logger (PyVal K n)),
      logBlock o R L x0 (localsInit x0) s = .ok (Ls 0, s1) ∧ X 0 = x0 ∧ X k = xf ∧
      (Ls k).add "converged" (.atom (.bool (decide ((k : ℤ) < cfg.maxIter)))) = .ok L1 ∧
      L1.add "iteration" (.atom (.int k)) = .ok Lf ∧
      (∀ i < k, P (X i) (Ls i) (X (i + 1)) (Ls (i + 1))) ∧ (∀ i < k, guardAt cfg X 0 i none) ∧ ¬ guardAt cfg X 0 k none := by
  unfold pgdOptimize at h
  obtain ⟨L0, s1, hL0, h⟩ := bind_ok.1 h
  obtain ⟨⟨xr, itr, Lr⟩, s2, hloop, h⟩ := bind_ok.1 h
  obtain ⟨L1, s3, hL1, h⟩ := bind_ok.1 h
  obtain ⟨L2, s4, hL2, h⟩ := bind_ok.1 h
  obtain ⟨he, rfl⟩ := pure_ok.1 h
  cases he
  obtain ⟨k, X, Ls, h0, hl0, hk, hlk, hit, hsteps, hguards, hend⟩ := pgdLoop_trace o R cfg x0 P hP _ _ _ _ _ _ _ _ _ hloop
  rw [Nat.zero_add] at hit
  subst hit
  refine ⟨itr, X, Ls, s1, L1, by rw [hl0]; exact hL0, h0, hk, ?_, ?_, hsteps, hguards, hend⟩
  · rw [hlk]; exact (callReg_ok.1 hL1).1
  · exact (callReg_ok.1 hL2).1

end

/-- `Logger.add` makes the value readable, and leaves other keys alone. -/
theorem Logger.add_get {V : Type*} {L L' : Logger V} {key : String} {value : LVal V} (h : L.add key value = .ok L') :
    L'.get key = .ok value ∧ ∀ k, k ≠ key → L'.get k = L.get k := by
  have hd : L'.dict = Function.update L.dict key (some value) := by
    unfold Logger.add at h
    dsimp only at h
    split_ifs at h
    · cases h; rfl
    · split at h
      · cases h; rfl
      · cases h
  refine ⟨by simp [Logger.get, hd], fun k hk => by simp [Logger.get, hd, Function.update, hk]⟩

end Verif
