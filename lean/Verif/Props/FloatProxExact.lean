import Verif.Props.FloatProx
import Verif.Props.FloatExact

/-!
# The proximal operators in floating point, with exact arithmetic, are those of the exact model (C131)
-/

namespace Verif

/-- The regularizers of `FlReg` with real parameters. -/
inductive ExReg (n : ℕ) where
  | dummy
  | l0 (as : ArgSort (Fin n) ℝ) (nnz : Option ℤ)
  | l1 (lam : ℝ) (weights : Option (Vec ℝ n))
  | cad (rho lam : ℝ) (weights : Option (Vec ℝ n))
  | positive (pos : Fin n → Bool) (other : ExReg n)
  | elastic (eps : ℝ) (other : ExReg n)

namespace ExReg

variable {n : ℕ}

/-- The number in a finite float. -/
def toReal : Flt → ℝ
  | .fin r => r
  | _ => 0

/-- In the float model. -/
def toFl : ExReg n → FlReg n
  | dummy => .dummy
  | l0 as nnz => .l0 (fun v => (as.perm fun j => |toReal (v j)|).symm.trans (finCongr (Fintype.card_fin n))) nnz
  | l1 lam w => .l1 (.fin lam) (w.map liftV)
  | cad rho lam w => .cad (.fin rho) (.fin lam) (w.map liftV)
  | positive pos r => .positive pos r.toFl
  | elastic eps r => .elastic (.fin eps) r.toFl

/-- In the exact model. -/
noncomputable def exact : ExReg n → Regularizer ℝ n
  | dummy => dummyRegularizer
  | l0 as nnz => l0Regularizer nnz as none
  | l1 lam w => l1Regularizer lam w
  | cad rho lam w => cadRegularizer rho lam w
  | positive pos r => positiveQuadrant pos (some r.exact)
  | elastic eps r => Verif.elastic eps (some r.exact)

/-- The elastic parameters are not negative. -/
def Ok : ExReg n → Prop
  | positive _ r => r.Ok
  | elastic eps r => 0 ≤ eps ∧ r.Ok
  | _ => True

end ExReg

theorem exact_soft (t x : ℝ) : flSoft exactArith (.fin t) (.fin x) = .fin (soft t x) := by
  have h1 : exactArith.sub (.fin x) (.fin t) = .fin (x - t) := (exact_ofReal _).trans (by rw [sub_eq_add_neg])
  have h2 : exactArith.sub (Flt.fin x).neg (.fin t) = .fin (-x - t) := (exact_ofReal _).trans (by rw [sub_eq_add_neg])
  unfold flSoft
  rw [h1, h2]
  exact (exact_ofReal _).trans (by rw [← sub_eq_add_neg]; rfl)

theorem exact_mul (a b : ℝ) : exactArith.mul (.fin a) (.fin b) = .fin (a * b) := exact_ofReal _

theorem exact_div {a b : ℝ} (hb : b ≠ 0) : exactArith.div (.fin a) (.fin b) = .fin (a / b) := by
  show (if b = 0 then _ else _) = _
  rw [if_neg hb]
  exact exact_ofReal _

/-- **C131 (the float operators against the exact ones).** With exact arithmetic the float proximal operators are those of the exact model, for every penalty inside any number of wrappers. -/
theorem C131_exact {n : ℕ} (T : ExReg n) (hT : T.Ok) (x : Vec ℝ n) (alpha : ℝ) (ha : 0 ≤ alpha) :
    ∃ y, T.exact.prox x alpha = .ok y ∧ T.toFl.prox exactArith (liftV x) (.fin alpha) = liftV y := by
  induction T generalizing x alpha with
  | dummy => exact ⟨x, rfl, rfl⟩
  | l0 as nnz =>
    refine ⟨_, rfl, ?_⟩
    have key : ∀ k : ℤ, flKMax (fun v : Vec Flt n => (as.perm fun j => |ExReg.toReal (v j)|).symm.trans (finCongr (Fintype.card_fin n))) (liftV x) k = liftV (takeOnlyKMax as x k) := by
      intro k
      funext i
      unfold flKMax takeOnlyKMax liftV
      by_cases hk : 0 < k
      · simp only [hk, true_and, if_true, Fintype.card_fin]
        show (if _ then Flt.fin (x i) else Flt.fin 0) = _
        rw [← apply_ite Flt.fin]
        rfl
      · simp only [hk, false_and, if_false]
        rfl
    cases nnz with
    | none => exact key n
    | some k => exact key k
  | l1 lam w =>
    cases w with
    | none =>
      refine ⟨_, rfl, funext fun i => ?_⟩
      show flSoft exactArith (exactArith.mul (.fin alpha) (.fin lam)) (.fin (x i)) = _
      rw [exact_mul, exact_soft]
      rfl
    | some w =>
      refine ⟨_, rfl, funext fun i => ?_⟩
      show flSoft exactArith (exactArith.mul (exactArith.mul (.fin alpha) (.fin (w i))) (.fin lam)) (.fin (x i)) = _
      rw [exact_mul, exact_mul, exact_soft]
      rfl
  | cad rho lam w =>
    cases w with
    | none =>
      refine ⟨_, rfl, funext fun i => ?_⟩
      show (if |x i| ≤ rho then flSoft exactArith (exactArith.mul (.fin alpha) (.fin lam)) (.fin (x i)) else .fin (x i)) = Flt.fin (if |x i| ≤ rho then _ else _)
      rw [exact_mul, exact_soft, apply_ite Flt.fin]
    | some w =>
      refine ⟨_, rfl, funext fun i => ?_⟩
      show (if |x i| ≤ rho ∧ 0 < w i then flSoft exactArith (exactArith.mul (exactArith.mul (.fin (w i)) (.fin alpha)) (.fin lam)) (.fin (x i)) else .fin (x i)) =
        Flt.fin (if |x i| ≤ rho ∧ 0 < w i then _ else _)
      rw [exact_mul, exact_mul, exact_soft, apply_ite Flt.fin]
  | positive pos r ih =>
    obtain ⟨y, h1, h2⟩ := ih hT (fun i => if pos i = true then clip0 (x i) else x i) alpha ha
    refine ⟨y, h1, ?_⟩
    rw [← h2]
    show r.toFl.prox exactArith _ _ = _
    refine congrArg (fun v => r.toFl.prox exactArith v (.fin alpha)) (funext fun i => ?_)
    show (if pos i = true then Flt.fin (max (x i) 0) else Flt.fin (x i)) = Flt.fin (if pos i = true then max (x i) 0 else x i)
    rw [apply_ite Flt.fin]
  | elastic eps r ih =>
    have hden : 0 < 1 + alpha * eps := by
      have := mul_nonneg ha hT.1
      linarith
    obtain ⟨y, h1, h2⟩ := ih hT.2 (fun i => x i / (1 + alpha * eps)) (alpha / (1 + alpha * eps)) (div_nonneg ha hden.le)
    refine ⟨y, h1, ?_⟩
    rw [← h2]
    have e : exactArith.add 1 (exactArith.mul (.fin alpha) (.fin eps)) = .fin (1 + alpha * eps) := by
      rw [exact_mul]
      exact exact_ofReal _
    show r.toFl.prox exactArith (fun i => exactArith.div (.fin (x i)) (exactArith.add 1 (exactArith.mul (.fin alpha) (.fin eps))))
      (exactArith.div (.fin alpha) (exactArith.add 1 (exactArith.mul (.fin alpha) (.fin eps)))) = _
    rw [e, exact_div hden.ne']
    refine congrArg (fun v => r.toFl.prox exactArith v _) (funext fun i => ?_)
    exact exact_div hden.ne'

/-- The operator of the mixed models with an L1 penalty and an elastic term, on numbers. -/
example : ((ExReg.positive (fun i => i = 1) (.elastic 1 (.l1 1 none)) : ExReg 2).toFl.prox exactArith (liftV ![4, -3]) (.fin 1)) = liftV ![3 / 2, 0] := by
  obtain ⟨y, h1, h2⟩ := C131_exact (.positive (fun i => i = 1) (.elastic 1 (.l1 1 none)) : ExReg 2) ⟨zero_le_one, trivial⟩ ![4, -3] 1 zero_le_one
  rw [h2]
  cases h1
  funext i
  fin_cases i <;> norm_num [liftV, soft, clip0]

end Verif
