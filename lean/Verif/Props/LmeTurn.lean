import Verif.Props.LmeReorder
import Verif.Props.LinColumns

/-!
# Mixed models and the order and signs of the covariates: evaluations of the oracle

Reordering the fixed and the random effects, changing their signs and the sign of the target turns every evaluation of the oracles accordingly.
-/

namespace Verif

open Matrix

section general
variable {ι ι' κ κ' μ μ' : Type*}

/-- The vector with its entries moved and multiplied by signs. -/
def sVec (t : ι' → ℝ) (e : ι' ≃ ι) (v : ι → ℝ) : ι' → ℝ := fun i => t i * v (e i)

/-- The matrix with its rows and columns moved and multiplied by signs. -/
def sMat (t : ι' → ℝ) (e : ι' ≃ ι) (r : κ' → ℝ) (f : κ' ≃ κ) (A : Matrix ι κ ℝ) : Matrix ι' κ' ℝ := of fun i j => t i * r j * A (e i) (f j)

variable {t : ι' → ℝ} {e : ι' ≃ ι} {r : κ' → ℝ} {f : κ' ≃ κ} {u : μ' → ℝ} {g : μ' ≃ μ}

theorem sVec_add (v w : ι → ℝ) : sVec t e (v + w) = sVec t e v + sVec t e w := by funext i; simp [sVec, mul_add]

theorem sVec_sub (v w : ι → ℝ) : sVec t e (v - w) = sVec t e v - sVec t e w := by funext i; simp [sVec, mul_sub]

theorem sVec_neg (v : ι → ℝ) : sVec t e (-v) = -sVec t e v := by funext i; simp [sVec]

theorem sVec_smul (a : ℝ) (v : ι → ℝ) : sVec t e (a • v) = a • sVec t e v := by funext i; simp [sVec, mul_left_comm]

theorem sVec_zero : sVec t e (0 : ι → ℝ) = 0 := by funext i; simp [sVec]

theorem sMat_add (A B : Matrix ι κ ℝ) : sMat t e r f (A + B) = sMat t e r f A + sMat t e r f B := by ext i j; simp [sMat, mul_add]

theorem sMat_neg (A : Matrix ι κ ℝ) : sMat t e r f (-A) = -sMat t e r f A := by ext i j; simp [sMat]

theorem sMat_smul (a : ℝ) (A : Matrix ι κ ℝ) : sMat t e r f (a • A) = a • sMat t e r f A := by ext i j; simp [sMat, mul_left_comm]

theorem sMat_zero : sMat t e r f (0 : Matrix ι κ ℝ) = 0 := by ext i j; simp [sMat]

theorem sMat_transpose (A : Matrix ι κ ℝ) : (sMat t e r f A)ᵀ = sMat r f t e Aᵀ := by ext i j; simp [sMat, mul_comm (t j)]

theorem sMat_mul [Fintype κ] [Fintype κ'] (hr : ∀ j, r j * r j = 1) (A : Matrix ι κ ℝ) (B : Matrix κ μ ℝ) :
    sMat t e r f A * sMat r f u g B = sMat t e u g (A * B) := by
  ext i k
  simp only [sMat, Matrix.mul_apply, of_apply, Finset.mul_sum]
  rw [← f.sum_comp fun j => t i * u k * (A (e i) j * B j (g k))]
  refine Finset.sum_congr rfl fun j _ => ?_
  linear_combination (t i * u k * A (e i) (f j) * B (f j) (g k)) * hr j

theorem sMat_mulVec [Fintype κ] [Fintype κ'] (hr : ∀ j, r j * r j = 1) (A : Matrix ι κ ℝ) (v : κ → ℝ) : sMat t e r f A *ᵥ sVec r f v = sVec t e (A *ᵥ v) := by
  funext i
  simp only [sMat, sVec, mulVec, dotProduct, of_apply, Finset.mul_sum]
  rw [← f.sum_comp fun j => t i * (A (e i) j * v j)]
  refine Finset.sum_congr rfl fun j _ => ?_
  linear_combination (t i * A (e i) (f j) * v (f j)) * hr j

theorem sVec_dot [Fintype ι] [Fintype ι'] (ht : ∀ i, t i * t i = 1) (v w : ι → ℝ) : sVec t e v ⬝ᵥ sVec t e w = v ⬝ᵥ w := by
  simp only [sVec, dotProduct]
  rw [← e.sum_comp fun j => v j * w j]
  refine Finset.sum_congr rfl fun j _ => ?_
  linear_combination (v (e j) * w (e j)) * ht j

theorem sVec_sq_sum [Fintype ι] [Fintype ι'] (ht : ∀ i, t i * t i = 1) (v : ι → ℝ) : ∑ i, sVec t e v i ^ 2 = ∑ i, v i ^ 2 := by
  have := sVec_dot (e := e) ht v v
  simpa only [dotProduct, ← pow_two] using this

theorem npNorm_sVec [Fintype ι] [Fintype ι'] (ht : ∀ i, t i * t i = 1) (v : ι → ℝ) : npNorm (sVec t e v) = npNorm v := by
  unfold npNorm
  rw [sVec_sq_sum ht]

theorem sMat_one [DecidableEq ι] [DecidableEq ι'] (ht : ∀ i, t i * t i = 1) : sMat t e t e (1 : Matrix ι ι ℝ) = 1 := by
  ext i j
  by_cases h : i = j
  · subst h; simp [sMat, ht]
  · simp [sMat, Matrix.one_apply, h]

theorem sMat_diagonal [DecidableEq ι] [DecidableEq ι'] (ht : ∀ i, t i * t i = 1) (d : ι → ℝ) : sMat t e t e (diagonal d) = diagonal (d ∘ e) := by
  ext i j
  by_cases h : i = j
  · subst h; simp [sMat, ht]
  · simp [sMat, Matrix.diagonal_apply, h]

theorem sMat_det [Fintype ι] [Fintype ι'] [DecidableEq ι] [DecidableEq ι'] (ht : ∀ i, t i * t i = 1) (A : Matrix ι ι ℝ) : (sMat t e t e A).det = A.det := by
  have h : sMat t e t e A = diagonal t * A.submatrix e e * diagonal t := by
    ext i j
    simp [sMat, Matrix.mul_diagonal, Matrix.diagonal_mul, mul_right_comm]
  rw [h, det_mul, det_mul, det_submatrix_equiv_self, det_diagonal, mul_right_comm, ← Finset.prod_mul_distrib]
  simp [ht]

theorem npSolve_sMat [Fintype ι] [Fintype ι'] [DecidableEq ι] [DecidableEq ι'] (ht : ∀ i, t i * t i = 1) (A : Matrix ι ι ℝ) (v : ι → ℝ) :
    npSolve (sMat t e t e A) (sVec t e v) = (npSolve A v).map (sVec t e) := by
  unfold npSolve
  rw [sMat_det ht]
  split_ifs with h
  · have hi : (sMat t e t e A)⁻¹ = sMat t e t e A⁻¹ := by
      refine inv_eq_left_inv ?_
      rw [sMat_mul ht, nonsing_inv_mul A h, sMat_one ht]
    rw [hi, sMat_mulVec ht]
    rfl
  · rfl

end general

/-- Reordering `σ`, `τ` of the fixed and the random effects, their signs `b`, `c` and the sign `s` of the target. -/
structure Turn (p q p' q' : ℕ) where
  σ : Fin p' ≃ Fin p
  τ : Fin q' ≃ Fin q
  b : Fin p' → ℝ
  c : Fin q' → ℝ
  s : ℝ
  hb : ∀ i, b i = 1 ∨ b i = -1
  hc : ∀ i, c i = 1 ∨ c i = -1
  hs : s = 1 ∨ s = -1

variable {p q p' q' : ℕ}

namespace Turn
variable (T : Turn p q p' q')

theorem bb (i : Fin p') : T.b i * T.b i = 1 := by rcases T.hb i with h | h <;> rw [h] <;> norm_num
theorem cc (i : Fin q') : T.c i * T.c i = 1 := by rcases T.hc i with h | h <;> rw [h] <;> norm_num
theorem ss : T.s * T.s = 1 := by rcases T.hs with h | h <;> rw [h] <;> norm_num

include T in
theorem dimP : p' = p := by simpa using Fintype.card_congr T.σ
include T in
theorem dimQ : q' = q := by simpa using Fintype.card_congr T.τ

/-- Fixed effects. -/
def beta : Vec ℝ p → Vec ℝ p' := sVec T.b T.σ

/-- Variances. -/
def gamma (g : Vec ℝ q) : Vec ℝ q' := fun j => g (T.τ j)

/-- Random effects. -/
def effects : Vec ℝ q → Vec ℝ q' := sVec T.c T.τ

/-- Vectors of fixed effects and variances. -/
def vec (x : Vec ℝ (p + q)) : Vec ℝ (p' + q') := joinX (T.beta (xBeta x)) (T.gamma (xGamma x))

/-- A group. -/
@[reducible] def group (g : LmeGroup p q) : LmeGroup p' q' where
  n := g.n
  x := sMat (fun _ => T.s) (Equiv.refl _) T.b T.σ g.x
  y := sVec (fun _ => T.s) (Equiv.refl _) g.y
  z := sMat (fun _ => T.s) (Equiv.refl _) T.c T.τ g.z
  l := g.l

/-- A group with its factors. -/
@[reducible] def fact (f : LmeFactored p q) : LmeFactored p' q' := ⟨T.group f.g, f.el, f.elInv⟩

theorem gamma_eq (g : Vec ℝ q) : T.gamma g = sVec (fun _ => 1) T.τ g := by funext j; simp [gamma, sVec]

/-- A square matrix over the observations is not changed by the sign of the target. -/
theorem rows {n : ℕ} (A : Matrix (Fin n) (Fin n) ℝ) : sMat (fun _ => T.s) (Equiv.refl _) (fun _ => T.s) (Equiv.refl _) A = A := by
  ext i j
  simp [sMat, T.ss]

theorem omega (g : LmeGroup p q) (gam : Vec ℝ q) : lmeOmega (T.group g) (T.gamma gam) = lmeOmega g gam := by
  unfold lmeOmega
  have hq : 0 < q' ↔ 0 < q := by rw [T.dimQ]
  simp only [hq]
  congr 1
  split_ifs
  · have hd : diagonal (T.gamma gam) = sMat T.c T.τ T.c T.τ (diagonal gam) := (sMat_diagonal T.cc gam).symm
    rw [hd, sMat_transpose, sMat_mul T.cc, sMat_mul T.cc, T.rows]
  · rfl

theorem factor (g : LmeGroup p q) (gam : Vec ℝ q) : lmeFactor (T.gamma gam) (T.group g) = (lmeFactor gam g).map T.fact := by
  unfold lmeFactor
  rw [T.omega]
  cases npCholesky (lmeOmega g gam) <;> rfl

theorem recalculate (D : List (LmeGroup p q)) (gam : Vec ℝ q) :
    lmeRecalculate (D.map T.group) (T.gamma gam) = (lmeRecalculate D gam).map (List.map T.fact) := by
  unfold lmeRecalculate
  induction D with
  | nil => rfl
  | cons g D ih =>
    rw [List.map_cons, List.mapM_cons, List.mapM_cons, T.factor, ih]
    cases lmeFactor gam g with
    | error e => rfl
    | ok f =>
      cases List.mapM (lmeFactor gam) D <;> rfl

/-! ## The summands -/

section terms
variable (bet : Vec ℝ p) (f : LmeFactored p q)

theorem mul_x {n m : ℕ} {r : Fin m → ℝ} {m' : ℕ} {e : Fin m ≃ Fin m'} (E : Matrix (Fin n) (Fin n) ℝ) (x : Matrix (Fin n) (Fin m') ℝ) :
    E * sMat (fun _ => T.s) (Equiv.refl _) r e x = sMat (fun _ => T.s) (Equiv.refl _) r e (E * x) := by
  conv_lhs => rw [← T.rows E]
  exact sMat_mul (fun _ => T.ss) E x

theorem mul_y {n : ℕ} (E : Matrix (Fin n) (Fin n) ℝ) (y : Vec ℝ n) :
    E *ᵥ sVec (fun _ => T.s) (Equiv.refl _) y = sVec (fun _ => T.s) (Equiv.refl _) (E *ᵥ y) := by
  conv_lhs => rw [← T.rows E]
  exact sMat_mulVec (fun _ => T.ss) E y

theorem xi (g : LmeGroup p q) : (T.group g).xi (T.beta bet) = sVec (fun _ => T.s) (Equiv.refl _) (g.xi bet) := by
  unfold LmeGroup.xi
  rw [sVec_sub]
  congr 1
  exact sMat_mulVec T.bb g.x bet

theorem lossTerm : Verif.lossTerm (T.beta bet) (T.fact f) = Verif.lossTerm bet f := by
  unfold Verif.lossTerm
  rw [T.xi, T.mul_y, sVec_sq_sum fun _ => T.ss]

theorem gradBetaTerm : Verif.gradBetaTerm (T.beta bet) (T.fact f) = T.beta (Verif.gradBetaTerm bet f) := by
  unfold Verif.gradBetaTerm
  rw [T.xi, T.mul_y, T.mul_x, sMat_transpose, sMat_mulVec fun _ => T.ss]
  exact (sVec_neg _).symm

theorem hessBetaTerm : Verif.hessBetaTerm (T.fact f) = sMat T.b T.σ T.b T.σ (Verif.hessBetaTerm f) := by
  unfold Verif.hessBetaTerm
  rw [T.mul_x, sMat_transpose, sMat_mul fun _ => T.ss]

theorem elZXi : Verif.elZXi (T.beta bet) (T.fact f) = T.effects (Verif.elZXi bet f) := by
  unfold Verif.elZXi
  rw [T.xi, T.mul_y, T.mul_x, sMat_transpose, sMat_mulVec fun _ => T.ss]
  rfl

theorem elZZ : Verif.elZZ (T.fact f) = sMat T.c T.τ T.c T.τ (Verif.elZZ f) := by
  unfold Verif.elZZ
  rw [T.mul_x, sMat_transpose, sMat_mul fun _ => T.ss]

theorem gradGammaTerm : Verif.gradGammaTerm (T.beta bet) (T.fact f) = T.gamma (Verif.gradGammaTerm bet f) := by
  have h := T.elZXi bet f
  unfold Verif.elZXi at h
  funext j
  unfold Verif.gradGammaTerm
  rw [h, T.mul_x]
  have hs : T.s ^ 2 = 1 := by rw [pow_two, T.ss]
  have hc : ∀ i, T.c i ^ 2 = 1 := fun i => by rw [pow_two, T.cc]
  simp only [gamma, effects, sVec, sMat, of_apply, mul_pow, hs, hc, one_mul, Equiv.refl_apply]

theorem hessGammaTerm (kind : HessKind) : Verif.hessGammaTerm kind (T.beta bet) (T.fact f) = sMat (fun _ => 1) T.τ (fun _ => 1) T.τ (Verif.hessGammaTerm kind bet f) := by
  unfold Verif.hessGammaTerm
  rw [T.elZXi, T.elZZ]
  ext i j
  have hi := T.cc i
  have hj := T.cc j
  cases kind
  · simp only [hadamard_apply, Matrix.smul_apply, vecMulVec_apply, effects, sVec, sMat, of_apply]
    simp only [nsmul_eq_mul, Nat.cast_ofNat]
    linear_combination (2 * Verif.elZXi bet f (T.τ i) * Verif.elZXi bet f (T.τ j) * Verif.elZZ f (T.τ i) (T.τ j)) * (hi * (T.c j * T.c j) + hj)
  · simp only [hadamard_apply, sMat, of_apply]
    linear_combination (Verif.elZZ f (T.τ i) (T.τ j) * Verif.elZZ f (T.τ i) (T.τ j)) * (hi * (T.c j * T.c j) + hj)
  · simp only [hadamard_apply, Matrix.add_apply, Matrix.neg_apply, Matrix.smul_apply, vecMulVec_apply, effects, sVec, sMat, of_apply]
    simp only [nsmul_eq_mul, Nat.cast_ofNat]
    linear_combination ((-Verif.elZZ f (T.τ i) (T.τ j) + 2 * Verif.elZXi bet f (T.τ i) * Verif.elZXi bet f (T.τ j)) * Verif.elZZ f (T.τ i) (T.τ j)) * (hi * (T.c j * T.c j) + hj)

theorem hessBetaGammaTerm : Verif.hessBetaGammaTerm (T.beta bet) (T.fact f) = sMat (fun _ => 1) T.τ T.b T.σ (Verif.hessBetaGammaTerm bet f) := by
  unfold Verif.hessBetaGammaTerm
  rw [T.elZXi, T.mul_x, T.mul_x, sMat_transpose, sMat_mul fun _ => T.ss]
  ext i j
  simp only [diagonal_mul, effects, sVec, sMat, of_apply]
  linear_combination (Verif.elZXi bet f (T.τ i) * T.b j * ((f.elInv * f.g.z)ᵀ * (f.elInv * f.g.x)) (T.τ i) (T.σ j)) * T.cc i

theorem tailTerm : Verif.tailTerm (T.fact f) = T.beta (Verif.tailTerm f) := by
  unfold Verif.tailTerm
  rw [T.mul_y, T.mul_x, sMat_transpose, sMat_mulVec fun _ => T.ss]
  rfl

end terms

/-! ## Evaluations of the oracle -/

theorem sum_terms {A B : Type*} [AddCommMonoid A] [AddCommMonoid B] {t : LmeFactored p q → A} {t' : LmeFactored p' q' → B} (φ : A → B) (h0 : φ 0 = 0)
    (ha : ∀ x y, φ (x + y) = φ x + φ y) (h : ∀ f, t' (T.fact f) = φ (t f)) (fs : List (LmeFactored p q)) : ((fs.map T.fact).map t').sum = φ (fs.map t).sum := by
  induction fs with
  | nil => exact h0.symm
  | cons f fs ih => simp only [List.map_cons, List.sum_cons, ih, h, ha]

theorem recalc {A B C C' : Type} {t : LmeFactored p q → A} {t' : LmeFactored p' q' → B} [AddCommMonoid A] [AddCommMonoid B] (φ : A → B) (h0 : φ 0 = 0)
    (ha : ∀ x y, φ (x + y) = φ x + φ y) (h : ∀ f, t' (T.fact f) = φ (t f)) (D : List (LmeGroup p q)) (gam : Vec ℝ q) (F : A → C) (F' : B → C') (Φ : C → C')
    (hF : ∀ x, F' (φ x) = Φ (F x)) :
    (lmeRecalculate (D.map T.group) (T.gamma gam) >>= fun fs => (pure (F' (fs.map t').sum) : Except PyErr C')) =
      (lmeRecalculate D gam >>= fun fs => (pure (F (fs.map t).sum) : Except PyErr C)).map Φ := by
  rw [T.recalculate]
  cases lmeRecalculate D gam with
  | error e => rfl
  | ok fs =>
    change Except.ok _ = Except.ok _
    rw [T.sum_terms φ h0 ha h, hF]

section oracle
variable (D : List (LmeGroup p q)) (bet : Vec ℝ p) (gam : Vec ℝ q)

theorem loss : lmeLoss (D.map T.group) .nonInformative (T.beta bet) (T.gamma gam) = lmeLoss D .nonInformative bet gam := by
  have := T.recalc (φ := fun x : ℝ => x) rfl (fun _ _ => rfl) (T.lossTerm bet) D gam (fun s => s + 0) (fun s => s + 0) id fun _ => rfl
  unfold lmeLoss
  refine this.trans ?_
  cases lmeRecalculate D gam <;> rfl

theorem gradientBeta : lmeGradientBeta (D.map T.group) .nonInformative (T.beta bet) (T.gamma gam) = (lmeGradientBeta D .nonInformative bet gam).map T.beta :=
  T.recalc (φ := T.beta) sVec_zero sVec_add (T.gradBetaTerm bet) D gam (fun s => s + 0) (fun s => s + 0) T.beta fun x => by rw [add_zero, add_zero]

theorem gradientGamma : lmeGradientGamma (D.map T.group) .nonInformative (T.beta bet) (T.gamma gam) = (lmeGradientGamma D .nonInformative bet gam).map T.gamma :=
  T.recalc (φ := T.gamma) rfl (fun _ _ => rfl) (T.gradGammaTerm bet) D gam (fun s => s + 0) (fun s => s + 0) T.gamma fun x => by rw [add_zero, add_zero]

theorem hessianBeta : lmeHessianBeta (D.map T.group) .nonInformative (T.gamma gam) = (lmeHessianBeta D .nonInformative gam).map (sMat T.b T.σ T.b T.σ) :=
  T.recalc (φ := sMat T.b T.σ T.b T.σ) sMat_zero sMat_add T.hessBetaTerm D gam (fun s => s + 0) (fun s => s + 0) _ fun x => by rw [add_zero, add_zero]

theorem hessianGamma (kind : HessKind) : lmeHessianGamma (D.map T.group) .nonInformative kind (T.beta bet) (T.gamma gam) =
    (lmeHessianGamma D .nonInformative kind bet gam).map (sMat (fun _ => 1) T.τ (fun _ => 1) T.τ) :=
  T.recalc (φ := sMat (fun _ => 1) T.τ (fun _ => 1) T.τ) sMat_zero sMat_add (fun f => T.hessGammaTerm bet f kind) D gam (fun s => (1 / 2 : ℝ) • s + 0) (fun s => (1 / 2 : ℝ) • s + 0) _
    fun x => by rw [add_zero, add_zero, sMat_smul]

theorem hessianBetaGamma : lmeHessianBetaGamma (D.map T.group) .nonInformative (T.beta bet) (T.gamma gam) =
    (lmeHessianBetaGamma D .nonInformative bet gam).map (sMat T.b T.σ (fun _ => 1) T.τ) :=
  T.recalc (φ := sMat (fun _ => 1) T.τ T.b T.σ) sMat_zero sMat_add (T.hessBetaGammaTerm bet) D gam (fun s => sᵀ + 0) (fun s => sᵀ + 0) _
    fun x => by rw [add_zero, add_zero, sMat_transpose]

theorem kernelTail : lmeKernelTail (D.map T.group) (T.gamma gam) = (lmeKernelTail D gam).map fun kt => (sMat T.b T.σ T.b T.σ kt.1, T.beta kt.2) := by
  unfold lmeKernelTail
  rw [T.recalculate]
  cases lmeRecalculate D gam with
  | error e => rfl
  | ok fs =>
    change Except.ok _ = Except.ok _
    rw [T.sum_terms _ sMat_zero sMat_add T.hessBetaTerm, T.sum_terms T.beta sVec_zero sVec_add T.tailTerm]

theorem optimalBeta : lmeOptimalBeta (D.map T.group) (T.gamma gam) = (lmeOptimalBeta D gam).map T.beta := by
  unfold lmeOptimalBeta
  rw [T.kernelTail]
  cases lmeKernelTail D gam with
  | error e => rfl
  | ok kt => exact npSolve_sMat T.bb kt.1 kt.2

theorem sr3OptimalBeta (S : Sr3Params) (tb : Vec ℝ p) : lmeSr3OptimalBeta (D.map T.group) S (T.gamma gam) (T.beta tb) = (lmeSr3OptimalBeta D S gam tb).map T.beta := by
  unfold lmeSr3OptimalBeta
  rw [T.kernelTail]
  cases lmeKernelTail D gam with
  | error e => rfl
  | ok kt =>
    refine Eq.trans ?_ (npSolve_sMat T.bb (S.lb • (1 : Matrix (Fin p) (Fin p) ℝ) + kt.1) (S.lb • tb + kt.2))
    rw [sMat_add, sMat_smul, sMat_one T.bb, sVec_add, sVec_smul]
    rfl

theorem npNorm_beta (x : Vec ℝ p) : npNorm (T.beta x) = npNorm x := npNorm_sVec T.bb x

theorem npNorm_gamma (x : Vec ℝ q) : npNorm (T.gamma x) = npNorm x := by
  rw [T.gamma_eq]
  exact npNorm_sVec (by norm_num) x

theorem gamma_dot (x y : Vec ℝ q) : T.gamma x ⬝ᵥ T.gamma y = x ⬝ᵥ y := by
  rw [T.gamma_eq, T.gamma_eq]
  exact sVec_dot (by norm_num) x y

theorem sr3Loss (S : Sr3Params) (tb : Vec ℝ p) (tg : Vec ℝ q) :
    lmeSr3Loss (D.map T.group) .nonInformative S (T.beta bet) (T.gamma gam) (T.beta tb) (T.gamma tg) = lmeSr3Loss D .nonInformative S bet gam tb tg := by
  unfold lmeSr3Loss
  rw [T.loss]
  have h1 : ∑ i, (T.beta bet i - T.beta tb i) ^ 2 = ∑ i, (bet i - tb i) ^ 2 := by
    have := sVec_sq_sum (e := T.σ) T.bb (bet - tb)
    rw [sVec_sub] at this
    exact this
  have h2 : ∑ i, (T.gamma gam i - T.gamma tg i) ^ 2 = ∑ i, (gam i - tg i) ^ 2 := T.τ.sum_comp fun i => (gam i - tg i) ^ 2
  rw [h1, h2]

end oracle

end Turn

end Verif
