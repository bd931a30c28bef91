import Verif.Lemmas.Proposals
import Mathlib.Probability.Distributions.Gaussian.Real
import Mathlib.MeasureTheory.Integral.Bochner.Basic

/-!
# Properties C41 to C45 and C77: proposals
-/

namespace Verif.Props

open Verif Verif.Spec Matrix MeasureTheory

variable {n m : ℕ}

/-! ## C41 -/

/-- C41: for every linear Gaussian model with positive scales, the importance log-weight is the log predictive
density of the observation given the previous state, whatever value was sampled; equivalently the kernel
is the conditional density (joint divided by predictive). The covariance matrix handed to the Cholesky
factorisation is positive definite. -/
theorem C41_weight_is_predictive (L : LinearModel n m) (hiddenIs1d : Bool) (hn : hiddenIs1d = true → n = 1)
    (y : Fin m → ℝ) (x x' : Fin n → ℝ) (hs : ∀ j, 0 < L.s j) (hg : ∀ e, 0 < (L.meanScale x).2 e) :
    L.linearWeight hiddenIs1d y x x' = logPredictive (L.meanScale x).1 (L.meanScale x).2 L.a L.b L.s y ∧
    L.kernelLogProb hiddenIs1d y x x' = L.obsLogProb x' y + L.transLogProb x x' -
      logPredictive (L.meanScale x).1 (L.meanScale x).2 L.a L.b L.s y ∧
    (optimalCov (fun e => ((L.meanScale x).2 e ^ 2)⁻¹) (fun j => (L.s j ^ 2)⁻¹) L.a).PosDef := by
  set μ := (L.meanScale x).1 with hμ
  set σ := (L.meanScale x).2 with hσ
  have hh : ∀ e, 0 < (σ e ^ 2)⁻¹ := fun e => by have := hg e; positivity
  have ho : ∀ j, 0 < (L.s j ^ 2)⁻¹ := fun j => by have := hs j; positivity
  have hcov : optimalCov (fun e => (σ e ^ 2)⁻¹) (fun j => (L.s j ^ 2)⁻¹) L.a
      = (precision L.a (fun e => (σ e ^ 2)⁻¹) (fun j => (L.s j ^ 2)⁻¹))⁻¹ := optimalCov_eq _ _ _
  have hpd : (optimalCov (fun e => (σ e ^ 2)⁻¹) (fun j => (L.s j ^ 2)⁻¹) L.a).PosDef := by
    rw [hcov]; exact (precision_posDef L.a hh ho).inv
  have hk : L.kernelLogProb hiddenIs1d y x x' = logNormalVec
      (optimalMean (y - L.b) μ (fun e => (σ e ^ 2)⁻¹) (fun j => (L.s j ^ 2)⁻¹) L.a)
      (optimalCov (fun e => (σ e ^ 2)⁻¹) (fun j => (L.s j ^ 2)⁻¹) L.a) x' := by
    show (if hiddenIs1d then _ else _) = _
    split
    · next h => exact logNormalVec_one (hn h) _ _ hpd x'
    · exact mvnLogProb_eq _ _ _
  have hb := bayes_linear L.a hh ho μ x' (y - L.b)
  have hobs : L.obsLogProb x' y = ∑ j, logNormal ((L.a *ᵥ x') j) ((fun j => (L.s j ^ 2)⁻¹) j)⁻¹ ((y - L.b) j) := by
    unfold LinearModel.obsLogProb
    refine Finset.sum_congr rfl fun j _ => ?_
    rw [normalLogProb_eq (hs j), logNormal_shift, inv_inv]
    rfl
  have htr : L.transLogProb x x' = ∑ e, logNormal (μ e) ((fun e => (σ e ^ 2)⁻¹) e)⁻¹ (x' e) := by
    unfold LinearModel.transLogProb
    refine Finset.sum_congr rfl fun e _ => ?_
    rw [normalLogProb_eq (hg e), inv_inv]
  have hpred : logPredictive μ σ L.a L.b L.s y = logNormalVec (L.a *ᵥ μ)
      (predCov L.a (fun e => (σ e ^ 2)⁻¹) (fun j => (L.s j ^ 2)⁻¹)) (y - L.b) := by
    unfold logPredictive predCov
    rw [logNormalVec_shift]
    simp only [inv_inv]
  have hmain : L.kernelLogProb hiddenIs1d y x x' + logPredictive μ σ L.a L.b L.s y =
      L.obsLogProb x' y + L.transLogProb x x' := by
    rw [hk, hpred, hobs, htr, optimalMean_eq, hcov]
    exact hb
  refine ⟨?_, ?_, hpd⟩
  · unfold LinearModel.linearWeight
    linarith
  · linarith

/-- A model with two latent components and one observation: `x₁' = x₁/2 + u₁`, `x₂' = x₁ + 2u₂`,
`y = 1 + x₁' - x₂' + v/3`. -/
noncomputable def lagModel : LinearModel 2 1 where
  meanScale x := (![x 0 / 2, x 0], ![1, 2])
  a := !![1, -1]
  b := ![1]
  s := ![1 / 3]

example (x : Fin 2 → ℝ) : (∀ j, 0 < lagModel.s j) ∧ (∀ e, 0 < (lagModel.meanScale x).2 e) := by
  constructor
  · intro j; fin_cases j; simp [lagModel]
  · intro e; fin_cases e <;> simp [lagModel]

/-- The weight is the same for all sampled values. -/
theorem C41_weight_constant (L : LinearModel n m) (hiddenIs1d : Bool) (hn : hiddenIs1d = true → n = 1)
    (y : Fin m → ℝ) (x x' x'' : Fin n → ℝ) (hs : ∀ j, 0 < L.s j) (hg : ∀ e, 0 < (L.meanScale x).2 e) :
    L.linearWeight hiddenIs1d y x x' = L.linearWeight hiddenIs1d y x x'' := by
  rw [(C41_weight_is_predictive L hiddenIs1d hn y x x' hs hg).1,
    (C41_weight_is_predictive L hiddenIs1d hn y x x'' hs hg).1]

theorem exp_normalLogProb {loc scale : ℝ} (h : 0 < scale) (x : ℝ) :
    Real.exp (normalLogProb loc scale x) =
      ProbabilityTheory.gaussianPDFReal loc (Real.toNNReal (scale ^ 2)) x := by
  rw [normalLogProb_eq h]
  unfold logNormal ProbabilityTheory.gaussianPDFReal
  have hpos : 0 < 2 * Real.pi * scale ^ 2 := by positivity
  rw [Real.coe_toNNReal _ (by positivity), sub_eq_add_neg, Real.exp_add, mul_comm]
  congr 1
  rw [Real.exp_neg]
  congr 1
  rw [Real.sqrt_eq_rpow, Real.rpow_def_of_pos hpos]
  congr 1
  ring

/-- For a scalar latent state the weight is the logarithm of the integral of the joint density over all next
states, that is of the density of the observation given the previous state. -/
theorem C41_weight_is_marginal (L : LinearModel 1 m) (y : Fin m → ℝ) (x x' : Fin 1 → ℝ)
    (hs : ∀ j, 0 < L.s j) (hg : ∀ e, 0 < (L.meanScale x).2 e) :
    Real.exp (L.linearWeight true y x x') =
      ∫ u : ℝ, Real.exp (L.obsLogProb (fun _ => u) y + L.transLogProb x (fun _ => u)) := by
  have h := fun u => C41_weight_is_predictive L true (fun _ => rfl) y x (fun _ => u) hs hg
  have hw := (C41_weight_is_predictive L true (fun _ => rfl) y x x' hs hg).1
  set p := logPredictive (L.meanScale x).1 (L.meanScale x).2 L.a L.b L.s y
  have hpd := (h 0).2.2
  set cov := optimalCov (fun e => ((L.meanScale x).2 e ^ 2)⁻¹) (fun j => (L.s j ^ 2)⁻¹) L.a with hcov
  set mean := optimalMean (y - L.b) (L.meanScale x).1 (fun e => ((L.meanScale x).2 e ^ 2)⁻¹)
    (fun j => (L.s j ^ 2)⁻¹) L.a with hmean
  have hpos : 0 < cov 0 0 := hpd.diag_pos
  have hk : ∀ u, L.kernelLogProb true y x (fun _ => u) = normalLogProb (mean 0) (Real.sqrt (cov 0 0)) u := by
    intro u
    show ∑ e, normalLogProb (mean e) (Real.sqrt (cov e e)) u = _
    rw [Fin.sum_univ_one]
  have hint : ∀ u, Real.exp (L.obsLogProb (fun _ => u) y + L.transLogProb x (fun _ => u)) =
      Real.exp p * ProbabilityTheory.gaussianPDFReal (mean 0) (Real.toNNReal (Real.sqrt (cov 0 0) ^ 2)) u := by
    intro u
    rw [← exp_normalLogProb (Real.sqrt_pos.2 hpos), ← hk, ← Real.exp_add]
    congr 1
    have := (h u).2.1
    linarith
  rw [hw]
  simp only [hint]
  rw [integral_const_mul, ProbabilityTheory.integral_gaussianPDFReal_eq_one, mul_one]
  rw [Real.sq_sqrt hpos.le]
  exact (Real.toNNReal_pos.2 hpos).ne'

/-! ## C42 -/

/-- C42 in full: the pre-weight is the log predictive density of the observation given the previous state. -/
def C42_claim : Prop :=
  ∀ (n m : ℕ) (L : LinearModel n m) (obsIs1d : Bool) (y : Fin m → ℝ) (x : Fin n → ℝ),
    (obsIs1d = true → m = 1) → (∀ j, 0 < L.s j) → (∀ e, 0 < (L.meanScale x).2 e) →
    L.preWeight obsIs1d y x = .single (logPredictive (L.meanScale x).1 (L.meanScale x).2 L.a L.b L.s y)

/-- C42, what holds: it is the predictive density when the conditional mean of the next state is the state
itself (random walk), except for a scalar observation of a vector state. Missing: other models, since
the code uses the state in place of its conditional mean. -/
theorem C42_random_walk_partial (L : LinearModel n m) (obsIs1d : Bool) (y : Fin m → ℝ) (x : Fin n → ℝ)
    (hd : obsIs1d = true → m = 1 ∧ n = 1) (hs : ∀ j, 0 < L.s j) (hg : ∀ e, 0 < (L.meanScale x).2 e)
    (hrw : (L.meanScale x).1 = x) :
    L.preWeight obsIs1d y x = .single (logPredictive (L.meanScale x).1 (L.meanScale x).2 L.a L.b L.s y) := by
  rw [hrw]
  cases obsIs1d with
  | false =>
    show LinearModel.PreWeight.single _ = _
    rw [mvnLogProb_eq, preWeightCov_eq]
    rfl
  | true =>
    obtain ⟨rfl, rfl⟩ := hd rfl
    have hpd : (L.preWeightCov x).PosDef := by
      have := predCov_posDef L.a (h := fun e => ((L.meanScale x).2 e ^ 2)⁻¹) (o := fun j => (L.s j ^ 2)⁻¹)
        (fun e => by have := hg e; positivity) (fun j => by have := hs j; positivity)
      unfold predCov at this
      simp only [inv_inv] at this
      rw [preWeightCov_eq]
      exact this
    show LinearModel.PreWeight.single (normalLogProb (L.b 0 + L.a 0 0 * x 0) (Real.sqrt (L.preWeightCov x 0 0)) (y 0)) = _
    congr 1
    have := logNormalVec_one rfl (L.b + L.a *ᵥ x) (L.preWeightCov x) hpd y
    rw [Fin.sum_univ_one] at this
    rw [preWeightCov_eq] at this ⊢
    refine Eq.trans ?_ this
    congr 1
    simp [mulVec, dotProduct]

/-- A scalar random walk observed with noise. -/
noncomputable def walkModel : LinearModel 1 1 where
  meanScale x := (x, ![1])
  a := !![1]
  b := ![0]
  s := ![1]

example (x : Fin 1 → ℝ) : (walkModel.meanScale x).1 = x ∧ (∀ j, 0 < walkModel.s j) ∧
    (∀ e, 0 < (walkModel.meanScale x).2 e) := by
  refine ⟨rfl, ?_, ?_⟩ <;> intro j <;> fin_cases j <;> simp [walkModel]

/-- What the code computes for a vector observation: the predictive density for a model whose next state
has the previous state as mean. -/
theorem C42_uses_previous_state (L : LinearModel n m) (y : Fin m → ℝ) (x : Fin n → ℝ) :
    L.preWeight false y x = .single (logPredictive x (L.meanScale x).2 L.a L.b L.s y) := by
  show LinearModel.PreWeight.single _ = _
  rw [mvnLogProb_eq, preWeightCov_eq]
  rfl

/-- For a scalar observation of a vector state there is no single pre-weight per particle. -/
theorem C42_not_one_number (L : LinearModel n 1) (hn : n ≠ 1) (y : Fin 1 → ℝ) (x : Fin n → ℝ) (r : ℝ) :
    L.preWeight true y x ≠ .single r := by
  unfold LinearModel.preWeight
  simp [hn]

/-- `x' = x/2 + u`, `y = x' + v`. -/
noncomputable def halfModel : LinearModel 1 1 where
  meanScale x := (fun _ => x 0 / 2, fun _ => 1)
  a := Matrix.of fun _ _ => 1
  b := fun _ => 0
  s := fun _ => 1

/-- C42 in full is false: `x' = x/2 + u`, `y = x' + v`, at `x = 2`, `y = 1` the predictive density is maximal
but the pre-weight is not. -/
theorem C42_negation : ¬ C42_claim := by
  intro h
  have h1 := h 1 1 halfModel false (fun _ => 1) (fun _ => 2) (by simp)
    (fun j => by simp [halfModel]) (fun j => by simp [halfModel])
  rw [C42_uses_previous_state] at h1
  have h2 := LinearModel.PreWeight.single.inj h1
  unfold logPredictive logNormalVec at h2
  have hinv : ((diagonal (fun j => halfModel.s j ^ 2) + halfModel.a * diagonal (fun e =>
      (halfModel.meanScale fun _ => 2).2 e ^ 2) * halfModel.aᵀ) : Matrix (Fin 1) (Fin 1) ℝ) = diagonal fun _ => 2 := by
    ext i j
    obtain rfl : i = 0 := Subsingleton.elim _ _
    obtain rfl : j = 0 := Subsingleton.elim _ _
    simp [halfModel, Matrix.mul_apply]
    norm_num
  have hinv2 : (diagonal (fun _ => 2) : Matrix (Fin 1) (Fin 1) ℝ)⁻¹ = diagonal fun _ => (2 : ℝ)⁻¹ :=
    inv_diag fun _ => by norm_num
  rw [hinv, hinv2] at h2
  simp [dotProduct, mulVec_diagonal, halfModel, mulVec] at h2
  norm_num at h2

/-! ## C43 -/

/-- C43 in full: each step of both mode finders without second order information moves the centre by the
step size times the gradient. -/
def C43_claim : Prop :=
  ∀ (n : ℕ) (alpha : ℝ) (grad : (Fin n → ℝ) → Fin n → ℝ) (k : ℕ) (x : Fin n → ℝ) (e : Fin n),
    legacyCentre alpha grad (k + 1) x e =
      legacyCentre alpha grad k x e + alpha * grad (legacyCentre alpha grad k x) e ∧
    firstOrderCentre alpha grad (k + 1) x e =
      firstOrderCentre alpha grad k x e + alpha * grad (firstOrderCentre alpha grad k x) e

/-- C43, what holds: the legacy finder moves along the gradient. Missing: the default finder. -/
theorem C43_legacy_partial (alpha : ℝ) (grad : (Fin n → ℝ) → Fin n → ℝ) (k : ℕ) (x : Fin n → ℝ) (e : Fin n) :
    legacyCentre alpha grad 0 x = x ∧
    legacyCentre alpha grad (k + 1) x e =
      legacyCentre alpha grad k x e + alpha * grad (legacyCentre alpha grad k x) e := by
  refine ⟨rfl, ?_⟩
  unfold legacyCentre
  rw [Function.iterate_succ_apply']
  rfl

/-- The default finder moves each component up by the step size, whatever the gradient. -/
theorem C43_ignores_gradient (alpha : ℝ) (grad : (Fin n → ℝ) → Fin n → ℝ) (k : ℕ) (x : Fin n → ℝ) (e : Fin n) :
    firstOrderCentre alpha grad k x e = x e + k * alpha := by
  unfold firstOrderCentre
  induction k generalizing x with
  | zero => simp
  | succ k ih =>
    rw [Function.iterate_succ_apply, ih]
    unfold firstOrderStep
    push_cast
    ring

/-- C43 in full is false: standard normal target at its mode, the centre moves away. -/
theorem C43_negation : ¬ C43_claim := by
  intro h
  have h1 := (h 1 (1 / 100) (fun x e => -x e) 0 (fun _ => 0) 0).2
  rw [C43_ignores_gradient, C43_ignores_gradient] at h1
  simp [C43_ignores_gradient, firstOrderCentre] at h1

/-! ## C44 -/

/-- C44: with non-zero curvature at the current centre the step divides the gradient by the absolute
curvature, and the standard deviation is positive, its square the inverse of the absolute curvature. -/
theorem C44_safeguarded_step (grad hess : ℝ → ℝ) (k : ScalarKernel) (h : hess k.x ≠ 0) :
    (newtonStep grad hess k).x = k.x + grad k.x / |hess k.x| ∧
    0 < (newtonStep grad hess k).std ∧ (newtonStep grad hess k).std ^ 2 = 1 / |hess k.x| := by
  have hcov : -(hess k.x - max (2 * hess k.x) 0)⁻¹ = 1 / |hess k.x| := by
    rcases lt_or_gt_of_ne h with h' | h'
    · rw [max_eq_right (by linarith), abs_of_neg h', sub_zero, one_div, inv_neg]
    · rw [max_eq_left (by linarith), abs_of_pos h', one_div, ← inv_neg]
      congr 1
      ring
  have hpos : 0 < 1 / |hess k.x| := by positivity
  refine ⟨?_, ?_, ?_⟩
  · show k.x + -(hess k.x - max (2 * hess k.x) 0)⁻¹ * grad k.x = _
    rw [hcov]; ring
  · show 0 < Real.sqrt _
    rw [hcov]; exact Real.sqrt_pos.2 hpos
  · show Real.sqrt _ ^ 2 = _
    rw [hcov]; exact Real.sq_sqrt hpos.le

example : (fun x : ℝ => 3 * x ^ 2 - 1) 0 ≠ 0 := by norm_num

/-- The step goes uphill: its direction is that of the gradient, for either sign of the curvature. -/
theorem C44_uphill (grad hess : ℝ → ℝ) (k : ScalarKernel) (h : hess k.x ≠ 0) (hg : grad k.x ≠ 0) :
    0 < ((newtonStep grad hess k).x - k.x) * grad k.x := by
  rw [(C44_safeguarded_step grad hess k h).1]
  have : (k.x + grad k.x / |hess k.x| - k.x) * grad k.x = grad k.x ^ 2 / |hess k.x| := by ring
  rw [this]
  positivity

/-- For a target `c - (x - mode)² / (2 v)` one step (and any further ones) finds the mode and the variance,
from any start. -/
theorem C44_gaussian_exact (mode v c : ℝ) (hv : 0 < v) (grad hess : ℝ → ℝ)
    (hg : ∀ x, HasDerivAt (fun x => c - (x - mode) ^ 2 / (2 * v)) (grad x) x)
    (hh : ∀ x, HasDerivAt grad (hess x) x) (k : ScalarKernel) (steps : ℕ) (hs : 0 < steps) :
    (newtonMode grad hess steps k).x = mode ∧ (newtonMode grad hess steps k).std = Real.sqrt v := by
  have hg' : ∀ x, grad x = -(x - mode) / v := by
    intro x
    refine (hg x).unique ?_
    have h1 : HasDerivAt (fun x : ℝ => (x - mode) ^ 2) (2 * (x - mode)) x := by
      have := ((hasDerivAt_id' x).sub_const mode).fun_pow 2
      simpa using this
    have h2 := (h1.div_const (2 * v)).const_sub c
    convert h2 using 1
    field_simp
  have hh' : ∀ x, hess x = -1 / v := by
    intro x
    refine (hh x).unique ?_
    have : grad = fun x => -(x - mode) / v := funext hg'
    rw [this]
    exact (((hasDerivAt_id x).sub_const mode).neg).div_const v
  have hstep : ∀ k, (newtonStep grad hess k).x = mode ∧ (newtonStep grad hess k).std = Real.sqrt v := by
    intro k
    have hne : hess k.x ≠ 0 := by rw [hh']; exact div_ne_zero (by norm_num) hv.ne'
    obtain ⟨h1, h2, h3⟩ := C44_safeguarded_step grad hess k hne
    have habs : |hess k.x| = 1 / v := by
      rw [hh', neg_div, abs_neg, abs_of_pos (by positivity)]
    rw [habs] at h1 h3
    constructor
    · rw [h1, hg']; field_simp; ring
    · rw [one_div_one_div] at h3
      rw [← h3, Real.sqrt_sq h2.le]
  obtain ⟨m, rfl⟩ : ∃ m, steps = m + 1 := ⟨steps - 1, by omega⟩
  unfold newtonMode
  rw [Function.iterate_succ_apply']
  exact hstep _

example : (∀ x : ℝ, HasDerivAt (fun x => (5 : ℝ) - (x - 1) ^ 2 / (2 * 2)) (-(x - 1) / 2) x) ∧
    (∀ x : ℝ, HasDerivAt (fun x : ℝ => -(x - 1) / 2) (-1 / 2) x) := by
  constructor
  · intro x
    have h1 : HasDerivAt (fun x : ℝ => (x - 1) ^ 2) (2 * (x - 1)) x := by
      have := ((hasDerivAt_id' x).sub_const (1 : ℝ)).fun_pow 2
      simpa using this
    have h2 := (h1.div_const (2 * 2)).const_sub 5
    rw [show -(x - 1) / 2 = -(2 * (x - 1) / (2 * 2)) by ring]
    exact h2
  · intro x
    exact (((hasDerivAt_id x).sub_const 1).neg).div_const 2

/-! ## C45 -/

/-- C45: the selection probabilities of the nested proposal are a probability vector, and the expected
weight times any test function equals the average over the inner samples of observation density times
test function. `mass` is the density of a sample (zero where it is NaN or infinite). Also when no sample has
any density (weight zero). -/
theorem C45_properly_weighted (lo : ℝ) {M : ℕ} (hM : 0 < M) (logProb : Fin M → XF) :
    ∃ p : Fin M → ℝ, IsProb p ∧ (∀ j, nestedProbs lo logProb j = XF.fin (p j)) ∧
      ∀ φ : Fin M → ℝ, ∑ j, p j * (expOf (nestedWeight lo logProb) * φ j) =
        (∑ j, mass lo (logProb j) * φ j) / M := by
  have hMr : (0 : ℝ) < M := by exact_mod_cast hM
  have hw : nestedWeight lo logProb = XF.log (XF.fin ((∑ j, mass lo (logProb j)) / M)) := by
    unfold nestedWeight
    simp only [exp_nanToNum, XF.sum_fin]
    rw [XF.fin_div hMr.ne']
  by_cases h : ∃ i, Usable (logProb i)
  · have hS := mass_sum_pos (lo := lo) h
    refine ⟨fun j => mass lo (logProb j) / ∑ k, mass lo (logProb k), isProb_mass lo logProb h, ?_, ?_⟩
    · intro j
      unfold nestedProbs
      simp only [softmax_usable lo logProb h]
    · intro φ
      have he : expOf (nestedWeight lo logProb) = (∑ j, mass lo (logProb j)) / M := by
        rw [hw]
        have hpos : 0 < (∑ j, mass lo (logProb j)) / M := by positivity
        simp only [XF.log, hpos, if_true, expOf]
        exact Real.exp_log hpos
      rw [he, eq_div_iff hMr.ne', Finset.sum_mul]
      refine Finset.sum_congr rfl fun j _ => ?_
      have := hS.ne'
      field_simp
  · push Not at h
    have h0 : ∀ j, mass lo (logProb j) = 0 := fun j => mass_unusable (h j)
    refine ⟨fun _ => 1 / (M : ℝ), ⟨fun _ => by positivity, ?_⟩, ?_, ?_⟩
    · rw [Finset.sum_const, Finset.card_univ, Fintype.card_fin, nsmul_eq_mul]
      field_simp
    · intro j
      have : XF.softmax (fun j => nanToNum lo (logProb j)) j = XF.nan := by
        unfold XF.softmax
        simp only [exp_nanToNum, XF.sum_fin, h0]
        simp [XF.div_def, XF.div]
      unfold nestedProbs
      simp only [this]
    · intro φ
      rw [hw]
      simp [h0, XF.log, expOf]

/-- Case: three inner samples, one of them without density. -/
example : mass (-1000) (XF.nan) = 0 ∧ mass (-1000) (XF.fin (Real.log 2)) = 2 := by
  refine ⟨rfl, ?_⟩
  show Real.exp (Real.log 2) = 2
  exact Real.exp_log (by norm_num)

/-! ## C77 -/

/-- Smallest eigenvalue of a symmetric matrix. -/
def IsMinEigenvalue (A : Matrix (Fin n) (Fin n) ℝ) (l : ℝ) : Prop :=
  IsLeast {r | ∃ v : Fin n → ℝ, v ≠ 0 ∧ A *ᵥ v = r • v} l

/-- C77 in full: for a vector state the second order proposal has a positive definite covariance matrix
whenever the Hessian is invertible. -/
def C77_claim : Prop :=
  ∀ (n : ℕ) (hess : Matrix (Fin n) (Fin n) ℝ) (l : ℝ), hessᵀ = hess → IsMinEigenvalue hess l →
    IsUnit hess.det → (vectorCov hess l).PosDef

/-- C77, what holds: it is positive definite if the Hessian is negative definite, and then it is the
inverse of the negative Hessian. Missing: other Hessians. -/
theorem C77_negative_definite_partial (hess : Matrix (Fin n) (Fin n) ℝ) (l : ℝ) (hl : IsMinEigenvalue hess l)
    (hneg : (-hess).PosDef) : (vectorCov hess l).PosDef ∧ vectorCov hess l = (-hess)⁻¹ := by
  have hl0 : l < 0 := by
    obtain ⟨v, hv, he⟩ := hl.1
    have h1 := hneg.dotProduct_mulVec_pos hv
    rw [neg_mulVec, he] at h1
    simp only [star_trivial, dotProduct_neg, dotProduct_smul, smul_eq_mul] at h1
    have h2 : 0 ≤ v ⬝ᵥ v := by
      simp only [dotProduct]
      exact Finset.sum_nonneg fun i _ => mul_self_nonneg _
    nlinarith
  have h1 : shiftedHessian hess l = hess := by
    unfold shiftedHessian
    rw [max_eq_right (by linarith)]
    simp
  have h2 : vectorCov hess l = (-hess)⁻¹ := by
    unfold vectorCov
    rw [h1]
    have hu : IsUnit (-hess).det := by rw [← isUnit_iff_isUnit_det]; exact hneg.isUnit
    symm
    apply inv_eq_right_inv
    rw [neg_mul_neg]
    apply mul_nonsing_inv
    rw [← neg_neg hess, det_neg]
    exact (isUnit_one.neg.pow _).mul hu
  exact ⟨by rw [h2]; exact hneg.inv, h2⟩

theorem minEigenvalue_diag (a b : ℝ) (h : a ≤ b) : IsMinEigenvalue (diagonal ![a, b]) a := by
  constructor
  · refine ⟨![1, 0], fun h => by have := congrFun h 0; simp at this, ?_⟩
    ext i; rw [mulVec_diagonal]; fin_cases i <;> simp
  · rintro r ⟨v, hv, he⟩
    have h0 := congrFun he 0
    have h1 := congrFun he 1
    rw [mulVec_diagonal] at h0 h1
    simp at h0 h1
    by_contra hc
    push Not at hc
    apply hv
    ext i
    fin_cases i
    · rcases h0 with h0 | h0
      · linarith
      · exact h0
    · rcases h1 with h1 | h1
      · linarith
      · exact h1

example : IsMinEigenvalue (diagonal ![-2, -1] : Matrix (Fin 2) (Fin 2) ℝ) (-2) ∧
    (-(diagonal ![-2, -1] : Matrix (Fin 2) (Fin 2) ℝ)).PosDef := by
  refine ⟨minEigenvalue_diag (-2) (-1) (by norm_num), ?_⟩
  rw [diagonal_neg]
  apply posDef_diagonal
  intro i; fin_cases i <;> simp

theorem vectorCov_diag (a b l : ℝ) (ha : a - max (2 * l) 0 ≠ 0) (hb : b - max (2 * l) 0 ≠ 0) :
    vectorCov (diagonal ![a, b]) l = diagonal ![-(a - max (2 * l) 0)⁻¹, -(b - max (2 * l) 0)⁻¹] := by
  have h1 : shiftedHessian (diagonal ![a, b]) l = diagonal ![a - max (2 * l) 0, b - max (2 * l) 0] := by
    unfold shiftedHessian
    ext i j
    fin_cases i <;> fin_cases j <;> simp
  unfold vectorCov
  rw [h1]
  have h2 : (diagonal ![a - max (2 * l) 0, b - max (2 * l) 0])⁻¹ =
      diagonal ![(a - max (2 * l) 0)⁻¹, (b - max (2 * l) 0)⁻¹] := by
    apply inv_eq_right_inv
    rw [diagonal_mul_diagonal]
    ext i j
    fin_cases i <;> fin_cases j <;> simp [ha, hb]
  rw [h2, diagonal_neg]
  congr 1
  ext i; fin_cases i <;> rfl

/-- An indefinite Hessian (saddle point) gives a matrix that is not a covariance matrix, since only the
smallest eigenvalue is looked at. -/
theorem C77_saddle (a b : ℝ) (ha : a < 0) (hb : 0 < b) : ¬ (vectorCov (diagonal ![a, b]) a).PosDef := by
  rw [vectorCov_diag a b a (by rw [max_eq_right (by linarith)]; linarith) (by rw [max_eq_right (by linarith)]; linarith)]
  intro h
  have := h.diag_pos (i := 1)
  simp at this
  rcases this with h | h <;> linarith

/-- So does a positive definite Hessian whose largest eigenvalue exceeds twice the smallest. -/
theorem C77_ill_conditioned (a b : ℝ) (ha : 0 < a) (hb : 2 * a < b) :
    ¬ (vectorCov (diagonal ![a, b]) a).PosDef := by
  rw [vectorCov_diag a b a (by rw [max_eq_left (by linarith)]; linarith) (by rw [max_eq_left (by linarith)]; linarith)]
  intro h
  have := h.diag_pos (i := 1)
  simp at this
  rcases this with h | h <;> linarith

/-- C77 in full is false. -/
theorem C77_negation : ¬ C77_claim := by
  intro h
  refine C77_saddle (-1) 1 (by norm_num) (by norm_num) (h 2 _ (-1) (diagonal_transpose _)
    (minEigenvalue_diag (-1) 1 (by norm_num)) ?_)
  rw [det_diagonal]
  simp

end Verif.Props
