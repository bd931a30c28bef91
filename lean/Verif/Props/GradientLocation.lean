import Verif.Lemmas.Prior
import Verif.Spec.CompleteData
import Verif.Props.Prior
import Mathlib.Analysis.Calculus.Deriv.Slope
import Mathlib.Analysis.Calculus.Deriv.Comp
import Mathlib.Topology.Order.LeftRightNhds
import Mathlib.Analysis.Calculus.FDeriv.Comp

/-!
# Property C128: where the gradient proposal is centred
-/

namespace Verif.Props

open Verif Verif.Spec Verif.Priors Verif.GradientScore
open Filter Topology

variable (c : Registry)

/-- What is claimed: the kernel is centred at the (unconstrained) parameters plus the step size times the gradient of the
target in the coordinates in which the kernel moves. -/
def C128_claim : Prop :=
  ∀ (c : Registry), ValidSupports c → ∀ (eps : ℝ) (S : (∀ i, Fin (c.numel i) → ℝ) → ℝ) (u h : Fin c.dim → ℝ)
    (g : ∀ i, Fin (c.numel i) → ℝ), GradientAt S g (c.unstack u false) →
    RowGradientAt (fun u => S (c.unstack u false)) h u →
    location c eps (c.unstack u false) g = fun k => u k + eps * h k

/-- The derivative of the bijection of a component. -/
noncomputable def slopeAt (c : Registry) (u : Fin c.dim → ℝ) (i : Fin c.m) (j : Fin (c.numel i)) : ℝ :=
  ((c.prior i).support j).sign * Real.exp (ladjAll ((c.prior i).support j).bijection (u (c.pos i j)))

theorem location_pos (hv : ValidSupports c) (eps : ℝ) (u : Fin c.dim → ℝ) (g : ∀ i, Fin (c.numel i) → ℝ) (i : Fin c.m)
    (j : Fin (c.numel i)) : location c eps (c.unstack u false) g (c.pos i j) = u (c.pos i j) + eps * g i j := by
  have h := (C92_unstack c hv u).2
  unfold location
  rw [c.pos_eq, Equiv.symm_apply_apply]
  dsimp only
  rw [h i]
  show u (c.pos i j) + _ = _
  rw [c.pos_eq]

theorem hasFDerivAt_unstack (hv : ValidSupports c) (u : Fin c.dim → ℝ) :
    ∃ L : (Fin c.dim → ℝ) →L[ℝ] (∀ i, Fin (c.numel i) → ℝ), HasFDerivAt (fun u => c.unstack u false) L u ∧
      ∀ v i j, L v i j = slopeAt c u i j * v (c.pos i j) := by
  have h1 : ∀ i j, HasFDerivAt (fun u : Fin c.dim → ℝ => callAll ((c.prior i).support j).bijection (u (c.pos i j)))
      (slopeAt c u i j • (ContinuousLinearMap.proj (c.pos i j) : (Fin c.dim → ℝ) →L[ℝ] ℝ)) u := fun i j =>
    (hasDerivAt_call _ (valid_of_points (hv i j)) (u (c.pos i j))).comp_hasFDerivAt u
      (ContinuousLinearMap.proj (R := ℝ) (φ := fun _ : Fin c.dim => ℝ) (c.pos i j)).hasFDerivAt
  refine ⟨ContinuousLinearMap.pi fun i => ContinuousLinearMap.pi fun j =>
    slopeAt c u i j • (ContinuousLinearMap.proj (c.pos i j) : (Fin c.dim → ℝ) →L[ℝ] ℝ), ?_, fun v i j => rfl⟩
  exact hasFDerivAt_pi.2 fun i => hasFDerivAt_pi.2 fun j => h1 i j

/-- The chain rule: the gradient in unconstrained coordinates. -/
theorem rowGradient (hv : ValidSupports c) (S : (∀ i, Fin (c.numel i) → ℝ) → ℝ) (u : Fin c.dim → ℝ)
    (g : ∀ i, Fin (c.numel i) → ℝ) (hg : GradientAt S g (c.unstack u false)) :
    ∃ L : (Fin c.dim → ℝ) →L[ℝ] ℝ, HasFDerivAt (fun u => S (c.unstack u false)) L u ∧
      ∀ v, L v = ∑ i, ∑ j, g i j * (slopeAt c u i j * v (c.pos i j)) := by
  obtain ⟨L1, h1, h2⟩ := hg
  obtain ⟨L2, h3, h4⟩ := hasFDerivAt_unstack c hv u
  refine ⟨L1.comp L2, h1.comp u h3, fun v => ?_⟩
  rw [ContinuousLinearMap.comp_apply, h2]
  simp only [h4]

/-- In every component the step of the location is the step size times the gradient in unconstrained coordinates,
*divided* by the derivative of the map from unconstrained to constrained values. -/
theorem C128_missing_factor (hv : ValidSupports c) (eps : ℝ) (S : (∀ i, Fin (c.numel i) → ℝ) → ℝ) (u h : Fin c.dim → ℝ)
    (g : ∀ i, Fin (c.numel i) → ℝ) (hg : GradientAt S g (c.unstack u false))
    (hh : RowGradientAt (fun u => S (c.unstack u false)) h u) (i : Fin c.m) (j : Fin (c.numel i)) :
    ∃ s, HasDerivAt (callAll ((c.prior i).support j).bijection) s (u (c.pos i j)) ∧ s ≠ 0 ∧
      location c eps (c.unstack u false) g (c.pos i j) = u (c.pos i j) + eps * (h (c.pos i j) / s) := by
  have hs : slopeAt c u i j ≠ 0 := by
    unfold slopeAt
    refine mul_ne_zero ?_ (Real.exp_ne_zero _)
    have := ((c.prior i).support j).abs_sign
    intro h0
    rw [h0] at this
    simp at this
  refine ⟨slopeAt c u i j, hasDerivAt_call _ (valid_of_points (hv i j)) _, hs, ?_⟩
  rw [location_pos c hv]
  obtain ⟨L1, h1, h2⟩ := hh
  obtain ⟨L2, h3, h4⟩ := rowGradient c hv S u g hg
  have e : L1 = L2 := h1.unique h3
  have e1 := h2 (Pi.single (c.pos i j) 1)
  rw [e, h4, c.sum_pos] at e1
  have single : ∀ (a : ∀ i, Fin (c.numel i) → ℝ), (∑ i', ∑ j', a i' j' * (Pi.single (c.pos i j) (1 : ℝ) : Fin c.dim → ℝ) (c.pos i' j'))
      = a i j := by
    intro a
    rw [Finset.sum_eq_single i, Finset.sum_eq_single j]
    · simp
    · intro j' _ hj
      rw [Pi.single_eq_of_ne, mul_zero]
      intro h0
      rw [c.pos_eq, c.pos_eq] at h0
      have := finSigmaFinEquiv.injective h0
      simp at this
      exact hj this
    · simp
    · intro i' _ hi
      refine Finset.sum_eq_zero fun j' _ => ?_
      rw [Pi.single_eq_of_ne, mul_zero]
      intro h0
      rw [c.pos_eq, c.pos_eq] at h0
      have := finSigmaFinEquiv.injective h0
      exact hi (congrArg Sigma.fst this)
    · simp
  have e2 := single fun i' j' => h (c.pos i' j')
  have e3 := single fun i' j' => g i' j' * slopeAt c u i' j'
  simp only [mul_assoc] at e3
  rw [e3, e2] at e1
  rw [← e1, mul_div_cancel_right₀ _ hs]

/-- C128 holds if all parameters are unconstrained. -/
theorem C128_real_partial (hr : ∀ i j, (c.prior i).support j = .real) (eps : ℝ)
    (S : (∀ i, Fin (c.numel i) → ℝ) → ℝ) (u h : Fin c.dim → ℝ)
    (g : ∀ i, Fin (c.numel i) → ℝ) (hg : GradientAt S g (c.unstack u false))
    (hh : RowGradientAt (fun u => S (c.unstack u false)) h u) :
    location c eps (c.unstack u false) g = fun k => u k + eps * h k := by
  have hv : ValidSupports c := fun i j => by rw [hr]; exact ⟨0, trivial⟩
  refine funext ((c.forall_pos).2 fun i j => ?_)
  obtain ⟨s, h1, -, h2⟩ := C128_missing_factor c hv eps S u h g hg hh i j
  rw [h2]
  have : HasDerivAt (callAll ((c.prior i).support j).bijection) 1 (u (c.pos i j)) := by
    rw [hr]
    exact hasDerivAt_id _
  rw [h1.unique this, div_one]

/-- The change of the target along the step, to first order. -/
theorem step_derivative (hv : ValidSupports c) (S : (∀ i, Fin (c.numel i) → ℝ) → ℝ) (u : Fin c.dim → ℝ)
    (g : ∀ i, Fin (c.numel i) → ℝ) (hg : GradientAt S g (c.unstack u false)) :
    HasDerivAt (fun eps => S (c.unstack (location c eps (c.unstack u false) g) false))
      (∑ i, ∑ j, slopeAt c u i j * g i j ^ 2) 0 := by
  obtain ⟨L, h1, h2⟩ := rowGradient c hv S u g hg
  have hw : ∀ i j, c.slices.symm g (c.pos i j) = g i j := fun i j =>
    congrFun (congrFun (c.slices.apply_symm_apply g) i) j
  have hl : ∀ eps, location c eps (c.unstack u false) g = u + eps • c.slices.symm g := fun eps =>
    funext ((c.forall_pos).2 fun i j => by
      rw [location_pos c hv, Pi.add_apply, Pi.smul_apply, hw, smul_eq_mul])
  have hline : HasDerivAt (fun eps : ℝ => u + eps • c.slices.symm g) (c.slices.symm g) 0 := by
    have := ((hasDerivAt_id (0 : ℝ)).smul_const (c.slices.symm g)).const_add u
    simpa using this
  have h3 : HasFDerivAt (fun u => S (c.unstack u false)) L (u + (0 : ℝ) • c.slices.symm g) := by
    rw [zero_smul, add_zero]
    exact h1
  have h4 := h3.comp_hasDerivAt (0 : ℝ) hline
  simp only [hl]
  have e : L (c.slices.symm g) = ∑ i, ∑ j, slopeAt c u i j * g i j ^ 2 := by
    rw [h2]
    refine Finset.sum_congr rfl fun i _ => Finset.sum_congr rfl fun j _ => ?_
    rw [hw]
    ring
  exact e ▸ h4

/-- A function with a positive derivative at zero is larger to the right of it. -/
theorem larger_right {f : ℝ → ℝ} {s : ℝ} (hf : HasDerivAt f s 0) (hs : 0 < s) :
    ∃ δ > 0, ∀ eps, 0 < eps → eps < δ → f 0 < f eps := by
  have h := (hasDerivAt_iff_tendsto_slope_zero.1 hf).eventually (eventually_gt_nhds hs)
  have h2 : ∀ᶠ t in 𝓝[>] (0 : ℝ), 0 < t⁻¹ • (f (0 + t) - f 0) :=
    h.filter_mono (nhdsWithin_mono 0 fun t ht => ne_of_gt ht)
  obtain ⟨δ, hδ, hsub⟩ := mem_nhdsGT_iff_exists_Ioo_subset.1 h2
  refine ⟨δ, hδ, fun eps h0 h1 => ?_⟩
  have h3 : 0 < eps⁻¹ * (f (0 + eps) - f 0) := hsub ⟨h0, h1⟩
  rw [zero_add] at h3
  have := (mul_pos_iff_of_pos_left (inv_pos.2 h0)).1 h3
  linarith

theorem location_zero (hv : ValidSupports c) (u : Fin c.dim → ℝ) (g : ∀ i, Fin (c.numel i) → ℝ) :
    location c 0 (c.unstack u false) g = u :=
  funext ((c.forall_pos).2 fun i j => by rw [location_pos c hv]; ring)

/-- Without upper bounds on half-lines the step is uphill all the same: unless the gradient is zero, the target is larger
at the location than at the parameters, for all small enough step sizes. -/
theorem C128_uphill (hv : ValidSupports c) (hup : ∀ i j hi, (c.prior i).support j ≠ .lessThan hi)
    (S : (∀ i, Fin (c.numel i) → ℝ) → ℝ) (u : Fin c.dim → ℝ) (g : ∀ i, Fin (c.numel i) → ℝ)
    (hg : GradientAt S g (c.unstack u false)) (i : Fin c.m) (j : Fin (c.numel i)) (hne : g i j ≠ 0) :
    ∃ δ > 0, ∀ eps, 0 < eps → eps < δ →
      S (c.unstack u false) < S (c.unstack (location c eps (c.unstack u false) g) false) := by
  have hs : ∀ i j, 0 < slopeAt c u i j := by
    intro i j
    unfold slopeAt
    have : ((c.prior i).support j).sign = 1 := by
      have := hup i j
      cases h : (c.prior i).support j with
      | lessThan hi => exact absurd h (this hi)
      | _ => rfl
    rw [this, one_mul]
    exact Real.exp_pos _
  have hnn : ∀ i j, 0 ≤ slopeAt c u i j * g i j ^ 2 := fun i j => mul_nonneg (hs i j).le (sq_nonneg _)
  have hpos : 0 < ∑ i, ∑ j, slopeAt c u i j * g i j ^ 2 :=
    Finset.sum_pos' (fun i _ => Finset.sum_nonneg fun j _ => hnn i j) ⟨i, Finset.mem_univ i,
      Finset.sum_pos' (fun j _ => hnn i j) ⟨j, Finset.mem_univ j, mul_pos (hs i j) (by positivity)⟩⟩
  obtain ⟨δ, h1, h2⟩ := larger_right (step_derivative c hv S u g hg) hpos
  refine ⟨δ, h1, fun eps h3 h4 => ?_⟩
  have := h2 eps h3 h4
  rwa [location_zero c hv] at this

/-- If all parameters are bounded above only (`constraints.less_than`), the step is downhill: the map to constrained
values is decreasing there. -/
theorem C128_downhill (hv : ValidSupports c) (hdown : ∀ i j, ∃ hi, (c.prior i).support j = .lessThan hi)
    (S : (∀ i, Fin (c.numel i) → ℝ) → ℝ) (u : Fin c.dim → ℝ) (g : ∀ i, Fin (c.numel i) → ℝ)
    (hg : GradientAt S g (c.unstack u false)) (i : Fin c.m) (j : Fin (c.numel i)) (hne : g i j ≠ 0) :
    ∃ δ > 0, ∀ eps, 0 < eps → eps < δ →
      S (c.unstack (location c eps (c.unstack u false) g) false) < S (c.unstack u false) := by
  have hs : ∀ i j, slopeAt c u i j < 0 := by
    intro i j
    unfold slopeAt
    obtain ⟨hi, h⟩ := hdown i j
    have : ((c.prior i).support j).sign = -1 := by rw [h]; rfl
    rw [this]
    have := Real.exp_pos (ladjAll ((c.prior i).support j).bijection (u (c.pos i j)))
    linarith
  have hnn : ∀ i j, 0 ≤ -(slopeAt c u i j * g i j ^ 2) := fun i j => by
    have := mul_nonneg (neg_nonneg.2 (hs i j).le) (sq_nonneg (g i j))
    linarith
  have hpos : 0 < -∑ i, ∑ j, slopeAt c u i j * g i j ^ 2 := by
    simp only [← Finset.sum_neg_distrib]
    refine Finset.sum_pos' (fun i _ => Finset.sum_nonneg fun j _ => hnn i j) ⟨i, Finset.mem_univ i,
      Finset.sum_pos' (fun j _ => hnn i j) ⟨j, Finset.mem_univ j, ?_⟩⟩
    have : 0 < g i j ^ 2 := by positivity
    have := mul_pos (neg_pos.2 (hs i j)) this
    linarith
  obtain ⟨δ, h1, h2⟩ := larger_right (step_derivative c hv S u g hg).neg hpos
  refine ⟨δ, h1, fun eps h3 h4 => ?_⟩
  have := h2 eps h3 h4
  simp only [Pi.neg_apply] at this
  rw [location_zero c hv] at this
  linarith

/-- The step size belongs to the standard deviation of the kernel as in the Langevin algorithm: the standard deviation is
the root of twice the step size. -/
theorem C128_langevin_scale (scale : ℝ) (h : 0 ≤ scale) : scale = Real.sqrt (2 * stepSize scale) := by
  unfold stepSize
  rw [mul_div_cancel₀ _ two_ne_zero, Real.sqrt_sq h]

/-! ### A case -/

/-- One parameter with the given support. -/
noncomputable def oneParameter (s : Support) : Registry where
  m := 1
  numel _ := 1
  prior _ := ⟨fun _ => s, fun _ => .fin 0⟩

/-- The target `2x`, whose gradient is 2 everywhere. -/
theorem twice_gradient (s : Support) (x : ∀ i, Fin ((oneParameter s).numel i) → ℝ) :
    GradientAt (fun x => 2 * x (0 : Fin 1) (0 : Fin 1)) (fun _ _ => 2) x := by
  let L : (∀ i, Fin ((oneParameter s).numel i) → ℝ) →L[ℝ] ℝ := (2 : ℝ) •
    ((ContinuousLinearMap.proj (0 : Fin 1) : (Fin 1 → ℝ) →L[ℝ] ℝ).comp
      (ContinuousLinearMap.proj (R := ℝ) (φ := fun _ : Fin 1 => Fin 1 → ℝ) (0 : Fin 1)))
  refine ⟨L, L.hasFDerivAt, fun v => ?_⟩
  show 2 * v (0 : Fin 1) (0 : Fin 1) = ∑ i : Fin 1, ∑ j : Fin 1, 2 * v i j
  simp

theorem oneParameter_valid (s : Support) (h : (points s).Nonempty) : ValidSupports (oneParameter s) := fun _ _ => h

/-- A positive parameter with value 3: the gradient is 2, in unconstrained coordinates it is 6. -/
theorem C128_negation : ¬ C128_claim := by
  intro hc
  let c := oneParameter (.greaterThan 0)
  have hv : ValidSupports c := oneParameter_valid _ ⟨1, show (0 : ℝ) < 1 by norm_num⟩
  let u : Fin c.dim → ℝ := fun _ => Real.log 3
  let S : (∀ i, Fin (c.numel i) → ℝ) → ℝ := fun x => 2 * x (0 : Fin 1) (0 : Fin 1)
  have hg : GradientAt S (fun _ _ => 2) (c.unstack u false) := twice_gradient _ _
  obtain ⟨L, h1, h2⟩ := rowGradient c hv S u _ hg
  have hslope : slopeAt c u (0 : Fin 1) (0 : Fin 1) = 3 := by
    show (1 : ℝ) * Real.exp (Real.log 3 + (Real.log |1| + 0)) = 3
    simp [Real.exp_log]
  have hh : RowGradientAt (fun u => S (c.unstack u false)) (fun _ => 6) u := by
    refine ⟨L, h1, fun v => ?_⟩
    rw [h2, c.sum_pos]
    show ∑ i : Fin 1, ∑ j : Fin 1, 2 * (slopeAt c u i j * v (c.pos i j)) = ∑ i : Fin 1, ∑ j : Fin 1, 6 * v (c.pos i j)
    simp only [Finset.univ_unique, Finset.sum_singleton, Fin.default_eq_zero]
    rw [show slopeAt c u (0 : Fin 1) (0 : Fin 1) = 3 from hslope]
    ring
  have h3 := congrFun (hc c hv 1 S u _ _ hg hh) (c.pos (0 : Fin 1) (0 : Fin 1))
  have h4 := location_pos c hv 1 u (fun _ _ => 2) (0 : Fin 1) (0 : Fin 1)
  have h5 := h4.symm.trans h3
  norm_num at h5

/-- Cases: the target `2x` with a positive, a real and a negative parameter. -/
example (u : Fin (oneParameter (.greaterThan 0)).dim → ℝ) := C128_uphill (oneParameter (.greaterThan 0))
  (oneParameter_valid _ ⟨1, show (0 : ℝ) < 1 by norm_num⟩) (fun _ _ _ => Support.noConfusion) _ u _ (twice_gradient _ _)
  (0 : Fin 1) (0 : Fin 1) two_ne_zero

example (u : Fin (oneParameter (.lessThan 0)).dim → ℝ) := C128_downhill (oneParameter (.lessThan 0))
  (oneParameter_valid _ ⟨-1, show (-1 : ℝ) < 0 by norm_num⟩) (fun _ _ => ⟨0, rfl⟩) _ u _ (twice_gradient _ _)
  (0 : Fin 1) (0 : Fin 1) two_ne_zero

example (eps : ℝ) (u h : Fin (oneParameter .real).dim → ℝ) (hh) := C128_real_partial (oneParameter .real)
  (fun _ _ => rfl) eps _ u h _ (twice_gradient _ _) hh

end Verif.Props
