import Verif.Lemmas.Proposals
import Mathlib.Probability.Distributions.Gaussian.Real
import Mathlib.MeasureTheory.Integral.Pi
import Mathlib.MeasureTheory.Measure.Lebesgue.Basic

/-!
# Densities of normal vectors
-/

namespace Verif.Gauss

open MeasureTheory ProbabilityTheory Matrix
open scoped ENNReal

variable {n : ℕ}

/-- The law of `n` independent standard normal numbers. -/
noncomputable def stdNormal (n : ℕ) : Measure (Fin n → ℝ) := Measure.pi fun _ => gaussianReal 0 1

instance : IsProbabilityMeasure (stdNormal n) := by unfold stdNormal; infer_instance

/-- Independent real random numbers with densities have the product as density. -/
theorem pi_withDensity (f : Fin n → ℝ → ℝ) (hf : ∀ e, Measurable (f e)) (h0 : ∀ e x, 0 ≤ f e x)
    (hi : ∀ e, Integrable (f e)) [∀ e, SigmaFinite ((volume : Measure ℝ).withDensity fun x => ENNReal.ofReal (f e x))] :
    Measure.pi (fun e => (volume : Measure ℝ).withDensity fun x => ENNReal.ofReal (f e x))
      = (volume : Measure (Fin n → ℝ)).withDensity fun z => ENNReal.ofReal (∏ e, f e (z e)) := by
  refine Measure.pi_eq fun s hs => ?_
  rw [withDensity_apply _ (MeasurableSet.univ_pi hs), volume_pi, Measure.restrict_pi_pi,
    ← ofReal_integral_eq_lintegral_ofReal, integral_fintype_prod_eq_prod, ENNReal.ofReal_prod_of_nonneg]
  · refine Finset.prod_congr rfl fun e _ => ?_
    rw [withDensity_apply _ (hs e), ofReal_integral_eq_lintegral_ofReal (hi e).restrict
      (Filter.Eventually.of_forall (h0 e))]
  · exact fun e _ => integral_nonneg (h0 e)
  · exact Integrable.fintype_prod fun e => (hi e).restrict
  · exact Filter.Eventually.of_forall fun z => Finset.prod_nonneg fun e _ => h0 e _

theorem exp_logNormal {v : ℝ} (hv : 0 < v) (μ x : ℝ) :
    Real.exp (Spec.logNormal μ v x) = gaussianPDFReal μ v.toNNReal x := by
  unfold Spec.logNormal gaussianPDFReal
  rw [Real.coe_toNNReal _ hv.le, sub_eq_add_neg, Real.exp_add, mul_comm]
  congr 1
  rw [Real.exp_neg]
  congr 1
  have hpos : 0 < 2 * Real.pi * v := by positivity
  rw [Real.sqrt_eq_rpow, Real.rpow_def_of_pos hpos]
  congr 1
  ring

theorem stdNormal_density : stdNormal n =
    (volume : Measure (Fin n → ℝ)).withDensity fun z => ENNReal.ofReal (Real.exp (∑ e, Spec.logNormal 0 1 (z e))) := by
  have h : ∀ x, Real.exp (Spec.logNormal 0 1 x) = gaussianPDFReal 0 1 x := by
    intro x
    rw [exp_logNormal one_pos, Real.toNNReal_one]
  have hg : gaussianReal 0 1 = (volume : Measure ℝ).withDensity fun x => ENNReal.ofReal (gaussianPDFReal 0 1 x) :=
    gaussianReal_of_var_ne_zero 0 one_ne_zero
  have : SigmaFinite ((volume : Measure ℝ).withDensity fun x => ENNReal.ofReal (gaussianPDFReal 0 1 x)) := by
    rw [← hg]; infer_instance
  unfold stdNormal
  simp only [Real.exp_sum, h]
  rw [← pi_withDensity (fun _ => gaussianPDFReal 0 1) (fun _ => measurable_gaussianPDFReal 0 1)
    (fun _ => gaussianPDFReal_nonneg 0 1) fun _ => integrable_gaussianPDFReal 0 1]
  exact congrArg Measure.pi (funext fun _ => hg)

/-- Image of Lebesgue measure under an invertible affine map. -/
theorem map_affine_volume (m : Fin n → ℝ) {T : Matrix (Fin n) (Fin n) ℝ} (hT : T.det ≠ 0) :
    (volume : Measure (Fin n → ℝ)).map (fun z => m + T *ᵥ z) = ENNReal.ofReal |T.det⁻¹| • volume := by
  have h1 := Real.map_matrix_volume_pi_eq_smul_volume_pi hT
  have h2 : Measurable fun z : Fin n → ℝ => toLin' T z := (toLin' T).continuous_of_finiteDimensional.measurable
  have h3 : (fun z => m + T *ᵥ z) = (fun x => m + x) ∘ fun z => toLin' T z := by
    funext z; simp [toLin'_apply]
  rw [h3, ← Measure.map_map (by fun_prop) h2, h1, Measure.map_smul, map_add_left_eq_self]

/-- Density of an invertible affine image. -/
theorem map_affine_withDensity (m : Fin n → ℝ) {T : Matrix (Fin n) (Fin n) ℝ} (hT : T.det ≠ 0)
    {g : (Fin n → ℝ) → ℝ≥0∞} (hg : Measurable g) :
    ((volume : Measure (Fin n → ℝ)).withDensity g).map (fun z => m + T *ᵥ z)
      = volume.withDensity fun x => ENNReal.ofReal |T.det⁻¹| * g (T⁻¹ *ᵥ (x - m)) := by
  have hA : Measurable fun z : Fin n → ℝ => m + T *ᵥ z := by
    have : Measurable fun z : Fin n → ℝ => toLin' T z := (toLin' T).continuous_of_finiteDimensional.measurable
    simp only [toLin'_apply] at this
    fun_prop
  have hB : Measurable fun x : Fin n → ℝ => T⁻¹ *ᵥ (x - m) := by
    have : Measurable fun z : Fin n → ℝ => toLin' T⁻¹ z := (toLin' T⁻¹).continuous_of_finiteDimensional.measurable
    simp only [toLin'_apply] at this
    exact this.comp (by fun_prop)
  have hinv : ∀ z, T⁻¹ *ᵥ (m + T *ᵥ z - m) = z := by
    intro z
    rw [add_sub_cancel_left, mulVec_mulVec, nonsing_inv_mul _ (isUnit_iff_ne_zero.2 hT), one_mulVec]
  have hgB : Measurable fun x : Fin n → ℝ => g (T⁻¹ *ᵥ (x - m)) := hg.comp hB
  ext s hs
  rw [Measure.map_apply hA hs, withDensity_apply _ (hA hs), withDensity_apply _ hs,
    lintegral_const_mul _ hgB, ← smul_eq_mul, ← lintegral_smul_measure, ← Measure.restrict_smul, ← map_affine_volume m hT,
    Measure.restrict_map hA hs, lintegral_map hgB hA]
  simp only [hinv]

/-- `m + T z` for standard normal `z` is normal with mean `m` and covariance `T Tᵀ`. -/
theorem map_affine_stdNormal (m : Fin n → ℝ) {T : Matrix (Fin n) (Fin n) ℝ} (hT : T.det ≠ 0) :
    (stdNormal n).map (fun z => m + T *ᵥ z)
      = volume.withDensity fun x => ENNReal.ofReal (Real.exp (Spec.logNormalVec m (T * Tᵀ) x)) := by
  have hmeas : Measurable fun z : Fin n → ℝ => ENNReal.ofReal (Real.exp (∑ e, Spec.logNormal 0 1 (z e))) := by
    unfold Spec.logNormal
    fun_prop
  rw [stdNormal_density, map_affine_withDensity m hT hmeas]
  congr 1
  funext x
  rw [← ENNReal.ofReal_mul (abs_nonneg _)]
  congr 1
  rw [abs_inv, ← Real.exp_log (abs_pos.2 hT), ← Real.exp_neg, ← Real.exp_add]
  congr 1
  have hq : (x - m) ⬝ᵥ ((T * Tᵀ)⁻¹ *ᵥ (x - m)) = ∑ e, (T⁻¹ *ᵥ (x - m)) e ^ 2 := by
    rw [Matrix.mul_inv_rev, ← mulVec_mulVec, ← transpose_nonsing_inv, dotProduct_mulVec, vecMul_transpose]
    simp only [dotProduct, sq]
  have hd : Real.log (T * Tᵀ).det = 2 * Real.log |T.det| := by
    rw [det_mul, det_transpose, ← abs_mul_abs_self, Real.log_mul (abs_pos.2 hT).ne' (abs_pos.2 hT).ne']
    ring
  unfold Spec.logNormalVec Spec.logNormal
  rw [hq, hd]
  simp only [sub_zero, mul_one, Finset.sum_sub_distrib, Finset.sum_const, Finset.card_univ, Fintype.card_fin, nsmul_eq_mul,
    neg_div, Finset.sum_neg_distrib, ← Finset.sum_div]
  ring

end Verif.Gauss
