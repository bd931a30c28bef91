import Verif.Lemmas.Ergodic
import Verif.Lemmas.Metropolis

/-!
# Metropolis–Hastings chains converge

Kernels that move with a symmetric flow which is positive wherever the target is positive are reversible and
satisfy the conditions of `Verif.Lemmas.Ergodic` at every point of positive density.
-/

namespace Verif.Converge

open MeasureTheory ProbabilityTheory Filter Set Verif.Ergodic
open scoped ENNReal Topology

variable {S : Type} [MeasurableSpace S]

/-- A symmetric flow `m` below target times proposal; the rest stays. -/
structure Flow (M : Measure S) (T : S → ℝ≥0∞) (m stay : S → S → ℝ≥0∞) : Prop where
  measurable_T : Measurable T
  finite : ∀ x, T x ≠ ∞
  measurable_m : Measurable (Function.uncurry m)
  measurable_stay : Measurable (Function.uncurry stay)
  symm : ∀ x y, m x y = m y x
  total : ∀ x, ∫⁻ y, m x y + stay x y ∂M = T x
  zero : ∀ x y, T x = 0 → m x y = 0
  pos : ∀ x y, T x ≠ 0 → T y ≠ 0 → m x y ≠ 0

variable {M : Measure S} [SFinite M] {T : S → ℝ≥0∞} {m stay : S → S → ℝ≥0∞} (F : Flow M T m stay)

include F

omit [SFinite M] in
theorem Flow.measurable_right (x : S) : Measurable (m x) := F.measurable_m.comp measurable_prodMk_left

omit [SFinite M] in
theorem Flow.split (x : S) : (∫⁻ y, m x y ∂M) + ∫⁻ y, stay x y ∂M = T x := by
  rw [← F.total x, lintegral_add_left (F.measurable_right x)]

omit [SFinite M] in
theorem Flow.out_le (x : S) : ∫⁻ y, m x y ∂M ≤ T x := by
  rw [← F.split x]
  exact le_self_add

omit [SFinite M] in
/-- Probability of leaving. -/
theorem Flow.out_ratio_le (x : S) : ∫⁻ y, m x y / T x ∂M ≤ 1 := by
  simp only [div_eq_mul_inv]
  rw [lintegral_mul_const _ (F.measurable_right x)]
  by_cases h : T x = 0
  · simp [F.zero x _ h]
  · rw [← div_eq_mul_inv]
    exact ENNReal.div_le_of_le_mul (by rw [one_mul]; exact F.out_le x)

omit [SFinite M] in
theorem Flow.measurable_stay_right (x : S) : Measurable (stay x) := F.measurable_stay.comp measurable_prodMk_left

omit [SFinite M] in
theorem Flow.measurable_ratio : Measurable (Function.uncurry fun x y => m x y / T x) :=
  F.measurable_m.div (F.measurable_T.comp measurable_fst)

/-- The transition kernel of the flow. -/
noncomputable def Flow.kernel : Kernel S S where
  toFun x := M.withDensity (fun y => m x y / T x) + (1 - ∫⁻ y, m x y / T x ∂M) • Measure.dirac x
  measurable' := by
    refine Measure.measurable_of_measurable_coe _ fun B hB => ?_
    simp only [Measure.add_apply, Measure.smul_apply, smul_eq_mul]
    refine Measurable.add ?_ (Measurable.mul (measurable_const.sub F.measurable_ratio.lintegral_prod_right') ?_)
    · have e : (fun x => M.withDensity (fun y => m x y / T x) B)
          = fun x => ∫⁻ y, B.indicator (fun y => m x y / T x) y ∂M := by
        funext x
        rw [withDensity_apply _ hB, lintegral_indicator hB]
      rw [e]
      have h2 : Measurable (Function.uncurry fun x y => B.indicator (fun y => m x y / T x) y) := by
        have : (Function.uncurry fun x y => B.indicator (fun y => m x y / T x) y)
            = (univ ×ˢ B).indicator (Function.uncurry fun x y => m x y / T x) := by
          funext z
          by_cases hz : z.2 ∈ B <;> simp [Function.uncurry, Set.indicator, hz]
        rw [this]
        exact F.measurable_ratio.indicator (MeasurableSet.univ.prod hB)
      exact h2.lintegral_prod_right'
    · have : (fun x => Measure.dirac x B) = B.indicator (1 : S → ℝ≥0∞) := by
        funext x
        exact Measure.dirac_apply' x hB
      rw [this]
      exact measurable_one.indicator hB

theorem Flow.kernel_eq (x : S) : F.kernel x
    = M.withDensity (fun y => m x y / T x) + (1 - ∫⁻ y, m x y / T x ∂M) • Measure.dirac x := rfl

instance Flow.markov : IsMarkovKernel F.kernel := by
  refine ⟨fun x => ⟨?_⟩⟩
  rw [F.kernel_eq, Measure.add_apply, withDensity_apply _ MeasurableSet.univ, setLIntegral_univ]
  simp only [Measure.smul_apply, measure_univ, smul_eq_mul, mul_one]
  exact add_tsub_cancel_of_le (F.out_ratio_le x)

theorem Flow.mul_kernel (x : S) {B : Set S} (hB : MeasurableSet B) :
    T x * F.kernel x B = ∫⁻ y, (m x y * B.indicator 1 y + stay x y * B.indicator 1 x) ∂M := by
  have hind : Measurable fun y => m x y * B.indicator (1 : S → ℝ≥0∞) y :=
    (F.measurable_right x).mul (measurable_one.indicator hB)
  rw [lintegral_add_left hind,
    lintegral_mul_const _ (F.measurable_stay_right x)]
  by_cases h : T x = 0
  · have h2 : ∫⁻ y, stay x y ∂M = 0 := by
      have := F.split x
      rw [h] at this
      exact (add_eq_zero.1 this).2
    simp only [h, F.zero x _ h, h2, zero_mul, lintegral_zero, add_zero]
  · have e1 : T x * ∫⁻ y, m x y / T x ∂M = ∫⁻ y, m x y ∂M := by
      simp only [div_eq_mul_inv]
      rw [lintegral_mul_const _ (F.measurable_right x), mul_comm, mul_assoc,
        ENNReal.inv_mul_cancel h (F.finite x), mul_one]
    have e2 : T x * ∫⁻ y in B, m x y / T x ∂M = ∫⁻ y, m x y * B.indicator 1 y ∂M := by
      simp only [div_eq_mul_inv]
      rw [lintegral_mul_const _ (F.measurable_right x), mul_comm, mul_assoc,
        ENNReal.inv_mul_cancel h (F.finite x), mul_one, ← lintegral_indicator hB]
      refine lintegral_congr fun y => ?_
      by_cases hy : y ∈ B <;> simp [hy]
    have e3 : T x * (1 - ∫⁻ y, m x y / T x ∂M) = ∫⁻ y, stay x y ∂M := by
      rw [ENNReal.mul_sub (fun _ _ => F.finite x), mul_one, e1]
      conv_lhs => rw [← F.split x]
      exact ENNReal.add_sub_cancel_left ((F.out_le x).trans_lt (F.finite x).lt_top).ne
    rw [F.kernel_eq, Measure.add_apply, withDensity_apply _ hB, Measure.smul_apply, smul_eq_mul, mul_add, e2,
      ← mul_assoc, e3, Measure.dirac_apply' x hB]

/-- The normalised target. -/
noncomputable def target (M : Measure S) (T : S → ℝ≥0∞) : Measure S := (∫⁻ x, T x ∂M)⁻¹ • M.withDensity T

omit F [SFinite M] in
theorem target_apply {B : Set S} (hB : MeasurableSet B) :
    target M T B = (∫⁻ x, T x ∂M)⁻¹ * ∫⁻ x in B, T x ∂M := by
  unfold target
  rw [Measure.smul_apply, withDensity_apply _ hB, smul_eq_mul]

omit F [SFinite M] in
theorem target_prob (h0 : ∫⁻ x, T x ∂M ≠ 0) (h1 : ∫⁻ x, T x ∂M ≠ ∞) : IsProbabilityMeasure (target M T) := by
  refine ⟨?_⟩
  rw [target_apply MeasurableSet.univ, setLIntegral_univ]
  exact ENNReal.inv_mul_cancel h0 h1

omit [SFinite M] in
theorem Flow.lintegral_target (f : S → ℝ≥0∞) (A : Set S) (hA : MeasurableSet A) :
    ∫⁻ x in A, f x ∂target M T = (∫⁻ x, T x ∂M)⁻¹ * ∫⁻ x in A, T x * f x ∂M := by
  unfold target
  rw [Measure.restrict_smul, lintegral_smul_measure, restrict_withDensity hA,
    lintegral_withDensity_eq_lintegral_mul_non_measurable _ F.measurable_T
      (Eventually.of_forall fun x => (F.finite x).lt_top)]
  rfl

theorem Flow.reversible (h0 : ∫⁻ x, T x ∂M ≠ 0) (h1 : ∫⁻ x, T x ∂M ≠ ∞) :
    (target M T ⊗ₘ F.kernel).map Prod.swap = target M T ⊗ₘ F.kernel := by
  have := target_prob h0 h1
  have : IsFiniteMeasure ((target M T ⊗ₘ F.kernel).map Prod.swap) := by
    have := F.markov
    infer_instance
  refine Measure.ext_prod fun {A B} hA hB => ?_
  have := F.markov
  rw [Measure.map_apply measurable_swap (hA.prod hB), Set.preimage_swap_prod, Measure.compProd_apply_prod hB hA,
    Measure.compProd_apply_prod hA hB, F.lintegral_target _ _ hB, F.lintegral_target _ _ hA]
  congr 1
  simp only [F.mul_kernel _ hA, F.mul_kernel _ hB]
  exact Mcmc.reversible_of_symmetric M m F.measurable_m F.symm stay F.measurable_stay B A hB hA

theorem Flow.ac (h0 : ∫⁻ x, T x ∂M ≠ 0) (h1 : ∫⁻ x, T x ∂M ≠ ∞) :
    (target M T).prod (target M T) ≪ target M T ⊗ₘ F.kernel := by
  have := target_prob h0 h1
  have := F.markov
  refine Measure.AbsolutelyContinuous.mk fun N hN hJ => ?_
  rw [Measure.compProd_apply hN, lintegral_eq_zero_iff (Kernel.measurable_kernel_prodMk_left hN)] at hJ
  rw [Measure.measure_prod_null hN]
  have hT : ∀ᵐ x ∂target M T, T x ≠ 0 := by
    have hm : MeasurableSet {x | T x = 0} := F.measurable_T (measurableSet_singleton 0)
    have : target M T {x | T x = 0} = 0 := by
      rw [target_apply hm, setLIntegral_congr_fun hm (g := fun _ => 0) (fun x hx => hx)]
      simp
    exact measure_eq_zero_iff_ae_notMem.1 this
  filter_upwards [hJ, hT] with x hx hTx
  have hNx : MeasurableSet (Prod.mk x ⁻¹' N) := measurable_prodMk_left hN
  simp only [Pi.zero_apply] at hx ⊢
  rw [F.kernel_eq, Measure.add_apply] at hx
  have h2 := (add_eq_zero.1 hx).1
  rw [withDensity_apply _ hNx, lintegral_eq_zero_iff ((F.measurable_right x).div_const _)] at h2
  rw [target_apply hNx, mul_eq_zero]
  refine Or.inr ?_
  rw [lintegral_eq_zero_iff F.measurable_T]
  filter_upwards [h2] with y hy
  by_contra hTy
  simp only [Pi.zero_apply] at hy hTy
  rw [ENNReal.div_eq_zero_iff] at hy
  rcases hy with hy | hy
  · exact F.pos x y hTx hTy hy
  · exact F.finite x hy

omit [SFinite M] in
theorem Flow.move_ac (x : S) (h1 : ∫⁻ x, T x ∂M ≠ ∞) : M.withDensity (fun y => m x y / T x) ≪ target M T := by
  refine Measure.AbsolutelyContinuous.mk fun B hB h => ?_
  rw [target_apply hB, mul_eq_zero, ENNReal.inv_eq_zero] at h
  rcases h with h | h
  · exact absurd h h1
  rw [lintegral_eq_zero_iff F.measurable_T] at h
  rw [withDensity_apply _ hB, lintegral_eq_zero_iff ((F.measurable_right x).div_const _)]
  filter_upwards [h] with y hy
  simp only [Pi.zero_apply] at hy ⊢
  rw [F.symm x y, F.zero y x hy, ENNReal.zero_div]

omit [SFinite M] in
theorem Flow.leaves (x : S) (hx : T x ≠ 0) (h0 : ∫⁻ x, T x ∂M ≠ 0) : 1 - ∫⁻ y, m x y / T x ∂M < 1 := by
  refine ENNReal.sub_lt_self ENNReal.one_ne_top one_ne_zero ?_
  intro h
  refine h0 ?_
  rw [lintegral_eq_zero_iff ((F.measurable_right x).div_const _)] at h
  rw [lintegral_eq_zero_iff F.measurable_T]
  filter_upwards [h] with y hy
  simp only [Pi.zero_apply] at hy ⊢
  rw [ENNReal.div_eq_zero_iff] at hy
  by_contra hTy
  rcases hy with hy | hy
  · exact F.pos x y hx hTy hy
  · exact F.finite x hy

end Verif.Converge
