import Mathlib.Probability.StrongLaw
import Mathlib.MeasureTheory.Measure.Prod
import Mathlib.MeasureTheory.Measure.WithDensity
import Mathlib.MeasureTheory.Function.L1Space.Integrable
import Mathlib.MeasureTheory.Integral.Prod

/-!
# Importance sampling with estimated weights: strong laws
-/

namespace Verif.ImportanceLaw

open MeasureTheory ProbabilityTheory Filter
open scoped ENNReal Topology

variable {Θ Ω Ξ : Type} [MeasurableSpace Θ] [MeasurableSpace Ω] [MeasurableSpace Ξ]
variable {prior : Measure Θ} [IsProbabilityMeasure prior] {P : Measure Ω} [IsProbabilityMeasure P]

/-- Averages of independent draws. -/
theorem averages {law : Measure Ξ} {D : Type} [MeasurableSpace D] {ν : Measure D} {X : ℕ → Ξ → D}
    (hX : ∀ i, Measurable (X i)) (hind : Pairwise fun i j => IndepFun (X i) (X j) law)
    (hlaw : ∀ i, law.map (X i) = ν) {H : D → ℝ} (hH : Measurable H) (hint : Integrable H ν) :
    ∀ᵐ ξ ∂law, Tendsto (fun S : ℕ => (∑ i : Fin (S + 1), H (X i ξ)) / ((S : ℝ) + 1)) atTop (𝓝 (∫ q, H q ∂ν)) := by
  have h := strong_law_ae_real (μ := law) (fun i ξ => H (X i ξ))
    (by
      have : Integrable H (law.map (X 0)) := by rw [hlaw]; exact hint
      exact this.comp_measurable (hX 0))
    (fun i j hij => (hind hij).comp hH hH)
    (fun i => ⟨(hH.comp (hX i)).aemeasurable, (hH.comp (hX 0)).aemeasurable, by
      have e : ∀ i, law.map (fun ξ => H (X i ξ)) = ν.map H := by
        intro i
        rw [← hlaw i, Measure.map_map hH (hX i)]
        rfl
      rw [e, e]⟩)
  have hm : ∫ ξ, H (X 0 ξ) ∂law = ∫ q, H q ∂ν := by
    rw [← hlaw 0, integral_map (hX 0).aemeasurable hH.aestronglyMeasurable]
  rw [hm] at h
  filter_upwards [h] with ξ hξ
  have := hξ.comp (tendsto_add_atTop_nat 1)
  refine this.congr fun S => ?_
  simp only [Function.comp]
  rw [← Fin.sum_univ_eq_sum_range (fun i => H (X i ξ))]
  push_cast
  rfl

/-- The marginal law of the first coordinate under the estimated weights. -/
theorem map_fst_withDensity {G : Θ × Ω → ℝ} (hG : Measurable G) :
    (((prior.prod P).withDensity fun q => ENNReal.ofReal (G q)).map Prod.fst)
      = prior.withDensity fun θ => ∫⁻ ω, ENNReal.ofReal (G (θ, ω)) ∂P := by
  have hGm : Measurable fun q : Θ × Ω => ENNReal.ofReal (G q) := hG.ennreal_ofReal
  ext A hA
  rw [Measure.map_apply measurable_fst hA, withDensity_apply _ (measurable_fst hA), withDensity_apply _ hA]
  have : (Prod.fst ⁻¹' A : Set (Θ × Ω)) = A ×ˢ Set.univ := by
    ext q
    simp
  rw [this, ← Measure.prod_restrict, Measure.restrict_univ, lintegral_prod _ hGm.aemeasurable]

/-- Weighted functions of the first coordinate. -/
theorem weighted {G : Θ × Ω → ℝ} (hG : Measurable G) (h0 : ∀ q, 0 ≤ G q) {φ : Θ → ℝ} (hφ : Measurable φ)
    (hint : Integrable φ (prior.withDensity fun θ => ∫⁻ ω, ENNReal.ofReal (G (θ, ω)) ∂P)) :
    Integrable (fun q : Θ × Ω => G q * φ q.1) (prior.prod P) ∧
      ∫ q, G q * φ q.1 ∂(prior.prod P)
        = ∫ θ, φ θ ∂(prior.withDensity fun θ => ∫⁻ ω, ENNReal.ofReal (G (θ, ω)) ∂P) := by
  have hGm : Measurable fun q : Θ × Ω => ENNReal.ofReal (G q) := hG.ennreal_ofReal
  have hlt : ∀ᵐ q ∂(prior.prod P), ENNReal.ofReal (G q) < ∞ := Eventually.of_forall fun q => ENNReal.ofReal_lt_top
  have hm := map_fst_withDensity (prior := prior) (P := P) hG
  have hφf : Measurable fun q : Θ × Ω => φ q.1 := hφ.comp measurable_fst
  constructor
  · rw [← hm] at hint
    have h1 := hint.comp_measurable measurable_fst
    have h2 := (integrable_withDensity_iff_integrable_smul' hGm hlt).1 h1
    refine h2.congr (Eventually.of_forall fun q => ?_)
    simp [ENNReal.toReal_ofReal (h0 q)]
  · rw [← hm, integral_map measurable_fst.aemeasurable hφ.aestronglyMeasurable,
      integral_withDensity_eq_integral_toReal_smul hGm hlt]
    refine integral_congr_ae (Eventually.of_forall fun q => ?_)
    simp [ENNReal.toReal_ofReal (h0 q)]

/-- Squared sum over sum of squares. -/
noncomputable def essVal {S : ℕ} (v : Fin S → ℝ) : ℝ := (∑ i, v i) ^ 2 / ∑ i, v i ^ 2

/-- Averages of nonnegative draws without finite mean diverge. -/
theorem averages_top {law : Measure Ξ} {D : Type} [MeasurableSpace D] {ν : Measure D} [IsProbabilityMeasure ν]
    {X : ℕ → Ξ → D} (hX : ∀ i, Measurable (X i)) (hind : Pairwise fun i j => IndepFun (X i) (X j) law)
    (hlaw : ∀ i, law.map (X i) = ν) {H : D → ℝ} (hH : Measurable H) (h0 : ∀ q, 0 ≤ H q)
    (htop : ∫⁻ q, ENNReal.ofReal (H q) ∂ν = ∞) :
    ∀ᵐ ξ ∂law, Tendsto (fun S : ℕ => (∑ i : Fin (S + 1), H (X i ξ)) / ((S : ℝ) + 1)) atTop atTop := by
  have hm : ∀ M : ℕ, Measurable fun q => min (H q) (M : ℝ) := fun M => hH.min measurable_const
  have hi : ∀ M : ℕ, Integrable (fun q => min (H q) (M : ℝ)) ν := fun M =>
    Integrable.of_bound (hm M).aestronglyMeasurable (M : ℝ) (Eventually.of_forall fun q => by
      rw [Real.norm_eq_abs, abs_of_nonneg (le_min (h0 q) (Nat.cast_nonneg M))]
      exact min_le_right _ _)
  have hc : Tendsto (fun M : ℕ => ∫⁻ q, ENNReal.ofReal (min (H q) (M : ℝ)) ∂ν) atTop (𝓝 ∞) := by
    rw [← htop]
    refine lintegral_tendsto_of_tendsto_of_monotone (fun M => (hm M).ennreal_ofReal.aemeasurable)
      (Eventually.of_forall fun q M N h => ENNReal.ofReal_le_ofReal (min_le_min_left _ (Nat.cast_le.2 h)))
      (Eventually.of_forall fun q => ?_)
    refine tendsto_const_nhds.congr' ?_
    obtain ⟨N, hN⟩ := exists_nat_ge (H q)
    filter_upwards [eventually_ge_atTop N] with M hM
    rw [min_eq_left (hN.trans (Nat.cast_le.2 hM))]
  have hall : ∀ᵐ ξ ∂law, ∀ M : ℕ, Tendsto (fun S : ℕ => (∑ i : Fin (S + 1), min (H (X i ξ)) (M : ℝ)) / ((S : ℝ) + 1))
      atTop (𝓝 (∫ q, min (H q) (M : ℝ) ∂ν)) := by
    rw [ae_all_iff]
    exact fun M => averages hX hind hlaw (hm M) (hi M)
  filter_upwards [hall] with ξ hξ
  rw [tendsto_atTop]
  intro C
  obtain ⟨M, hM⟩ := (hc.eventually (lt_mem_nhds (ENNReal.ofReal_lt_top (r := C)))).exists
  have hlt : C < ∫ q, min (H q) (M : ℝ) ∂ν := by
    rw [integral_eq_lintegral_of_nonneg_ae (Eventually.of_forall fun q => le_min (h0 q) (Nat.cast_nonneg M))
      (hm M).aestronglyMeasurable]
    by_contra hle
    have hfin : ∫⁻ q, ENNReal.ofReal (min (H q) (M : ℝ)) ∂ν ≠ ∞ := (hi M).lintegral_lt_top.ne
    exact absurd (ENNReal.le_ofReal_iff_toReal_le hfin (le_trans ENNReal.toReal_nonneg (not_lt.1 hle)) |>.2 (not_lt.1 hle))
      (not_le.2 hM)
  filter_upwards [(hξ M).eventually (lt_mem_nhds hlt)] with S hS
  refine hS.le.trans ?_
  refine div_le_div_of_nonneg_right (Finset.sum_le_sum fun i _ => min_le_left _ _) (by positivity)

/-- The effective sample size of weights of independent draws, relative to their number, tends to the squared mean
over the mean square. -/
theorem ess_limit {law : Measure Ξ} {D : Type} [MeasurableSpace D] {ν : Measure D} [IsProbabilityMeasure ν]
    {X : ℕ → Ξ → D} (hX : ∀ i, Measurable (X i)) (hind : Pairwise fun i j => IndepFun (X i) (X j) law)
    (hlaw : ∀ i, law.map (X i) = ν) {G : D → ℝ} (hG : Measurable G) (h0 : ∀ q, 0 < G q)
    (hfin : ∫⁻ q, ENNReal.ofReal (G q) ∂ν ≠ ∞) :
    ∀ᵐ ξ ∂law, Tendsto (fun S : ℕ => essVal (fun i : Fin (S + 1) => G (X i ξ)) / ((S : ℝ) + 1)) atTop
      (𝓝 ((∫⁻ q, ENNReal.ofReal (G q) ∂ν) ^ 2 / ∫⁻ q, ENNReal.ofReal (G q) ^ 2 ∂ν).toReal) := by
  have hi : Integrable G ν := ⟨hG.aestronglyMeasurable, by
    rw [hasFiniteIntegral_iff_ofReal (Eventually.of_forall fun q => (h0 q).le)]
    exact lt_top_iff_ne_top.2 hfin⟩
  have e1 : ∫ q, G q ∂ν = (∫⁻ q, ENNReal.ofReal (G q) ∂ν).toReal :=
    integral_eq_lintegral_of_nonneg_ae (Eventually.of_forall fun q => (h0 q).le) hG.aestronglyMeasurable
  have hsq : Measurable fun q => G q ^ 2 := hG.pow_const 2
  have e2 : ∀ q, ENNReal.ofReal (G q) ^ 2 = ENNReal.ofReal (G q ^ 2) := fun q => (ENNReal.ofReal_pow (h0 q).le 2).symm
  have hform : ∀ (ξ : Ξ) (S : ℕ), ((∑ i : Fin (S + 1), G (X i ξ)) / ((S : ℝ) + 1)) ^ 2 /
      ((∑ i : Fin (S + 1), G (X i ξ) ^ 2) / ((S : ℝ) + 1)) = essVal (fun i : Fin (S + 1) => G (X i ξ)) / ((S : ℝ) + 1) := by
    intro ξ S
    have h1 : ((S : ℝ) + 1) ≠ 0 := by positivity
    have h2 : (∑ i : Fin (S + 1), G (X i ξ) ^ 2) ≠ 0 :=
      (Finset.sum_pos (fun i _ => pow_pos (h0 _) 2) Finset.univ_nonempty).ne'
    unfold essVal
    field_simp
  simp only [e2]
  by_cases htop : ∫⁻ q, ENNReal.ofReal (G q ^ 2) ∂ν = ∞
  · rw [htop, ENNReal.div_top, ENNReal.toReal_zero]
    filter_upwards [averages hX hind hlaw hG hi, averages_top hX hind hlaw hsq (fun q => sq_nonneg _) htop] with ξ h1 h2
    exact ((h1.pow 2).div_atTop h2).congr (hform ξ)
  · have hi2 : Integrable (fun q => G q ^ 2) ν := ⟨hsq.aestronglyMeasurable, by
      rw [hasFiniteIntegral_iff_ofReal (Eventually.of_forall fun q => sq_nonneg _)]
      exact lt_top_iff_ne_top.2 htop⟩
    have e3 : ∫ q, G q ^ 2 ∂ν = (∫⁻ q, ENNReal.ofReal (G q ^ 2) ∂ν).toReal :=
      integral_eq_lintegral_of_nonneg_ae (Eventually.of_forall fun q => sq_nonneg _) hsq.aestronglyMeasurable
    have hne : (∫⁻ q, ENNReal.ofReal (G q ^ 2) ∂ν).toReal ≠ 0 := by
      rw [← e3]
      refine (integral_pos_iff_support_of_nonneg (fun q => sq_nonneg _) hi2).2 ?_ |>.ne'
      have : Function.support (fun q => G q ^ 2) = Set.univ := by
        ext q
        simp [(h0 q).ne']
      rw [this]
      simp
    filter_upwards [averages hX hind hlaw hG hi, averages hX hind hlaw hsq hi2] with ξ h1 h2
    rw [e1] at h1
    rw [e3] at h2
    rw [ENNReal.toReal_div, ENNReal.toReal_pow]
    exact ((h1.pow 2).div h2 hne).congr (hform ξ)

end Verif.ImportanceLaw
