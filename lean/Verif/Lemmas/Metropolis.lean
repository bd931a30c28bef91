import Verif.Model.Pmmh
import Verif.Spec.Pmmh
import Mathlib.MeasureTheory.Measure.Lebesgue.Basic
import Mathlib.MeasureTheory.Integral.Pi
import Mathlib.Probability.Distributions.Gaussian.Real

/-!
# Acceptance probability and reversibility
-/

namespace Verif.Mcmc

open MeasureTheory ProbabilityTheory Set
open scoped ENNReal

/-- Uniform draws that lead to acceptance. -/
theorem accept_set (a : XF) :
    {u : ℝ | u ∈ Ico (0 : ℝ) 1 ∧ XF.lt (XF.log (.fin u)) a} = Ico 0 (Spec.accProb a) := by
  ext u
  simp only [mem_setOf_eq, mem_Ico]
  constructor
  · rintro ⟨⟨h0, h1⟩, h2⟩
    refine ⟨h0, ?_⟩
    simp only [XF.log] at h2
    split_ifs at h2 with hp hz
    · cases a with
      | nan => exact h2.elim
      | ninf => exact h2.elim
      | pinf => exact h1
      | fin a => exact lt_min h1 ((Real.log_lt_iff_lt_exp hp).1 h2)
    · cases a with
      | nan => exact h2.elim
      | ninf => exact h2.elim
      | pinf => exact h1
      | fin a =>
        rw [hz]
        exact lt_min one_pos (Real.exp_pos a)
    · cases a <;> exact h2.elim
  · rintro ⟨h0, h2⟩
    have h1 : u < 1 := by
      cases a with
      | nan => exact absurd (lt_of_le_of_lt h0 h2) (lt_irrefl 0)
      | ninf => exact absurd (lt_of_le_of_lt h0 h2) (lt_irrefl 0)
      | pinf => exact h2
      | fin a => exact lt_of_lt_of_le h2 (min_le_left _ _)
    refine ⟨⟨h0, h1⟩, ?_⟩
    simp only [XF.log]
    cases a with
    | nan => exact absurd (lt_of_le_of_lt h0 h2) (lt_irrefl 0)
    | ninf => exact absurd (lt_of_le_of_lt h0 h2) (lt_irrefl 0)
    | pinf =>
      split_ifs with hp hz
      · trivial
      · trivial
      · exact absurd (lt_of_le_of_ne h0 (Ne.symm hz)) hp
    | fin a =>
      split_ifs with hp hz
      · exact (Real.log_lt_iff_lt_exp hp).2 (lt_of_lt_of_le h2 (min_le_right _ _))
      · trivial
      · exact absurd (lt_of_le_of_ne h0 (Ne.symm hz)) hp

theorem accProb_nonneg (a : XF) : 0 ≤ Spec.accProb a := by
  cases a with
  | nan => exact le_refl _
  | ninf => exact le_refl _
  | pinf => exact zero_le_one
  | fin a => exact le_min zero_le_one (Real.exp_pos a).le

theorem accProb_le_one (a : XF) : Spec.accProb a ≤ 1 := by
  cases a with
  | nan => exact zero_le_one
  | ninf => exact zero_le_one
  | pinf => exact le_refl _
  | fin a => exact min_le_left _ _

theorem accept_volume (a : XF) :
    volume {u : ℝ | u ∈ Ico (0 : ℝ) 1 ∧ XF.lt (XF.log (.fin u)) a} =
      ENNReal.ofReal (Spec.accProb a) := by
  rw [accept_set, Real.volume_Ico, sub_zero]

/-- Integrating the uniform draw out of a choice between two values. -/
theorem integral_choice (a : XF) (p q : ℝ≥0∞) :
    ∫⁻ u in Ico (0 : ℝ) 1, (open Classical in if XF.lt (XF.log (.fin u)) a then p else q) =
      ENNReal.ofReal (Spec.accProb a) * p + (1 - ENNReal.ofReal (Spec.accProb a)) * q := by
  classical
  have hm := accProb_nonneg a
  have h1 : ∫⁻ u in Ico (0 : ℝ) 1, (if XF.lt (XF.log (.fin u)) a then p else q) =
      ∫⁻ u in Ico (0 : ℝ) 1, (Ico 0 (Spec.accProb a)).indicator (fun _ => p) u +
        (Ico (Spec.accProb a) 1).indicator (fun _ => q) u := by
    apply setLIntegral_congr_fun measurableSet_Ico
    intro u hu
    by_cases h : XF.lt (XF.log (.fin u)) a
    · have hmem : u ∈ Ico 0 (Spec.accProb a) := by rw [← accept_set]; exact ⟨hu, h⟩
      have hn : u ∉ Ico (Spec.accProb a) 1 := fun h' => absurd h'.1 (not_le.2 hmem.2)
      simp only [h, if_true, indicator_of_mem hmem, indicator_of_notMem hn, add_zero]
    · have hmem : u ∉ Ico 0 (Spec.accProb a) := by
        rw [← accept_set]; exact fun h' => h h'.2
      have hn : u ∈ Ico (Spec.accProb a) 1 := by
        refine ⟨?_, hu.2⟩
        by_contra hc
        exact hmem ⟨hu.1, not_le.1 hc⟩
      simp only [h, if_false, indicator_of_notMem hmem, indicator_of_mem hn, zero_add]
  rw [h1, lintegral_add_left (measurable_const.indicator measurableSet_Ico),
    lintegral_indicator measurableSet_Ico, lintegral_indicator measurableSet_Ico]
  simp only [lintegral_const, Measure.restrict_restrict measurableSet_Ico, Measure.restrict_apply_univ]
  have e1 : Ico 0 (Spec.accProb a) ∩ Ico (0 : ℝ) 1 = Ico 0 (Spec.accProb a) := by
    apply inter_eq_left.2
    exact Ico_subset_Ico_right (accProb_le_one a)
  have e2 : Ico (Spec.accProb a) 1 ∩ Ico (0 : ℝ) 1 = Ico (Spec.accProb a) 1 := by
    apply inter_eq_left.2
    exact Ico_subset_Ico_left hm
  rw [e1, e2, Real.volume_Ico, Real.volume_Ico, sub_zero, ENNReal.ofReal_sub _ hm, ENNReal.ofReal_one,
    mul_comm, mul_comm q]

/-- Reversibility of a kernel that moves with a symmetric flow and stays otherwise. -/
theorem reversible_of_symmetric {S : Type} [MeasurableSpace S] (M : Measure S) [SFinite M]
    (m : S → S → ℝ≥0∞) (hm : Measurable (Function.uncurry m)) (hsymm : ∀ x y, m x y = m y x)
    (stay : S → S → ℝ≥0∞) (hstay : Measurable (Function.uncurry stay)) (A B : Set S) (hA : MeasurableSet A)
    (hB : MeasurableSet B) :
    ∫⁻ x in A, ∫⁻ y, m x y * B.indicator 1 y + stay x y * B.indicator 1 x ∂M ∂M =
      ∫⁻ x in B, ∫⁻ y, m x y * A.indicator 1 y + stay x y * A.indicator 1 x ∂M ∂M := by
  have hmB : ∀ C : Set S, MeasurableSet C →
      Measurable (Function.uncurry fun x y => m x y * C.indicator (1 : S → ℝ≥0∞) y) := by
    intro C hC
    exact hm.mul ((measurable_one.indicator hC).comp measurable_snd)
  have hsB : ∀ C : Set S, MeasurableSet C →
      Measurable (Function.uncurry fun x y => stay x y * C.indicator (1 : S → ℝ≥0∞) x) := by
    intro C hC
    exact hstay.mul ((measurable_one.indicator hC).comp measurable_fst)
  have split : ∀ C D : Set S, MeasurableSet C → MeasurableSet D →
      ∫⁻ x in C, ∫⁻ y, m x y * D.indicator 1 y + stay x y * D.indicator 1 x ∂M ∂M =
        (∫⁻ x, ∫⁻ y, C.indicator 1 x * (m x y * D.indicator 1 y) ∂M ∂M) +
          ∫⁻ x, ∫⁻ y, C.indicator 1 x * (stay x y * D.indicator 1 x) ∂M ∂M := by
    intro C D hC hD
    have e1 : ∀ x, ∫⁻ y, m x y * D.indicator 1 y + stay x y * D.indicator 1 x ∂M =
        (∫⁻ y, m x y * D.indicator 1 y ∂M) + ∫⁻ y, stay x y * D.indicator 1 x ∂M := by
      intro x
      exact lintegral_add_left ((hmB D hD).comp measurable_prodMk_left) _
    simp only [e1]
    rw [lintegral_add_left]
    · congr 1
      · rw [← lintegral_indicator hC]
        apply lintegral_congr
        intro x
        by_cases hx : x ∈ C
        · simp [hx]
        · simp [hx]
      · rw [← lintegral_indicator hC]
        apply lintegral_congr
        intro x
        by_cases hx : x ∈ C
        · simp [hx]
        · simp [hx]
    · exact (hmB D hD).lintegral_prod_right'
  rw [split A B hA hB, split B A hB hA]
  congr 1
  · rw [lintegral_lintegral_swap]
    · apply lintegral_congr
      intro y
      apply lintegral_congr
      intro x
      rw [hsymm x y]
      ring
    · apply Measurable.aemeasurable
      exact ((measurable_one.indicator hA).comp measurable_fst).mul (hmB B hB)
  · apply lintegral_congr
    intro x
    apply lintegral_congr
    intro y
    ring

/-- The exponential of a log-density that is finite or `-inf`. -/
theorem mass_mul_accProb (l l' p p' : XF) (q q' : ℝ) (hl : l ≠ .nan ∧ l ≠ .pinf) (hl' : l' ≠ .nan ∧ l' ≠ .pinf)
    (hp : p ≠ .nan ∧ p ≠ .pinf) (hp' : p' ≠ .nan ∧ p' ≠ .pinf) :
    Spec.expMass l * Spec.expMass p * Real.exp q * Spec.accProb ((.fin q' - .fin q) + (p' - p) + (l' - l)) =
      min (Spec.expMass l * Spec.expMass p * Real.exp q) (Spec.expMass l' * Spec.expMass p' * Real.exp q') := by
  have h0 : ∀ x : XF, 0 ≤ Spec.expMass x := by
    intro x
    cases x with
    | nan => exact le_refl _
    | ninf => exact le_refl _
    | pinf => exact le_refl _
    | fin a => exact (Real.exp_pos a).le
  have hz : ∀ r : ℝ, 0 ≤ r → min 0 r = 0 := fun r hr => min_eq_left hr
  have hz' : ∀ r : ℝ, 0 ≤ r → min r 0 = 0 := fun r hr => min_eq_right hr
  cases l with
  | nan => exact (hl.1 rfl).elim
  | pinf => exact (hl.2 rfl).elim
  | ninf =>
    simp only [Spec.expMass, zero_mul]
    exact (hz _ (mul_nonneg (mul_nonneg (h0 _) (h0 _)) (Real.exp_pos _).le)).symm
  | fin l =>
    cases p with
    | nan => exact (hp.1 rfl).elim
    | pinf => exact (hp.2 rfl).elim
    | ninf =>
      simp only [Spec.expMass, mul_zero, zero_mul]
      exact (hz _ (mul_nonneg (mul_nonneg (h0 _) (h0 _)) (Real.exp_pos _).le)).symm
    | fin p =>
      have hpos : 0 ≤ Spec.expMass (.fin l) * Spec.expMass (.fin p) * Real.exp q :=
        mul_nonneg (mul_nonneg (h0 _) (h0 _)) (Real.exp_pos _).le
      cases l' with
      | nan => exact (hl'.1 rfl).elim
      | pinf => exact (hl'.2 rfl).elim
      | ninf =>
        have e : Spec.expMass .ninf * Spec.expMass p' * Real.exp q' = 0 := by simp only [Spec.expMass, zero_mul]
        rw [e, hz' _ hpos]
        have : Spec.accProb ((.fin q' - .fin q) + (p' - .fin p) + (.ninf - .fin l)) = 0 := by
          cases p' with
          | nan => exact (hp'.1 rfl).elim
          | pinf => exact (hp'.2 rfl).elim
          | ninf => rfl
          | fin p' => rfl
        rw [this, mul_zero]
      | fin l' =>
        cases p' with
        | nan => exact (hp'.1 rfl).elim
        | pinf => exact (hp'.2 rfl).elim
        | ninf =>
          have e : Spec.expMass (.fin l') * Spec.expMass .ninf * Real.exp q' = 0 := by
            simp only [Spec.expMass, mul_zero, zero_mul]
          rw [e, hz' _ hpos]
          have : Spec.accProb ((.fin q' - .fin q) + (.ninf - .fin p) + (.fin l' - .fin l)) = 0 := rfl
          rw [this, mul_zero]
        | fin p' =>
          have e : Spec.accProb ((.fin q' - .fin q) + (.fin p' - .fin p) + (.fin l' - .fin l)) =
              min 1 (Real.exp ((q' + -q) + (p' + -p) + (l' + -l))) := rfl
          rw [e]
          simp only [Spec.expMass] at hpos ⊢
          rw [mul_min_of_nonneg _ _ hpos, mul_one]
          simp only [← Real.exp_add]
          congr 2
          ring

/-- The density of a batch entry of normal distributions integrates to one. -/
theorem gauss_normalised {P d : ℕ} (g : Gauss P d) (i : Fin P) (hs : ∀ j, 0 < g.scale i j) :
    ∫⁻ x : Row d, ENNReal.ofReal (Real.exp (∑ j, logNormal (g.loc i j) (g.scale i j) (x j))) = 1 := by
  have h1 : ∀ j (x : ℝ), Real.exp (logNormal (g.loc i j) (g.scale i j) x) =
      gaussianPDFReal (g.loc i j) (Real.toNNReal (g.scale i j ^ 2)) x := by
    intro j x
    unfold logNormal gaussianPDFReal
    have hsp := hs j
    have hc : ((Real.toNNReal (g.scale i j ^ 2) : NNReal) : ℝ) = g.scale i j ^ 2 :=
      Real.coe_toNNReal _ (sq_nonneg _)
    rw [hc, Real.exp_sub, Real.exp_sub, Real.exp_log hsp]
    have hsqrt : Real.sqrt (2 * Real.pi * g.scale i j ^ 2) = Real.exp (Real.log (2 * Real.pi) / 2) * g.scale i j := by
      rw [Real.sqrt_mul (by positivity), Real.sqrt_sq hsp.le, Real.sqrt_eq_rpow,
        Real.rpow_def_of_pos (by positivity)]
      congr 2
      ring
    rw [hsqrt]
    have : Real.exp (Real.log (2 * Real.pi) / 2) ≠ 0 := (Real.exp_pos _).ne'
    field_simp
  have h2 : ∀ x : Row d, Real.exp (∑ j, logNormal (g.loc i j) (g.scale i j) (x j)) =
      ∏ j, gaussianPDFReal (g.loc i j) (Real.toNNReal (g.scale i j ^ 2)) (x j) := by
    intro x
    rw [Real.exp_sum]
    exact Finset.prod_congr rfl fun j _ => h1 j (x j)
  simp only [h2]
  have hint : Integrable (fun x : Row d =>
      ∏ j, gaussianPDFReal (g.loc i j) (Real.toNNReal (g.scale i j ^ 2)) (x j)) :=
    Integrable.fintype_prod fun j => integrable_gaussianPDFReal _ _
  rw [← ofReal_integral_eq_lintegral_ofReal hint
    (ae_of_all _ fun x => Finset.prod_nonneg fun j _ => gaussianPDFReal_nonneg _ _ _)]
  rw [integral_fintype_prod_volume_eq_prod]
  rw [Finset.prod_congr rfl (g := fun _ => (1 : ℝ))]
  · simp
  · intro j _
    apply integral_gaussianPDFReal_eq_one
    have := hs j
    simp only [ne_eq, Real.toNNReal_eq_zero, not_le]
    positivity

end Verif.Mcmc
