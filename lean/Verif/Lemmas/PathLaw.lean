import Verif.Lemmas.Ergodic
import Verif.Lemmas.Stream
import Mathlib.MeasureTheory.Integral.Prod

/-!
# Laws along the path of a chain driven by independent draws
-/

namespace Verif.Ergodic

open MeasureTheory ProbabilityTheory Filter Set Verif.Unbiased
open scoped ENNReal Topology

variable {S E : Type} [MeasurableSpace S] [MeasurableSpace E]

/-- The state after `n` draws of the stream. -/
def path (g : S × E → S) : ℕ → S → (ℕ → E) → S
  | 0, x, _ => x
  | n + 1, x, ξ => path g n (g (x, ξ 0)) fun k => ξ (k + 1)

omit [MeasurableSpace S] [MeasurableSpace E] in
theorem path_succ (g : S × E → S) (n : ℕ) (x : S) (ξ : ℕ → E) :
    path g (n + 1) x ξ = g (path g n x ξ, ξ n) := by
  induction n generalizing x ξ with
  | zero => rfl
  | succ n ih =>
    show path g (n + 1) (g (x, ξ 0)) (fun k => ξ (k + 1)) = _
    rw [ih]
    rfl

theorem measurable_path {g : S × E → S} (hg : Measurable g) (n : ℕ) :
    Measurable fun q : S × (ℕ → E) => path g n q.1 q.2 := by
  induction n with
  | zero => exact measurable_fst
  | succ n ih =>
    refine ih.comp (Measurable.prodMk (hg.comp (measurable_fst.prodMk ?_)) ?_)
    · exact (measurable_pi_apply 0).comp measurable_snd
    · rw [measurable_pi_iff]
      exact fun k => (measurable_pi_apply (k + 1)).comp measurable_snd

variable (η : Measure E) [IsProbabilityMeasure η]

theorem measurable_path_right {g : S × E → S} (hg : Measurable g) (n : ℕ) (x : S) :
    Measurable (path g n x) := (measurable_path hg n).comp measurable_prodMk_left

theorem integral_stream {F : (ℕ → E) → ℝ} (hF : Measurable F) {C : ℝ} (hC : ∀ ξ, |F ξ| ≤ C) :
    ∫ ξ, F ξ ∂streamLaw η = ∫ e, ∫ ξ, F (push (e, ξ)) ∂streamLaw η ∂η := by
  conv_lhs => rw [← push_law η]
  rw [integral_map measurable_push.aemeasurable hF.aestronglyMeasurable, integral_prod]
  refine Integrable.of_bound (hF.comp measurable_push).aestronglyMeasurable C ?_
  exact Eventually.of_forall fun q => hC _

/-- Law of the state after `n` draws. -/
noncomputable def lawAt (η : Measure E) [IsProbabilityMeasure η] (g : S × E → S) (n : ℕ) (x : S) : Measure S :=
  (streamLaw η).map (path g n x)

variable {g : S × E → S} (hg : Measurable g)
include hg

theorem lawAt_prob (n : ℕ) (x : S) : IsProbabilityMeasure (lawAt η g n x) :=
  Measure.isProbabilityMeasure_map (measurable_path_right hg n x).aemeasurable

theorem integral_lawAt (n : ℕ) (x : S) {F : S → ℝ} (hF : Measurable F) :
    ∫ y, F y ∂lawAt η g n x = ∫ ξ, F (path g n x ξ) ∂streamLaw η :=
  integral_map (measurable_path_right hg n x).aemeasurable hF.aestronglyMeasurable

omit hg in
theorem lawAt_zero (x : S) : lawAt η g 0 x = Measure.dirac x := by
  unfold lawAt
  show (streamLaw η).map (fun _ => x) = _
  rw [Measure.map_const, measure_univ, one_smul]

/-- Expectations after `n` draws, as a function of the start. -/
noncomputable def mean (η : Measure E) [IsProbabilityMeasure η] (g : S × E → S) (F : S → ℝ) (n : ℕ) (x : S) : ℝ :=
  ∫ ξ, F (path g n x ξ) ∂streamLaw η

theorem measurable_mean {F : S → ℝ} (hF : Measurable F) (n : ℕ) : Measurable (mean η g F n) := by
  unfold mean
  have h : StronglyMeasurable (Function.uncurry fun x ξ => F (path g n x ξ)) :=
    (hF.comp (measurable_path hg n)).stronglyMeasurable
  exact h.integral_prod_right.measurable

omit hg [MeasurableSpace S] in
theorem abs_mean_le {F : S → ℝ} {C : ℝ} (hC : ∀ x, |F x| ≤ C) (n : ℕ) (x : S) : |mean η g F n x| ≤ C := by
  unfold mean
  have := norm_integral_le_of_norm_le_const (μ := streamLaw η) (f := fun ξ => F (path g n x ξ)) (C := C)
    (Eventually.of_forall fun ξ => hC _)
  simpa using this

/-- The first draw first. -/
theorem mean_succ {F : S → ℝ} (hF : Measurable F) {C : ℝ} (hC : ∀ x, |F x| ≤ C) (n : ℕ) (x : S) :
    mean η g F (n + 1) x = ∫ e, mean η g F n (g (x, e)) ∂η := by
  unfold mean
  have hm : Measurable fun ξ => F (path g (n + 1) x ξ) := hF.comp (measurable_path_right hg (n + 1) x)
  rw [integral_stream η hm (fun ξ => hC _)]
  rfl

/-- Two times of one path: `j` and `j + m`. -/
theorem integral_two {F G : S → ℝ} (hF : Measurable F) (hG : Measurable G) {C D : ℝ} (hC : ∀ x, |F x| ≤ C)
    (hD : ∀ x, |G x| ≤ D) (j m : ℕ) (x : S) :
    ∫ ξ, F (path g j x ξ) * G (path g (j + m) x ξ) ∂streamLaw η
      = mean η g (fun y => F y * mean η g G m y) j x := by
  have hFG : ∀ a b, |F a * G b| ≤ C * D := fun a b => by
    rw [abs_mul]
    exact mul_le_mul (hC a) (hD b) (abs_nonneg _) ((abs_nonneg _).trans (hC a))
  have hFM : ∀ a, |F a * mean η g G m a| ≤ C * D := fun a => by
    rw [abs_mul]
    exact mul_le_mul (hC a) (abs_mean_le η hD m a) (abs_nonneg _) ((abs_nonneg _).trans (hC a))
  induction j generalizing x with
  | zero =>
    rw [Nat.zero_add]
    show ∫ ξ, F x * G (path g m x ξ) ∂streamLaw η = ∫ _, F x * mean η g G m x ∂streamLaw η
    rw [integral_const_mul]
    simp [mean]
  | succ j ih =>
    have hm : Measurable fun y => F y * mean η g G m y := hF.mul (measurable_mean η hg hG m)
    rw [mean_succ η hg hm hFM, integral_stream η _ (fun ξ => hFG _ _)]
    · refine integral_congr_ae (Eventually.of_forall fun e => ?_)
      dsimp only
      rw [← ih (g (x, e))]
      have e1 : j + 1 + m = (j + m) + 1 := by omega
      rw [e1]
      rfl
    · exact (hF.comp (measurable_path_right hg _ x)).mul (hG.comp (measurable_path_right hg _ x))

/-- The last draw last. -/
theorem lawAt_succ (n : ℕ) (x : S) : lawAt η g (n + 1) x = (lawAt η g n x).bind (noiseKernel η g) := by
  have h1 := lawAt_prob η hg (n + 1) x
  have h0 := lawAt_prob η hg n x
  ext B hB
  rw [Measure.bind_apply hB (noiseKernel η g).aemeasurable]
  have hind : Measurable (B.indicator (1 : S → ℝ)) := measurable_one.indicator hB
  have hle : ∀ y, |B.indicator (1 : S → ℝ) y| ≤ 1 := by
    intro y
    by_cases hy : y ∈ B <;> simp [hy]
  have e1 : mean η g (B.indicator (1 : S → ℝ)) (n + 1) x
      = mean η g (fun y => mean η g (B.indicator (1 : S → ℝ)) 1 y) n x := by
    have := integral_two η hg (F := fun _ => 1) measurable_const hind (C := 1) (D := 1) (by simp) hle n 1 x
    simpa [mean] using this
  have e2 : ∀ y, mean η g (B.indicator (1 : S → ℝ)) 1 y = (noiseKernel η g y).real B := by
    intro y
    have hgy : Measurable fun e => g (y, e) := hg.comp measurable_prodMk_left
    rw [mean_succ η hg hind hle, noiseKernel_apply η hg, Measure.real, Measure.map_apply hgy hB]
    have : ∀ e, mean η g (B.indicator (1 : S → ℝ)) 0 (g (y, e))
        = ((fun e => g (y, e)) ⁻¹' B).indicator (1 : E → ℝ) e := by
      intro e
      show ∫ _, B.indicator (1 : S → ℝ) (g (y, e)) ∂streamLaw η = _
      simp [Set.indicator]
      rfl
    simp only [this]
    rw [integral_indicator_one (hgy hB)]
    rfl
  simp only [e2] at e1
  have hK : ∀ y, IsProbabilityMeasure (noiseKernel η g y) := fun y => by
    rw [noiseKernel_apply η hg]
    exact Measure.isProbabilityMeasure_map (hg.comp measurable_prodMk_left).aemeasurable
  have hm : Measurable fun y => (noiseKernel η g y).real B := (Kernel.measurable_coe _ hB).ennreal_toReal
  have e3 : lawAt η g (n + 1) x B = ENNReal.ofReal (mean η g (B.indicator (1 : S → ℝ)) (n + 1) x) := by
    unfold mean
    rw [← integral_lawAt η hg _ _ hind, integral_indicator_one hB, ofReal_measureReal]
  rw [e3, e1]
  unfold mean
  rw [← integral_lawAt η hg _ _ hm, ofReal_integral_eq_lintegral_ofReal]
  · exact lintegral_congr fun y => ofReal_measureReal
  · refine Integrable.of_bound hm.aestronglyMeasurable 1 (Eventually.of_forall fun y => ?_)
    rw [Real.norm_of_nonneg measureReal_nonneg]
    exact measureReal_le_one
  · exact Eventually.of_forall fun y => measureReal_nonneg

end Verif.Ergodic
