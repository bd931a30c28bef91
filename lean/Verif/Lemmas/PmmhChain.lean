import Verif.Lemmas.Converge
import Verif.Lemmas.Averages
import Verif.Lemmas.Metropolis
import Mathlib.Probability.Distributions.Gaussian.Real

/-!
# The chain of one slot of PMMH

The state is the parameter vector with the log-likelihood estimate that belongs to it. Candidates are drawn
from a normal random walk, estimates from any kernel given by a function of parameters and random numbers.
-/

namespace Verif.Mcmc

open MeasureTheory ProbabilityTheory Filter Set Verif.Ergodic Verif.Converge Verif.Unbiased
open scoped ENNReal Topology

/-- Standard normal draws moved and scaled have the density of the random walk. -/
theorem walk_law {d : ℕ} (scale : Row d) (hscale : ∀ j, 0 < scale j) (θ : Row d) :
    (Measure.pi fun _ : Fin d => gaussianReal 0 1).map (fun z j => θ j + z j * scale j)
      = volume.withDensity fun x => ENNReal.ofReal (Real.exp (∑ j, logNormal (θ j) (scale j) (x j))) := by
  have hv : ∀ j, Real.toNNReal (scale j ^ 2) ≠ 0 := fun j => by
    have := hscale j
    simp only [ne_eq, Real.toNNReal_eq_zero, not_le]
    positivity
  have e1 : (Measure.pi fun _ : Fin d => gaussianReal 0 1).map (fun z j => θ j + z j * scale j)
      = Measure.pi fun j => gaussianReal (θ j) (Real.toNNReal (scale j ^ 2)) := by
    rw [Measure.pi_map_pi (f := fun j z => θ j + z * scale j) (fun j => by fun_prop)]
    congr 1
    funext j
    have : (fun z : ℝ => θ j + z * scale j) = (fun z => θ j + z) ∘ fun z => z * scale j := rfl
    rw [this, ← Measure.map_map (by fun_prop) (by fun_prop), gaussianReal_map_mul_const,
      gaussianReal_map_const_add]
    congr 1
    · simp
    · ext
      simp [Real.coe_toNNReal _ (sq_nonneg (scale j))]
  rw [e1]
  have h1 : ∀ j (x : ℝ), Real.exp (logNormal (θ j) (scale j) x) =
      gaussianPDFReal (θ j) (Real.toNNReal (scale j ^ 2)) x := by
    intro j x
    unfold logNormal gaussianPDFReal
    have hsp := hscale j
    have hc : ((Real.toNNReal (scale j ^ 2) : NNReal) : ℝ) = scale j ^ 2 :=
      Real.coe_toNNReal _ (sq_nonneg _)
    rw [hc, Real.exp_sub, Real.exp_sub, Real.exp_log hsp]
    have hsqrt : Real.sqrt (2 * Real.pi * scale j ^ 2) = Real.exp (Real.log (2 * Real.pi) / 2) * scale j := by
      rw [Real.sqrt_mul (by positivity), Real.sqrt_sq hsp.le, Real.sqrt_eq_rpow,
        Real.rpow_def_of_pos (by positivity)]
      congr 2
      ring
    rw [hsqrt]
    have : Real.exp (Real.log (2 * Real.pi) / 2) ≠ 0 := (Real.exp_pos _).ne'
    field_simp
  have h2 : ∀ x : Row d, Real.exp (∑ j, logNormal (θ j) (scale j) (x j)) =
      ∏ j, gaussianPDFReal (θ j) (Real.toNNReal (scale j ^ 2)) (x j) := by
    intro x
    rw [Real.exp_sum]
    exact Finset.prod_congr rfl fun j _ => h1 j (x j)
  simp only [h2]
  refine Measure.pi_eq (μ := fun j => gaussianReal (θ j) (Real.toNNReal (scale j ^ 2))) fun s hs => ?_
  rw [withDensity_apply _ (MeasurableSet.univ_pi hs)]
  have hr : (volume : Measure (Row d)).restrict (univ.pi s) = Measure.pi fun j => volume.restrict (s j) := by
    exact Measure.restrict_pi_pi (fun _ : Fin d => (volume : Measure ℝ)) s
  rw [hr, ← ofReal_integral_eq_lintegral_ofReal]
  · rw [integral_fintype_prod_eq_prod (fun j => gaussianPDFReal (θ j) (Real.toNNReal (scale j ^ 2))),
      ENNReal.ofReal_prod_of_nonneg]
    · refine Finset.prod_congr rfl fun j _ => ?_
      rw [gaussianReal_apply_eq_integral _ (hv j)]
    · intro j _
      exact integral_nonneg fun x => gaussianPDFReal_nonneg _ _ _
  · exact Integrable.fintype_prod fun j => (integrable_gaussianPDFReal _ _).integrableOn
  · exact Eventually.of_forall fun x => Finset.prod_nonneg fun j _ => gaussianPDFReal_nonneg _ _ _

section chain

variable {d : ℕ} {W : Type} [MeasurableSpace W] (p : Row d → ℝ) (R : Row d × W → ℝ) (scale : Row d)
  (law : Measure W)

/-- Density of the random walk. -/
noncomputable def walkQ (θ x : Row d) : ℝ := Real.exp (∑ j, logNormal (θ j) (scale j) (x j))

/-- Prior times likelihood estimate at a state. -/
noncomputable def slotT (x : Row d × ℝ) : ℝ := Real.exp x.2 * p x.1

/-- The move of one slot, given standard normal draws, random numbers of the filter and the uniform draw. -/
noncomputable def slotMove (q : (Row d × ℝ) × (Row d × W × ℝ)) : Row d × ℝ :=
  open Classical in
  let y : Row d × ℝ := (fun j => q.1.1 j + q.2.1 j * scale j, R (fun j => q.1.1 j + q.2.1 j * scale j, q.2.2.1))
  if slotT p q.1 ≠ 0 ∧ 0 ≤ q.2.2.2 ∧
      q.2.2.2 * (slotT p q.1 * walkQ scale q.1.1 y.1) < slotT p y * walkQ scale y.1 q.1.1 then y else q.1

/-- Parameters and estimates before weighting: Lebesgue measure and the law of the estimate. -/
noncomputable def slotM : Measure (Row d × ℝ) :=
  (Measure.prod volume law).map fun x => (x.1, R x)

variable {p R scale}

omit [MeasurableSpace W] in
theorem walk_law' (scale : Row d) (hscale : ∀ j, 0 < scale j) (θ : Row d) :
    (Measure.pi fun _ : Fin d => gaussianReal 0 1).map (fun z j => θ j + z j * scale j)
      = volume.withDensity fun x => ENNReal.ofReal (walkQ scale θ x) := walk_law scale hscale θ

theorem measurable_walkQ : Measurable (Function.uncurry (walkQ scale)) := by
  unfold walkQ logNormal Function.uncurry
  fun_prop

theorem measurable_slotT (hp : Measurable p) : Measurable (slotT p) := by
  unfold slotT
  exact (Real.measurable_exp.comp measurable_snd).mul (hp.comp measurable_fst)

theorem measurable_weight (hp : Measurable p) :
    Measurable fun z : (Row d × ℝ) × (Row d × ℝ) => slotT p z.1 * walkQ scale z.1.1 z.2.1 := by
  unfold slotT walkQ logNormal
  fun_prop

theorem measurable_accRatio (hp : Measurable p) (x : Row d × ℝ) :
    Measurable fun y : Row d × ℝ => slotT p y * walkQ scale y.1 x.1 / (slotT p x * walkQ scale x.1 y.1) := by
  unfold slotT walkQ logNormal
  fun_prop

theorem measurable_candidate (hR : Measurable R) : Measurable fun q : (Row d × ℝ) × (Row d × W × ℝ) =>
    ((fun j => q.1.1 j + q.2.1 j * scale j, R (fun j => q.1.1 j + q.2.1 j * scale j, q.2.2.1)) : Row d × ℝ) := by
  fun_prop

theorem measurable_slotMove (hp : Measurable p) (hR : Measurable R) : Measurable (slotMove p R scale) := by
  have hy := measurable_candidate (scale := scale) hR
  have hx : Measurable fun q : (Row d × ℝ) × (Row d × W × ℝ) => q.1 := measurable_fst
  have hu : Measurable fun q : (Row d × ℝ) × (Row d × W × ℝ) => q.2.2.2 := by fun_prop
  have h1 := (measurable_weight (scale := scale) hp).comp (hx.prodMk hy)
  have h2 := (measurable_weight (scale := scale) hp).comp (hy.prodMk hx)
  have h3 := (measurable_slotT hp).comp hx
  unfold slotMove
  refine Measurable.ite ?_ hy hx
  refine MeasurableSet.inter (h3 (measurableSet_singleton 0).compl) (MeasurableSet.inter ?_ ?_)
  · exact measurableSet_le measurable_const hu
  · exact measurableSet_lt (hu.mul h1) h2

theorem walkQ_pos (θ x : Row d) : 0 < walkQ scale θ x := Real.exp_pos _

theorem slotT_nonneg (hp0 : ∀ θ, 0 ≤ p θ) (x : Row d × ℝ) : 0 ≤ slotT p x := mul_nonneg (Real.exp_pos _).le (hp0 _)

/-- The flow between two states. -/
noncomputable def slotFlow (p : Row d → ℝ) (scale : Row d) (x y : Row d × ℝ) : ℝ :=
  min (slotT p x * walkQ scale x.1 y.1) (slotT p y * walkQ scale y.1 x.1)

variable [IsProbabilityMeasure law]

theorem walkQ_mass (hR : Measurable R) (hscale : ∀ j, 0 < scale j) (θ : Row d) :
    ∫⁻ y, ENNReal.ofReal (walkQ scale θ y.1) ∂slotM R law = 1 := by
  have hm : Measurable fun x : Row d => ENNReal.ofReal (walkQ scale θ x) :=
    (measurable_walkQ.comp measurable_prodMk_left).ennreal_ofReal
  unfold slotM
  have hm' : Measurable fun y : Row d × ℝ => ENNReal.ofReal (walkQ scale θ y.1) := hm.comp measurable_fst
  rw [lintegral_map hm' (measurable_fst.prodMk hR)]
  have e2 := lintegral_prod_mul (μ := (volume : Measure (Row d))) (ν := law)
    (f := fun x : Row d => ENNReal.ofReal (walkQ scale θ x)) (g := fun _ => (1 : ℝ≥0∞)) hm.aemeasurable
    aemeasurable_const
  have e3 : ∫⁻ x : Row d, ENNReal.ofReal (walkQ scale θ x) = 1 :=
    gauss_normalised (P := 1) ⟨fun _ => θ, fun _ => scale⟩ 0 hscale
  rw [e3, lintegral_one, measure_univ, mul_one] at e2
  simpa using e2

instance : SFinite (slotM R law) := by unfold slotM; infer_instance

/-- The slot moves with a symmetric flow. -/
theorem slot_flow (hp : Measurable p) (hp0 : ∀ θ, 0 ≤ p θ) (hR : Measurable R) (hscale : ∀ j, 0 < scale j) :
    Flow (slotM R law) (fun x => ENNReal.ofReal (slotT p x))
      (fun x y => ENNReal.ofReal (slotFlow p scale x y))
      (fun x y => ENNReal.ofReal (slotT p x * walkQ scale x.1 y.1 - slotFlow p scale x y)) := by
  have hT := measurable_slotT hp
  have hf := measurable_weight (scale := scale) hp
  have hg : Measurable fun z : (Row d × ℝ) × (Row d × ℝ) => slotT p z.2 * walkQ scale z.2.1 z.1.1 :=
    hf.comp measurable_swap
  have hnn : ∀ x y, 0 ≤ slotFlow p scale x y := fun x y =>
    le_min (mul_nonneg (slotT_nonneg hp0 x) (walkQ_pos _ _).le) (mul_nonneg (slotT_nonneg hp0 y) (walkQ_pos _ _).le)
  refine ⟨hT.ennreal_ofReal, fun _ => ENNReal.ofReal_ne_top, (hf.min hg).ennreal_ofReal,
    (hf.sub (hf.min hg)).ennreal_ofReal, ?_, ?_, ?_, ?_⟩
  · intro x y
    unfold slotFlow
    rw [min_comm]
  · intro x
    have e1 : ∀ y : Row d × ℝ, ENNReal.ofReal (slotFlow p scale x y)
        + ENNReal.ofReal (slotT p x * walkQ scale x.1 y.1 - slotFlow p scale x y)
        = ENNReal.ofReal (slotT p x) * ENNReal.ofReal (walkQ scale x.1 y.1) := by
      intro y
      have hle : slotFlow p scale x y ≤ slotT p x * walkQ scale x.1 y.1 := min_le_left _ _
      rw [← ENNReal.ofReal_add (hnn x y) (sub_nonneg.2 hle), ← ENNReal.ofReal_mul (slotT_nonneg hp0 x)]
      congr 1
      ring
    simp only [e1]
    rw [lintegral_const_mul' _ _ ENNReal.ofReal_ne_top, walkQ_mass law hR hscale, mul_one]
  · intro x y hx
    have : slotT p x = 0 := le_antisymm (ENNReal.ofReal_eq_zero.1 hx) (slotT_nonneg hp0 x)
    simp only [slotFlow, this, zero_mul]
    rw [min_eq_left (mul_nonneg (slotT_nonneg hp0 y) (walkQ_pos _ _).le), ENNReal.ofReal_zero]
  · intro x y hx hy
    have hx' : 0 < slotT p x := not_le.1 fun h => hx (ENNReal.ofReal_eq_zero.2 h)
    have hy' : 0 < slotT p y := not_le.1 fun h => hy (ENNReal.ofReal_eq_zero.2 h)
    refine (ENNReal.ofReal_pos.2 (lt_min ?_ ?_)).ne'
    · exact mul_pos hx' (walkQ_pos _ _)
    · exact mul_pos hy' (walkQ_pos _ _)

/-- Law of the draws for one slot. -/
noncomputable def slotDraws (d : ℕ) (law : Measure W) : Measure (Row d × W × ℝ) :=
  (Measure.pi fun _ => gaussianReal 0 1).prod (law.prod (volume.restrict (Ico (0 : ℝ) 1)))

/-- The uniform draw accepts with the Metropolis–Hastings probability. -/
theorem uniform_choice {a : ℝ} (b b' : ℝ≥0∞) {P : ℝ → Prop} [DecidablePred P]
    (hP : ∀ u, 0 ≤ u → (P u ↔ u < a)) (ha : 0 ≤ a) :
    ∫⁻ u in Ico (0 : ℝ) 1, (if P u then b else b')
      = ENNReal.ofReal (min 1 a) * b + (1 - ENNReal.ofReal (min 1 a)) * b' := by
  have hm : 0 ≤ min 1 a := le_min zero_le_one ha
  have h1 : ∫⁻ u in Ico (0 : ℝ) 1, (if P u then b else b')
      = ∫⁻ u in Ico (0 : ℝ) 1, ((Ico 0 (min 1 a)).indicator (fun _ => b) u
        + (Ico (min 1 a) 1).indicator (fun _ => b') u) := by
    refine setLIntegral_congr_fun measurableSet_Ico fun u hu => ?_
    by_cases h : u < a
    · have hmem : u ∈ Ico 0 (min 1 a) := ⟨hu.1, lt_min hu.2 h⟩
      have hn : u ∉ Ico (min 1 a) 1 := fun hc => absurd hmem.2 (not_lt.2 hc.1)
      rw [if_pos ((hP u hu.1).2 h), indicator_of_mem hmem, indicator_of_notMem hn, add_zero]
    · have hn : u ∉ Ico 0 (min 1 a) := fun hc => h (hc.2.trans_le (min_le_right _ _))
      have hmem : u ∈ Ico (min 1 a) 1 := ⟨(min_le_right _ _).trans (not_lt.1 h), hu.2⟩
      rw [if_neg fun hc => h ((hP u hu.1).1 hc), indicator_of_notMem hn, indicator_of_mem hmem, zero_add]
  rw [h1, lintegral_add_left (measurable_const.indicator measurableSet_Ico),
    lintegral_indicator measurableSet_Ico, lintegral_indicator measurableSet_Ico]
  simp only [lintegral_const, Measure.restrict_restrict measurableSet_Ico, Measure.restrict_apply_univ]
  have e1 : Ico 0 (min 1 a) ∩ Ico (0 : ℝ) 1 = Ico 0 (min 1 a) :=
    inter_eq_left.2 (Ico_subset_Ico_right (min_le_left _ _))
  have e2 : Ico (min 1 a) 1 ∩ Ico (0 : ℝ) 1 = Ico (min 1 a) 1 := inter_eq_left.2 (Ico_subset_Ico_left hm)
  rw [e1, e2, Real.volume_Ico, Real.volume_Ico, sub_zero, ENNReal.ofReal_sub _ hm, ENNReal.ofReal_one,
    mul_comm, mul_comm b']

/-- Candidates and estimates, integrated with the density of the walk. -/
theorem walk_integral (hR : Measurable R) (hscale : ∀ j, 0 < scale j) (θ : Row d) {H : Row d × ℝ → ℝ≥0∞}
    (hH : Measurable H) :
    ∫⁻ z, ∫⁻ ω, H (fun j => θ j + z j * scale j, R (fun j => θ j + z j * scale j, ω)) ∂law
        ∂(Measure.pi fun _ : Fin d => gaussianReal 0 1)
      = ∫⁻ y, ENNReal.ofReal (walkQ scale θ y.1) * H y ∂slotM R law := by
  have hpair : Measurable fun q : Row d × W => ((q.1, R q) : Row d × ℝ) := measurable_fst.prodMk hR
  have hHp : Measurable fun q : Row d × W => H (q.1, R q) := hH.comp hpair
  have hinner : Measurable fun x : Row d => ∫⁻ ω, H (x, R (x, ω)) ∂law := hHp.lintegral_prod_right'
  have hmove : Measurable fun z : Row d => (fun j => θ j + z j * scale j : Row d) := by fun_prop
  have hq : Measurable fun x : Row d => ENNReal.ofReal (walkQ scale θ x) :=
    (measurable_walkQ.comp measurable_prodMk_left).ennreal_ofReal
  have hqf : Measurable fun y : Row d × ℝ => ENNReal.ofReal (walkQ scale θ y.1) := hq.comp measurable_fst
  have hqf' : Measurable fun y : Row d × W => ENNReal.ofReal (walkQ scale θ y.1) := hq.comp measurable_fst
  have hqH : Measurable fun y : Row d × ℝ => ENNReal.ofReal (walkQ scale θ y.1) * H y := hqf.mul hH
  have hqH' : Measurable fun q : Row d × W => ENNReal.ofReal (walkQ scale θ q.1) * H (q.1, R q) := hqf'.mul hHp
  rw [← lintegral_map (f := fun x : Row d => ∫⁻ ω, H (x, R (x, ω)) ∂law) hinner hmove, walk_law' scale hscale,
    lintegral_withDensity_eq_lintegral_mul _ hq hinner]
  unfold slotM
  rw [lintegral_map hqH hpair, lintegral_prod _ hqH'.aemeasurable]
  refine lintegral_congr fun x => ?_
  simp only [Pi.mul_apply]
  rw [lintegral_const_mul' _ _ ENNReal.ofReal_ne_top]

/-- Transition probabilities of the move are those of the flow. -/
theorem slot_kernel (hp : Measurable p) (hp0 : ∀ θ, 0 ≤ p θ) (hR : Measurable R) (hscale : ∀ j, 0 < scale j)
    (x : Row d × ℝ) :
    (slotDraws d law).map (fun e => slotMove p R scale (x, e)) = (slot_flow law hp hp0 hR hscale).kernel x := by
  set F := slot_flow law hp hp0 hR hscale with hFdef
  have hmeas : Measurable fun e : Row d × W × ℝ => slotMove p R scale (x, e) :=
    (measurable_slotMove hp hR).comp measurable_prodMk_left
  have hu : IsProbabilityMeasure (volume.restrict (Ico (0 : ℝ) 1)) := ⟨by simp⟩
  have hdraw : IsProbabilityMeasure (slotDraws d law) := by unfold slotDraws; infer_instance
  by_cases hx : slotT p x = 0
  · have e1 : (fun e : Row d × W × ℝ => slotMove p R scale (x, e)) = fun _ => x := by
      funext e
      unfold slotMove
      exact if_neg fun h => h.1 hx
    rw [e1, Measure.map_const, measure_univ, one_smul, F.kernel_eq]
    have e2 : ∀ y, ENNReal.ofReal (slotFlow p scale x y) = 0 := fun y => F.zero x y (by simp [hx])
    simp only [e2, ENNReal.zero_div, lintegral_zero, tsub_zero, one_smul]
    rw [show (fun _ : Row d × ℝ => (0 : ℝ≥0∞)) = 0 from rfl, withDensity_zero, zero_add]
  have hxpos : 0 < slotT p x := lt_of_le_of_ne (slotT_nonneg hp0 x) (Ne.symm hx)
  ext B hB
  have hTx : ENNReal.ofReal (slotT p x) ≠ 0 := (ENNReal.ofReal_pos.2 hxpos).ne'
  refine (ENNReal.mul_right_inj hTx ENNReal.ofReal_ne_top).1 ?_
  rw [F.mul_kernel x hB]
  have hind : Measurable (B.indicator (1 : Row d × ℝ → ℝ≥0∞)) := measurable_one.indicator hB
  have e0 : (slotDraws d law).map (fun e => slotMove p R scale (x, e)) B
      = ∫⁻ e, B.indicator 1 (slotMove p R scale (x, e)) ∂slotDraws d law := by
    rw [← lintegral_map hind hmeas, lintegral_indicator_one hB]
  -- integrate the uniform draw out
  set acc : Row d × ℝ → ℝ := fun y => slotT p y * walkQ scale y.1 x.1 / (slotT p x * walkQ scale x.1 y.1) with hacc
  set H : Row d × ℝ → ℝ≥0∞ := fun y =>
    ENNReal.ofReal (min 1 (acc y)) * B.indicator 1 y + (1 - ENNReal.ofReal (min 1 (acc y))) * B.indicator 1 x with hH
  have hden : ∀ y : Row d × ℝ, 0 < slotT p x * walkQ scale x.1 y.1 := fun y => mul_pos hxpos (walkQ_pos _ _)
  have hacc0 : ∀ y, 0 ≤ acc y := fun y =>
    div_nonneg (mul_nonneg (slotT_nonneg hp0 y) (walkQ_pos _ _).le) (hden y).le
  have e1 : ∫⁻ e, B.indicator 1 (slotMove p R scale (x, e)) ∂slotDraws d law
      = ∫⁻ z, ∫⁻ ω, H (fun j => x.1 j + z j * scale j, R (fun j => x.1 j + z j * scale j, ω)) ∂law
        ∂(Measure.pi fun _ : Fin d => gaussianReal 0 1) := by
    unfold slotDraws
    have hm1 : Measurable fun e : Row d × W × ℝ => B.indicator (1 : Row d × ℝ → ℝ≥0∞) (slotMove p R scale (x, e)) :=
      hind.comp hmeas
    rw [lintegral_prod _ hm1.aemeasurable]
    refine lintegral_congr fun z => ?_
    have hm2 : Measurable fun e : W × ℝ => B.indicator (1 : Row d × ℝ → ℝ≥0∞) (slotMove p R scale (x, (z, e))) :=
      hm1.comp measurable_prodMk_left
    rw [lintegral_prod _ hm2.aemeasurable]
    refine lintegral_congr fun ω => ?_
    classical
    set y : Row d × ℝ := (fun j => x.1 j + z j * scale j, R (fun j => x.1 j + z j * scale j, ω)) with hy
    have := uniform_choice (a := acc y) (B.indicator 1 y) (B.indicator 1 x)
      (P := fun u => slotT p x ≠ 0 ∧ 0 ≤ u ∧
        u * (slotT p x * walkQ scale x.1 y.1) < slotT p y * walkQ scale y.1 x.1)
      (fun u hu => by
        rw [hacc]
        dsimp only
        rw [lt_div_iff₀ (hden y)]
        exact ⟨fun h => h.2.2, fun h => ⟨hx, hu, h⟩⟩) (hacc0 y)
    rw [hH]
    dsimp only
    rw [← this]
    refine lintegral_congr fun u => ?_
    unfold slotMove
    dsimp only
    rw [apply_ite (B.indicator (1 : Row d × ℝ → ℝ≥0∞))]
  have hmacc : Measurable acc := measurable_accRatio hp x
  have hmH : Measurable H :=
    ((measurable_const.min hmacc).ennreal_ofReal.mul hind).add
      ((measurable_const.sub (measurable_const.min hmacc).ennreal_ofReal).mul_const _)
  have e2 := walk_integral law hR hscale x.1 hmH
  rw [e0, e1, e2, ← lintegral_const_mul' _ _ ENNReal.ofReal_ne_top]
  refine lintegral_congr fun y => ?_
  have hq := walkQ_pos (scale := scale) x.1 y.1
  have hfl : 0 ≤ slotFlow p scale x y :=
    le_min (hden y).le (mul_nonneg (slotT_nonneg hp0 y) (walkQ_pos _ _).le)
  have hmin : slotT p x * walkQ scale x.1 y.1 * min 1 (acc y) = slotFlow p scale x y := by
    unfold slotFlow
    rw [mul_min_of_nonneg _ _ (hden y).le, mul_one, hacc]
    congr 1
    field_simp
  rw [hH]
  dsimp only
  rw [← mul_assoc, ← ENNReal.ofReal_mul hxpos.le, mul_add, ← mul_assoc, ← mul_assoc,
    ENNReal.mul_sub (fun _ _ => ENNReal.ofReal_ne_top), mul_one, ← ENNReal.ofReal_mul (hden y).le, hmin,
    ENNReal.ofReal_sub _ hfl]

end chain

end Verif.Mcmc
