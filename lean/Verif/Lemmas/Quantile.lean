import Verif.Spec.Quantile
import Mathlib.Probability.CDF
import Mathlib.MeasureTheory.Measure.Lebesgue.EqHaar
import Mathlib.MeasureTheory.Measure.Haar.Unique
import Mathlib.MeasureTheory.Integral.IntervalIntegral.Periodic
import Mathlib.MeasureTheory.Constructions.Pi
import Mathlib.MeasureTheory.Measure.Lebesgue.Basic
import Mathlib.MeasureTheory.Function.Floor

/-!
# Inverse distribution functions and rotations of the unit interval
-/

namespace Verif

open MeasureTheory ProbabilityTheory Set Filter Topology

theorem IsQuantile.monotoneOn {q : ℝ → ℝ} {μ : Measure ℝ} (h : IsQuantile q μ) : MonotoneOn q (Ioo 0 1) := by
  intro a ha b hb hab
  exact (h a ha _).2 ((ENNReal.ofReal_le_ofReal hab).trans ((h b hb _).1 le_rfl))

theorem IsQuantile.aemeasurable {q : ℝ → ℝ} {μ : Measure ℝ} (h : IsQuantile q μ) :
    AEMeasurable q (volume.restrict (Ioo 0 1)) :=
  aemeasurable_restrict_of_monotoneOn measurableSet_Ioo h.monotoneOn

/-- Inversion of a uniform random number. -/
theorem IsQuantile.map {q : ℝ → ℝ} {μ : Measure ℝ} [IsProbabilityMeasure μ] (h : IsQuantile q μ) :
    (volume.restrict (Ioo 0 1)).map q = μ := by
  have hfin : IsFiniteMeasure ((volume.restrict (Ioo (0 : ℝ) 1)).map q) := by
    constructor
    rw [Measure.map_apply_of_aemeasurable h.aemeasurable MeasurableSet.univ]
    exact measure_lt_top _ _
  refine Measure.ext_of_Iic _ _ fun x => ?_
  rw [Measure.map_apply_of_aemeasurable h.aemeasurable measurableSet_Iic,
    Measure.restrict_apply' measurableSet_Ioo]
  have hF1 : μ.real (Iic x) ≤ 1 := measureReal_le_one
  have hF0 : 0 ≤ μ.real (Iic x) := measureReal_nonneg
  have hset : q ⁻¹' Iic x ∩ Ioo 0 1 = Ioo 0 1 ∩ Iic (μ.real (Iic x)) := by
    ext p
    constructor
    · rintro ⟨h1, h2⟩
      refine ⟨h2, ?_⟩
      have := (h p h2 x).1 h1
      rw [← ofReal_measureReal] at this
      exact (ENNReal.ofReal_le_ofReal_iff hF0).1 this
    · rintro ⟨h1, h2⟩
      refine ⟨(h p h1 x).2 ?_, h1⟩
      rw [← ofReal_measureReal]
      exact ENNReal.ofReal_le_ofReal h2
  rw [hset, ← ofReal_measureReal (μ := μ)]
  refine le_antisymm ?_ ?_
  · refine (measure_mono (t := Ioc 0 (μ.real (Iic x))) fun p hp => ⟨hp.1.1, hp.2⟩).trans ?_
    rw [Real.volume_Ioc, sub_zero]
  · have : Ioo 0 (μ.real (Iic x)) ⊆ Ioo 0 1 ∩ Iic (μ.real (Iic x)) := fun p hp =>
      ⟨⟨hp.1, hp.2.trans_le hF1⟩, hp.2.le⟩
    refine le_trans ?_ (measure_mono this)
    rw [Real.volume_Ioo, sub_zero]

/-- Every probability measure has an inverse distribution function. -/
theorem exists_quantile (μ : Measure ℝ) [IsProbabilityMeasure μ] : ∃ q, IsQuantile q μ := by
  refine ⟨fun p => sInf {x | p ≤ cdf μ x}, fun p hp x => ?_⟩
  rw [← ofReal_cdf, ENNReal.ofReal_le_ofReal_iff (cdf_nonneg μ x)]
  obtain ⟨a, ha⟩ := ((tendsto_cdf_atBot μ).eventually (gt_mem_nhds hp.1)).exists
  obtain ⟨b, hb⟩ := ((tendsto_cdf_atTop μ).eventually (lt_mem_nhds hp.2)).exists
  have hbdd : BddBelow {x | p ≤ cdf μ x} := ⟨a, fun y hy => by
    by_contra hlt
    exact absurd (hy.trans (monotone_cdf μ (not_le.1 hlt).le)) (not_le.2 ha)⟩
  have hne : {x | p ≤ cdf μ x}.Nonempty := ⟨b, hb.le⟩
  constructor
  · intro h
    -- right continuity
    have hr : Tendsto (cdf μ) (𝓝[>] x) (𝓝 (cdf μ x)) :=
      ((cdf μ).right_continuous x).mono_left (nhdsWithin_mono x Ioi_subset_Ici_self)
    refine ge_of_tendsto hr ?_
    filter_upwards [self_mem_nhdsWithin] with y hy
    obtain ⟨z, hz, hzy⟩ := exists_lt_of_csInf_lt hne (h.trans_lt hy)
    exact hz.trans (monotone_cdf μ hzy.le)
  · intro h
    exact csInf_le hbdd h

instance : IsProbabilityMeasure unit := ⟨by simp [unit]⟩

theorem unit_eq_Ioo : unit = volume.restrict (Ioo 0 1) := Measure.restrict_congr_set Ioo_ae_eq_Ico.symm

/-- The uniform distribution is invariant under rotations. -/
theorem rotate_unit (p : ℝ) : unit.map (fun r => Int.fract (p + r)) = unit := by
  have hm : Measurable fun r : ℝ => Int.fract (p + r) := measurable_fract.comp (measurable_const.add measurable_id)
  refine Measure.ext fun A hA => ?_
  rw [← lintegral_indicator_one hA, ← lintegral_indicator_one hA,
    lintegral_map (measurable_one.indicator hA) hm]
  set f : ℝ → ENNReal := fun s => A.indicator 1 (Int.fract s) with hf
  have hper : ∀ (g : AddSubgroup.zmultiples (1 : ℝ)) (x : ℝ), f (g +ᵥ x) = f x := by
    rintro ⟨g, hg⟩ x
    obtain ⟨n, rfl⟩ := AddSubgroup.mem_zmultiples_iff.1 hg
    show A.indicator 1 (Int.fract (n • (1 : ℝ) + x)) = A.indicator 1 (Int.fract x)
    rw [zsmul_one, Int.fract_intCast_add]
  have hIoc : unit = volume.restrict (Ioc 0 (0 + 1)) := by
    rw [zero_add]
    exact Measure.restrict_congr_set Ico_ae_eq_Ioc
  have h1 : ∫⁻ r, f (p + r) ∂unit = ∫⁻ s in Ioc p (p + 1), f s := by
    rw [hIoc]
    have := (measurePreserving_add_left (volume : Measure ℝ) p).setLIntegral_comp_preimage_emb
      (measurableEmbedding_addLeft p) f (Ioc p (p + 1))
    rw [← this]
    congr 2
    ext r
    simp
  have h2 : ∫⁻ s in Ioc p (p + 1), f s = ∫⁻ s in Ioc 0 (0 + 1), f s :=
    (isAddFundamentalDomain_Ioc one_pos p).setLIntegral_eq (isAddFundamentalDomain_Ioc one_pos 0) f hper
  have h3 : ∫⁻ s in Ioc 0 (0 + 1), f s = ∫⁻ s, A.indicator 1 s ∂unit := by
    rw [← hIoc]
    unfold unit
    refine setLIntegral_congr_fun measurableSet_Ico fun s hs => ?_
    rw [hf]
    simp only
    rw [Int.fract_eq_self.2 hs]
  rw [← h3, ← h2, ← h1]

/-- The uniform distribution on `(eps / 2, 1 - eps / 2)`. -/
noncomputable def squeezed (eps : ℝ) : Measure ℝ :=
  ENNReal.ofReal (1 - eps)⁻¹ • volume.restrict (Ioo (eps / 2) (1 - eps / 2))

theorem squeeze_unit (eps : ℝ) (h1 : eps < 1) :
    unit.map (fun p => 0.5 + (1 - eps) * (p - 0.5)) = squeezed eps := by
  have hc : (0 : ℝ) < 1 - eps := by linarith
  have hm : Measurable fun p : ℝ => 0.5 + (1 - eps) * (p - 0.5) := by fun_prop
  refine Measure.ext fun A hA => ?_
  rw [Measure.map_apply hm hA, unit_eq_Ioo, Measure.restrict_apply (hm hA), squeezed, Measure.smul_apply,
    Measure.restrict_apply hA, smul_eq_mul]
  have hset : (fun p : ℝ => 0.5 + (1 - eps) * (p - 0.5)) ⁻¹' A ∩ Ioo 0 1
      = (fun p => (1 - eps) * p) ⁻¹' ((fun p => eps / 2 + p) ⁻¹' (A ∩ Ioo (eps / 2) (1 - eps / 2))) := by
    ext p
    have e : 0.5 + (1 - eps) * (p - 0.5) = eps / 2 + (1 - eps) * p := by ring
    simp only [mem_inter_iff, mem_preimage, mem_Ioo, e]
    refine and_congr Iff.rfl (and_congr ?_ ?_)
    · constructor
      · intro h; nlinarith
      · intro h; by_contra hn; nlinarith
    · constructor
      · intro h; nlinarith
      · intro h; by_contra hn; nlinarith
  rw [hset, Real.volume_preimage_mul_left hc.ne', measure_preimage_add, abs_of_pos (inv_pos.2 hc)]

theorem isProbabilityMeasure_squeezed (eps : ℝ) (h1 : eps < 1) : IsProbabilityMeasure (squeezed eps) := by
  rw [← squeeze_unit eps h1]
  exact Measure.isProbabilityMeasure_map (by fun_prop)

/-- The uniform distribution on the central interval is symmetric. -/
theorem squeezed_symm (eps : ℝ) (h1 : eps < 1) : (squeezed eps).map (fun p => 1 - p) = squeezed eps := by
  refine Measure.ext fun A hA => ?_
  have hm : Measurable fun p : ℝ => 1 - p := by fun_prop
  rw [Measure.map_apply hm hA, squeezed, Measure.smul_apply, Measure.smul_apply, Measure.restrict_apply (hm hA),
    Measure.restrict_apply hA]
  congr 1
  have hset : (fun p : ℝ => 1 - p) ⁻¹' A ∩ Ioo (eps / 2) (1 - eps / 2)
      = (fun p => 1 - p) ⁻¹' (A ∩ Ioo (eps / 2) (1 - eps / 2)) := by
    ext p
    simp only [mem_inter_iff, mem_preimage, mem_Ioo]
    refine and_congr Iff.rfl ⟨fun h => ⟨?_, ?_⟩, fun h => ⟨?_, ?_⟩⟩ <;> linarith [h.1, h.2]
  rw [hset]
  exact (Measure.measurePreserving_sub_left volume (1 : ℝ)).measure_preimage
    (hA.inter measurableSet_Ioo).nullMeasurableSet

theorem squeezed_ac (eps : ℝ) (h0 : 0 < eps) : squeezed eps ≪ volume.restrict (Ioo 0 1) := by
  refine Measure.AbsolutelyContinuous.smul_left (Measure.absolutelyContinuous_of_le
    (Measure.restrict_mono ?_ le_rfl)) _
  exact Ioo_subset_Ioo (by linarith) (by linarith)

/-- What the squeeze does to a distribution. -/
theorem IsQuantile.squeezed_le {q : ℝ → ℝ} {μ : Measure ℝ} [IsProbabilityMeasure μ] (h : IsQuantile q μ) (eps : ℝ)
    (h0 : 0 < eps) (h1 : eps < 1) : ENNReal.ofReal (1 - eps) • (squeezed eps).map q ≤ μ := by
  have hc : (0 : ℝ) < 1 - eps := by linarith
  have e : ENNReal.ofReal (1 - eps) • squeezed eps = volume.restrict (Ioo (eps / 2) (1 - eps / 2)) := by
    rw [squeezed, smul_smul, ← ENNReal.ofReal_mul hc.le, mul_inv_cancel₀ hc.ne', ENNReal.ofReal_one, one_smul]
  have hle : volume.restrict (Ioo (eps / 2) (1 - eps / 2)) ≤ volume.restrict (Ioo (0 : ℝ) 1) :=
    Measure.restrict_mono (Ioo_subset_Ioo (by linarith) (by linarith)) le_rfl
  rw [← Measure.map_smul, e]
  refine Measure.le_iff.2 fun A hA => ?_
  rw [Measure.map_apply_of_aemeasurable (h.aemeasurable.mono_measure hle) hA]
  refine (hle _).trans ?_
  rw [← Measure.map_apply_of_aemeasurable h.aemeasurable hA, h.map]

/-- The distribution function after the squeeze. -/
theorem IsQuantile.squeezed_cdf {q : ℝ → ℝ} {μ : Measure ℝ} [IsProbabilityMeasure μ] (h : IsQuantile q μ) (eps : ℝ)
    (h0 : 0 < eps) (h1 : eps < 1) (x : ℝ) :
    ((squeezed eps).map q).real (Iic x) = max 0 (min 1 ((μ.real (Iic x) - eps / 2) / (1 - eps))) := by
  have hc : (0 : ℝ) < 1 - eps := by linarith
  have hq : AEMeasurable q (squeezed eps) := h.aemeasurable.mono_ac (squeezed_ac eps h0)
  set F := μ.real (Iic x) with hF
  have hF0 : 0 ≤ F := measureReal_nonneg
  rw [measureReal_def, Measure.map_apply_of_aemeasurable hq measurableSet_Iic, squeezed, Measure.smul_apply,
    Measure.restrict_apply' measurableSet_Ioo]
  have hset : q ⁻¹' Iic x ∩ Ioo (eps / 2) (1 - eps / 2) = Ioo (eps / 2) (1 - eps / 2) ∩ Iic F := by
    ext p
    have hp : p ∈ Ioo (eps / 2) (1 - eps / 2) → p ∈ Ioo (0 : ℝ) 1 := fun h => ⟨by linarith [h.1], by linarith [h.2]⟩
    constructor
    · rintro ⟨a, b⟩
      have := (h p (hp b) x).1 a
      rw [← ofReal_measureReal] at this
      exact ⟨b, (ENNReal.ofReal_le_ofReal_iff hF0).1 this⟩
    · rintro ⟨a, b⟩
      refine ⟨(h p (hp a) x).2 ?_, a⟩
      rw [← ofReal_measureReal]
      exact ENNReal.ofReal_le_ofReal b
  have hvol : volume (Ioo (eps / 2) (1 - eps / 2) ∩ Iic F) = ENNReal.ofReal (min (1 - eps / 2) F - eps / 2) := by
    refine le_antisymm ?_ ?_
    · refine (measure_mono (t := Ioc (eps / 2) (min (1 - eps / 2) F)) fun p hp =>
        ⟨hp.1.1, le_min hp.1.2.le hp.2⟩).trans ?_
      rw [Real.volume_Ioc]
    · refine le_trans ?_ (measure_mono (s := Ioo (eps / 2) (min (1 - eps / 2) F)) fun p hp =>
        ⟨⟨hp.1, hp.2.trans_le (min_le_left _ _)⟩, (hp.2.trans_le (min_le_right _ _)).le⟩)
      rw [Real.volume_Ioo]
  rw [hset, hvol, smul_eq_mul, ← ENNReal.ofReal_mul (inv_nonneg.2 hc.le), ENNReal.toReal_ofReal',
    max_comm]
  congr 1
  rw [← min_sub_sub_right, mul_min_of_nonneg _ _ (inv_nonneg.2 hc.le)]
  congr 1
  · rw [show 1 - eps / 2 - eps / 2 = 1 - eps by ring, inv_mul_cancel₀ hc.ne']
  · exact (div_eq_inv_mul _ _).symm

theorem pi_mono {m : ℕ} (μ ν : Fin m → Measure ℝ) [∀ i, IsFiniteMeasure (μ i)] [∀ i, IsFiniteMeasure (ν i)]
    (h : ∀ i, ν i ≤ μ i) : Measure.pi ν ≤ Measure.pi μ := by
  have key : (Measure.pi ν).toOuterMeasure ≤ OuterMeasure.pi fun i => (μ i).toOuterMeasure := by
    rw [OuterMeasure.le_pi]
    intro s _
    show Measure.pi ν (Set.pi univ s) ≤ _
    rw [Measure.pi_pi]
    exact Finset.prod_le_prod' fun i _ => h i (s i)
  refine Measure.le_iff.2 fun A hA => ?_
  rw [show Measure.pi μ A = (OuterMeasure.pi fun i => (μ i).toOuterMeasure) A by
    rw [Measure.pi, toMeasure_apply _ _ hA]]
  exact key A

/-- Closeness of products. -/
theorem pi_le {m : ℕ} (μ ν : Fin m → Measure ℝ) [∀ i, IsProbabilityMeasure (μ i)]
    [∀ i, IsProbabilityMeasure (ν i)] (c : ℝ) (h0 : 0 ≤ c)
    (h : ∀ i, ENNReal.ofReal c • ν i ≤ μ i) :
    ENNReal.ofReal (c ^ m) • Measure.pi ν ≤ Measure.pi μ := by
  have hfin : ∀ i, IsFiniteMeasure (ENNReal.ofReal c • ν i) := fun i => Measure.smul_finite _ ENNReal.ofReal_ne_top
  have e : ENNReal.ofReal (c ^ m) • Measure.pi ν = Measure.pi fun i => ENNReal.ofReal c • ν i := by
    refine (Measure.pi_eq fun s hs => ?_).symm
    rw [Measure.smul_apply, Measure.pi_pi, smul_eq_mul]
    simp only [Measure.smul_apply, smul_eq_mul]
    rw [Finset.prod_mul_distrib, Finset.prod_const, Finset.card_univ, Fintype.card_fin, ENNReal.ofReal_pow h0]
  rw [e]
  exact pi_mono _ _ h

/-- From one side to both. -/
theorem close_of_le {X : Type} [MeasurableSpace X] (μ ν : Measure X) [IsProbabilityMeasure μ]
    [IsProbabilityMeasure ν] (c : ℝ) (h0 : 0 ≤ c) (hc : c ≤ 1) (h : ENNReal.ofReal c • ν ≤ μ) (A : Set X)
    (hA : MeasurableSet A) : |ν.real A - μ.real A| ≤ 1 - c := by
  have key : ∀ A, c * ν.real A ≤ μ.real A := fun A => by
    have := ENNReal.toReal_mono (measure_ne_top μ A) (h A)
    rwa [Measure.smul_apply, smul_eq_mul, ENNReal.toReal_mul, ENNReal.toReal_ofReal h0] at this
  have a := key A
  have b := key Aᶜ
  rw [probReal_compl_eq_one_sub hA, probReal_compl_eq_one_sub hA] at b
  have c1 : ν.real A ≤ 1 := measureReal_le_one
  have c2 : 0 ≤ ν.real A := measureReal_nonneg
  rw [abs_le]
  constructor <;> nlinarith

end Verif
