import Mathlib.Analysis.InnerProductSpace.Adjoint
import Mathlib.MeasureTheory.Function.L2Space
import Mathlib.Probability.Kernel.Composition.MeasureCompProd
import Mathlib.Probability.Kernel.Composition.MeasureComp
import Mathlib.Probability.Kernel.Composition.IntegralCompProd
import Mathlib.Probability.Kernel.Invariance
import Mathlib.MeasureTheory.Function.AEEqOfIntegral
import Mathlib.MeasureTheory.Measure.Decomposition.IntegralRNDeriv

/-!
# Convergence of reversible Markov chains

A reversible chain whose stationary law `π` satisfies `π × π ≪ π ⊗ K` converges to `π` in total variation
from every law that has a density, and from every point that is eventually left. The proof uses only
Hilbert space geometry: even powers of a self-adjoint contraction converge, and the limits are constant.
-/

namespace Verif.Ergodic

open MeasureTheory ProbabilityTheory Filter Set
open scoped ENNReal Topology InnerProductSpace

section Hilbert

variable {H : Type} [NormedAddCommGroup H] [InnerProductSpace ℝ H]

theorem iterate_sym {T : H → H} (hsym : ∀ f g, ⟪T f, g⟫_ℝ = ⟪f, T g⟫_ℝ) (n : ℕ) :
    ∀ f g, ⟪T^[n] f, g⟫_ℝ = ⟪f, T^[n] g⟫_ℝ := by
  induction n with
  | zero => intro f g; rfl
  | succ n ih =>
    intro f g
    rw [Function.iterate_succ_apply', Function.iterate_succ_apply, hsym, ih]

/-- Even powers of a self-adjoint contraction converge. -/
theorem exists_limit [CompleteSpace H] {T : H → H} (hT : ∀ f, ‖T f‖ ≤ ‖f‖)
    (hsym : ∀ f g, ⟪T f, g⟫_ℝ = ⟪f, T g⟫_ℝ) (f : H) :
    ∃ g, Tendsto (fun n => T^[2 * n] f) atTop (𝓝 g) := by
  set a : ℕ → ℝ := fun n => ‖T^[n] f‖ ^ 2 with ha
  have hanti : Antitone a := antitone_nat_of_succ_le fun n => by
    simp only [ha]
    rw [Function.iterate_succ_apply']
    exact pow_le_pow_left₀ (norm_nonneg _) (hT _) 2
  have hb : BddBelow (range a) := ⟨0, by rintro _ ⟨n, rfl⟩; exact sq_nonneg _⟩
  have hlim : Tendsto a atTop (𝓝 (⨅ n, a n)) := tendsto_atTop_ciInf hanti hb
  set L := ⨅ n, a n
  have hL : ∀ n, L ≤ a n := fun n => ciInf_le hb n
  have hsq : ∀ n m, ‖T^[2 * n] f - T^[2 * m] f‖ ^ 2 = a (2 * n) - 2 * a (n + m) + a (2 * m) := by
    intro n m
    rw [norm_sub_sq_real]
    have : ⟪T^[2 * n] f, T^[2 * m] f⟫_ℝ = a (n + m) := by
      simp only [ha]
      rw [← real_inner_self_eq_norm_sq]
      rcases le_total n m with h | h
      · obtain ⟨k, rfl⟩ := Nat.exists_eq_add_of_le h
        have e1 : 2 * (n + k) = k + (n + (n + k)) := by ring
        have e2 : n + (n + k) = k + 2 * n := by ring
        rw [e1, Function.iterate_add_apply, ← iterate_sym hsym, ← Function.iterate_add_apply, e2]
      · obtain ⟨k, rfl⟩ := Nat.exists_eq_add_of_le h
        have e1 : 2 * (m + k) = k + (m + k + m) := by ring
        have e2 : m + k + m = k + 2 * m := by ring
        rw [e1, Function.iterate_add_apply, iterate_sym hsym, ← Function.iterate_add_apply, ← e2]
    rw [this]
  refine cauchySeq_tendsto_of_complete (Metric.cauchySeq_iff'.2 fun ε hε => ?_)
  have h1 : ∀ᶠ n in atTop, a n < L + ε ^ 2 := hlim.eventually_lt_const (lt_add_of_pos_right L (pow_pos hε 2))
  obtain ⟨N, hN⟩ := h1.exists
  refine ⟨N, fun n hn => ?_⟩
  rw [dist_eq_norm, ← abs_of_pos hε, ← abs_norm, ← sq_lt_sq, hsq n N]
  have h2 : a (2 * n) ≤ a (n + N) := hanti (by omega)
  have h3 : a (2 * N) ≤ a N := hanti (by omega)
  have h4 := hL (n + N)
  linarith

end Hilbert

section L2

variable {S : Type} [MeasurableSpace S] {π : Measure S} [IsProbabilityMeasure π] {J : Measure (S × S)}

/-- The operator of a chain whose states at successive times have joint law `J`. -/
noncomputable def op (h1 : MeasurePreserving Prod.fst J π) (h2 : MeasurePreserving Prod.snd J π) :
    Lp ℝ 2 π →L[ℝ] Lp ℝ 2 π :=
  (ContinuousLinearMap.adjoint (Lp.compMeasurePreservingₗᵢ ℝ Prod.fst h1).toContinuousLinearMap).comp
    (Lp.compMeasurePreservingₗᵢ ℝ Prod.snd h2).toContinuousLinearMap

variable (h1 : MeasurePreserving Prod.fst J π) (h2 : MeasurePreserving Prod.snd J π)

omit [IsProbabilityMeasure π] in
theorem op_inner (f g : Lp ℝ 2 π) : ⟪op h1 h2 f, g⟫_ℝ = ∫ z, f z.2 * g z.1 ∂J := by
  unfold op
  rw [ContinuousLinearMap.comp_apply, ContinuousLinearMap.adjoint_inner_left, L2.inner_def]
  refine integral_congr_ae ?_
  filter_upwards [Lp.coeFn_compMeasurePreserving f h2, Lp.coeFn_compMeasurePreserving g h1] with z hz1 hz2
  have e1 : (Lp.compMeasurePreservingₗᵢ ℝ Prod.snd h2).toContinuousLinearMap f
    = Lp.compMeasurePreserving Prod.snd h2 f := rfl
  have e2 : (Lp.compMeasurePreservingₗᵢ ℝ Prod.fst h1).toContinuousLinearMap g
    = Lp.compMeasurePreserving Prod.fst h1 g := rfl
  rw [e1, e2, hz1, hz2]
  simp [mul_comm]

omit [IsProbabilityMeasure π] in
theorem op_sym (hJ : J.map Prod.swap = J) (f g : Lp ℝ 2 π) : ⟪op h1 h2 f, g⟫_ℝ = ⟪f, op h1 h2 g⟫_ℝ := by
  rw [op_inner, real_inner_comm, op_inner]
  have hs : MeasurePreserving Prod.swap J J := ⟨measurable_swap, hJ⟩
  rw [← hs.integral_comp MeasurableEquiv.prodComm.measurableEmbedding fun z => f z.2 * g z.1]
  refine integral_congr_ae (Eventually.of_forall fun z => ?_)
  simp [mul_comm]

omit [IsProbabilityMeasure π] in
theorem op_norm (f : Lp ℝ 2 π) : ‖op h1 h2 f‖ ≤ ‖f‖ := by
  unfold op
  rw [ContinuousLinearMap.comp_apply]
  refine (ContinuousLinearMap.le_opNorm _ _).trans ?_
  rw [LinearIsometryEquiv.norm_map]
  have ha : ‖(Lp.compMeasurePreservingₗᵢ (E := ℝ) (p := 2) ℝ Prod.fst h1).toContinuousLinearMap‖ ≤ 1 :=
    LinearIsometry.norm_toContinuousLinearMap_le _
  have hb : ‖(Lp.compMeasurePreservingₗᵢ ℝ Prod.snd h2).toContinuousLinearMap f‖ = ‖f‖ :=
    LinearIsometry.norm_map _ _
  rw [hb]
  exact mul_le_of_le_one_left (norm_nonneg _) ha

/-- A function that is not shortened by two steps is constant. -/
theorem fixed_const (hJ : J.map Prod.swap = J) (hac : π.prod π ≪ J) (g : Lp ℝ 2 π)
    (hg : op h1 h2 (op h1 h2 g) = g) : ∃ c : ℝ, g =ᵐ[π] fun _ => c := by
  set U1 := (Lp.compMeasurePreservingₗᵢ (E := ℝ) (p := 2) ℝ Prod.fst h1).toContinuousLinearMap with hU1
  set U2 := (Lp.compMeasurePreservingₗᵢ (E := ℝ) (p := 2) ℝ Prod.snd h2).toContinuousLinearMap with hU2
  have n1 : ∀ f, ‖U1 f‖ = ‖f‖ := fun f => LinearIsometry.norm_map _ _
  have n2 : ∀ f, ‖U2 f‖ = ‖f‖ := fun f => LinearIsometry.norm_map _ _
  set u := op h1 h2 g with hu
  have hnorm : ‖u‖ ^ 2 = ‖g‖ ^ 2 := by
    rw [← real_inner_self_eq_norm_sq, ← real_inner_self_eq_norm_sq]
    conv_lhs => rw [hu, op_sym h1 h2 hJ, ← hu, hg]
  have hcross : ⟪U2 g, U1 u⟫_ℝ = ‖u‖ ^ 2 := by
    rw [← ContinuousLinearMap.adjoint_inner_left, ← real_inner_self_eq_norm_sq]
    rfl
  have hz : ‖U2 g - U1 u‖ ^ 2 = 0 := by
    rw [norm_sub_sq_real, hcross, n1, n2, hnorm]
    ring
  have heq : U2 g = U1 u := by
    rw [← sub_eq_zero, ← norm_eq_zero]
    exact pow_eq_zero_iff (two_ne_zero) |>.1 hz
  have hae : ∀ᵐ z ∂J, g z.2 = u z.1 := by
    have e1 : U2 g = Lp.compMeasurePreserving Prod.snd h2 g := rfl
    have e2 : U1 u = Lp.compMeasurePreserving Prod.fst h1 u := rfl
    rw [e1, e2] at heq
    filter_upwards [Lp.coeFn_compMeasurePreserving g h2, Lp.coeFn_compMeasurePreserving u h1] with z hz1 hz2
    have h3 : g z.2 = (Lp.compMeasurePreserving Prod.snd h2 g) z := hz1.symm
    have h4 : u z.1 = (Lp.compMeasurePreserving Prod.fst h1 u) z := hz2.symm
    rw [h3, h4, heq]
  have hprod : ∀ᵐ z ∂(π.prod π), g z.2 = u z.1 := hac.ae_le hae
  obtain ⟨x, hx⟩ := (Measure.ae_ae_of_ae_prod hprod).exists
  exact ⟨u x, hx⟩

omit [IsProbabilityMeasure π] in
include h1 in
theorem integral_fst {F : S → ℝ} (hF : AEStronglyMeasurable F π) :
    ∫ z : S × S, F z.1 ∂J = ∫ x, F x ∂π := by
  have hF' : AEStronglyMeasurable F (J.map Prod.fst) := by rw [h1.map_eq]; exact hF
  rw [← integral_map h1.measurable.aemeasurable hF', h1.map_eq]

/-- The constant functions. -/
noncomputable def const (π : Measure S) [IsProbabilityMeasure π] (c : ℝ) : Lp ℝ 2 π :=
  (memLp_const c).toLp fun _ => c

theorem const_coe (c : ℝ) : const π c =ᵐ[π] fun _ => c := MemLp.coeFn_toLp _

theorem op_const (c : ℝ) : op h1 h2 (const π c) = const π c := by
  refine ext_inner_right ℝ fun v => ?_
  rw [op_inner, L2.inner_def]
  have e1 : ∫ z, (const π c) z.2 * v z.1 ∂J = ∫ z : S × S, c * v z.1 ∂J := by
    refine integral_congr_ae ?_
    filter_upwards [h2.quasiMeasurePreserving.ae (const_coe (π := π) c)] with z hz
    rw [hz]
  have e2 : ∫ z : S × S, c * v z.1 ∂J = ∫ x, c * v x ∂π :=
    integral_fst h1 (F := fun x => c * v x) (aestronglyMeasurable_const.mul (Lp.aestronglyMeasurable v))
  rw [e1, e2]
  refine integral_congr_ae ?_
  filter_upwards [const_coe (π := π) c] with x hx
  rw [hx]
  simp [mul_comm]

/-- All powers converge to the mean. -/
theorem op_tendsto (hJ : J.map Prod.swap = J) (hac : π.prod π ≪ J) (f : Lp ℝ 2 π) :
    Tendsto (fun n => (op h1 h2)^[n] f) atTop (𝓝 (const π (∫ x, f x ∂π))) := by
  set T := op h1 h2 with hTdef
  have hsym : ∀ f g, ⟪T f, g⟫_ℝ = ⟪f, T g⟫_ℝ := op_sym h1 h2 hJ
  obtain ⟨g, hg⟩ := exists_limit (T := T) (op_norm h1 h2) hsym f
  have hcont : Continuous T := T.continuous
  have hfix : T (T g) = g := by
    have h3 : Tendsto (fun n => T (T (T^[2 * n] f))) atTop (𝓝 (T (T g))) :=
      ((hcont.comp hcont).tendsto g).comp hg
    have h4 : Tendsto (fun n => T^[2 * (n + 1)] f) atTop (𝓝 g) := hg.comp (tendsto_add_atTop_nat 1)
    refine tendsto_nhds_unique h3 (h4.congr fun n => ?_)
    rw [show 2 * (n + 1) = 2 * n + 1 + 1 by ring, Function.iterate_succ_apply', Function.iterate_succ_apply']
  obtain ⟨c, hc⟩ := fixed_const h1 h2 hJ hac g hfix
  have hgc : g = const π c := Lp.ext (hc.trans (const_coe c).symm)
  have hint : ∀ v : Lp ℝ 2 π, ⟪const π 1, v⟫_ℝ = ∫ x, v x ∂π := by
    intro v
    rw [L2.inner_def]
    refine integral_congr_ae ?_
    filter_upwards [const_coe (π := π) 1] with x hx
    rw [hx]
    simp
  have hmean : ∀ n, ∫ x, (T^[n] f) x ∂π = ∫ x, f x ∂π := by
    intro n
    rw [← hint, ← hint, ← iterate_sym hsym]
    congr 1
    induction n with
    | zero => rfl
    | succ n ih => rw [Function.iterate_succ_apply, hTdef, op_const h1 h2, ← hTdef, ih]
  have hcval : c = ∫ x, f x ∂π := by
    have h5 : Tendsto (fun n => ⟪const π 1, T^[2 * n] f⟫_ℝ) atTop (𝓝 ⟪const π 1, g⟫_ℝ) :=
      tendsto_const_nhds.inner hg
    have h6 : ⟪const π 1, g⟫_ℝ = c := by
      rw [hint, integral_congr_ae hc]
      simp
    rw [h6] at h5
    refine tendsto_nhds_unique h5 (tendsto_const_nhds.congr fun n => ?_)
    rw [hint, hmean]
  rw [← hcval, ← hgc]
  have hodd : Tendsto (fun n => T^[2 * n + 1] f) atTop (𝓝 g) := by
    have h7 : Tendsto (fun n => T (T^[2 * n] f)) atTop (𝓝 (T g)) := (hcont.tendsto g).comp hg
    have h8 : T g = g := by rw [hgc]; exact op_const h1 h2 c
    rw [h8] at h7
    exact h7.congr fun n => (Function.iterate_succ_apply' _ _ _).symm
  refine Metric.tendsto_atTop.2 fun ε hε => ?_
  obtain ⟨N1, hN1⟩ := Metric.tendsto_atTop.1 hg ε hε
  obtain ⟨N2, hN2⟩ := Metric.tendsto_atTop.1 hodd ε hε
  refine ⟨2 * (N1 + N2), fun n hn => ?_⟩
  rcases Nat.even_or_odd' n with ⟨k, rfl | rfl⟩
  · exact hN1 k (by omega)
  · exact hN2 k (by omega)

end L2

section Chain

variable {S : Type} [MeasurableSpace S] {π : Measure S} [IsProbabilityMeasure π] {K : Kernel S S}
  [IsMarkovKernel K]

/-- The joint law of two successive states. -/
theorem joint_fst : MeasurePreserving Prod.fst (π ⊗ₘ K) π := ⟨measurable_fst, Measure.fst_compProd π K⟩

theorem joint_snd (hJ : (π ⊗ₘ K).map Prod.swap = π ⊗ₘ K) : MeasurePreserving Prod.snd (π ⊗ₘ K) π := by
  refine ⟨measurable_snd, ?_⟩
  rw [← hJ, Measure.map_map measurable_snd measurable_swap]
  exact Measure.fst_compProd π K

/-- The operator of the chain. -/
noncomputable def step (π : Measure S) [IsProbabilityMeasure π] (K : Kernel S S) [IsMarkovKernel K]
    (hJ : (π ⊗ₘ K).map Prod.swap = π ⊗ₘ K) : Lp ℝ 2 π →L[ℝ] Lp ℝ 2 π :=
  op (joint_fst (K := K)) (joint_snd hJ)

variable (hJ : (π ⊗ₘ K).map Prod.swap = π ⊗ₘ K)

theorem step_setIntegral (h : Lp ℝ 2 π) {B : Set S} (hB : MeasurableSet B) :
    ∫ x in B, step π K hJ h x ∂π = ∫ x, h x * (K x).real B ∂π := by
  have e0 : ∫ x in B, step π K hJ h x ∂π
      = ⟪step π K hJ h, indicatorConstLp 2 hB (measure_ne_top π B) (1 : ℝ)⟫_ℝ := by
    rw [real_inner_comm]
    exact (L2.inner_indicatorConstLp_one hB (measure_ne_top π B) (step π K hJ h)).symm
  rw [e0, step, op_sym _ _ hJ, real_inner_comm, op_inner]
  have e1 : ∫ z, (indicatorConstLp 2 hB (measure_ne_top π B) (1 : ℝ) : Lp ℝ 2 π) z.2 * h z.1 ∂(π ⊗ₘ K)
      = ∫ z, B.indicator (fun _ => (1 : ℝ)) z.2 * h z.1 ∂(π ⊗ₘ K) := by
    refine integral_congr_ae ?_
    have hi := (joint_snd (π := π) hJ).quasiMeasurePreserving.ae
      (indicatorConstLp_coeFn (p := 2) (hs := hB) (hμs := measure_ne_top π B) (c := (1 : ℝ)))
    filter_upwards [hi] with z hz
    rw [hz]
  rw [e1]
  have hint : Integrable (fun z : S × S => B.indicator (fun _ => (1 : ℝ)) z.2 * h z.1) (π ⊗ₘ K) := by
    have hh : Integrable (fun x => h x) π := (Lp.memLp h).integrable (by norm_num)
    have h1 : Integrable (fun z : S × S => h z.1) (π ⊗ₘ K) :=
      (joint_fst (π := π) (K := K)).integrable_comp_of_integrable hh
    refine h1.bdd_mul (c := 1) ?_ ?_
    · exact ((measurable_const.indicator hB).comp measurable_snd).aestronglyMeasurable
    · refine Eventually.of_forall fun z => ?_
      by_cases hz : z.2 ∈ B <;> simp [hz]
  rw [MeasureTheory.Measure.integral_compProd hint]
  refine integral_congr_ae (Eventually.of_forall fun x => ?_)
  dsimp only
  rw [integral_mul_const, integral_indicator hB]
  simp [mul_comm]

theorem step_nonneg {h : Lp ℝ 2 π} (hh : 0 ≤ᵐ[π] h) : 0 ≤ᵐ[π] step π K hJ h := by
  refine ae_nonneg_of_forall_setIntegral_nonneg ((Lp.memLp _).integrable (by norm_num)) ?_
  intro B hB _
  rw [step_setIntegral hJ h hB]
  refine integral_nonneg_of_ae ?_
  filter_upwards [hh] with x hx
  exact mul_nonneg hx measureReal_nonneg

/-- The measure with a density in `L²`. -/
noncomputable def dens (h : Lp ℝ 2 π) : Measure S := π.withDensity fun x => ENNReal.ofReal (h x)

theorem dens_apply {h : Lp ℝ 2 π} (hh : 0 ≤ᵐ[π] h) {B : Set S} (hB : MeasurableSet B) :
    dens h B = ENNReal.ofReal (∫ x in B, h x ∂π) := by
  unfold dens
  rw [withDensity_apply _ hB, ofReal_integral_eq_lintegral_ofReal]
  · exact ((Lp.memLp h).integrable (by norm_num)).integrableOn
  · exact ae_restrict_of_ae hh

/-- One step of the chain turns the density `h` into `step h`. -/
theorem dens_bind {h : Lp ℝ 2 π} (hh : 0 ≤ᵐ[π] h) : (dens h).bind K = dens (step π K hJ h) := by
  ext B hB
  rw [Measure.bind_apply hB K.aemeasurable, dens_apply (step_nonneg hJ hh) hB, step_setIntegral hJ h hB,
    dens, lintegral_withDensity_eq_lintegral_mul₀]
  · rw [ofReal_integral_eq_lintegral_ofReal]
    · refine lintegral_congr_ae ?_
      filter_upwards [hh] with x hx
      rw [Pi.mul_apply, ENNReal.ofReal_mul hx, ofReal_measureReal]
    · have hh' : Integrable (fun x => h x) π := (Lp.memLp h).integrable (by norm_num)
      refine hh'.mul_bdd (c := 1) ?_ ?_
      · exact (K.measurable_coe hB).ennreal_toReal.aestronglyMeasurable
      · refine Eventually.of_forall fun x => ?_
        rw [Real.norm_of_nonneg measureReal_nonneg]
        exact measureReal_le_one
    · filter_upwards [hh] with x hx
      exact mul_nonneg hx measureReal_nonneg
  · exact (Lp.aestronglyMeasurable h).aemeasurable.ennreal_ofReal
  · exact (K.measurable_coe hB).aemeasurable

/-- What starts above a density stays above its image. -/
theorem dens_le {μ : ℕ → Measure S} (hμ : ∀ n, μ (n + 1) = (μ n).bind K) {h : Lp ℝ 2 π}
    (hh : 0 ≤ᵐ[π] h) {n₀ : ℕ} (h0 : dens h ≤ μ n₀) (m : ℕ) :
    0 ≤ᵐ[π] (step π K hJ)^[m] h ∧ dens ((step π K hJ)^[m] h) ≤ μ (n₀ + m) := by
  induction m with
  | zero => exact ⟨hh, h0⟩
  | succ m ih =>
    rw [Function.iterate_succ_apply']
    refine ⟨step_nonneg hJ ih.1, ?_⟩
    rw [← dens_bind hJ ih.1, ← Nat.add_assoc, hμ]
    refine Measure.le_iff.2 fun B hB => ?_
    rw [Measure.bind_apply hB K.aemeasurable, Measure.bind_apply hB K.aemeasurable]
    exact lintegral_mono' ih.2 le_rfl

theorem memLp_unit {F : S → ℝ} (hF : Measurable F) (h0 : ∀ x, 0 ≤ F x) (h1 : ∀ x, F x ≤ 1) : MemLp F 2 π := by
  refine MemLp.of_bound hF.aestronglyMeasurable 1 (Eventually.of_forall fun x => ?_)
  rw [Real.norm_of_nonneg (h0 x)]
  exact h1 x

theorem integrable_unit {ν : Measure S} [IsFiniteMeasure ν] {F : S → ℝ} (hF : Measurable F) (h0 : ∀ x, 0 ≤ F x)
    (h1 : ∀ x, F x ≤ 1) : Integrable F ν := by
  refine Integrable.of_bound hF.aestronglyMeasurable 1 (Eventually.of_forall fun x => ?_)
  rw [Real.norm_of_nonneg (h0 x)]
  exact h1 x

theorem integral_dens {h : Lp ℝ 2 π} (hh : 0 ≤ᵐ[π] h) (F : S → ℝ) :
    ∫ x, F x ∂dens h = ∫ x, F x * h x ∂π := by
  unfold dens
  rw [integral_withDensity_eq_integral_toReal_smul₀ (Lp.aestronglyMeasurable h).aemeasurable.ennreal_ofReal
    (Eventually.of_forall fun _ => ENNReal.ofReal_lt_top)]
  refine integral_congr_ae ?_
  filter_upwards [hh] with x hx
  rw [ENNReal.toReal_ofReal hx, smul_eq_mul, mul_comm]

include hJ in
/-- Convergence in total variation, for laws most of whose mass has a density at some time. -/
theorem tv_of_density (hac : π.prod π ≪ π ⊗ₘ K) {μ : ℕ → Measure S} [∀ n, IsProbabilityMeasure (μ n)]
    (hμ : ∀ n, μ (n + 1) = (μ n).bind K)
    (hd : ∀ ε > (0 : ℝ), ∃ n₀, ∃ h : Lp ℝ 2 π, 0 ≤ᵐ[π] h ∧ dens h ≤ μ n₀ ∧ 1 - ε ≤ ∫ x, h x ∂π) :
    ∀ ε > (0 : ℝ), ∃ N, ∀ n ≥ N, ∀ F : S → ℝ, Measurable F → (∀ x, 0 ≤ F x) → (∀ x, F x ≤ 1) →
      |∫ x, F x ∂μ n - ∫ x, F x ∂π| ≤ ε := by
  intro ε hε
  obtain ⟨n₀, h, hh, h0, hc⟩ := hd (ε / 2) (by linarith)
  set c := ∫ x, h x ∂π with hcdef
  obtain ⟨M, hM⟩ := Metric.tendsto_atTop.1 (op_tendsto (joint_fst (K := K)) (joint_snd hJ) hJ hac h)
    (ε / 2) (by linarith)
  have key : ∀ m ≥ M, ∀ F : S → ℝ, Measurable F → (∀ x, 0 ≤ F x) → (∀ x, F x ≤ 1) →
      ∫ x, F x ∂π - ε ≤ ∫ x, F x ∂μ (n₀ + m) := by
    intro m hm F hF hF0 hF1
    obtain ⟨hn, hle⟩ := dens_le hJ hμ hh h0 m
    have e2 : ∫ x, F x * ((step π K hJ)^[m] h) x ∂π ≤ ∫ x, F x ∂μ (n₀ + m) := by
      rw [← integral_dens hn]
      exact integral_mono_measure hle (Eventually.of_forall hF0) (integrable_unit hF hF0 hF1)
    have hFL : MemLp F 2 π := memLp_unit hF hF0 hF1
    have e3 : |∫ x, F x * ((step π K hJ)^[m] h) x ∂π - c * ∫ x, F x ∂π| ≤ ε / 2 := by
      have i1 : ∫ x, F x * ((step π K hJ)^[m] h) x ∂π = ⟪hFL.toLp, (step π K hJ)^[m] h⟫_ℝ := by
        rw [L2.inner_def]
        refine integral_congr_ae ?_
        filter_upwards [hFL.coeFn_toLp] with x hx
        rw [hx]
        simp [mul_comm]
      have i2 : c * ∫ x, F x ∂π = ⟪hFL.toLp, const π c⟫_ℝ := by
        rw [L2.inner_def, ← integral_const_mul]
        refine integral_congr_ae ?_
        filter_upwards [hFL.coeFn_toLp, const_coe (π := π) c] with x hx hx2
        rw [hx, hx2]
        simp
      rw [i1, i2, ← inner_sub_right]
      refine (abs_real_inner_le_norm _ _).trans ?_
      have i3 : ‖hFL.toLp‖ ≤ 1 := by
        refine (Lp.norm_le_of_ae_bound zero_le_one ?_).trans (le_of_eq ?_)
        · filter_upwards [hFL.coeFn_toLp] with x hx
          rw [hx, Real.norm_of_nonneg (hF0 x)]
          exact hF1 x
        · have : measureUnivNNReal π = 1 := by simp [measureUnivNNReal]
          simp [this]
      have i4 : ‖(step π K hJ)^[m] h - const π c‖ ≤ ε / 2 := by
        rw [← dist_eq_norm]
        exact (hM m hm).le
      calc ‖hFL.toLp‖ * ‖(step π K hJ)^[m] h - const π c‖ ≤ 1 * (ε / 2) :=
            mul_le_mul i3 i4 (norm_nonneg _) zero_le_one
        _ = ε / 2 := one_mul _
    have e4 : 0 ≤ ∫ x, F x ∂π := integral_nonneg hF0
    have e5 : ∫ x, F x ∂π ≤ 1 := by
      refine (integral_mono (integrable_unit hF hF0 hF1) (integrable_const 1) hF1).trans ?_
      simp
    have e6 := (abs_le.1 e3).1
    nlinarith
  refine ⟨n₀ + M, fun n hn F hF hF0 hF1 => ?_⟩
  obtain ⟨m, rfl⟩ : ∃ m, n = n₀ + m := ⟨n - n₀, by omega⟩
  have k1 := key m (by omega) F hF hF0 hF1
  have k2 := key m (by omega) (fun x => 1 - F x) (measurable_const.sub hF) (fun x => by linarith [hF1 x])
    (fun x => by linarith [hF0 x])
  rw [integral_sub (integrable_const 1) (integrable_unit hF hF0 hF1),
    integral_sub (integrable_const 1) (integrable_unit hF hF0 hF1)] at k2
  simp only [integral_const, probReal_univ, smul_eq_mul, mul_one] at k2
  rw [abs_le]
  constructor <;> linarith

/-- A measure with a density has most of its mass below a bounded density. -/
theorem truncate {ν : Measure S} [IsFiniteMeasure ν] (hν : ν ≪ π) {ε : ℝ} (hε : 0 < ε) :
    ∃ h : Lp ℝ 2 π, 0 ≤ᵐ[π] h ∧ dens h ≤ ν ∧ ν.real univ - ε ≤ ∫ x, h x ∂π := by
  have hint : Integrable (fun x => (ν.rnDeriv π x).toReal) π := MeasureTheory.Measure.integrable_toReal_rnDeriv
  have hmass : ∫ x, (ν.rnDeriv π x).toReal ∂π = ν.real univ := by
    rw [Measure.integral_toReal_rnDeriv hν]
  have hmeas : Measurable fun x => (ν.rnDeriv π x).toReal := (Measure.measurable_rnDeriv ν π).ennreal_toReal
  have hlim : Tendsto (fun k : ℕ => ∫ x, min (ν.rnDeriv π x).toReal (k : ℝ) ∂π) atTop (𝓝 (ν.real univ)) := by
    rw [← hmass]
    refine tendsto_integral_of_dominated_convergence (fun x => (ν.rnDeriv π x).toReal) ?_ hint ?_ ?_
    · exact fun k => (hmeas.min measurable_const).aestronglyMeasurable
    · refine fun k => Eventually.of_forall fun x => ?_
      rw [Real.norm_of_nonneg (le_min ENNReal.toReal_nonneg (Nat.cast_nonneg k))]
      exact min_le_left _ _
    · refine Eventually.of_forall fun x => ?_
      obtain ⟨k₀, hk₀⟩ := exists_nat_ge (ν.rnDeriv π x).toReal
      refine tendsto_const_nhds.congr' ?_
      filter_upwards [eventually_ge_atTop k₀] with k hk
      exact (min_eq_left (hk₀.trans (Nat.cast_le.2 hk))).symm
  obtain ⟨k, hk⟩ := (hlim.eventually_const_lt (show ν.real univ - ε < ν.real univ by linarith)).exists
  have hL : MemLp (fun x => min (ν.rnDeriv π x).toReal (k : ℝ)) 2 π := by
    refine MemLp.of_bound (hmeas.min measurable_const).aestronglyMeasurable (k : ℝ) ?_
    refine Eventually.of_forall fun x => ?_
    rw [Real.norm_of_nonneg (le_min ENNReal.toReal_nonneg (Nat.cast_nonneg k))]
    exact min_le_right _ _
  refine ⟨hL.toLp, ?_, ?_, ?_⟩
  · filter_upwards [hL.coeFn_toLp] with x hx
    rw [hx]
    exact le_min ENNReal.toReal_nonneg (Nat.cast_nonneg k)
  · conv_rhs => rw [← Measure.withDensity_rnDeriv_eq ν π hν]
    unfold dens
    refine withDensity_mono ?_
    filter_upwards [hL.coeFn_toLp] with x hx
    rw [hx]
    exact (ENNReal.ofReal_le_ofReal (min_le_left _ _)).trans ENNReal.ofReal_toReal_le
  · rw [integral_congr_ae hL.coeFn_toLp]
    exact hk.le

include hJ in
theorem bind_self : π.bind K = π := by
  have h := (joint_snd hJ).map_eq
  ext B hB
  rw [Measure.bind_apply hB K.aemeasurable]
  conv_rhs => rw [← h, Measure.map_apply measurable_snd hB]
  rw [Measure.compProd_apply (measurable_snd hB)]
  rfl

include hJ in
theorem bind_ac {ν : Measure S} (hν : ν ≪ π) : ν.bind K ≪ π := by
  refine Measure.AbsolutelyContinuous.mk fun B hB h0 => ?_
  rw [← bind_self hJ, Measure.bind_apply hB K.aemeasurable, lintegral_eq_zero_iff (K.measurable_coe hB)] at h0
  rw [Measure.bind_apply hB K.aemeasurable, lintegral_eq_zero_iff (K.measurable_coe hB)]
  exact hν.ae_le h0

include hJ in
/-- **Convergence in total variation** from a point that the chain eventually leaves. -/
theorem tv_of_point (hac : π.prod π ≪ π ⊗ₘ K) {x₀ : S} {ν : Measure S} {r : ℝ≥0∞} (hν : ν ≪ π)
    (hr : r < 1) (hK : K x₀ = ν + r • Measure.dirac x₀) {μ : ℕ → Measure S}
    (h0 : μ 0 = Measure.dirac x₀) (hμ : ∀ n, μ (n + 1) = (μ n).bind K) :
    ∀ ε > (0 : ℝ), ∃ N, ∀ n ≥ N, ∀ F : S → ℝ, Measurable F → (∀ x, 0 ≤ F x) → (∀ x, F x ≤ 1) →
      |∫ x, F x ∂μ n - ∫ x, F x ∂π| ≤ ε := by
  have hprob : ∀ n, IsProbabilityMeasure (μ n) := by
    intro n
    induction n with
    | zero => rw [h0]; infer_instance
    | succ n ih =>
      rw [hμ]
      constructor
      rw [Measure.bind_apply MeasurableSet.univ K.aemeasurable]
      simp
  have hdec : ∀ n, ∃ σ : Measure S, σ ≪ π ∧ μ n = σ + r ^ n • Measure.dirac x₀ := by
    intro n
    induction n with
    | zero => exact ⟨0, Measure.AbsolutelyContinuous.zero π, by rw [h0]; simp⟩
    | succ n ih =>
      obtain ⟨σ, hσ, hσn⟩ := ih
      refine ⟨σ.bind K + r ^ n • ν, ?_, ?_⟩
      · exact Measure.AbsolutelyContinuous.add_left (bind_ac hJ hσ) (hν.smul_left _)
      · rw [hμ, hσn]
        ext B hB
        rw [Measure.bind_apply hB K.aemeasurable, lintegral_add_measure, lintegral_smul_measure,
          lintegral_dirac' _ (K.measurable_coe hB), hK, ← Measure.bind_apply hB K.aemeasurable]
        simp only [Measure.add_apply, Measure.smul_apply, smul_eq_mul]
        ring
  refine tv_of_density hJ hac hμ ?_
  intro ε hε
  have hr0 : r ≠ ⊤ := (hr.trans ENNReal.one_lt_top).ne
  have hr1 : r.toReal < 1 := by
    rw [← ENNReal.toReal_one]
    exact (ENNReal.toReal_lt_toReal hr0 ENNReal.one_ne_top).2 hr
  obtain ⟨n, hn⟩ := exists_pow_lt_of_lt_one (show 0 < ε / 2 by linarith) hr1
  obtain ⟨σ, hσ, hσn⟩ := hdec n
  have hle : σ ≤ μ n := by rw [hσn]; exact Measure.le_add_right le_rfl
  have hfin : IsFiniteMeasure σ := ⟨(hle univ).trans_lt (measure_lt_top _ _)⟩
  obtain ⟨h, hh, hd, hm⟩ := truncate hσ (show 0 < ε / 2 by linarith)
  refine ⟨n, h, hh, hd.trans hle, ?_⟩
  have hone : (1 : ℝ) = σ.real univ + r.toReal ^ n := by
    have e : (μ n).real univ = 1 := probReal_univ
    rw [hσn, Measure.real, Measure.add_apply, ENNReal.toReal_add (measure_ne_top _ _)] at e
    · rw [← e]
      simp [Measure.real]
    · simp [hr0]
  linarith

end Chain

end Verif.Ergodic
