import Verif.Lemmas.PathLaw

/-!
# Averages along the path of a reversible chain

The mean square error of the average of a bounded function along the path goes to zero.
-/

namespace Verif.Ergodic

open MeasureTheory ProbabilityTheory Filter Set Verif.Unbiased
open scoped ENNReal Topology InnerProductSpace

variable {S E : Type} [MeasurableSpace S] [MeasurableSpace E] (η : Measure E) [IsProbabilityMeasure η]
  {g : S × E → S} (hg : Measurable g)

theorem integral_bind_kernel {K : Kernel S S} [IsMarkovKernel K] {ν : Measure S} [IsFiniteMeasure ν]
    {F : S → ℝ} (hF : Measurable F) {C : ℝ} (hC : ∀ x, |F x| ≤ C) :
    ∫ y, F y ∂(ν.bind K) = ∫ x, ∫ y, F y ∂K x ∂ν := by
  rw [← Measure.snd_compProd ν K, Measure.snd, integral_map measurable_snd.aemeasurable hF.aestronglyMeasurable,
    MeasureTheory.Measure.integral_compProd]
  refine Integrable.of_bound (hF.comp measurable_snd).aestronglyMeasurable C ?_
  exact Eventually.of_forall fun q => hC _

include hg in
theorem noise_markov : IsMarkovKernel (noiseKernel η g) := by
  refine ⟨fun x => ?_⟩
  rw [noiseKernel_apply η hg]
  exact Measure.isProbabilityMeasure_map (hg.comp measurable_prodMk_left).aemeasurable

include hg in
theorem mean_step {F : S → ℝ} (hF : Measurable F) {C : ℝ} (hC : ∀ x, |F x| ≤ C) (n : ℕ) (x : S) :
    mean η g F (n + 1) x = ∫ y, mean η g F n y ∂noiseKernel η g x := by
  have hgx : Measurable fun e => g (x, e) := hg.comp measurable_prodMk_left
  rw [mean_succ η hg hF hC, noiseKernel_apply η hg,
    integral_map hgx.aemeasurable (measurable_mean η hg hF n).aestronglyMeasurable]

variable {π : Measure S} [IsProbabilityMeasure π] [IsMarkovKernel (noiseKernel η g)]
  (hJ : (π ⊗ₘ noiseKernel η g).map Prod.swap = π ⊗ₘ noiseKernel η g)

include hg hJ

theorem integral_mean {F : S → ℝ} (hF : Measurable F) {C : ℝ} (hC : ∀ x, |F x| ≤ C) (n : ℕ) :
    ∫ x, mean η g F n x ∂π = ∫ x, F x ∂π := by
  induction n with
  | zero => simp [mean, path]
  | succ n ih =>
    rw [← ih]
    conv_rhs => rw [← bind_self hJ]
    rw [integral_bind_kernel (measurable_mean η hg hF n) (abs_mean_le η hC n)]
    exact integral_congr_ae (Eventually.of_forall fun x => mean_step η hg hF hC n x)

theorem integral_mean_dens {F : S → ℝ} (hF : Measurable F) {C : ℝ} (hC : ∀ x, |F x| ≤ C) (n : ℕ)
    (h : Lp ℝ 2 π) (hh : 0 ≤ᵐ[π] h) :
    ∫ x, mean η g F n x * h x ∂π = ∫ x, F x * ((step π (noiseKernel η g) hJ)^[n] h) x ∂π := by
  induction n generalizing h with
  | zero => simp [mean, path]
  | succ n ih =>
    rw [Function.iterate_succ_apply, ← ih _ (step_nonneg hJ hh), ← integral_dens hh,
      ← integral_dens (step_nonneg hJ hh), ← dens_bind hJ hh]
    have : IsFiniteMeasure (dens h) := by
      refine ⟨?_⟩
      rw [dens_apply hh MeasurableSet.univ]
      exact ENNReal.ofReal_lt_top
    rw [integral_bind_kernel (measurable_mean η hg hF n) (abs_mean_le η hC n)]
    exact integral_congr_ae (Eventually.of_forall fun x => mean_step η hg hF hC n x)

/-- The stationary correlation with a centred function vanishes. -/
theorem correlation (hac : π.prod π ≪ π ⊗ₘ noiseKernel η g) {F : S → ℝ} (hF : Measurable F) {D : ℝ}
    (hD : ∀ x, |F x| ≤ D) (h0 : ∫ x, F x ∂π = 0) :
    Tendsto (fun m => ∫ x, F x * mean η g F m x ∂π) atTop (𝓝 0) := by
  have hFL : MemLp F 2 π := MemLp.of_bound hF.aestronglyMeasurable D (Eventually.of_forall hD)
  have hL : MemLp (fun x => F x + D) 2 π := hFL.add (memLp_const D)
  set hl : Lp ℝ 2 π := hL.toLp with hldef
  have hlc : hl =ᵐ[π] fun x => F x + D := hL.coeFn_toLp
  have hn : 0 ≤ᵐ[π] hl := by
    filter_upwards [hlc] with x hx
    rw [hx]
    have := (abs_le.1 (hD x)).1
    simp only [Pi.zero_apply]
    linarith
  have hint : ∀ m, Integrable (fun x => F x * mean η g F m x) π := by
    intro m
    refine Integrable.of_bound (hF.mul (measurable_mean η hg hF m)).aestronglyMeasurable (D * D) ?_
    refine Eventually.of_forall fun x => ?_
    rw [norm_mul]
    exact mul_le_mul (hD x) (abs_mean_le η hD m x) (norm_nonneg _) ((abs_nonneg _).trans (hD x))
  have hint2 : ∀ m, Integrable (fun x => mean η g F m x) π := by
    intro m
    exact Integrable.of_bound (measurable_mean η hg hF m).aestronglyMeasurable D
      (Eventually.of_forall fun x => abs_mean_le η hD m x)
  have e1 : ∀ m, ∫ x, F x * mean η g F m x ∂π
      = ⟪hFL.toLp, (step π (noiseKernel η g) hJ)^[m] hl⟫_ℝ := by
    intro m
    have i1 : ⟪hFL.toLp, (step π (noiseKernel η g) hJ)^[m] hl⟫_ℝ
        = ∫ x, F x * ((step π (noiseKernel η g) hJ)^[m] hl) x ∂π := by
      rw [L2.inner_def]
      refine integral_congr_ae ?_
      filter_upwards [hFL.coeFn_toLp] with x hx
      rw [hx]
      simp [mul_comm]
    have i2 : ∫ x, mean η g F m x * hl x ∂π
        = ∫ x, F x * mean η g F m x ∂π + D * ∫ x, mean η g F m x ∂π := by
      rw [← integral_const_mul, ← integral_add (hint m) ((hint2 m).const_mul D)]
      refine integral_congr_ae ?_
      filter_upwards [hlc] with x hx
      rw [hx]
      ring
    rw [i1, ← integral_mean_dens η hg hJ hF hD m _ hn, i2, integral_mean η hg hJ hF hD, h0]
    ring
  simp only [e1]
  have hlim := (op_tendsto (joint_fst (K := noiseKernel η g)) (joint_snd hJ) hJ hac hl)
  have hlim2 : Tendsto (fun m => ⟪hFL.toLp, (step π (noiseKernel η g) hJ)^[m] hl⟫_ℝ) atTop
      (𝓝 ⟪hFL.toLp, const π (∫ x, hl x ∂π)⟫_ℝ) := Tendsto.inner tendsto_const_nhds hlim
  have e2 : ⟪hFL.toLp, const π (∫ x, hl x ∂π)⟫_ℝ = 0 := by
    rw [L2.inner_def]
    refine Eq.trans (b := ∫ x, F x * (∫ x, hl x ∂π) ∂π) ?_ ?_
    · refine integral_congr_ae ?_
      filter_upwards [hFL.coeFn_toLp, const_coe (π := π) (∫ x, hl x ∂π)] with x hx hx2
      rw [hx, hx2]
      simp [mul_comm]
    · rw [integral_mul_const, h0, zero_mul]
  rwa [e2] at hlim2

omit hg hJ [IsMarkovKernel (noiseKernel η g)] [MeasurableSpace S] [IsProbabilityMeasure π] [MeasurableSpace E] in
/-- Counting: a double sum whose terms are small off the borders and the diagonal. -/
theorem double_sum {a : ℕ → ℕ → ℝ} {D ε : ℝ} {N : ℕ} (hD : 0 ≤ D) (hε : 0 ≤ ε) (h1 : ∀ j k, |a j k| ≤ D)
    (h2 : ∀ j k, N ≤ j → N ≤ k → (j + N ≤ k ∨ k + N ≤ j) → |a j k| ≤ ε) (n : ℕ) :
    ∑ j ∈ Finset.range n, ∑ k ∈ Finset.range n, a j k ≤ n * (n * ε) + 4 * N * n * D := by
  have hb : ∀ j k, a j k ≤ ε + (if j < N then D else 0) + (if k < N then D else 0)
      + (if k ∈ Finset.Ico (j + 1 - N) (j + N) then D else 0) := by
    intro j k
    have hle := (le_abs_self (a j k)).trans (h1 j k)
    have p1 : (0 : ℝ) ≤ if j < N then D else 0 := by split_ifs <;> simp [hD]
    have p2 : (0 : ℝ) ≤ if k < N then D else 0 := by split_ifs <;> simp [hD]
    have p3 : (0 : ℝ) ≤ if k ∈ Finset.Ico (j + 1 - N) (j + N) then D else 0 := by split_ifs <;> simp [hD]
    by_cases hj : j < N
    · rw [if_pos hj]; linarith
    by_cases hk : k < N
    · rw [if_pos hk]; linarith
    by_cases hjk : k ∈ Finset.Ico (j + 1 - N) (j + N)
    · rw [if_pos hjk]; linarith
    have := (le_abs_self (a j k)).trans (h2 j k (not_lt.1 hj) (not_lt.1 hk) (by
      simp only [Finset.mem_Ico, not_and, not_lt] at hjk
      by_cases hlo : j + 1 - N ≤ k
      · exact Or.inl (hjk hlo)
      · exact Or.inr (by omega)))
    linarith
  have s1 : ∑ k ∈ Finset.range n, (if k < N then D else 0) ≤ N * D := by
    rw [← Finset.sum_filter, Finset.sum_const, nsmul_eq_mul]
    refine mul_le_mul_of_nonneg_right ?_ hD
    have : (Finset.range n).filter (· < N) ⊆ Finset.range N := fun k hk => by
      simp only [Finset.mem_filter, Finset.mem_range] at hk ⊢
      exact hk.2
    exact_mod_cast (Finset.card_le_card this).trans (by simp)
  have s2 : ∀ j, ∑ k ∈ Finset.range n, (if k ∈ Finset.Ico (j + 1 - N) (j + N) then D else 0) ≤ 2 * N * D := by
    intro j
    rw [← Finset.sum_filter, Finset.sum_const, nsmul_eq_mul]
    refine mul_le_mul_of_nonneg_right ?_ hD
    have : (Finset.range n).filter (· ∈ Finset.Ico (j + 1 - N) (j + N)) ⊆ Finset.Ico (j + 1 - N) (j + N) :=
      fun k hk => (Finset.mem_filter.1 hk).2
    have h3 := (Finset.card_le_card this).trans (by rw [Nat.card_Ico])
    have h4 : j + N - (j + 1 - N) ≤ 2 * N := by omega
    exact_mod_cast h3.trans h4
  calc ∑ j ∈ Finset.range n, ∑ k ∈ Finset.range n, a j k
      ≤ ∑ j ∈ Finset.range n, (n * ε + n * (if j < N then D else 0) + N * D + 2 * N * D) := by
        refine Finset.sum_le_sum fun j _ => ?_
        refine (Finset.sum_le_sum fun k _ => hb j k).trans ?_
        rw [Finset.sum_add_distrib, Finset.sum_add_distrib, Finset.sum_add_distrib, Finset.sum_const,
          Finset.sum_const, Finset.card_range, nsmul_eq_mul, nsmul_eq_mul]
        linarith [s2 j]
    _ = n * (n * ε) + n * (∑ j ∈ Finset.range n, (if j < N then D else 0)) + n * (N * D) + n * (2 * N * D) := by
        rw [Finset.sum_add_distrib, Finset.sum_add_distrib, Finset.sum_add_distrib, Finset.mul_sum]
        simp only [Finset.sum_const, Finset.card_range, nsmul_eq_mul]
    _ ≤ n * (n * ε) + 4 * N * n * D := by
        have := mul_le_mul_of_nonneg_left s1 (Nat.cast_nonneg (α := ℝ) n)
        linarith

/-- **Mean square convergence** of averages along the path. -/
theorem averages (hac : π.prod π ≪ π ⊗ₘ noiseKernel η g) {x₀ : S} {ν : Measure S} {r : ℝ≥0∞} (hν : ν ≪ π)
    (hr : r < 1) (hK : noiseKernel η g x₀ = ν + r • Measure.dirac x₀) {f : S → ℝ} (hf : Measurable f) {C : ℝ}
    (hC : ∀ x, |f x| ≤ C) :
    Tendsto (fun n : ℕ => ∫ ξ, ((∑ k ∈ Finset.range n, f (path g k x₀ ξ)) / n - ∫ x, f x ∂π) ^ 2 ∂streamLaw η)
      atTop (𝓝 0) := by
  set c := ∫ x, f x ∂π with hc
  have hC0 : 0 ≤ C := (abs_nonneg _).trans (hC x₀)
  have hcC : |c| ≤ C := by
    have := norm_integral_le_of_norm_le_const (μ := π) (f := f) (C := C) (Eventually.of_forall hC)
    simpa using this
  set F : S → ℝ := fun x => f x - c with hFdef
  have hF : Measurable F := hf.sub measurable_const
  set D := 2 * C + 1 with hDdef
  have hDpos : 0 < D := by linarith
  have hD : ∀ x, |F x| ≤ D := fun x => (abs_sub _ _).trans (by linarith [hC x])
  have hF0 : ∫ x, F x ∂π = 0 := by
    rw [hFdef, integral_sub (Integrable.of_bound hf.aestronglyMeasurable C (Eventually.of_forall hC))
      (integrable_const c)]
    simp [hc]
  have hcorr := correlation η hg hJ hac hF hD hF0
  have htv := tv_of_point hJ hac hν hr hK (μ := fun n => lawAt η g n x₀) (lawAt_zero η x₀) (fun n => lawAt_succ η hg n x₀)
  set G : ℕ → S → ℝ := fun m x => F x * mean η g F m x with hG
  have hGm : ∀ m, Measurable (G m) := fun m => hF.mul (measurable_mean η hg hF m)
  have hGD : ∀ m x, |G m x| ≤ D * D := fun m x => by
    rw [hG, abs_mul]
    exact mul_le_mul (hD x) (abs_mean_le η hD m x) (abs_nonneg _) hDpos.le
  set a : ℕ → ℕ → ℝ := fun j k => ∫ ξ, F (path g j x₀ ξ) * F (path g k x₀ ξ) ∂streamLaw η with ha
  have hsymm : ∀ j k, a j k = a k j := fun j k => by simp only [ha, mul_comm]
  have ha1 : ∀ j k, |a j k| ≤ D * D := by
    intro j k
    have := norm_integral_le_of_norm_le_const (μ := streamLaw η)
      (f := fun ξ => F (path g j x₀ ξ) * F (path g k x₀ ξ)) (C := D * D) (Eventually.of_forall fun ξ => by
        rw [norm_mul]
        exact mul_le_mul (hD _) (hD _) (norm_nonneg _) hDpos.le)
    simpa using this
  have hle : ∀ j m, a j (j + m) = ∫ x, G m x ∂lawAt η g j x₀ := by
    intro j m
    rw [integral_lawAt η hg j x₀ (hGm m)]
    exact integral_two η hg hF hF hD hD j m x₀
  -- the bound
  rw [Metric.tendsto_atTop]
  intro ε hε
  obtain ⟨N1, hN1⟩ := Metric.tendsto_atTop.1 hcorr (ε / 4) (by linarith)
  obtain ⟨N2, hN2⟩ := htv (ε / (8 * (D * D))) (by positivity)
  set N := max N1 N2 with hN
  have hbig : ∀ j m, N ≤ j → N ≤ m → |a j (j + m)| ≤ ε / 2 := by
    intro j m hj hm
    rw [hle]
    have hp := lawAt_prob η hg j x₀
    have t1 := hN2 j ((le_max_right _ _).trans hj) (fun x => (G m x + D * D) / (2 * (D * D)))
      (((hGm m).add_const _).div_const _)
      (fun x => div_nonneg (by linarith [(abs_le.1 (hGD m x)).1]) (by positivity))
      (fun x => by
        rw [div_le_one (by positivity)]
        linarith [(abs_le.1 (hGD m x)).2])
    have hi : ∀ μ : Measure S, IsProbabilityMeasure μ → ∫ x, (G m x + D * D) / (2 * (D * D)) ∂μ
        = (∫ x, G m x ∂μ) / (2 * (D * D)) + 1 / 2 := by
      intro μ hμ
      have hintG : Integrable (G m) μ :=
        Integrable.of_bound (hGm m).aestronglyMeasurable (D * D) (Eventually.of_forall fun x => hGD m x)
      rw [integral_div, integral_add hintG (integrable_const _)]
      simp only [integral_const, probReal_univ, smul_eq_mul, one_mul]
      field_simp
    rw [hi _ hp, hi π inferInstance] at t1
    have t2 : |∫ x, G m x ∂lawAt η g j x₀ - ∫ x, G m x ∂π| ≤ ε / 4 := by
      have e : (∫ x, G m x ∂lawAt η g j x₀) / (2 * (D * D)) + 1 / 2 - ((∫ x, G m x ∂π) / (2 * (D * D)) + 1 / 2)
          = (∫ x, G m x ∂lawAt η g j x₀ - ∫ x, G m x ∂π) / (2 * (D * D)) := by ring
      rw [e, abs_div, abs_of_pos (show 0 < 2 * (D * D) by positivity), div_le_iff₀ (by positivity)] at t1
      refine t1.trans (le_of_eq ?_)
      field_simp
      ring
    have t3 : |∫ x, G m x ∂π| < ε / 4 := by
      have := hN1 m ((le_max_left _ _).trans hm)
      rwa [Real.dist_eq, sub_zero] at this
    have := abs_add_le (∫ x, G m x ∂lawAt η g j x₀ - ∫ x, G m x ∂π) (∫ x, G m x ∂π)
    rw [sub_add_cancel] at this
    linarith
  have hoff : ∀ j k, N ≤ j → N ≤ k → (j + N ≤ k ∨ k + N ≤ j) → |a j k| ≤ ε / 2 := by
    intro j k hj hk h
    rcases h with h | h
    · have := hbig j (k - j) hj (by omega)
      rwa [show j + (k - j) = k by omega] at this
    · rw [hsymm]
      have := hbig k (j - k) hk (by omega)
      rwa [show k + (j - k) = j by omega] at this
  have hsum := double_sum (mul_nonneg hDpos.le hDpos.le) (show 0 ≤ ε / 2 by linarith) ha1 hoff
  obtain ⟨n1, hn1⟩ := exists_nat_gt (4 * N * (D * D) / (ε / 4))
  refine ⟨n1 + 1, fun n hn => ?_⟩
  have hnpos : (0 : ℝ) < n := by exact_mod_cast (show 0 < n by omega)
  have hn1' : 4 * N * (D * D) ≤ n * (ε / 4) := by
    have : (n1 : ℝ) ≤ n := by exact_mod_cast (show n1 ≤ n by omega)
    rw [div_lt_iff₀ (by linarith)] at hn1
    nlinarith
  have hexp : ∫ ξ, ((∑ k ∈ Finset.range n, f (path g k x₀ ξ)) / n - c) ^ 2 ∂streamLaw η
      = (∑ j ∈ Finset.range n, ∑ k ∈ Finset.range n, a j k) / (n * n) := by
    have e1 : ∀ ξ, ((∑ k ∈ Finset.range n, f (path g k x₀ ξ)) / n - c) ^ 2
        = (∑ j ∈ Finset.range n, ∑ k ∈ Finset.range n, F (path g j x₀ ξ) * F (path g k x₀ ξ)) / (n * n) := by
      intro ξ
      have e2 : (∑ k ∈ Finset.range n, f (path g k x₀ ξ)) / n - c
          = (∑ k ∈ Finset.range n, F (path g k x₀ ξ)) / n := by
        simp only [hFdef, Finset.sum_sub_distrib, Finset.sum_const, Finset.card_range, nsmul_eq_mul]
        field_simp
      rw [e2, div_pow, sq, sq, Finset.sum_mul_sum]
    simp only [e1]
    rw [integral_div]
    congr 1
    have hint : ∀ j k, Integrable (fun ξ => F (path g j x₀ ξ) * F (path g k x₀ ξ)) (streamLaw η) := by
      intro j k
      refine Integrable.of_bound ((hF.comp (measurable_path_right hg j x₀)).mul
        (hF.comp (measurable_path_right hg k x₀))).aestronglyMeasurable (D * D) (Eventually.of_forall fun ξ => ?_)
      rw [norm_mul]
      exact mul_le_mul (hD _) (hD _) (norm_nonneg _) hDpos.le
    rw [integral_finsetSum _ fun j _ => integrable_finsetSum _ fun k _ => hint j k]
    refine Finset.sum_congr rfl fun j _ => ?_
    rw [integral_finsetSum _ fun k _ => hint j k]
  have hnn : 0 ≤ ∫ ξ, ((∑ k ∈ Finset.range n, f (path g k x₀ ξ)) / n - c) ^ 2 ∂streamLaw η :=
    integral_nonneg fun ξ => sq_nonneg _
  rw [Real.dist_eq, sub_zero, abs_of_nonneg hnn, hexp, div_lt_iff₀ (by positivity)]
  have h3 := hsum n
  have h4 := mul_le_mul_of_nonneg_left hn1' hnpos.le
  have h5 : 0 < n * (n * (ε / 4)) := by positivity
  calc ∑ j ∈ Finset.range n, ∑ k ∈ Finset.range n, a j k
      ≤ n * (n * (ε / 2)) + n * (4 * N * (D * D)) := h3.trans (le_of_eq (by ring))
    _ ≤ n * (n * (ε / 2)) + n * (n * (ε / 4)) := by linarith
    _ < n * (n * (ε / 2)) + n * (n * (ε / 4)) + n * (n * (ε / 4)) := by linarith
    _ = ε * (n * n) := by ring

end Verif.Ergodic
