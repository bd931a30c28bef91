import Verif.Props.ConsistencyApf
import Verif.Props.Multinomial

/-!
# Properties C119 and C120: the variance of residual resampling, and consistency of the APF with it
-/

namespace Verif.Props

open Verif Verif.Spec Verif.Unbiased XF MeasureTheory ProbabilityTheory
open scoped ENNReal

variable {N B d : ℕ} {V Y Ω : Type} [MeasurableSpace V] [MeasurableSpace Ω]

/-- The variance of a function that has finitely many values. -/
theorem sum_variance {α : Type} [MeasurableSpace α] (ν : Measure α) [IsProbabilityMeasure ν] {f : Fin N → α → ℝ}
    (hf : ∀ i, Measurable (f i)) {C : ℝ} (hC : ∀ i a, |f i a| ≤ C)
    (hind : ∀ i i', i ≠ i' → ∫ a, f i a * f i' a ∂ν = (∫ a, f i a ∂ν) * ∫ a, f i' a ∂ν) :
    ∫ a, (∑ i, f i a - ∑ i, ∫ a, f i a ∂ν) ^ 2 ∂ν = ∑ i, ((∫ a, f i a ^ 2 ∂ν) - (∫ a, f i a ∂ν) ^ 2) := by
  have hi : ∀ i, Integrable (f i) ν := fun i =>
    Integrable.of_bound (hf i).aestronglyMeasurable C (ae_of_all _ fun a => by simpa using hC i a)
  have hij : ∀ i i', Integrable (fun a => f i a * f i' a) ν := fun i i' =>
    Integrable.of_bound ((hf i).mul (hf i')).aestronglyMeasurable (C * C) (ae_of_all _ fun a => by
      rw [Real.norm_eq_abs, abs_mul]
      exact mul_le_mul (hC i a) (hC i' a) (abs_nonneg _) ((abs_nonneg _).trans (hC i a)))
  set m : Fin N → ℝ := fun i => ∫ a, f i a ∂ν with hm
  have e1 : ∀ a, (∑ i, f i a - ∑ i, m i) ^ 2
      = ∑ i, ∑ i', (f i a * f i' a - m i * f i' a - m i' * f i a + m i * m i') := by
    intro a
    rw [← Finset.sum_sub_distrib, sq, Finset.sum_mul_sum]
    exact Finset.sum_congr rfl fun i _ => Finset.sum_congr rfl fun i' _ => by ring
  simp only [e1]
  have hint : ∀ i i', Integrable (fun a => f i a * f i' a - m i * f i' a - m i' * f i a + m i * m i') ν := fun i i' =>
    (((hij i i').sub ((hi i').const_mul _)).sub ((hi i).const_mul _)).add (integrable_const _)
  rw [integral_finsetSum _ fun i _ => integrable_finsetSum _ fun i' _ => hint i i']
  refine Finset.sum_congr rfl fun i _ => ?_
  rw [integral_finsetSum _ fun i' _ => hint i i']
  have e2 : ∀ i', ∫ a, (f i a * f i' a - m i * f i' a - m i' * f i a + m i * m i') ∂ν
      = (∫ a, f i a * f i' a ∂ν) - m i * m i' := by
    intro i'
    have i1 : Integrable (fun a => f i a * f i' a - m i * f i' a) ν := (hij i i').sub ((hi i').const_mul _)
    have i2 : Integrable (fun a => f i a * f i' a - m i * f i' a - m i' * f i a) ν := i1.sub ((hi i).const_mul _)
    rw [integral_add i2 (integrable_const _), integral_sub i1 ((hi i).const_mul _),
      integral_sub (hij i i') ((hi i').const_mul _), integral_const_mul, integral_const_mul, integral_const]
    simp only [probReal_univ, smul_eq_mul]
    show (∫ a, f i a * f i' a ∂ν) - m i * m i' - m i' * m i + 1 * (m i * m i') = _
    ring
  simp only [e2]
  rw [Finset.sum_eq_single i]
  · congr 1
    · exact integral_congr_ae (ae_of_all _ fun a => by simp [sq])
    · ring
  · intro i' _ hii
    rw [hind i i' hii.symm]
    exact sub_self _
  · simp

/-- Means over one ancestor. -/
theorem integral_index {b : ℕ} (ν : Measure (Fin N → Fin b → Fin N)) [IsProbabilityMeasure ν] (i : Fin N) (j : Fin b)
    (g : Fin N → ℝ) : ∫ a, g (a i j) ∂ν = ∑ k, g k * (ν {a | a i j = k}).toReal := by
  have hm : Measurable fun a : Fin N → Fin b → Fin N => a i j := measurable_of_finite _
  have := Measure.isProbabilityMeasure_map (μ := ν) hm.aemeasurable
  rw [← integral_map (f := g) hm.aemeasurable (measurable_of_finite _).aestronglyMeasurable,
    integral_fintype Integrable.of_finite]
  refine Finset.sum_congr rfl fun k _ => ?_
  rw [Measure.real, Measure.map_apply hm (measurableSet_singleton _), smul_eq_mul, mul_comm]
  rfl

/-- Means over two ancestors. -/
theorem integral_index2 {b : ℕ} (ν : Measure (Fin N → Fin b → Fin N)) [IsProbabilityMeasure ν] (i i' : Fin N) (j : Fin b)
    (g g' : Fin N → ℝ) : ∫ a, g (a i j) * g' (a i' j) ∂ν
      = ∑ k, ∑ k', g k * g' k' * (ν {a | a i j = k ∧ a i' j = k'}).toReal := by
  have hm : Measurable fun a : Fin N → Fin b → Fin N => (a i j, a i' j) := measurable_of_finite _
  have := Measure.isProbabilityMeasure_map (μ := ν) hm.aemeasurable
  rw [← integral_map (f := fun q : Fin N × Fin N => g q.1 * g' q.2) hm.aemeasurable
    (measurable_of_finite _).aestronglyMeasurable, integral_fintype Integrable.of_finite, Fintype.sum_prod_type]
  refine Finset.sum_congr rfl fun k _ => Finset.sum_congr rfl fun k' _ => ?_
  rw [Measure.real, Measure.map_apply hm (measurableSet_singleton _), smul_eq_mul, mul_comm]
  congr 3
  ext a
  simp

/-- The variance of sums over ancestors that are unbiased in sum and pairwise independent. -/
theorem resampled_variance {b : ℕ} (ν : Measure (Fin N → Fin b → Fin N)) [IsProbabilityMeasure ν] (j : Fin b)
    {p : Fin N → ℝ} (hp : ∀ k, 0 ≤ p k) (h : ∀ k, ∑ i, ν {a | a i j = k} = N * ENNReal.ofReal (p k))
    (hpair : ∀ i i', i ≠ i' → ∀ k k', ν {a | a i j = k ∧ a i' j = k'} = ν {a | a i j = k} * ν {a | a i' j = k'})
    (g : Fin N → ℝ) :
    ∫ a, (∑ i, g (a i j) - N * ∑ k, p k * g k) ^ 2 ∂ν
      = N * (∑ k, p k * g k ^ 2) - ∑ i, (∫ a, g (a i j) ∂ν) ^ 2 ∧
    ∑ i, ∫ a, g (a i j) ∂ν = N * ∑ k, p k * g k := by
  have hreal : ∀ k, ∑ i, (ν {a | a i j = k}).toReal = N * p k := by
    intro k
    rw [← ENNReal.toReal_sum fun i _ => measure_ne_top _ _, h, ENNReal.toReal_mul, ENNReal.toReal_ofReal (hp k),
      ENNReal.toReal_natCast]
  have hsum : ∀ g : Fin N → ℝ, ∑ i, ∫ a, g (a i j) ∂ν = N * ∑ k, p k * g k := by
    intro g
    simp only [integral_index]
    rw [Finset.sum_comm, Finset.mul_sum]
    refine Finset.sum_congr rfl fun k _ => ?_
    rw [← Finset.mul_sum, hreal]
    ring
  refine ⟨?_, hsum g⟩
  have hC : ∀ (i : Fin N) (a : Fin N → Fin b → Fin N), |g (a i j)| ≤ ∑ k, |g k| := fun i a =>
    Finset.single_le_sum (f := fun k => |g k|) (fun k _ => abs_nonneg _) (Finset.mem_univ _)
  have hv := sum_variance ν (f := fun i a => g (a i j)) (fun i => measurable_of_finite _) hC fun i i' hii => by
    rw [integral_index2 ν i i' j g g, integral_index, integral_index, Finset.sum_mul_sum]
    refine Finset.sum_congr rfl fun k _ => Finset.sum_congr rfl fun k' _ => ?_
    rw [hpair i i' hii, ENNReal.toReal_mul]
    ring
  rw [hsum g] at hv
  rw [hv, Finset.sum_sub_distrib]
  congr 1
  exact hsum fun k => g k ^ 2

/-- Means of a draw in terms of the generator. -/
theorem integral_of_draws {α : Type} [MeasurableSpace α] {P : Measure Ω} [IsProbabilityMeasure P] {f : Ω → α × Ω}
    {ν : Measure α} (h : Draws P f ν) {F : α → ℝ} (hF : Measurable F) : ∫ ω, F (f ω).1 ∂P = ∫ a, F a ∂ν := by
  have h3 : Measurable fun ω => (f ω).1 := measurable_fst.comp h.measurable
  have h1 : ν = P.map fun ω => (f ω).1 := by
    have h2 : P.map (fun ω => (f ω).1) = (P.map f).map Prod.fst :=
      (Measure.map_map measurable_fst h.measurable).symm
    have := h.prob
    rw [h2, h.law, Measure.map_fst_prod, measure_univ, one_smul]
  rw [h1, integral_map h3.aemeasurable hF.aestronglyMeasurable]

/-! ## C119 -/

/-- C119: given normalised weights of a single filter, sums of a function `g` over the ancestors have the same mean under
residual and under multinomial resampling, and the variance under residual resampling is at most that under multinomial
resampling. -/
theorem C119_variance (P : Measure Ω) [IsProbabilityMeasure P] (hN : 0 < N) (lo : ℝ) (mult : TorchMultinomial N Ω)
    (hmult : IndependentMultinomial P mult) (p : Fin N → ℝ) (hp : IsProb p) (g : Fin N → ℝ) :
    (∫ ω, ∑ i, g ((residualResampler lo mult (fun i (_ : Fin 1) => fin (p i)) true ω).1 i 0) ∂P = N * ∑ k, p k * g k) ∧
    (∫ ω, ∑ i, g ((multinomial2 lo mult (fun i (_ : Fin 1) => fin (p i)) true ω).1 i 0) ∂P = N * ∑ k, p k * g k) ∧
    ∫ ω, (∑ i, g ((residualResampler lo mult (fun i (_ : Fin 1) => fin (p i)) true ω).1 i 0) - N * ∑ k, p k * g k) ^ 2 ∂P
      ≤ ∫ ω, (∑ i, g ((multinomial2 lo mult (fun i (_ : Fin 1) => fin (p i)) true ω).1 i 0) - N * ∑ k, p k * g k) ^ 2 ∂P := by
  obtain ⟨ν, h1, h2, h3⟩ := residual_pairs lo hN hmult (p := fun i (_ : Fin 1) => p i) hp
  obtain ⟨κ, k1, k2, k3⟩ := (multinomial_independent lo hmult).draws 1 (fun i _ => p i) fun _ => hp
  have := h1.prob
  have := k1.prob
  have k4 : ∀ k, ∑ i, κ {a | a i 0 = k} = N * ENNReal.ofReal (p k) := fun k => by simp [k2]
  obtain ⟨v1, m1⟩ := resampled_variance ν 0 hp.1 (h2 0) (h3 0) g
  obtain ⟨v2, m2⟩ := resampled_variance κ 0 hp.1 k4 (fun i i' hii k k' => by rw [k3 i i' 0 hii, k2, k2]) g
  have hmean : ∀ (ν : Measure (Fin N → Fin 1 → Fin N)) [IsProbabilityMeasure ν],
      ∫ a, ∑ i, g (a i 0) ∂ν = ∑ i, ∫ a, g (a i 0) ∂ν := fun ν _ =>
    integral_finsetSum _ fun i _ => Integrable.of_finite
  have e1 := integral_of_draws h1 (F := fun a => ∑ i, g (a i 0)) (measurable_of_finite _)
  have e2 := integral_of_draws k1 (F := fun a => ∑ i, g (a i 0)) (measurable_of_finite _)
  have e3 := integral_of_draws h1 (F := fun a => (∑ i, g (a i 0) - N * ∑ k, p k * g k) ^ 2) (measurable_of_finite _)
  have e4 := integral_of_draws k1 (F := fun a => (∑ i, g (a i 0) - N * ∑ k, p k * g k) ^ 2) (measurable_of_finite _)
  refine ⟨e1.trans ((hmean ν).trans m1), e2.trans ((hmean κ).trans m2), ?_⟩
  rw [e3, e4, v1, v2]
  refine sub_le_sub_left ?_ _
  have hk : ∀ i, ∫ a, g (a i 0) ∂κ = ∑ k, p k * g k := by
    intro i
    rw [integral_index]
    refine Finset.sum_congr rfl fun k _ => ?_
    rw [k2, ENNReal.toReal_ofReal (hp.1 k), mul_comm]
  simp only [hk]
  rw [Finset.sum_const, Finset.card_univ, Fintype.card_fin, nsmul_eq_mul]
  have hN' : (0 : ℝ) < N := by exact_mod_cast hN
  have hcs := sq_sum_le_card_mul_sum_sq (s := Finset.univ) (f := fun i : Fin N => ∫ a, g (a i 0) ∂ν)
  rw [m1, Finset.card_univ, Fintype.card_fin, mul_pow, sq (N : ℝ), mul_assoc] at hcs
  exact le_of_mul_le_mul_left hcs hN'

/-- C119: if all expected counts are integers, residual resampling leaves nothing to chance. -/
theorem C119_exact (lo : ℝ) (mult : TorchMultinomial N Ω) (p : Fin N → ℝ) (hp : IsProb p) (n : Fin N → ℕ)
    (hn : ∀ k, N * p k = n k) (g : Fin N → ℝ) (ω : Ω) :
    ∑ i, g ((residualResampler lo mult (fun i (_ : Fin 1) => fin (p i)) true ω).1 i 0) = N * ∑ k, p k * g k := by
  have hf : floors p = fun k => (n k : ℤ) := funext fun k => by
    unfold floors
    rw [hn, Int.floor_natCast]
  have hfull : ∑ k, floors p k = N := by
    have : ((∑ k, floors p k : ℤ) : ℝ) = N := by
      rw [hf]
      push_cast
      simp only [← hn]
      rw [← Finset.mul_sum, hp.2, mul_one]
    exact_mod_cast this
  have hlen : (fixedPart (floors p)).length = N := by
    have := (length_fixedPart (floors_nonneg hp)).trans hfull
    exact_mod_cast this
  have hsum : ∀ l : List (Fin N), l.length = N → ∑ i : Fin N, g (l.getD i i) = (l.map g).sum := by
    intro l hl
    have e : l = List.ofFn fun i : Fin N => l.getD i i := by
      refine List.ext_getElem (by simp [hl]) fun i h1 h2 => ?_
      simp [List.getElem?_eq_getElem h1]
    conv_rhs => rw [e]
    rw [List.map_ofFn, List.sum_ofFn]
    rfl
  rw [residual_true, if_pos hfull]
  refine (hsum _ hlen).trans ?_
  have h2 : ((fixedPart (floors p)).map g).sum = ∑ k, ((floors p k).toNat : ℝ) * g k := by
    unfold fixedPart
    have hL : ∀ L : List (Fin N), ((L.flatMap fun k => List.replicate (floors p k).toNat k).map g).sum
        = (L.map fun k => ((floors p k).toNat : ℝ) * g k).sum := by
      intro L
      induction L with
      | nil => rfl
      | cons k L ih => simp [List.flatMap_cons, ih]
    rw [hL, Fin.sum_univ_def]
  rw [h2, Finset.mul_sum]
  refine Finset.sum_congr rfl fun k _ => ?_
  rw [← mul_assoc, hn, hf, Int.toNat_natCast]

/-! ## C120 -/

/-- C120: with residual resampling of a single filter, the bootstrap proposal and bounded pre-weights, the mean squared error
of the likelihood estimated by the APF is at most `(2 T + 1) C² / N`, where `T` is the number of time steps and `C` the product
of the bounds `exp (c y - c₀ y + c₂ y)`. -/
theorem C120_likelihood_error (P : Measure Ω) [IsProbabilityMeasure P] (hN : 0 < N) (lo threshold : ℝ)
    (mult : TorchMultinomial N Ω) (hmult : IndependentMultinomial P mult)
    (K : ℕ → Kernel (Fin d → V) (Fin d → V)) (μ : Measure (Fin d → V))
    (logg : Y → ℕ → (Fin d → V) → ℝ) (hlogg : ∀ y t, Measurable (logg y t))
    (logp : Y → ℕ → (Fin d → V) → ℝ) (hlogp : ∀ y t, Measurable (logp y t)) (c c₀ c₂ : Y → ℝ)
    (hc : ∀ y t x, logg y t x ≤ c y) (hc0 : ∀ y t x, c₀ y ≤ logp y t x) (hc2 : ∀ y t x, logp y t x ≤ c₂ y)
    (init : Ω → (Fin N → Fin 1 → Fin d → V) × Ω) (hinit : IndependentInitial P init fun _ => μ)
    (propagate : TS N 1 d V → Ω → (Fin N → Fin 1 → Fin d → V) × Ω) (hK : IndependentTransitions P propagate fun _ => K)
    (missing : Y → Bool)
    (opt : FilterOptions) (hk : 0 < opt.observeEveryStep) (fuel : ℕ) (hfuel : opt.observeEveryStep - 1 ≤ fuel)
    (ys : List Y) :
    ∃ run : Ω → PCorr N 1 d V × List (PCorr N 1 d V) × Ω,
      (∀ ω, (FilterKind.apf.ops (bootstrapModel lo threshold (residualResampler lo mult) propagate
          (fun y x i b => fin (logg y x.time (x.value i b))) (fun y x i b => fin (logp y x.time (x.value i b)))
          missing)).filterAll opt fuel ys (initializeFilter lo (init ω).1) (init ω).2 = some (run ω)) ∧
      (∀ ω, ∃ r, ((run ω).2.1.map fun c => c.ll 0).sum = fin r) ∧
      ∫⁻ ω, ENNReal.ofReal ((expOf ((run ω).2.1.map fun c => c.ll 0).sum
          - (∫⁻ x, lik K (fun y t x => ENNReal.ofReal (Real.exp (logg y t x)))
            (slots opt.observeEveryStep missing ys) 0 x ∂μ).toReal) ^ 2) ∂P
        ≤ ENNReal.ofReal ((2 * (slots opt.observeEveryStep missing ys).length + 1) *
            boundOf (fun y => (c y - c₀ y) + c₂ y) (slots opt.observeEveryStep missing ys) ^ 2 / N) := by
  have hS : IndependentProposal P (bootstrapSample propagate fun y x i b => fin (logg y x.time (x.value i b)))
      (fun _ => K) (fun _ => logg) fun y => (c y - c₀ y) + c₂ y :=
    bootstrap_independent hK (fun _ => logg) (fun _ => hlogg) _ fun _ y t x => by
      have h1 := hc y t x
      have h2 := hc0 y t x
      have h3 := hc2 y t x
      linarith
  have h := C111_likelihood_error P hN (bootstrapModel lo threshold (residualOr lo mult) propagate
    (fun y x i b => fin (logg y x.time (x.value i b))) (fun y x i b => fin (logp y x.time (x.value i b))) missing) rfl
    (residualOr_steady lo hN hmult) (fun _ => K) (fun _ => μ) (fun _ => logg) (fun _ => hlogg) init hinit hK
    (fun y => c y - c₀ y) c₂ hS (fun _ => logp) (fun _ => hlogp)
    (fun _ _ _ _ => rfl) (fun y p ω i b => ⟨_, rfl, by
      have h1 := hc y (p.prevX.time + 1) ((propagate p.prevX ω).1 i b)
      have h2 := hc0 y p.prevX.time (p.prevX.value i b)
      dsimp only
      linarith⟩) (fun _ => hc2) opt hk fuel hfuel ys 0
  exact h

/-- C120: averages of a function `φ` with values between 0 and 1 over the particles of the last state have a mean squared error
of at most `4 (2 T + 1) (C / L)² / N` as estimates of the average of `φ` over the last state given the observations, where `L`
is the likelihood. -/
theorem C120_filter_error (P : Measure Ω) [IsProbabilityMeasure P] (hN : 0 < N) (lo threshold : ℝ)
    (mult : TorchMultinomial N Ω) (hmult : IndependentMultinomial P mult)
    (K : ℕ → Kernel (Fin d → V) (Fin d → V)) (μ : Measure (Fin d → V))
    (logg : Y → ℕ → (Fin d → V) → ℝ) (hlogg : ∀ y t, Measurable (logg y t))
    (logp : Y → ℕ → (Fin d → V) → ℝ) (hlogp : ∀ y t, Measurable (logp y t)) (c c₀ c₂ : Y → ℝ)
    (hc : ∀ y t x, logg y t x ≤ c y) (hc0 : ∀ y t x, c₀ y ≤ logp y t x) (hc2 : ∀ y t x, logp y t x ≤ c₂ y)
    (init : Ω → (Fin N → Fin 1 → Fin d → V) × Ω) (hinit : IndependentInitial P init fun _ => μ)
    (propagate : TS N 1 d V → Ω → (Fin N → Fin 1 → Fin d → V) × Ω) (hK : IndependentTransitions P propagate fun _ => K)
    (missing : Y → Bool)
    (opt : FilterOptions) (hk : 0 < opt.observeEveryStep) (fuel : ℕ) (hfuel : opt.observeEveryStep - 1 ≤ fuel)
    (ys : List Y) (φ : (Fin d → V) → ℝ) (hφ : Measurable φ) (hφ0 : ∀ x, 0 ≤ φ x) (hφ1 : ∀ x, φ x ≤ 1) :
    ∃ (run : Ω → PCorr N 1 d V × List (PCorr N 1 d V) × Ω) (avg : Ω → ℝ),
      (∀ ω, (FilterKind.apf.ops (bootstrapModel lo threshold (residualResampler lo mult) propagate
          (fun y x i b => fin (logg y x.time (x.value i b))) (fun y x i b => fin (logp y x.time (x.value i b)))
          missing)).filterAll opt fuel ys (initializeFilter lo (init ω).1) (init ω).2 = some (run ω)) ∧
      (∀ ω, ∑ i, (normalize2 lo (run ω).1.w).2 i 0 * fin (φ ((run ω).1.x.value i 0)) = fin (avg ω)) ∧
      ∫⁻ ω, ENNReal.ofReal ((avg ω - (filterAvg K (fun y t x => ENNReal.ofReal (Real.exp (logg y t x))) μ
            (fun x => ENNReal.ofReal (φ x)) (slots opt.observeEveryStep missing ys)).toReal) ^ 2) ∂P
        ≤ ENNReal.ofReal (4 * ((2 * (slots opt.observeEveryStep missing ys).length + 1) *
            boundOf (fun y => (c y - c₀ y) + c₂ y) (slots opt.observeEveryStep missing ys) ^ 2 / N /
              (∫⁻ x, lik K (fun y t x => ENNReal.ofReal (Real.exp (logg y t x)))
                (slots opt.observeEveryStep missing ys) 0 x ∂μ).toReal ^ 2)) := by
  have hS : IndependentProposal P (bootstrapSample propagate fun y x i b => fin (logg y x.time (x.value i b)))
      (fun _ => K) (fun _ => logg) fun y => (c y - c₀ y) + c₂ y :=
    bootstrap_independent hK (fun _ => logg) (fun _ => hlogg) _ fun _ y t x => by
      have h1 := hc y t x
      have h2 := hc0 y t x
      have h3 := hc2 y t x
      linarith
  have h := C112_filter_error P hN (bootstrapModel lo threshold (residualOr lo mult) propagate
    (fun y x i b => fin (logg y x.time (x.value i b))) (fun y x i b => fin (logp y x.time (x.value i b))) missing) rfl
    (residualOr_steady lo hN hmult) (fun _ => K) (fun _ => μ) (fun _ => logg) (fun _ => hlogg) init hinit hK
    (fun y => c y - c₀ y) c₂ hS (fun _ => logp) (fun _ => hlogp)
    (fun _ _ _ _ => rfl) (fun y p ω i b => ⟨_, rfl, by
      have h1 := hc y (p.prevX.time + 1) ((propagate p.prevX ω).1 i b)
      have h2 := hc0 y p.prevX.time (p.prevX.value i b)
      dsimp only
      linarith⟩) (fun _ => hc2) opt hk fuel hfuel ys 0 φ hφ hφ0 hφ1
  exact h

/-- C120, the limits: as the number of particles grows, the mean squared errors tend to zero. -/
theorem C120_consistent (P : Measure Ω) [IsProbabilityMeasure P] (lo : ℝ) (threshold : ℕ → ℝ)
    (mult : ∀ N, TorchMultinomial (N + 1) Ω) (hmult : ∀ N, IndependentMultinomial P (mult N))
    (K : ℕ → Kernel (Fin d → V) (Fin d → V)) (μ : Measure (Fin d → V))
    (logg : Y → ℕ → (Fin d → V) → ℝ) (hlogg : ∀ y t, Measurable (logg y t))
    (logp : Y → ℕ → (Fin d → V) → ℝ) (hlogp : ∀ y t, Measurable (logp y t)) (c c₀ c₂ : Y → ℝ)
    (hc : ∀ y t x, logg y t x ≤ c y) (hc0 : ∀ y t x, c₀ y ≤ logp y t x) (hc2 : ∀ y t x, logp y t x ≤ c₂ y)
    (init : ∀ N, Ω → (Fin (N + 1) → Fin 1 → Fin d → V) × Ω) (hinit : ∀ N, IndependentInitial P (init N) fun _ => μ)
    (propagate : ∀ N, TS (N + 1) 1 d V → Ω → (Fin (N + 1) → Fin 1 → Fin d → V) × Ω)
    (hK : ∀ N, IndependentTransitions P (propagate N) fun _ => K) (missing : Y → Bool)
    (opt : FilterOptions) (hk : 0 < opt.observeEveryStep) (fuel : ℕ) (hfuel : opt.observeEveryStep - 1 ≤ fuel)
    (ys : List Y) (φ : (Fin d → V) → ℝ) (hφ : Measurable φ) (hφ0 : ∀ x, 0 ≤ φ x) (hφ1 : ∀ x, φ x ≤ 1)
    (run : ∀ N, Ω → PCorr (N + 1) 1 d V × List (PCorr (N + 1) 1 d V) × Ω)
    (hrun : ∀ N ω, (FilterKind.apf.ops (bootstrapModel lo (threshold N) (residualResampler lo (mult N)) (propagate N)
          (fun y x i b => fin (logg y x.time (x.value i b))) (fun y x i b => fin (logp y x.time (x.value i b)))
          missing)).filterAll opt fuel ys (initializeFilter lo (init N ω).1) (init N ω).2 = some (run N ω))
    (avg : ℕ → Ω → ℝ)
    (havg : ∀ N ω, ∑ i, (normalize2 lo (run N ω).1.w).2 i 0 * fin (φ ((run N ω).1.x.value i 0)) = fin (avg N ω)) :
    Filter.Tendsto (fun N => ∫⁻ ω, ENNReal.ofReal ((expOf ((run N ω).2.1.map fun c => c.ll 0).sum
          - (∫⁻ x, lik K (fun y t x => ENNReal.ofReal (Real.exp (logg y t x)))
            (slots opt.observeEveryStep missing ys) 0 x ∂μ).toReal) ^ 2) ∂P) Filter.atTop (nhds 0) ∧
    Filter.Tendsto (fun N => ∫⁻ ω, ENNReal.ofReal ((avg N ω - (filterAvg K
            (fun y t x => ENNReal.ofReal (Real.exp (logg y t x))) μ
            (fun x => ENNReal.ofReal (φ x)) (slots opt.observeEveryStep missing ys)).toReal) ^ 2) ∂P)
      Filter.atTop (nhds 0) := by
  have hlim : Filter.Tendsto (fun N : ℕ => ((N + 1 : ℕ) : ℝ)) Filter.atTop Filter.atTop :=
    tendsto_natCast_atTop_atTop.comp (Filter.tendsto_add_atTop_nat 1)
  have hlim2 := hlim.const_div_atTop ((2 * ((slots opt.observeEveryStep missing ys).length : ℝ) + 1) *
            boundOf (fun y => (c y - c₀ y) + c₂ y) (slots opt.observeEveryStep missing ys) ^ 2)
  constructor
  · refine tendsto_of_tendsto_of_tendsto_of_le_of_le (g := fun _ => 0)
      (h := fun N : ℕ => ENNReal.ofReal ((2 * (slots opt.observeEveryStep missing ys).length + 1) *
        boundOf (fun y => (c y - c₀ y) + c₂ y) (slots opt.observeEveryStep missing ys) ^ 2 / ((N + 1 : ℕ) : ℝ)))
      tendsto_const_nhds ?_ (fun _ => zero_le) fun N => ?_
    · rw [← ENNReal.ofReal_zero]
      exact (ENNReal.continuous_ofReal.tendsto 0).comp hlim2
    · obtain ⟨run', h1, -, h3⟩ := C120_likelihood_error P (Nat.succ_pos N) lo (threshold N) (mult N) (hmult N) K μ logg
        hlogg logp hlogp c c₀ c₂ hc hc0 hc2 (init N) (hinit N) (propagate N) (hK N) missing opt hk fuel hfuel ys
      have e : run' = run N := funext fun ω => Option.some.inj ((h1 ω).symm.trans (hrun N ω))
      rw [← e]
      exact h3
  · refine tendsto_of_tendsto_of_tendsto_of_le_of_le (g := fun _ => 0)
      (h := fun N : ℕ => ENNReal.ofReal (4 * ((2 * (slots opt.observeEveryStep missing ys).length + 1) *
            boundOf (fun y => (c y - c₀ y) + c₂ y) (slots opt.observeEveryStep missing ys) ^ 2 / ((N + 1 : ℕ) : ℝ) /
              (∫⁻ x, lik K (fun y t x => ENNReal.ofReal (Real.exp (logg y t x)))
                (slots opt.observeEveryStep missing ys) 0 x ∂μ).toReal ^ 2)))
      tendsto_const_nhds ?_ (fun _ => zero_le) fun N => ?_
    · rw [← ENNReal.ofReal_zero]
      refine (ENNReal.continuous_ofReal.tendsto 0).comp ?_
      have h2 := (hlim2.div_const ((∫⁻ x, lik K (fun y t x => ENNReal.ofReal (Real.exp (logg y t x)))
                  (slots opt.observeEveryStep missing ys) 0 x ∂μ).toReal ^ 2)).const_mul 4
      rw [zero_div, mul_zero] at h2
      exact h2
    · obtain ⟨run', avg', h1, h2, h3⟩ := C120_filter_error P (Nat.succ_pos N) lo (threshold N) (mult N) (hmult N) K μ logg
        hlogg logp hlogp c c₀ c₂ hc hc0 hc2 (init N) (hinit N) (propagate N) (hK N) missing opt hk fuel hfuel ys φ hφ hφ0 hφ1
      have e : run' = run N := funext fun ω => Option.some.inj ((h1 ω).symm.trans (hrun N ω))
      subst e
      have e2 : avg' = avg N := funext fun ω => XF.fin.inj ((h2 ω).symm.trans (havg N ω))
      rw [← e2]
      exact h3

/-! ## Concrete cases -/

/-- A case for C119 and C120: `torch.multinomial` by inversion of independent uniforms, a single filter whose particles
move with noise of their own. Observation densities and pre-weights are those of the case for C111. -/
example (n : ℕ) : IndependentMultinomial (streamLaw kernelEntryLaw)
      (multinomialBy (Nat.succ_pos n) fun ω => ((next ω).1.2.1, (next ω).2)) ∧
    IndependentInitial (N := n + 1) (streamLaw kernelEntryLaw)
      (fun ω => (fun i b => (fun z _ => z 0 : (Fin 2 → ℝ) → Fin 1 → ℝ) ((next ω).1.2.2.1 ((i : ℕ), (b : ℕ))), (next ω).2))
      (fun _ : Fin 1 => (Measure.pi fun _ : Fin 2 => gaussianReal 0 1).map fun z _ => z 0) ∧
    IndependentTransitions (streamLaw kernelEntryLaw)
      (noisePropagate (N := n + 1) (fun ω => ((next ω).1.2.2.1, (next ω).2)) fun (_ : Fin 1) => kernelMove 1)
      (fun (_ : Fin 1) t => noiseKernel (Measure.pi fun _ : Fin 2 => gaussianReal 0 1) (kernelMove 1 t)) :=
  ⟨multinomialBy_independent _ kernel_rand2,
    noise_initial_independent _ kernel_noise (f := fun _ z _ => z 0) fun _ => by fun_prop,
    noise_independent _ kernel_noise fun _ => measurable_kernelMove 1⟩

/-- The inequality of C119 is strict for two particles with weights 1/2 (`C119_exact`): with multinomial resampling both
ancestors are the first particle with probability 1/4. -/
example : IsProb (![1 / 2, 1 / 2] : Fin 2 → ℝ) ∧ (∀ k, ((2 : ℕ) : ℝ) * (![1 / 2, 1 / 2] : Fin 2 → ℝ) k = (1 : ℕ)) ∧
    ∃ ν, Draws (streamLaw kernelEntryLaw) (multinomial2 (-100) (multinomialBy (N := 2) Nat.two_pos
        fun ω => ((next ω).1.2.1, (next ω).2)) (fun i (_ : Fin 1) => fin ((![1 / 2, 1 / 2] : Fin 2 → ℝ) i)) true) ν ∧
      ν {a | a 0 0 = 0 ∧ a 1 0 = 0} = ENNReal.ofReal (1 / 4) := by
  have hp : IsProb (![1 / 2, 1 / 2] : Fin 2 → ℝ) := by
    refine ⟨fun i => ?_, ?_⟩
    · fin_cases i <;> norm_num
    · simp [Fin.sum_univ_two]
      norm_num
  refine ⟨hp, fun k => ?_, ?_⟩
  · fin_cases k <;> norm_num
  · obtain ⟨ν, h1, -, h3⟩ := (multinomial_independent (-100) (multinomialBy_independent (N := 2) Nat.two_pos
      kernel_rand2)).draws 1 (fun i _ => (![1 / 2, 1 / 2] : Fin 2 → ℝ) i) fun _ => hp
    refine ⟨ν, h1, ?_⟩
    rw [h3 0 1 0 (by decide)]
    rw [← ENNReal.ofReal_mul (hp.1 0)]
    congr 1
    norm_num

end Verif.Props
