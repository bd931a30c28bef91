import Verif.Lemmas.TrajectoryBack
import Mathlib.MeasureTheory.Integral.Bochner.Basic
import Mathlib.MeasureTheory.Function.L1Space.Integrable

/-!
# Mean squared errors of averages over backward paths
-/

namespace Verif.Trajectory

open Verif Verif.Spec Verif.Unbiased XF MeasureTheory ProbabilityTheory
open scoped ENNReal

/-! ## Moments -/

section moments

variable {α : Type} [MeasurableSpace α]

theorem integrable_toReal (ν : Measure α) [IsFiniteMeasure ν] {z : α → ℝ≥0∞} (hz : Measurable z) (h1 : ∀ a, z a ≤ 1) :
    Integrable (fun a => (z a).toReal) ν := by
  refine Integrable.of_bound (C := 1) hz.ennreal_toReal.aestronglyMeasurable (ae_of_all _ fun a => ?_)
  rw [Real.norm_eq_abs, abs_of_nonneg ENNReal.toReal_nonneg]
  exact ENNReal.toReal_le_of_le_ofReal zero_le_one (by simpa using h1 a)

theorem integral_of_lintegral (ν : Measure α) {z : α → ℝ≥0∞} (hz : Measurable z) (h1 : ∀ a, z a ≤ 1) :
    ∫ a, (z a).toReal ∂ν = (∫⁻ a, z a ∂ν).toReal :=
  integral_toReal hz.aemeasurable (ae_of_all _ fun a => (h1 a).trans_lt ENNReal.one_lt_top)

theorem lintegral_sq (ν : Measure α) [IsProbabilityMeasure ν] {z : α → ℝ≥0∞} (hz : Measurable z) (h1 : ∀ a, z a ≤ 1) (S : ℝ) :
    ∫⁻ a, ENNReal.ofReal (((z a).toReal - S) ^ 2) ∂ν
      = ENNReal.ofReal ((∫⁻ a, z a * z a ∂ν).toReal - 2 * S * (∫⁻ a, z a ∂ν).toReal + S ^ 2) := by
  have hzz : Measurable fun a => z a * z a := hz.mul hz
  have hzz1 : ∀ a, z a * z a ≤ 1 := fun a => mul_le_one' (h1 a) (h1 a)
  have i1 := integrable_toReal ν hz h1
  have i2 := integrable_toReal ν hzz hzz1
  have e : ∀ a, ((z a).toReal - S) ^ 2 = (z a * z a).toReal - 2 * S * (z a).toReal + S ^ 2 := by
    intro a
    rw [ENNReal.toReal_mul]
    ring
  have i3 : Integrable (fun a => (z a * z a).toReal - 2 * S * (z a).toReal) ν := i2.sub (i1.const_mul _)
  have i4 : Integrable (fun a => (z a * z a).toReal - 2 * S * (z a).toReal + S ^ 2) ν := i3.add (integrable_const _)
  rw [← ofReal_integral_eq_lintegral_ofReal (by simpa only [e] using i4) (ae_of_all _ fun a => sq_nonneg _)]
  congr 1
  simp only [e]
  rw [integral_add i3 (integrable_const _), integral_sub i2 (i1.const_mul _), integral_const_mul, integral_of_lintegral ν hz h1,
    integral_of_lintegral ν hzz hzz1]
  simp

/-- The average of uncorrelated terms with the same mean. -/
theorem average_error {N : ℕ} (hN : 0 < N) (ν : Measure α) [IsProbabilityMeasure ν] {f : Fin N → α → ℝ≥0∞}
    (hf : ∀ i, Measurable (f i)) (hf1 : ∀ i a, f i a ≤ 1) {m : ℝ≥0∞} (h1 : ∀ i, ∫⁻ a, f i a ∂ν = m)
    (h2 : ∀ i j, i ≠ j → ∫⁻ a, f i a * f j a ∂ν = m * m) (S : ℝ) :
    ∫⁻ a, ENNReal.ofReal (((∑ i, (f i a).toReal) / N - S) ^ 2) ∂ν
      ≤ ENNReal.ofReal ((m.toReal - S) ^ 2) + ENNReal.ofReal (1 / N) := by
  have hN' : (0 : ℝ) < N := by exact_mod_cast hN
  have hN0 : (N : ℝ≥0∞) ≠ 0 := by simpa using hN.ne'
  let z : α → ℝ≥0∞ := fun a => ∑ i, (N : ℝ≥0∞)⁻¹ * f i a
  have hz : Measurable z := Finset.measurable_sum _ fun i _ => (hf i).const_mul _
  have hz1 : ∀ a, z a ≤ 1 := by
    intro a
    calc z a ≤ ∑ _i : Fin N, (N : ℝ≥0∞)⁻¹ * 1 := Finset.sum_le_sum fun i _ => by gcongr; exact hf1 i a
      _ = 1 := by simp [ENNReal.mul_inv_cancel hN0]
  have e : ∀ a, (∑ i, (f i a).toReal) / N = (z a).toReal := by
    intro a
    show _ = (∑ i, (N : ℝ≥0∞)⁻¹ * f i a).toReal
    rw [← Finset.mul_sum, ENNReal.toReal_mul, ENNReal.toReal_sum fun i _ => ((hf1 i a).trans_lt ENNReal.one_lt_top).ne,
      ENNReal.toReal_inv, ENNReal.toReal_natCast]
    ring
  have hm1 : m ≤ 1 := by
    rw [← h1 ⟨0, hN⟩]
    calc ∫⁻ a, f ⟨0, hN⟩ a ∂ν ≤ ∫⁻ _, 1 ∂ν := lintegral_mono fun a => hf1 _ a
      _ = 1 := by simp
  have hmt : m ≠ ∞ := (hm1.trans_lt ENNReal.one_lt_top).ne
  have em : ∑ _i : Fin N, (N : ℝ≥0∞)⁻¹ * m = m := by
    rw [Finset.sum_const, Finset.card_univ, Fintype.card_fin, nsmul_eq_mul, ← mul_assoc,
      ENNReal.mul_inv_cancel hN0 (ENNReal.natCast_ne_top N), one_mul]
  have ez : ∫⁻ a, z a ∂ν = m := by
    show ∫⁻ a, ∑ i, (N : ℝ≥0∞)⁻¹ * f i a ∂ν = m
    rw [lintegral_finsetSum _ fun i _ => (hf i).const_mul _]
    simp only [fun i => lintegral_const_mul (μ := ν) (N : ℝ≥0∞)⁻¹ (hf i), h1]
    exact em
  have hs := second_moment ν f hf (fun _ => (N : ℝ≥0∞)⁻¹) 1 (fun i => ae_of_all _ fun a => hf1 i a) fun i j hij => by
    rw [h2 i j hij, h1, h1]
  simp only [h1] at hs
  rw [em] at hs
  have ezz : ∫⁻ a, z a * z a ∂ν ≤ m ^ 2 + (N : ℝ≥0∞)⁻¹ := by
    have e3 : ∀ a, z a * z a = (∑ i, (N : ℝ≥0∞)⁻¹ * f i a) ^ 2 := fun a => (sq _).symm
    simp only [e3]
    refine hs.trans (le_of_eq ?_)
    rw [Finset.sum_const, Finset.card_univ, Fintype.card_fin, nsmul_eq_mul, sq (N : ℝ≥0∞)⁻¹, ← mul_assoc (N : ℝ≥0∞),
      ENNReal.mul_inv_cancel hN0 (ENNReal.natCast_ne_top N)]
    simp
  have ezr : (∫⁻ a, z a * z a ∂ν).toReal ≤ m.toReal ^ 2 + 1 / N := by
    have := ENNReal.toReal_mono (by
      exact ENNReal.add_ne_top.2 ⟨ENNReal.pow_ne_top hmt, ENNReal.inv_ne_top.2 hN0⟩) ezz
    rw [ENNReal.toReal_add (ENNReal.pow_ne_top hmt) (ENNReal.inv_ne_top.2 hN0), ENNReal.toReal_pow, ENNReal.toReal_inv,
      ENNReal.toReal_natCast] at this
    simpa using this
  simp only [e]
  rw [lintegral_sq ν hz hz1 S, ez, ← ENNReal.ofReal_add (sq_nonneg _) (by positivity)]
  refine ENNReal.ofReal_le_ofReal ?_
  nlinarith

/-- Averaging part of the randomness out does not increase the error. -/
theorem projection_error (ν : Measure α) [IsProbabilityMeasure ν] {A m : α → ℝ≥0∞} (hA : Measurable A) (hm : Measurable m)
    (hA1 : ∀ a, A a ≤ 1) (hm1 : ∀ a, m a ≤ 1) (h1 : ∫⁻ a, A a ∂ν = ∫⁻ a, m a ∂ν)
    (h2 : ∫⁻ a, m a * A a ∂ν = ∫⁻ a, m a * m a ∂ν) (S : ℝ) :
    ∫⁻ a, ENNReal.ofReal (((m a).toReal - S) ^ 2) ∂ν ≤ ∫⁻ a, ENNReal.ofReal (((A a).toReal - S) ^ 2) ∂ν := by
  rw [lintegral_sq ν hm hm1 S, lintegral_sq ν hA hA1 S, h1]
  refine ENNReal.ofReal_le_ofReal ?_
  have hmA : Measurable fun a => m a * A a := hm.mul hA
  have hmm : Measurable fun a => m a * m a := hm.mul hm
  have hAA : Measurable fun a => A a * A a := hA.mul hA
  have bmA : ∀ a, m a * A a ≤ 1 := fun a => mul_le_one' (hm1 a) (hA1 a)
  have bmm : ∀ a, m a * m a ≤ 1 := fun a => mul_le_one' (hm1 a) (hm1 a)
  have bAA : ∀ a, A a * A a ≤ 1 := fun a => mul_le_one' (hA1 a) (hA1 a)
  have key : 0 ≤ ∫ a, ((A a * A a).toReal - 2 * (m a * A a).toReal + (m a * m a).toReal) ∂ν := by
    refine integral_nonneg fun a => ?_
    show 0 ≤ (A a * A a).toReal - 2 * (m a * A a).toReal + (m a * m a).toReal
    rw [ENNReal.toReal_mul, ENNReal.toReal_mul, ENNReal.toReal_mul]
    nlinarith [sq_nonneg ((A a).toReal - (m a).toReal)]
  have i1 := integrable_toReal ν hAA bAA
  have i2 := integrable_toReal ν hmA bmA
  have i3 := integrable_toReal ν hmm bmm
  have i4 : Integrable (fun a => (A a * A a).toReal - 2 * (m a * A a).toReal) ν := i1.sub (i2.const_mul 2)
  rw [integral_add i4 i3, integral_sub i1 (i2.const_mul 2), integral_const_mul, integral_of_lintegral ν hAA bAA,
    integral_of_lintegral ν hmA bmA, integral_of_lintegral ν hmm bmm, h2] at key
  linarith

end moments

/-! ## Bounds -/

section bounds

variable {N : ℕ} {X : Type}

theorem back_le (f : ℕ → X → X → ℝ≥0∞) (W : ℕ → (Fin N → X) → Fin N → ℝ≥0∞) {Φ : (ℕ → X) → ℝ≥0∞} (h : ∀ p, Φ p ≤ 1) :
    ∀ (t : ℕ) (q : Traj N X) (i : Fin N) (p : ℕ → X), back f W Φ t q i p ≤ 1
  | 0, q, i, p => h _
  | t + 1, q, i, p => by
    rw [back]
    calc _ ≤ ∑ j, bw f W t (q t).2 ((q (t + 1)).2 i) j * 1 :=
          Finset.sum_le_sum fun j _ => by gcongr; exact back_le f W h t q j _
      _ ≤ 1 := by
        simp only [mul_one, bw, div_eq_mul_inv]
        rw [← Finset.sum_mul, ← div_eq_mul_inv]
        exact ENNReal.div_self_le_one

theorem gen_gt : ∀ (t : ℕ) (q : Traj N X) (i : Fin N) (p : ℕ → X) (m : ℕ), t < m → gen t q i p m = p m
  | 0, q, i, p, m, h => by
    rw [gen, Function.update_of_ne (by omega)]
  | t + 1, q, i, p, m, h => by
    rw [gen, gen_gt t _ _ _ m (by omega), Function.update_of_ne (by omega)]

theorem gen_self : ∀ (t : ℕ) (q : Traj N X) (i : Fin N) (p : ℕ → X), gen t q i p t = (q t).2 i
  | 0, q, i, p => by rw [gen, Function.update_self]
  | t + 1, q, i, p => by rw [gen, gen_gt t _ _ _ _ (by omega), Function.update_self]

end bounds

/-! ## The recorded states -/

variable {N B d : ℕ} {V Y Ω : Type}

theorem extend_le : ∀ (l : List (PCorr N B d V)) (q : System N B d V) (t m : ℕ), m ≤ t → extend q t l m = q m
  | [], q, t, m, _ => rfl
  | c :: l, q, t, m, h => by
    rw [extend, extend_le l _ _ m (by omega), Function.update_of_ne (by omega)]

/-- What fixed-lag smoothing returns. -/
theorem flLoop_gen {logg : Fin B → Y → ℕ → (Fin d → V) → ℝ} {L : ℕ → Option Y} (q : System N B d V) :
    ∀ (n : ℕ) (latest : PCorr N B d V) (inds : Fin N → Fin B → Fin N) (l : List (PCorr N B d V))
      (p : Fin N → Fin B → ℕ → Fin d → V), StateAt logg L q latest n →
      List.Forall₂ (StateAt logg L q) l (List.range n).reverse →
      flLoop latest inds l = (List.range n).reverse.map fun m i b => gen n (column b q) (inds i b) (p i b) m
  | 0, latest, inds, l, p, _, h => by
    cases h
    rfl
  | n + 1, latest, inds, l, p, h0, h => by
    rw [List.range_succ, List.reverse_append, List.reverse_singleton, List.singleton_append] at h
    cases h with
    | @cons c _ l' _ hc hl =>
      rw [List.range_succ, List.reverse_append, List.reverse_singleton, List.singleton_append, List.map_cons, flLoop,
        flLoop_gen q n c _ l' (fun i b => Function.update (p i b) (n + 1) ((q (n + 1)).2 (inds i b) b)) hc hl]
      congr 1
      · funext i b
        rw [gen, gen_self, hc.1, h0.2.2]
        rfl
      · rw [h0.2.2]
        rfl

variable [MeasurableSpace Ω] [MeasurableSpace V]
    (logg : Fin B → Y → ℕ → (Fin d → V) → ℝ) (lo threshold : ℝ)
    (r : {b : ℕ} → (Fin N → Fin b → XF) → Bool → Ω → (Fin N → Fin b → Fin N) × Ω)
    (propagate : TS N B d V → Ω → (Fin N → Fin B → Fin d → V) × Ω) (pre : Y → TS N B d V → Fin N → Fin B → XF)
    (missing : Y → Bool)

theorem trace_states (hN : 0 < N) (b₀ : Fin B) (ht : (N : ℝ) < threshold) (L : ℕ → Option Y) :
    ∀ (os : List (Option Y)) (t : ℕ) (o : Option Y), (∀ j, j < os.length + 1 → L (t + j) = (o :: os).getD j none) →
    ∀ (q : System N B d V) v ll prev ω,
      List.Forall₂ (StateAt logg L (extend q t ((FilterKind.sisr.ops (bootSisr logg lo threshold r propagate pre missing)).traceO
          os ⟨⟨v, t⟩, fun i b => fin (weightsAt logg o t v i b), ll, prev⟩ ω).1))
        ((FilterKind.sisr.ops (bootSisr logg lo threshold r propagate pre missing)).traceO
          os ⟨⟨v, t⟩, fun i b => fin (weightsAt logg o t v i b), ll, prev⟩ ω).1
        (List.range' (t + 1) os.length) := by
  intro os
  induction os with
  | nil => intro t o _ q v ll prev ω; exact .nil
  | cons o' os ih =>
    intro t o hL q v ll prev ω
    have hL1 : L (t + 1) = o' := by simpa using hL 1 (by simp)
    obtain ⟨ll', h⟩ := step_state logg lo threshold r propagate pre missing hN b₀ ht o' v t (weightsAt logg o t v) ll prev ω
    dsimp only [FilterOps.traceO]
    rw [h]
    rw [List.length_cons, List.range'_succ]
    refine .cons ⟨?_, ?_, ?_⟩ (ih (t + 1) o' (fun j hj => ?_) _ _ ll' _ _)
    · rw [extend, extend_le _ _ _ _ le_rfl, Function.update_self]
    · rw [extend, extend_le _ _ _ _ le_rfl, Function.update_self, hL1]
      rfl
    · rw [extend, extend_le _ _ _ _ le_rfl, Function.update_self]
    · have := hL (j + 1) (by simpa using hj)
      rw [show t + 1 + j = t + (j + 1) by omega, this]
      simp

end Verif.Trajectory
