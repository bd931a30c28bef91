import Verif.Model.Jitter
import Verif.Spec.Bandwidth
import Mathlib.Analysis.MeanInequalities
import Mathlib.Analysis.SpecialFunctions.Pow.Asymptotics

/-!
# C116: bandwidths of kernel density estimates
-/

open Filter
open scoped Topology

namespace Verif.Props

open Verif.Jitter Spec

theorem silverman_pow (n : ℕ) {ess : ℝ} (h : 0 < ess) :
    0 < silverman n ess ∧ silverman n ess ^ (n + 4) = 4 / (ess * (n + 2)) := by
  have hb : 0 < ess * (n + 2) / 4 := by positivity
  refine ⟨Real.rpow_pos_of_pos hb _, ?_⟩
  unfold silverman
  rw [← Real.rpow_natCast, ← Real.rpow_mul hb.le]
  push_cast
  rw [div_mul_cancel₀ _ (by positivity : (n : ℝ) + 4 ≠ 0), Real.rpow_neg_one, inv_div]

theorem scott_pow (n : ℕ) {ess : ℝ} (h : 0 < ess) :
    0 < scott n ess ∧ scott n ess ^ (n + 4) = (1059 / 1000) ^ (n + 4) / ess := by
  refine ⟨mul_pos (by norm_num) (Real.rpow_pos_of_pos h _), ?_⟩
  unfold scott
  rw [mul_pow, ← Real.rpow_natCast (ess ^ _), ← Real.rpow_mul h.le]
  push_cast
  rw [div_mul_cancel₀ _ (by positivity : (n : ℝ) + 4 ≠ 0), Real.rpow_neg_one, ← div_eq_mul_inv]

/-- **C116.** Silverman's factor minimises the asymptotic mean integrated squared error for the standard normal
distribution. -/
theorem C116_silverman_optimal (n : ℕ) {ess : ℝ} (hess : 0 < ess) (h : ℝ) (hh : 0 < h) :
    0 < silverman n ess ∧ amise n ess (silverman n ess) ≤ amise n ess h := by
  obtain ⟨hpos, hpow⟩ := silverman_pow n hess
  refine ⟨hpos, ?_⟩
  set s := silverman n ess with hs
  have hn : (0 : ℝ) ≤ n := Nat.cast_nonneg n
  have e : ∀ x : ℝ, 0 < x → amise n ess x = (n + 2) / 16 * (n * x ^ 4 + 4 * s ^ (n + 4) / x ^ n) := by
    intro x hx
    unfold amise
    rw [hpow]
    field_simp
    ring
  rw [e s hpos, e h hh]
  refine mul_le_mul_of_nonneg_left ?_ (by positivity)
  set t := h / s with ht
  have htp : 0 < t := div_pos hh hpos
  have hts : h = t * s := by rw [ht, div_mul_cancel₀ _ hpos.ne']
  have key : (n : ℝ) + 4 ≤ n * t ^ 4 + 4 / t ^ n := by
    have := Real.geom_mean_le_arith_mean2_weighted (w₁ := n / (n + 4)) (w₂ := 4 / (n + 4)) (p₁ := t ^ 4)
      (p₂ := (t ^ n)⁻¹) (by positivity) (by positivity) (by positivity) (by positivity)
      (by rw [← add_div, div_self (by positivity)])
    have e1 : (t ^ 4 : ℝ) ^ ((n : ℝ) / (n + 4)) * ((t ^ n)⁻¹) ^ (4 / ((n : ℝ) + 4)) = 1 := by
      rw [Real.inv_rpow (by positivity), ← Real.rpow_natCast t 4, ← Real.rpow_natCast t n, ← Real.rpow_mul htp.le,
        ← Real.rpow_mul htp.le]
      have : ((4 : ℕ) : ℝ) * (n / (n + 4)) = n * (4 / (n + 4)) := by
        push_cast
        ring
      rw [this]
      exact mul_inv_cancel₀ (Real.rpow_pos_of_pos htp _).ne'
    rw [e1] at this
    have h4 : (0 : ℝ) < n + 4 := by positivity
    have h5 := mul_le_mul_of_nonneg_left this h4.le
    have h6 : ((n : ℝ) + 4) * (n / (n + 4) * t ^ 4 + 4 / (n + 4) * (t ^ n)⁻¹) = n * t ^ 4 + 4 / t ^ n := by
      field_simp
    linarith
  have e2 : n * h ^ 4 + 4 * s ^ (n + 4) / h ^ n = s ^ 4 * (n * t ^ 4 + 4 / t ^ n) := by
    rw [hts, mul_pow, mul_pow]
    field_simp
    ring
  have e3 : n * s ^ 4 + 4 * s ^ (n + 4) / s ^ n = s ^ 4 * (n + 4) := by
    rw [pow_add]
    field_simp
  rw [e2, e3]
  exact mul_le_mul_of_nonneg_left key (by positivity)

/-- C116: the bandwidths vanish and the number of draws in a window grows without bound, which is what a consistent
estimate needs. -/
theorem C116_consistent (n : ℕ) :
    Tendsto (silverman n) atTop (𝓝 0) ∧ Tendsto (fun ess => ess * silverman n ess ^ n) atTop atTop ∧
    Tendsto (scott n) atTop (𝓝 0) ∧ Tendsto (fun ess => ess * scott n ess ^ n) atTop atTop := by
  have hn : (0 : ℝ) < 1 / ((n : ℝ) + 4) := by positivity
  have e0 : -1 / ((n : ℝ) + 4) = -(1 / ((n : ℝ) + 4)) := by ring
  have t1 : Tendsto (fun x : ℝ => x ^ (-1 / ((n : ℝ) + 4))) atTop (𝓝 0) := by
    rw [e0]
    exact tendsto_rpow_neg_atTop hn
  have t2 : Tendsto (fun ess : ℝ => ess * (n + 2) / 4) atTop atTop := by
    have : (fun ess : ℝ => ess * (n + 2) / 4) = fun ess => ess * (((n : ℝ) + 2) / 4) := by
      funext x
      ring
    rw [this]
    exact tendsto_id.atTop_mul_const (by positivity)
  have s1 : Tendsto (silverman n) atTop (𝓝 0) := t1.comp t2
  have s2 : Tendsto (scott n) atTop (𝓝 0) := by
    have := t1.const_mul (1059 / 1000)
    rw [mul_zero] at this
    exact this
  have inv : ∀ f : ℝ → ℝ, ∀ c : ℝ, 0 < c → (∀ x, 0 < x → 0 < f x ∧ f x ^ (n + 4) = c / x) → Tendsto f atTop (𝓝 0) →
      Tendsto (fun x => x * f x ^ n) atTop atTop := by
    intro f c hc hf ht
    have h4 : Tendsto (fun x => f x ^ 4) atTop (𝓝[>] 0) := by
      rw [tendsto_nhdsWithin_iff]
      refine ⟨?_, ?_⟩
      · have := ht.pow 4
        rwa [zero_pow (by norm_num)] at this
      · filter_upwards [eventually_gt_atTop 0] with x hx
        exact pow_pos (hf x hx).1 4
    have h5 : Tendsto (fun x => c * (f x ^ 4)⁻¹) atTop atTop := h4.inv_tendsto_nhdsGT_zero.const_mul_atTop hc
    refine h5.congr' ?_
    filter_upwards [eventually_gt_atTop 0] with x hx
    obtain ⟨h1, h2⟩ := hf x hx
    rw [pow_add] at h2
    have h6 : f x ^ 4 ≠ 0 := (pow_pos h1 4).ne'
    field_simp at h2 ⊢
    linarith
  refine ⟨s1, inv _ (4 / (n + 2)) (by positivity) (fun x hx => ⟨(silverman_pow n hx).1, ?_⟩) s1, s2,
    inv _ ((1059 / 1000) ^ (n + 4)) (by positivity) (fun x hx => scott_pow n hx) s2⟩
  rw [(silverman_pow n hx).2, div_div, mul_comm]

/-- C116: in one dimension, Scott's factor is Silverman's up to one part in a thousand. -/
theorem C116_scott {ess : ℝ} (hess : 0 < ess) :
    |scott 1 ess - silverman 1 ess| ≤ silverman 1 ess / 1000 := by
  obtain ⟨h1, h2⟩ := silverman_pow 1 hess
  obtain ⟨h3, h4⟩ := scott_pow 1 hess
  set a := silverman 1 ess
  set b := scott 1 ess
  have e1 : a ^ 5 = 4 / 3 / ess := by
    rw [h2]
    push_cast
    field_simp
    norm_num
  have e2 : b ^ 5 = (1059 / 1000) ^ 5 / ess := h4
  have lo : (999 / 1000 * a) ^ 5 ≤ b ^ 5 := by
    rw [mul_pow, e1, e2, ← mul_div_assoc]
    exact div_le_div_of_nonneg_right (by norm_num) hess.le
  have hi : b ^ 5 ≤ (1001 / 1000 * a) ^ 5 := by
    rw [mul_pow, e1, e2, ← mul_div_assoc]
    exact div_le_div_of_nonneg_right (by norm_num) hess.le
  have lo' := le_of_pow_le_pow_left₀ (by norm_num) h3.le lo
  have hi' := le_of_pow_le_pow_left₀ (by norm_num) (by positivity) hi
  rw [abs_le]
  constructor <;> linarith

example : amise 3 50 (silverman 3 50) ≤ amise 3 50 1 ∧ |scott 1 50 - silverman 1 50| ≤ silverman 1 50 / 1000 :=
  ⟨(C116_silverman_optimal 3 (by norm_num) 1 one_pos).2, C116_scott (by norm_num)⟩

end Verif.Props
