import Verif.Props.Jitter
import Mathlib.Algebra.Order.Chebyshev
import Mathlib.Analysis.SpecialFunctions.Pow.Asymptotics

/-!
# Property C121: jittering moves parameters little if the effective sample size is large
-/

namespace Verif.Props

open Verif.Jitter Filter Topology

variable {n d : ℕ} [NeZero n]

/-- Effective sample size (Kish): the square of the sum of the weights over the sum of their squares. -/
noncomputable def kish (w : Fin n → ℝ) : ℝ := (∑ i, w i) ^ 2 / ∑ i, w i ^ 2

/-- The cube root of the effective sample size, as far as it matters for the bandwidth: between `eps` and `1 - eps`, the
bandwidth is 1.59 divided by it. -/
noncomputable def cubeRoot (s : ℝ) : ℝ := s ^ ((1 : ℝ) / 3)

omit [NeZero n] in
theorem kish_pos (w : Fin n → ℝ) (hw : ∑ i, w i = 1) : 0 < ∑ i, w i ^ 2 := by
  rcases (Finset.sum_nonneg fun i (_ : i ∈ Finset.univ) => sq_nonneg (w i)).lt_or_eq with h | h
  · exact h
  · have h1 := (Finset.sum_eq_zero_iff_of_nonneg fun i (_ : i ∈ Finset.univ) => sq_nonneg (w i)).1 h.symm
    have h2 : ∑ i, w i = 0 := Finset.sum_eq_zero fun i hi => pow_eq_zero_iff (two_ne_zero) |>.1 (h1 i hi)
    rw [hw] at h2
    exact absurd h2 one_ne_zero

omit [NeZero n] in
theorem ess_kish (w : Fin n → ℝ) (hw : ∑ i, w i = 1) : ess w = kish w := by
  unfold ess kish
  rw [hw, one_pow]
  congr 1
  exact Finset.sum_congr rfl fun i _ => (sq (w i)).symm

theorem rpow_third (s : ℝ) (hs : 0 < s) : s ^ (-(1 : ℝ) / 3) = 1 / cubeRoot s := by
  unfold cubeRoot
  rw [neg_div, Real.rpow_neg hs.le, one_div, one_div]

theorem cubeRoot_pow (s : ℝ) (hs : 0 < s) : cubeRoot s ^ 3 = s := by
  unfold cubeRoot
  rw [← Real.rpow_natCast, ← Real.rpow_mul hs.le]
  norm_num

theorem cubeRoot_pos (s : ℝ) (hs : 0 < s) : 0 < cubeRoot s := Real.rpow_pos_of_pos hs _

/-! ### C121 -/

omit [NeZero n] in
/-- C121: for normalised weights the effective sample size is between 1 and the number of particles, and the bandwidth factor of
the (non-)shrinking kernel is 1.59 over its cube root, within `[eps, 1 - eps]`. -/
theorem C121_bandwidth (eps : ℝ) (h0 : 0 < eps) (h1 : eps < 1 / 2) (w : Fin n → ℝ) (hw0 : ∀ i, 0 ≤ w i)
    (hw : ∑ i, w i = 1) :
    1 ≤ kish w ∧ kish w ≤ n ∧ eps ≤ bwFac eps w ∧ bwFac eps w ≤ 1 - eps ∧
      bwFac eps w ≤ max eps (1.59 / cubeRoot (kish w)) ∧
      (eps ≤ 1.59 / cubeRoot (kish w) → 1.59 / cubeRoot (kish w) ≤ 1 - eps →
        bwFac eps w ^ 3 * kish w = 1.59 ^ 3) := by
  have hs := kish_pos w hw
  have hk : 0 < kish w := by
    unfold kish
    rw [hw]
    positivity
  have hb : bwFac eps w = min (max (1.59 / cubeRoot (kish w)) eps) (1 - eps) := by
    unfold bwFac
    rw [ess_kish w hw, rpow_third _ hk, mul_one_div]
  refine ⟨?_, ?_, ?_, ?_, ?_, fun h2 h3 => ?_⟩
  · unfold kish
    rw [hw, one_pow, le_div_iff₀ hs, one_mul]
    calc ∑ i, w i ^ 2 ≤ ∑ i, w i := Finset.sum_le_sum fun i _ => by
          have : w i ≤ 1 := hw ▸ Finset.single_le_sum (fun i _ => hw0 i) (Finset.mem_univ i)
          nlinarith [hw0 i]
      _ = 1 := hw
  · unfold kish
    rw [div_le_iff₀ hs]
    have := sq_sum_le_card_mul_sum_sq (s := Finset.univ) (f := w)
    simpa using this
  · rw [hb]
    exact le_min (le_max_right _ _) (by linarith)
  · rw [hb]
    exact min_le_right _ _
  · rw [hb, max_comm]
    exact min_le_left _ _
  · rw [hb, max_eq_left h2, min_eq_left h3, div_pow, cubeRoot_pow _ hk, div_mul_cancel₀ _ hk.ne']

/-- Every column has values in an interval of length `D`. -/
def RangeAtMost (x : Fin n → Fin d → ℝ) (D : ℝ) : Prop := ∀ i i' j, |x i j - x i' j| ≤ D

omit [NeZero n] in
/-- Distance to the weighted mean. -/
theorem dist_mean {x : Fin n → Fin d → ℝ} {D : ℝ} (hD : RangeAtMost x D) {w : Fin n → ℝ} (hw0 : ∀ i, 0 ≤ w i)
    (hw : ∑ i, w i = 1) (i : Fin n) (j : Fin d) : |x i j - wmean x w j| ≤ D := by
  have : x i j - wmean x w j = ∑ i', w i' * (x i j - x i' j) := by
    unfold wmean
    simp only [mul_sub]
    rw [Finset.sum_sub_distrib, ← Finset.sum_mul, hw, one_mul]
  rw [this]
  calc |∑ i', w i' * (x i j - x i' j)| ≤ ∑ i', |w i' * (x i j - x i' j)| := Finset.abs_sum_le_sum_abs _ _
    _ ≤ ∑ i', w i' * D := Finset.sum_le_sum fun i' _ => by
        rw [abs_mul, abs_of_nonneg (hw0 i')]
        exact mul_le_mul_of_nonneg_left (hD i i' j) (hw0 i')
    _ = D := by rw [← Finset.sum_mul, hw, one_mul]

theorem robust_range {x : Fin n → Fin d → ℝ} {D : ℝ} (hD : RangeAtMost x D) {w : Fin n → ℝ} (hw0 : ∀ i, 0 ≤ w i)
    (hw : ∑ i, w i = 1) (j : Fin d) : Real.sqrt (robustVar x w none j) ≤ D := by
  have hD0 : 0 ≤ D := (abs_nonneg _).trans (hD 0 0 j)
  refine Real.sqrt_le_iff.2 ⟨hD0, ((C75_robust x w hw0 j).2.1).trans ?_⟩
  calc varOf w (fun i => x i j) ≤ ∑ i, w i * D ^ 2 := Finset.sum_le_sum fun i _ => by
        refine mul_le_mul_of_nonneg_left ?_ (hw0 i)
        exact sq_le_sq' (neg_le_of_abs_le (dist_mean hD hw0 hw i j)) (le_of_abs_le (dist_mean hD hw0 hw i j))
    _ = D ^ 2 := by rw [← Finset.sum_mul, hw, one_mul]

/-- C121: jittering with the (non-)shrinking kernel moves every parameter of every particle, compared with its ancestor, by at
most `r² D + max (r D) min_std |noise|`, where `D` bounds the differences between particles and `r` is the larger one of `eps`
and 1.59 over the cube root of the effective sample size. -/
theorem C121_moved (eps minStd : ℝ) (h0 : 0 < eps) (h1 : eps < 1 / 2) (hm : 0 ≤ minStd) (k : Kernel d)
    (hk : k = .shrinking ∨ k = .nonShrinking)
    (x : Fin n → Fin d → ℝ) (w : Fin n → ℝ) (hw0 : ∀ i, 0 ≤ w i) (hw : ∑ i, w i = 1) (D : ℝ) (hD : RangeAtMost x D)
    (indices : Fin n → Fin n) (noise : Fin n → Fin d → ℝ) :
    ∃ new, k.jitter eps minStd x w indices noise = .ok new ∧
      ∀ i j, |new i j - x (indices i) j|
        ≤ max eps (1.59 / cubeRoot (kish w)) ^ 2 * D + max (max eps (1.59 / cubeRoot (kish w)) * D) minStd * |noise i j| := by
  obtain ⟨-, -, hb0, hb1, hb, -⟩ := C121_bandwidth eps h0 h1 w hw0 hw
  set r := max eps (1.59 / cubeRoot (kish w)) with hr
  have hbp : 0 < bwFac eps w := h0.trans_le hb0
  have hstd : ∀ j, bwFac eps w * Real.sqrt (robustVar x w none j) ≤ r * D := fun j =>
    mul_le_mul hb (robust_range hD hw0 hw j) (Real.sqrt_nonneg _) (hbp.le.trans hb)
  have hclamp : ∀ j, |max (bwFac eps w * Real.sqrt (robustVar x w none j)) minStd| ≤ max (r * D) minStd := fun j => by
    rw [abs_of_nonneg (hm.trans (le_max_right _ _))]
    exact max_le_max (hstd j) le_rfl
  have hnoise : ∀ i j, |max (bwFac eps w * Real.sqrt (robustVar x w none j)) minStd * noise i j|
      ≤ max (r * D) minStd * |noise i j| := fun i j => by
    rw [abs_mul]
    exact mul_le_mul_of_nonneg_right (hclamp j) (abs_nonneg _)
  rcases hk with rfl | rfl
  · refine ⟨_, by unfold Kernel.jitter; rw [if_neg (by simp)]; rfl, fun i j => ?_⟩
    show |wmean x w j + Real.sqrt (1 - bwFac eps w ^ 2) * (x (indices i) j - wmean x w j)
      + max (bwFac eps w * Real.sqrt (robustVar x w none j)) minStd * noise i j - x (indices i) j| ≤ _
    have e : wmean x w j + Real.sqrt (1 - bwFac eps w ^ 2) * (x (indices i) j - wmean x w j)
        + max (bwFac eps w * Real.sqrt (robustVar x w none j)) minStd * noise i j - x (indices i) j
        = -((1 - Real.sqrt (1 - bwFac eps w ^ 2)) * (x (indices i) j - wmean x w j))
          + max (bwFac eps w * Real.sqrt (robustVar x w none j)) minStd * noise i j := by ring
    rw [e]
    refine (abs_add_le _ _).trans (add_le_add ?_ (hnoise i j))
    have hq0 : 0 ≤ 1 - bwFac eps w ^ 2 := by nlinarith
    have hq1 : 1 - bwFac eps w ^ 2 ≤ 1 := by nlinarith
    have hs1 : Real.sqrt (1 - bwFac eps w ^ 2) ≤ 1 := Real.sqrt_le_one.2 hq1
    have hs2 : 1 - bwFac eps w ^ 2 ≤ Real.sqrt (1 - bwFac eps w ^ 2) := by
      have := Real.sq_sqrt hq0
      nlinarith [Real.sqrt_nonneg (1 - bwFac eps w ^ 2)]
    rw [abs_neg, abs_mul, abs_of_nonneg (by linarith)]
    refine mul_le_mul ?_ (dist_mean hD hw0 hw _ j) (abs_nonneg _) (sq_nonneg _)
    have : bwFac eps w ^ 2 ≤ r ^ 2 := pow_le_pow_left₀ hbp.le hb 2
    linarith
  · refine ⟨_, by unfold Kernel.jitter; rw [if_neg (by simp)]; rfl, fun i j => ?_⟩
    show |x (indices i) j + max (bwFac eps w * Real.sqrt (robustVar x w none j)) minStd * noise i j - x (indices i) j| ≤ _
    rw [add_sub_cancel_left]
    refine (hnoise i j).trans (le_add_of_nonneg_left ?_)
    exact mul_nonneg (sq_nonneg _) ((abs_nonneg _).trans (hD 0 0 j))

/-- C121: the bound on `r` tends to `eps` as the effective sample size grows. -/
theorem C121_limit (eps : ℝ) (h0 : 0 < eps) :
    Tendsto (fun s => max eps (1.59 / cubeRoot s)) atTop (𝓝 eps) := by
  have h1 : Tendsto cubeRoot atTop atTop := tendsto_rpow_atTop (by norm_num)
  have h2 : Tendsto (fun s => 1.59 / cubeRoot s) atTop (𝓝 0) := h1.const_div_atTop _
  have h3 := (tendsto_const_nhds (x := eps)).max h2
  rwa [max_eq_left h0.le] at h3

/-- Eight particles with equal weights: the bandwidth factor is 0.795. -/
example : bwFac 0.001 (fun _ : Fin 8 => 1 / 8) = 0.795 := by
  have hw : ∑ _i : Fin 8, (1 / 8 : ℝ) = 1 := by simp
  have hk : kish (fun _ : Fin 8 => (1 / 8 : ℝ)) = 8 := by
    unfold kish
    rw [hw]
    simp
    norm_num
  have hc : cubeRoot 8 = 2 := by
    have h1 := cubeRoot_pow 8 (by norm_num)
    have h2 := cubeRoot_pos 8 (by norm_num)
    nlinarith [sq_nonneg (cubeRoot 8 + 2), sq_nonneg (cubeRoot 8 - 2)]
  have h := (C121_bandwidth 0.001 (by norm_num) (by norm_num) (fun _ : Fin 8 => 1 / 8) (fun _ => by norm_num) hw)
  rw [hk, hc] at h
  have h3 := h.2.2.2.2.2 (by norm_num) (by norm_num)
  have h4 : 0 < bwFac 0.001 (fun _ : Fin 8 => (1 / 8 : ℝ)) := by linarith [h.2.2.1]
  nlinarith [sq_nonneg (bwFac 0.001 (fun _ : Fin 8 => (1 / 8 : ℝ)) + 0.795),
    sq_nonneg (bwFac 0.001 (fun _ : Fin 8 => (1 / 8 : ℝ)) - 0.795)]

/-- A case for `C121_moved`: two particles, one parameter. -/
example : RangeAtMost (fun (i : Fin 2) (_ : Fin 1) => ((i : ℕ) : ℝ)) 1 := by
  intro i i' j
  fin_cases i <;> fin_cases i' <;> norm_num

end Verif.Props
