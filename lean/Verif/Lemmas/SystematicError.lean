import Verif.Props.Resampling
import Verif.Spec.Averages
import Mathlib.Algebra.BigOperators.Module

/-!
# The error of systematic resampling
-/

open Finset

namespace Verif

open XF Spec Props

variable {n : ℕ}

/-- Sums over selected particles are sums over particles, counted with their offspring. -/
theorem sum_selected {r : Fin n → ℕ} (hr : ∀ j, r j < n) (f : ℕ → ℝ) :
    ∑ j, f (r j) = ∑ i : Fin n, (offspring r i : ℝ) * f i := by
  have h := Finset.sum_fiberwise (univ : Finset (Fin n)) (fun j => (⟨r j, hr j⟩ : Fin n)) fun j => f (r j)
  rw [← h]
  refine sum_congr rfl fun i _ => ?_
  have : ∀ j ∈ univ.filter (fun j => (⟨r j, hr j⟩ : Fin n) = i), f (r j) = f i := by
    intro j hj
    rw [mem_filter] at hj
    have := congrArg Fin.val hj.2
    simp only at this
    rw [this]
  rw [sum_congr rfl this, sum_const, nsmul_eq_mul]
  congr 2
  unfold offspring
  congr 1
  ext j
  simp only [mem_filter, mem_univ, true_and, Fin.ext_iff]

/-- Errors of the offspring counts, summed up to particle `k`, are bounded by one. -/
theorem offspring_prefix {p : Fin n → ℝ} (hp : IsProb p) {u : ℝ} (hu0 : 0 < u) (hu1 : u < 1) (k : ℕ) (hk : k ≤ n) :
    |∑ i ∈ range k, ((offspring (systematicRow (fun k => fin (p k)) fun _ => u) i : ℝ)
      - n * (if h : i < n then p ⟨i, h⟩ else 0))| ≤ 1 := by
  have key : ∑ i ∈ range k, ((offspring (systematicRow (fun k => fin (p k)) fun _ => u) i : ℝ)
      - n * (if h : i < n then p ⟨i, h⟩ else 0)) = ⌊n * prefixSum p k - u⌋ + 1 - n * prefixSum p k := by
    induction k with
    | zero =>
      have : ⌊-u⌋ = -1 := by
        rw [Int.floor_eq_iff]
        push_cast
        constructor <;> linarith
      simp [prefixSum_zero, this]
    | succ k ih =>
      have hkn : k < n := hk
      rw [sum_range_succ, ih (by omega), dif_pos hkn]
      have h1 := offspring_eq hp u hu0 hu1.le ⟨k, hkn⟩
      have h2 := prefixSum_succ p ⟨k, hkn⟩
      simp only at h1 h2
      have h3 : ((offspring (systematicRow (fun k => fin (p k)) fun _ => u) k : ℕ) : ℝ)
          = (⌊n * prefixSum p k - u + n * p ⟨k, hkn⟩⌋ - ⌊n * prefixSum p k - u⌋ : ℤ) := by
        rw [← h1]
        rfl
      have h4 : (n : ℝ) * prefixSum p k - u + n * p ⟨k, hkn⟩ = n * prefixSum p (k + 1) - u := by
        rw [h2]
        ring
      rw [h3, h4, h2]
      push_cast
      ring
  rw [key, abs_le]
  have h1 := Int.floor_le (n * prefixSum p k - u)
  have h2 := Int.lt_floor_add_one (n * prefixSum p k - u)
  constructor <;> linarith

/-- The error for normalised weights of one row. -/
theorem systematic_error {p : Fin n → ℝ} (hp : IsProb p) {u : ℝ} (hu0 : 0 < u) (hu1 : u < 1) (f : ℕ → ℝ) :
    |selectedMean (systematicRow (fun k => fin (p k)) fun _ => u) f - weightedMean p f| ≤ variation n f / n := by
  rcases Nat.eq_zero_or_pos n with rfl | hn
  · exact absurd hp.2 (by simp)
  have hn' : (0 : ℝ) < n := by exact_mod_cast hn
  set r := systematicRow (fun k => fin (p k)) fun _ => u with hr
  have hlt : ∀ j, r j < n := (systematicRow_valid _ (fun _ => u) fun _ => ⟨hu0.le, hu1⟩).1
  set q : ℕ → ℝ := fun i => if h : i < n then p ⟨i, h⟩ else 0 with hq
  set g : ℕ → ℝ := fun i => (offspring r i : ℝ) - n * q i with hg
  have hD : ∀ k ≤ n, |∑ i ∈ range k, g i| ≤ 1 := fun k hk => offspring_prefix hp hu0 hu1 k hk
  have e1 : n * (selectedMean r f - weightedMean p f) = ∑ i ∈ range n, g i * f i := by
    unfold selectedMean weightedMean
    rw [mul_sub, mul_div_cancel₀ _ hn'.ne', sum_selected hlt, mul_sum,
      ← sum_sub_distrib, ← Fin.sum_univ_eq_sum_range fun i => g i * f i]
    refine sum_congr rfl fun i _ => ?_
    simp only [hg, hq, i.2, dif_pos]
    ring
  have e0 : ∑ i ∈ range n, g i = 0 := by
    have h := sum_selected hlt fun _ => 1
    simp only [hg, sum_sub_distrib, ← mul_sum]
    rw [← Fin.sum_univ_eq_sum_range fun i => (offspring r i : ℝ), ← Fin.sum_univ_eq_sum_range q]
    have h2 : ∑ i : Fin n, q i = 1 := by
      rw [← hp.2]
      refine sum_congr rfl fun i _ => ?_
      simp only [hq, i.2, dif_pos]
    simp only [sum_const, card_univ, Fintype.card_fin, nsmul_eq_mul, mul_one] at h
    rw [h2, ← h]
    ring
  have e2 : ∑ i ∈ range n, g i * f i
      = - ∑ i ∈ range (n - 1), (f (i + 1) - f i) * ∑ j ∈ range (i + 1), g j := by
    have h := Finset.sum_range_by_parts f g n
    simp only [smul_eq_mul] at h
    rw [e0, mul_zero, zero_sub] at h
    rw [← h]
    exact sum_congr rfl fun i _ => mul_comm _ _
  have e3 : |∑ i ∈ range n, g i * f i| ≤ variation n f := by
    rw [e2, abs_neg]
    refine (abs_sum_le_sum_abs _ _).trans (sum_le_sum fun i hi => ?_)
    rw [abs_mul]
    have := hD (i + 1) (by have := mem_range.1 hi; omega)
    exact mul_le_of_le_one_right (abs_nonneg _) this
  rw [← e1, abs_mul, abs_of_pos hn'] at e3
  rw [le_div_iff₀ hn', mul_comm]
  exact e3

end Verif
