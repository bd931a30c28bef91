import Verif.Lemmas.SystematicError
import Mathlib.MeasureTheory.Integral.IntervalIntegral.Basic

/-!
# C115: how far the average after systematic resampling is from the weighted average

The error is small if the function varies little along the particles in the order of memory, for example if they are
sorted. It is not small for every bounded function: the positions of `systematic` share one uniform number, so a pattern
in the weights can be met by a pattern in the function, however many particles there are.
-/

open Finset MeasureTheory

namespace Verif.Props

open XF Spec

/-- The claim: the mean squared error of the average of a bounded function after resampling is small if there are many
particles, whatever the weights. -/
def C115_claim (lo : ℝ) : Prop :=
  ∀ ε : ℝ, 0 < ε → ∃ N : ℕ, ∀ n ≥ N, ∀ p : Fin n → ℝ, IsProb p → ∀ f : ℕ → ℝ, (∀ i, |f i| ≤ 1) →
    ∀ r : ℝ → Fin n → ℕ, (∀ u, systematic1 lo (fun i => fin (p i)) true [] (fun _ => u) = .ok (r u)) →
      ∫ u in (0 : ℝ)..1, (selectedMean (r u) f - weightedMean p f) ^ 2 ≤ ε

/-- C115: in every parallel filter and for every uniform number, the error is at most the variation of the function along
the particles divided by their number. -/
theorem C115_variation_partial (lo : ℝ) {n b : ℕ} (w : Fin n → Fin b → XF) (draw : Fin b → ℝ) (c : Fin b)
    (hd : 0 < draw c ∧ draw c < 1) (hw : ∃ i, Usable (w i c)) (f : ℕ → ℝ) :
    ∃ (r : Fin n → Fin b → ℕ) (p : Fin n → ℝ), systematic2 lo w false [] draw = .ok r ∧ IsProb p ∧
      (∀ i, (normalize2 lo w).2 i c = fin (p i)) ∧
      |selectedMean (fun i => r i c) f - weightedMean p f| ≤ variation n f / n := by
  have hn := normalize1_usable lo (fun i => w i c) hw
  have hp := isProb_mass lo (fun i => w i c) hw
  refine ⟨_, fun i => mass lo (w i c) / ∑ j, mass lo (w j c), rfl, hp, hn, ?_⟩
  have he : (fun i => (normalize2 lo w).2 i c) = fun i => fin (mass lo (w i c) / ∑ j, mass lo (w j c)) :=
    funext hn
  show |selectedMean (systematicRow (fun i => (normalize2 lo w).2 i c) fun _ => draw c) f - _| ≤ _
  rw [he]
  exact systematic_error hp hd.1 hd.2 f

/-- C115: the same for the one-dimensional call with normalised weights. -/
theorem C115_variation_1d_partial (lo : ℝ) {n : ℕ} (p : Fin n → ℝ) (hp : IsProb p) (u : ℝ) (hu : 0 < u ∧ u < 1)
    (f : ℕ → ℝ) :
    ∃ r, systematic1 lo (fun i => fin (p i)) true [] (fun _ => u) = .ok r ∧
      |selectedMean r f - weightedMean p f| ≤ variation n f / n :=
  ⟨_, rfl, systematic_error hp hu.1 hu.2 f⟩

/-- C115: if the values increase along the particles, the error is at most their range divided by the number of
particles. -/
theorem C115_sorted_partial (lo : ℝ) {n : ℕ} (p : Fin n → ℝ) (hp : IsProb p) (u : ℝ) (hu : 0 < u ∧ u < 1)
    (f : ℕ → ℝ) (hf : ∀ i, i + 1 < n → f i ≤ f (i + 1)) :
    ∃ r, systematic1 lo (fun i => fin (p i)) true [] (fun _ => u) = .ok r ∧
      |selectedMean r f - weightedMean p f| ≤ (f (n - 1) - f 0) / n := by
  obtain ⟨r, h1, h2⟩ := C115_variation_1d_partial lo p hp u hu f
  refine ⟨r, h1, h2.trans_eq ?_⟩
  congr 1
  unfold variation
  rw [← sum_range_sub]
  refine sum_congr rfl fun i hi => abs_of_nonneg (sub_nonneg.2 (hf i ?_))
  have := mem_range.1 hi
  omega

/-- Weights that alternate. -/
noncomputable def alternating (m : ℕ) : Fin (2 * m) → ℝ := fun i => (if (i : ℕ) % 2 = 0 then 3 / 2 else 1 / 2) / (2 * m)

/-- The particles with the large weights. -/
def heavy (i : ℕ) : ℝ := if i % 2 = 0 then 1 else 0

theorem sum_pairs (g : ℕ → ℝ) (m : ℕ) : ∑ i : Fin (2 * m), g i = ∑ k ∈ range m, (g (2 * k) + g (2 * k + 1)) := by
  rw [Fin.sum_univ_eq_sum_range g]
  induction m with
  | zero => simp
  | succ m ih =>
    rw [show 2 * (m + 1) = 2 * m + 1 + 1 by ring, sum_range_succ, sum_range_succ, ih, sum_range_succ]
    ring

theorem isProb_alternating {m : ℕ} (hm : 0 < m) : IsProb (alternating m) := by
  have hm' : (0 : ℝ) < m := by exact_mod_cast hm
  refine ⟨fun i => ?_, ?_⟩
  · unfold alternating
    split_ifs <;> positivity
  · have := sum_pairs (fun i => (if i % 2 = 0 then (3 / 2 : ℝ) else 1 / 2) / (2 * m)) m
    show ∑ i : Fin (2 * m), _ = _
    unfold alternating
    rw [this]
    have e : ∀ k ∈ range m, ((if 2 * k % 2 = 0 then (3 / 2 : ℝ) else 1 / 2) / (2 * m)
        + (if (2 * k + 1) % 2 = 0 then (3 / 2 : ℝ) else 1 / 2) / (2 * m)) = 1 / m := by
      intro k _
      rw [if_pos (by omega), if_neg (by omega)]
      field_simp
      norm_num
    rw [sum_congr rfl e, sum_const, card_range, nsmul_eq_mul]
    field_simp

theorem prefixSum_alternating {m k : ℕ} (hk : k ≤ m) : prefixSum (alternating m) (2 * k) = k / m := by
  rcases Nat.eq_zero_or_pos m with rfl | hm
  · have : k = 0 := by omega
    subst this
    simp [prefixSum]
  have hm' : (0 : ℝ) < m := by exact_mod_cast hm
  induction k with
  | zero => simp [prefixSum_zero]
  | succ k ih =>
    have h1 := prefixSum_succ (alternating m) ⟨2 * k, by omega⟩
    have h2 := prefixSum_succ (alternating m) ⟨2 * k + 1, by omega⟩
    simp only at h1 h2
    rw [show 2 * (k + 1) = 2 * k + 1 + 1 by ring, h2, h1, ih (by omega)]
    simp only [alternating]
    rw [if_pos (by omega), if_neg (by omega)]
    push_cast
    field_simp
    ring

/-- C115: with alternating weights and the function that selects every second particle, the error is one quarter for
every uniform number and every even number of particles. -/
theorem C115_persistent_error (lo : ℝ) {m : ℕ} (hm : 0 < m) (u : ℝ) (hu : 0 < u ∧ u < 1) :
    ∃ r, systematic1 lo (fun i => fin (alternating m i)) true [] (fun _ => u) = .ok r ∧
      |selectedMean r heavy - weightedMean (alternating m) heavy| = 1 / 4 := by
  have hm' : (0 : ℝ) < m := by exact_mod_cast hm
  have hp := isProb_alternating hm
  refine ⟨_, rfl, ?_⟩
  show |selectedMean (systematicRow (fun i => fin (alternating m i)) fun _ => u) heavy - _| = _
  set r := systematicRow (fun i => fin (alternating m i)) fun _ => u with hr
  have hlt : ∀ j, r j < 2 * m := (systematicRow_valid _ (fun _ => u) fun _ => ⟨hu.1.le, hu.2⟩).1
  have hoff : ∀ k < m, (offspring r (2 * k) : ℝ) = ⌊3 / 2 - u⌋ + 1 := by
    intro k hk
    have h1 := offspring_eq hp u hu.1 hu.2.le ⟨2 * k, by omega⟩
    have h2 := prefixSum_alternating hk.le
    have h3 : alternating m ⟨2 * k, by omega⟩ = (3 / 2) / (2 * m) := by
      unfold alternating
      rw [if_pos (by simp)]
    simp only [h2, h3] at h1
    have e1 : ((2 * m : ℕ) : ℝ) * (k / m) - u = -u + ((2 * k : ℤ) : ℝ) := by
      push_cast
      field_simp
      ring
    have e2 : ((2 * m : ℕ) : ℝ) * (k / m) - u + ((2 * m : ℕ) : ℝ) * (3 / 2 / (2 * m))
        = (3 / 2 - u) + ((2 * k : ℤ) : ℝ) := by
      push_cast
      field_simp
      ring
    have e3 : ⌊-u⌋ = -1 := by
      rw [Int.floor_eq_iff]
      push_cast
      constructor <;> linarith [hu.1, hu.2]
    rw [e2, e1, Int.floor_add_intCast, Int.floor_add_intCast, e3] at h1
    have h4 : ((offspring r (2 * k) : ℕ) : ℤ) = ⌊3 / 2 - u⌋ + 1 := by
      rw [hr]
      omega
    exact_mod_cast h4
  have e1 : selectedMean r heavy = (⌊3 / 2 - u⌋ + 1) / 2 := by
    unfold selectedMean
    rw [sum_selected hlt, sum_pairs (fun i => (offspring r i : ℝ) * heavy i)]
    have : ∀ k ∈ range m, (offspring r (2 * k) : ℝ) * heavy (2 * k) + (offspring r (2 * k + 1) : ℝ) * heavy (2 * k + 1)
        = ⌊3 / 2 - u⌋ + 1 := by
      intro k hk
      rw [hoff k (mem_range.1 hk)]
      simp only [heavy]
      rw [if_pos (by omega), if_neg (by omega)]
      ring
    rw [sum_congr rfl this, sum_const, card_range, nsmul_eq_mul]
    push_cast
    field_simp
  have e2 : weightedMean (alternating m) heavy = 3 / 4 := by
    unfold weightedMean
    have h := sum_pairs (fun i => (if i % 2 = 0 then (3 / 2 : ℝ) else 1 / 2) / (2 * m) * heavy i) m
    unfold alternating
    rw [h]
    have : ∀ k ∈ range m, (if 2 * k % 2 = 0 then (3 / 2 : ℝ) else 1 / 2) / (2 * m) * heavy (2 * k)
        + (if (2 * k + 1) % 2 = 0 then (3 / 2 : ℝ) else 1 / 2) / (2 * m) * heavy (2 * k + 1) = 3 / (4 * m) := by
      intro k _
      simp only [heavy]
      rw [if_pos (by omega), if_pos (by omega), if_neg (by omega), if_neg (by omega)]
      field_simp
      norm_num
    rw [sum_congr rfl this, sum_const, card_range, nsmul_eq_mul]
    field_simp
  rw [e1, e2]
  by_cases h : u ≤ 1 / 2
  · have : ⌊3 / 2 - u⌋ = 1 := by
      rw [Int.floor_eq_iff]
      push_cast
      constructor <;> linarith [hu.1]
    rw [this]
    norm_num [abs_of_pos]
  · have : ⌊3 / 2 - u⌋ = 0 := by
      rw [Int.floor_eq_iff]
      push_cast
      constructor <;> linarith [hu.2]
    rw [this]
    norm_num [abs_of_neg]

/-- C115: the claim is false. -/
theorem C115_negation (lo : ℝ) : ¬ C115_claim lo := by
  intro h
  obtain ⟨N, hN⟩ := h (1 / 32) (by norm_num)
  have hm : 0 < N + 1 := by omega
  have := hN (2 * (N + 1)) (by omega) (alternating (N + 1)) (isProb_alternating hm) heavy
    (fun i => by unfold heavy; split_ifs <;> simp) _ fun u => rfl
  have e : ∫ u in (0 : ℝ)..1, (selectedMean (systematicRow (fun i => fin (alternating (N + 1) i)) fun _ => u) heavy
      - weightedMean (alternating (N + 1)) heavy) ^ 2 = ∫ u in (0 : ℝ)..1, (1 / 16 : ℝ) := by
    apply intervalIntegral.integral_congr_ae
    have h1 : ∀ᵐ u : ℝ, u ≠ 1 := by
      rw [ae_iff]
      simp
    filter_upwards [h1] with u hu hmem
    rw [Set.uIoc_of_le zero_le_one] at hmem
    obtain ⟨r, hr, he⟩ := C115_persistent_error lo hm u ⟨hmem.1, lt_of_le_of_ne hmem.2 hu⟩
    have hr' : systematicRow (fun i => fin (alternating (N + 1) i)) (fun _ => u) = r := Except.ok.inj hr
    rw [hr', ← sq_abs, he]
    norm_num
  have h2 : ∫ u in (0 : ℝ)..1, (selectedMean (systematicRow (fun i => fin (alternating (N + 1) i)) fun _ => u) heavy
      - weightedMean (alternating (N + 1)) heavy) ^ 2 ≤ 1 / 32 := this
  rw [e] at h2
  norm_num at h2

/-- Two filters, of which the second has an unusable weight; the states alternate. -/
example : ∃ (r : Fin 5 → Fin 2 → ℕ) (p : Fin 5 → ℝ),
    systematic2 (-100) (fun i j => if i = 0 ∧ j = 1 then nan else fin (i.val - 3 * j.val)) false [] ![1 / 2, 1 / 3]
      = .ok r ∧ IsProb p ∧ |selectedMean (fun i => r i 1) heavy - weightedMean p heavy| ≤ variation 5 heavy / (5 : ℕ) := by
  obtain ⟨r, p, h1, h2, -, h4⟩ := C115_variation_partial (-100)
    (fun (i : Fin 5) (j : Fin 2) => if i = 0 ∧ j = 1 then nan else fin (i.val - 3 * j.val)) ![1 / 2, 1 / 3] 1
    ⟨by simp, by norm_num⟩ ⟨1, by simp [Usable]⟩ heavy
  exact ⟨r, p, h1, h2, h4⟩

/-- Sorted values with unequal weights. -/
example : ∃ r, systematic1 (-100) (fun i => fin ((![1 / 4, 1 / 4, 1 / 2] : Fin 3 → ℝ) i)) true [] (fun _ => 1 / 3) = .ok r ∧
    |selectedMean r (fun i => (i : ℝ) ^ 2) - weightedMean (![1 / 4, 1 / 4, 1 / 2] : Fin 3 → ℝ) fun i => (i : ℝ) ^ 2|
      ≤ 4 / 3 := by
  obtain ⟨r, h1, h2⟩ := C115_sorted_partial (-100) (![1 / 4, 1 / 4, 1 / 2] : Fin 3 → ℝ)
    ⟨fun i => by fin_cases i <;> norm_num, by norm_num [Fin.sum_univ_succ]⟩ (1 / 3) ⟨by norm_num, by norm_num⟩
    (fun i => (i : ℝ) ^ 2) fun i _ => by
      push_cast
      nlinarith [(Nat.cast_nonneg i : (0 : ℝ) ≤ i)]
  refine ⟨r, h1, h2.trans_eq ?_⟩
  norm_num

end Verif.Props
