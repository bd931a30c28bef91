import Verif.Lemmas.Utils

/-!
# Properties C01-C05: normalised weights and effective sample size
-/

namespace Verif.Props

open Verif XF Spec

/-! ## C01 -/

/-- C01 where it holds: as soon as one log-weight is usable (not NaN, not `+inf`), normalising gives the
probability vector proportional to the masses; unusable particles get probability zero.
Missing from the full claim: vectors in which every entry is NaN or `+inf`, for which the claim is
false, see `C01_fails_without_usable_weight`. -/
theorem C01_normalized_is_probability_partial (lo : ℝ) {n : ℕ} (w : Fin n → XF)
    (h : ∃ i, Usable (w i)) :
    ∃ p : Fin n → ℝ, (∀ i, (normalize1 lo w).2 i = fin (p i)) ∧ IsProb p ∧
      (∀ i, p i * ∑ j, mass lo (w j) = mass lo (w i)) ∧ (∀ i, ¬ Usable (w i) → p i = 0) := by
  refine ⟨fun i => mass lo (w i) / ∑ j, mass lo (w j), normalize1_usable lo w h, isProb_mass lo w h,
    fun i => div_mul_cancel₀ _ (mass_sum_pos h).ne', fun i hi => ?_⟩
  have : mass lo (w i) = 0 := by
    generalize w i = x at hi
    cases x <;> simp_all [Usable, mass]
  simp [this]

/-- Case for `C01_normalized_is_probability_partial`: NaN, `+inf`, `-inf` and a finite number together. -/
example : ∃ i, Usable ((![nan, pinf, ninf, fin 3] : Fin 4 → XF) i) := ⟨3, trivial⟩

/-- C01 fails: if every log-weight is NaN or `+inf`, every normalised weight is NaN. The fallback to
uniform weights in the code is never taken. -/
theorem C01_fails_without_usable_weight (lo : ℝ) {n : ℕ} (w : Fin n → XF)
    (h : ∀ i, ¬ Usable (w i)) (i : Fin n) : (normalize1 lo w).2 i = nan :=
  normalize1_unusable lo w h i

/-- The full claim C01 is false, for every lowest finite number. -/
theorem C01_negation (lo : ℝ) :
    ¬ ∀ (n : ℕ) (w : Fin n → XF), 0 < n →
      ∃ p : Fin n → ℝ, IsProb p ∧ ∀ i, (normalize1 lo w).2 i = fin (p i) := by
  intro h
  obtain ⟨p, -, hp⟩ := h 2 ![nan, nan] (by norm_num)
  have h1 := normalize1_unusable lo ![nan, nan] (by intro i; fin_cases i <;> simp [Usable]) 0
  rw [hp 0] at h1
  cases h1

example : ∀ i, ¬ Usable ((![nan, pinf] : Fin 2 → XF) i) := by
  intro i; fin_cases i <;> simp [Usable]

/-! ## C02 -/

/-- Adding `c` to a log-weight. -/
noncomputable def shift (c : ℝ) (x : XF) : XF := x + fin c

/-- C02, first half: a common finite offset does not change the normalised weights. -/
theorem C02_shift_invariant (lo c : ℝ) {n : ℕ} (w : Fin n → XF) (h : ∀ i, w i ≠ ninf) :
    (normalize1 lo fun i => shift c (w i)).2 = (normalize1 lo w).2 := by
  have hu : ∀ x : XF, Usable (shift c x) ↔ Usable x := by
    intro x; cases x <;> simp [shift, Usable]
  have hm : ∀ i, mass lo (shift c (w i)) = mass lo (w i) * Real.exp c := by
    intro i
    have := h i
    generalize w i = x at *
    cases x <;> simp_all [shift, mass, Real.exp_add]
  funext i
  by_cases hw : ∃ i, Usable (w i)
  · rw [normalize1_usable lo w hw, normalize1_usable lo _ (by simpa [hu] using hw)]
    simp only [hm, ← Finset.sum_mul]
    rw [mul_div_mul_right _ _ (Real.exp_ne_zero _)]
  · push Not at hw
    rw [normalize1_unusable lo w hw, normalize1_unusable lo _ (by simpa [hu] using hw)]

example : ∀ i, (![nan, fin 1, fin (-2)] : Fin 3 → XF) i ≠ ninf := by
  intro i; fin_cases i <;> simp

/-- C02, second half: the larger log-weight gets at least as much weight, `-inf` being below every
representable number and unusable entries below everything. -/
theorem C02_monotone (lo : ℝ) {n : ℕ} (w : Fin n → XF) (i j : Fin n)
    (hlo : ∀ k r, w k = fin r → lo ≤ r)
    (hij : (∃ a b, w i = fin a ∧ w j = fin b ∧ a ≤ b) ∨ (w i = ninf ∧ Usable (w j)) ∨
      (¬ Usable (w i) ∧ Usable (w j))) :
    ∃ a b : ℝ, (normalize1 lo w).2 i = fin a ∧ (normalize1 lo w).2 j = fin b ∧ a ≤ b := by
  have hw : Usable (w j) := by
    rcases hij with ⟨a, b, -, hb, -⟩ | ⟨-, h⟩ | ⟨-, h⟩
    · rw [hb]; trivial
    · exact h
    · exact h
  refine ⟨_, _, normalize1_usable lo w ⟨j, hw⟩ i, normalize1_usable lo w ⟨j, hw⟩ j, ?_⟩
  refine div_le_div_of_nonneg_right ?_ (mass_sum_pos ⟨j, hw⟩).le
  rcases hij with ⟨a, b, ha, hb, hab⟩ | ⟨hi, h⟩ | ⟨hi, h⟩
  · simp [ha, hb, mass, hab]
  · have := hlo j
    generalize w j = x at *
    cases x <;> simp_all [mass, Usable]
  · have : mass lo (w i) = 0 := by
      generalize w i = x at hi
      cases x <;> simp_all [mass, Usable]
    rw [this]; exact mass_nonneg _ _

/-- Strict version: a strictly larger finite log-weight gets strictly more weight. -/
theorem C02_strictly_monotone (lo : ℝ) {n : ℕ} (w : Fin n → XF) (i j : Fin n) (a b : ℝ)
    (hi : w i = fin a) (hj : w j = fin b) (hab : a < b) :
    ∃ x y : ℝ, (normalize1 lo w).2 i = fin x ∧ (normalize1 lo w).2 j = fin y ∧ x < y := by
  have hw : ∃ k, Usable (w k) := ⟨j, by rw [hj]; trivial⟩
  refine ⟨_, _, normalize1_usable lo w hw i, normalize1_usable lo w hw j, ?_⟩
  refine div_lt_div_of_pos_right ?_ (mass_sum_pos hw)
  simp [hi, hj, mass, hab]

example : (∀ k r, (![fin 1, fin 2] : Fin 2 → XF) k = fin r → (-5 : ℝ) ≤ r) ∧
    ∃ a b, (![fin 1, fin 2] : Fin 2 → XF) 0 = fin a ∧ (![fin 1, fin 2] : Fin 2 → XF) 1 = fin b ∧
      a < b := by
  refine ⟨?_, 1, 2, rfl, rfl, by norm_num⟩
  intro k r h
  fin_cases k <;> simp at h <;> subst h <;> norm_num

/-! ## C03 -/

/-- C03 where it holds: without NaN and `+inf` a second normalisation of the (cleaned) weights returns
the same values as the first.
Missing: vectors with NaN or `+inf`, for which it is false, see `C03_negation`. -/
theorem C03_repeatable_partial (lo : ℝ) {n : ℕ} (w : Fin n → XF) (h : ∀ i, Usable (w i)) :
    (normalize1 lo (normalize1 lo w).1).2 = (normalize1 lo w).2 := by
  have hc : ∀ i, (normalize1 lo w).1 i = nanToNum lo (w i) := fun i => rfl
  have hm : ∀ i, mass lo ((normalize1 lo w).1 i) = mass lo (w i) := by
    intro i
    rw [hc]
    have := h i
    generalize w i = x at *
    cases x <;> simp_all [mass, nanToNum, Usable]
  funext i
  rw [normalize1_usable lo w ⟨i, h i⟩, normalize1_usable lo _ ⟨i, ?_⟩]
  · simp only [hm]
  · rw [hc]
    obtain ⟨r, hr⟩ := nanToNum_usable (lo := lo) (h i)
    rw [hr]; trivial

example : ∀ i, Usable ((![ninf, fin 2, fin 0] : Fin 3 → XF) i) := by
  intro i; fin_cases i <;> simp [Usable]

/-- What a second normalisation of a completely unusable vector gives: uniform weights, although the
first one gave NaN. -/
theorem C03_second_read_uniform (lo : ℝ) {n : ℕ} (w : Fin n → XF) (h : ∀ i, ¬ Usable (w i))
    (i : Fin n) : (normalize1 lo (normalize1 lo w).1).2 i = fin (1 / (n : ℝ)) := by
  have hc : ∀ i, (normalize1 lo w).1 i = ninf := by
    intro i
    show nanToNum lo (w i) = ninf
    have := h i
    generalize w i = x at *
    cases x <;> simp_all [nanToNum, Usable]
  rw [normalize1_usable lo _ ⟨i, by rw [hc]; trivial⟩]
  simp only [hc, mass, Finset.sum_const, Finset.card_univ, Fintype.card_fin, nsmul_eq_mul]
  congr 1
  have : Real.exp lo ≠ 0 := Real.exp_ne_zero _
  field_simp

/-- C03 is false: with one NaN and one `-inf` weight the first normalisation gives `(0, 1)`, the second
`(1/2, 1/2)`. -/
theorem C03_negation (lo : ℝ) :
    (normalize1 lo ![nan, ninf]).2 = ![fin 0, fin 1] ∧
    (normalize1 lo (normalize1 lo ![nan, ninf]).1).2 = ![fin (1 / 2), fin (1 / 2)] := by
  have hc : (normalize1 lo ![nan, ninf]).1 = ![ninf, fin lo] := by
    funext i; fin_cases i <;> rfl
  have he : Real.exp lo ≠ 0 := Real.exp_ne_zero _
  constructor
  · funext i
    rw [normalize1_usable lo ![nan, ninf] ⟨1, trivial⟩]
    fin_cases i <;> simp [Fin.sum_univ_two, mass, he]
  · rw [hc]
    funext i
    rw [normalize1_usable lo ![ninf, fin lo] ⟨1, trivial⟩]
    fin_cases i <;> simp [Fin.sum_univ_two, mass] <;> field_simp <;> norm_num

/-! ## C04 -/

/-- C04: bounds of the ESS of log-weights, with both equality cases. -/
theorem C04_ess_bounds (lo : ℝ) {n : ℕ} (w : Fin n → XF) (h : ∃ i, Usable (w i)) :
    ∃ (e : ℝ) (p : Fin n → ℝ), (getEss1 lo w false).2 = fin e ∧
      (∀ i, (normalize1 lo w).2 i = fin (p i)) ∧ 1 ≤ e ∧ e ≤ n ∧
      (e = n ↔ ∀ i, p i = 1 / (n : ℝ)) ∧ (e = 1 ↔ ∃ i, p i = 1) := by
  have hp := isProb_mass lo w h
  set p : Fin n → ℝ := fun i => mass lo (w i) / ∑ j, mass lo (w j) with hpdef
  have hn : ∀ i, (normalize1 lo w).2 i = fin (p i) := normalize1_usable lo w h
  obtain ⟨h1, h2⟩ := isProb_sq hp
  have hpos : 0 < ∑ i, p i * p i := by
    rcases (Finset.sum_nonneg fun i (_ : i ∈ Finset.univ) => mul_self_nonneg (p i)).lt_or_eq with h | h
    · exact h
    · rw [← h] at h1; linarith
  refine ⟨1 / ∑ i, p i * p i, p, ?_, hn, ?_, ?_, ?_, ?_⟩
  · show fin 1 / ∑ i, (normalize1 lo w).2 i * (normalize1 lo w).2 i = _
    simp only [hn]
    exact getEss_value hp
  · rw [le_div_iff₀ hpos]; linarith
  · rw [div_le_iff₀ hpos]; linarith
  · rw [← isProb_sq_uniform hp, div_eq_iff hpos.ne']
    exact eq_comm
  · rw [← isProb_sq_degenerate hp, div_eq_iff hpos.ne', one_mul]
    exact eq_comm

/-- C04 for weights that are already normalised. -/
theorem C04_ess_bounds_normalized (lo : ℝ) {n : ℕ} (p : Fin n → ℝ) (hp : IsProb p) :
    ∃ e : ℝ, getEss1 lo (fun i => fin (p i)) true = (fun i => fin (p i), fin e) ∧ 1 ≤ e ∧ e ≤ n ∧
      (e = n ↔ ∀ i, p i = 1 / (n : ℝ)) ∧ (e = 1 ↔ ∃ i, p i = 1) := by
  obtain ⟨h1, h2⟩ := isProb_sq hp
  have hpos : 0 < ∑ i, p i * p i := by
    rcases (Finset.sum_nonneg fun i (_ : i ∈ Finset.univ) => mul_self_nonneg (p i)).lt_or_eq with h | h
    · exact h
    · rw [← h] at h1; linarith
  refine ⟨1 / ∑ i, p i * p i, ?_, ?_, ?_, ?_, ?_⟩
  · show (_, fin 1 / ∑ i, fin (p i) * fin (p i)) = _
    rw [getEss_value hp]
  · rw [le_div_iff₀ hpos]; linarith
  · rw [div_le_iff₀ hpos]; linarith
  · rw [← isProb_sq_uniform hp, div_eq_iff hpos.ne']
    exact eq_comm
  · rw [← isProb_sq_degenerate hp, div_eq_iff hpos.ne', one_mul]
    exact eq_comm

example : IsProb (![1 / 4, 3 / 4] : Fin 2 → ℝ) := by
  constructor
  · intro i; fin_cases i <;> norm_num
  · norm_num [Fin.sum_univ_two]

/-! ## C05 -/

/-- C05: what the two-dimensional code does to one column is what the one-dimensional code does to that
column alone, both for the result and for the in-place cleaning. -/
theorem C05_normalize_columnwise (lo : ℝ) {n b : ℕ} (w : Fin n → Fin b → XF) (c : Fin b) :
    (fun i => (normalize2 lo w).2 i c) = (normalize1 lo fun i => w i c).2 ∧
    (fun i => (normalize2 lo w).1 i c) = (normalize1 lo fun i => w i c).1 := ⟨rfl, rfl⟩

/-- C05: normalised weights, cleaned weights and ESS of a column depend on that column only. -/
theorem C05_columns_independent (lo : ℝ) {n b : ℕ} (w w' : Fin n → Fin b → XF) (c : Fin b)
    (normalized : Bool) (h : ∀ i, w i c = w' i c) :
    (∀ i, (normalize2 lo w).2 i c = (normalize2 lo w').2 i c) ∧
    (∀ i, (normalize2 lo w).1 i c = (normalize2 lo w').1 i c) ∧
    (getEss2 lo w normalized).2 c = (getEss2 lo w' normalized).2 c ∧
    (getEss2 lo w normalized).2 c = (getEss1 lo (fun i => w i c) normalized).2 := by
  have hc : (fun i => w i c) = fun i => w' i c := funext h
  have h2 : ∀ i, (normalize2 lo w).2 i c = (normalize2 lo w').2 i c := by
    intro i; rw [normalize2_col, normalize2_col, hc]
  refine ⟨h2, fun i => congrArg (nanToNum lo) (h i), ?_, ?_⟩
  · cases normalized
    · show fin 1 / ∑ i, (normalize2 lo w).2 i c * (normalize2 lo w).2 i c =
        fin 1 / ∑ i, (normalize2 lo w').2 i c * (normalize2 lo w').2 i c
      simp only [h2]
    · show fin 1 / ∑ i, w i c * w i c = fin 1 / ∑ i, w' i c * w' i c
      simp only [h]
  · cases normalized <;> rfl

example : ∀ i, (![![fin 1, nan], ![fin 2, fin 0]] : Fin 2 → Fin 2 → XF) i 0 =
    (![![fin 1, fin 7], ![fin 2, pinf]] : Fin 2 → Fin 2 → XF) i 0 := by
  intro i; fin_cases i <;> rfl

end Verif.Props
