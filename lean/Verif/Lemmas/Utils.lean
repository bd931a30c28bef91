import Verif.Model.Utils
import Verif.Spec.Weights
import Verif.Lemmas.XFloat
import Mathlib.Algebra.Order.BigOperators.Ring.Finset
import Mathlib.Algebra.Order.Chebyshev
import Mathlib.Algebra.BigOperators.Field

namespace Verif

open XF Spec

theorem mass_nonneg (lo : ℝ) (x : XF) : 0 ≤ mass lo x := by
  cases x <;> simp [mass, Real.exp_nonneg]

theorem mass_pos {lo : ℝ} {x : XF} (h : Usable x) : 0 < mass lo x := by
  cases x <;> simp_all [mass, Usable, Real.exp_pos]

theorem mass_sum_pos {lo : ℝ} {n : ℕ} {w : Fin n → XF} (h : ∃ i, Usable (w i)) :
    0 < ∑ j, mass lo (w j) := by
  obtain ⟨i, hi⟩ := h
  exact Finset.sum_pos' (fun j _ => mass_nonneg lo (w j)) ⟨i, Finset.mem_univ _, mass_pos hi⟩

theorem nanToNum_cases (lo : ℝ) (x : XF) : nanToNum lo x = ninf ∨ ∃ r, nanToNum lo x = fin r := by
  cases x <;> simp [nanToNum]

theorem nanToNum_usable {lo : ℝ} {x : XF} (h : Usable x) : ∃ r, nanToNum lo x = fin r := by
  cases x <;> simp_all [nanToNum, Usable]

theorem exp_clean (lo m : ℝ) (x : XF) :
    exp (nanToNum lo x - fin m) = fin (mass lo x * Real.exp (-m)) := by
  cases x <;> simp [nanToNum, mass, ← Real.exp_add, sub_eq_add_neg]

theorem clean_sum (lo m : ℝ) {n : ℕ} (w : Fin n → XF) :
    ∑ j, exp (nanToNum lo (w j) - fin m) = fin ((∑ j, mass lo (w j)) * Real.exp (-m)) := by
  simp only [exp_clean, sum_fin, Finset.sum_mul]

open Classical in
theorem normalize1_snd (lo : ℝ) {n : ℕ} (w : Fin n → XF) (i : Fin n) :
    (normalize1 lo w).2 i =
      if ∑ j, softmax (fun i => nanToNum lo (w i) - vmax fun i => nanToNum lo (w i)) j = fin 0 then
        fin (1 / (n : ℝ))
      else softmax (fun i => nanToNum lo (w i) - vmax fun i => nanToNum lo (w i)) i := rfl

/-- Value of `normalize` when some log-weight is usable. -/
theorem normalize1_usable (lo : ℝ) {n : ℕ} (w : Fin n → XF) (h : ∃ i, Usable (w i)) (i : Fin n) :
    (normalize1 lo w).2 i = fin (mass lo (w i) / ∑ j, mass lo (w j)) := by
  have hS := mass_sum_pos (lo := lo) h
  obtain ⟨k, hk⟩ := h
  obtain ⟨r, hr⟩ := nanToNum_usable (lo := lo) hk
  rcases vmax_cases (fun i => nanToNum lo (w i)) (fun i => nanToNum_cases lo (w i)) with
    ⟨m, hm, -, -⟩ | ⟨-, hm⟩
  · have hE : (∑ j, mass lo (w j)) * Real.exp (-m) ≠ 0 :=
      mul_ne_zero hS.ne' (Real.exp_ne_zero _)
    have hn : ∀ j, softmax (fun i => nanToNum lo (w i) - vmax fun i => nanToNum lo (w i)) j =
        fin (mass lo (w j) / ∑ j, mass lo (w j)) := by
      intro j
      simp only [softmax, hm]
      rw [clean_sum, exp_clean, fin_div hE]
      congr 1
      rw [mul_div_mul_right _ _ (Real.exp_ne_zero _)]
    have hsum : ∑ j, softmax (fun i => nanToNum lo (w i) - vmax fun i => nanToNum lo (w i)) j =
        fin 1 := by
      simp only [hn, sum_fin, ← Finset.sum_div, div_self hS.ne']
    rw [normalize1_snd, hsum]
    rw [if_neg (by simp), hn]
  · rw [hm k] at hr; cases hr

/-- Value of `normalize` when no log-weight is usable. -/
theorem normalize1_unusable (lo : ℝ) {n : ℕ} (w : Fin n → XF) (h : ∀ i, ¬ Usable (w i)) (i : Fin n) :
    (normalize1 lo w).2 i = nan := by
  have hc : ∀ i, nanToNum lo (w i) = ninf := by
    intro i
    have := h i
    generalize w i = x at *
    cases x <;> simp_all [nanToNum, Usable]
  have hv : vmax (fun i => nanToNum lo (w i)) = ninf := by
    rcases vmax_cases (fun i => nanToNum lo (w i)) (fun i => nanToNum_cases lo (w i)) with
      ⟨m, -, ⟨j, hj⟩, -⟩ | ⟨hm, -⟩
    · rw [hc j] at hj; cases hj
    · exact hm
  have hs : ∀ j, softmax (fun i => nanToNum lo (w i) - vmax fun i => nanToNum lo (w i)) j = nan := by
    intro j
    simp only [softmax, hv]
    rw [hc j]
    have : ∑ k, exp (nanToNum lo (w k) - ninf) = nan :=
      sum_nan _ _ (Finset.mem_univ j) (by rw [hc j]; rfl)
    rw [this]; simp
  have hsum : ∑ j, softmax (fun i => nanToNum lo (w i) - vmax fun i => nanToNum lo (w i)) j = nan :=
    sum_nan _ _ (Finset.mem_univ i) (hs i)
  rw [normalize1_snd, hsum]
  rw [if_neg (by simp), hs]

/-- The two-dimensional code acts column by column. -/
theorem normalize2_col (lo : ℝ) {n b : ℕ} (w : Fin n → Fin b → XF) (i : Fin n) (c : Fin b) :
    (normalize2 lo w).2 i c = (normalize1 lo fun k => w k c).2 i := rfl

theorem isProb_mass (lo : ℝ) {n : ℕ} (w : Fin n → XF) (h : ∃ i, Usable (w i)) :
    IsProb fun i => mass lo (w i) / ∑ j, mass lo (w j) := by
  have hS := mass_sum_pos (lo := lo) h
  refine ⟨fun i => div_nonneg (mass_nonneg _ _) hS.le, ?_⟩
  rw [← Finset.sum_div, div_self hS.ne']

/-- Sum of squares of a probability vector: between `1/n` and `1`. -/
theorem isProb_sq {n : ℕ} {p : Fin n → ℝ} (h : IsProb p) :
    1 ≤ (n : ℝ) * ∑ i, p i * p i ∧ ∑ i, p i * p i ≤ 1 := by
  obtain ⟨h0, h1⟩ := h
  constructor
  · have := sq_sum_le_card_mul_sum_sq (s := (Finset.univ : Finset (Fin n))) (f := p)
    simp only [h1, Finset.card_univ, Fintype.card_fin, pow_two] at this
    linarith
  · have hp : ∀ i, p i ≤ 1 := fun i => h1 ▸ Finset.single_le_sum (fun j _ => h0 j) (Finset.mem_univ i)
    calc ∑ i, p i * p i ≤ ∑ i, p i := Finset.sum_le_sum fun i _ => by nlinarith [h0 i, hp i]
      _ = 1 := h1

theorem isProb_sq_uniform {n : ℕ} {p : Fin n → ℝ} (h : IsProb p) :
    (n : ℝ) * ∑ i, p i * p i = 1 ↔ ∀ i, p i = 1 / (n : ℝ) := by
  obtain ⟨h0, h1⟩ := h
  have hn : (n : ℝ) ≠ 0 := by
    intro h
    have : n = 0 := by exact_mod_cast h
    subst this
    simp at h1
  have key : ∑ i, (p i - 1 / n) * (p i - 1 / n) = ∑ i, p i * p i - 1 / n := by
    have : ∀ i, (p i - 1 / n) * (p i - 1 / n) = p i * p i - (2 / n) * p i + 1 / (n * n : ℝ) := by
      intro i; ring
    simp only [this, Finset.sum_add_distrib, Finset.sum_sub_distrib, ← Finset.mul_sum, h1,
      Finset.sum_const, Finset.card_univ, Fintype.card_fin, nsmul_eq_mul]
    field_simp
    ring
  constructor
  · intro hs i
    have hz : ∑ i, (p i - 1 / n) * (p i - 1 / n) = 0 := by
      rw [key, sub_eq_zero, eq_div_iff hn]; linarith
    have := (Finset.sum_eq_zero_iff_of_nonneg (fun i _ => mul_self_nonneg _)).1 hz i (Finset.mem_univ i)
    have := mul_self_eq_zero.1 this
    linarith
  · intro hu
    simp only [hu, Finset.sum_const, Finset.card_univ, Fintype.card_fin, nsmul_eq_mul]
    field_simp

theorem isProb_sq_degenerate {n : ℕ} {p : Fin n → ℝ} (h : IsProb p) :
    ∑ i, p i * p i = 1 ↔ ∃ i, p i = 1 := by
  obtain ⟨h0, h1⟩ := h
  have hp : ∀ i, p i ≤ 1 := fun i => h1 ▸ Finset.single_le_sum (fun j _ => h0 j) (Finset.mem_univ i)
  constructor
  · intro hs
    have hz : ∑ i, p i * (1 - p i) = 0 := by
      have : ∀ i, p i * (1 - p i) = p i - p i * p i := fun i => by ring
      simp only [this, Finset.sum_sub_distrib, h1, hs, sub_self]
    have hall := (Finset.sum_eq_zero_iff_of_nonneg
      (fun i _ => mul_nonneg (h0 i) (sub_nonneg.2 (hp i)))).1 hz
    by_contra hne
    push Not at hne
    have : ∀ i, p i = 0 := by
      intro i
      rcases mul_eq_zero.1 (hall i (Finset.mem_univ i)) with h | h
      · exact h
      · exact absurd (by linarith) (hne i)
    simp [this] at h1
  · rintro ⟨i, hi⟩
    have hz : ∀ j, j ≠ i → p j = 0 := by
      intro j hj
      have h2 : p i + p j ≤ 1 := by
        rw [← h1, ← Finset.add_sum_erase _ _ (Finset.mem_univ i)]
        have : p j ≤ ∑ x ∈ Finset.univ.erase i, p x :=
          Finset.single_le_sum (fun k _ => h0 k) (by simp [hj])
        linarith
      have := h0 j
      linarith
    rw [Finset.sum_eq_single i (fun j _ hj => by simp [hz j hj]) (by simp)]
    simp [hi]

theorem getEss_value {n : ℕ} {p : Fin n → ℝ} (h : IsProb p) :
    XF.fin 1 / ∑ i, XF.fin (p i) * XF.fin (p i) = XF.fin (1 / ∑ i, p i * p i) := by
  simp only [fin_mul, sum_fin]
  apply fin_div
  have := (isProb_sq h).1
  intro h0
  rw [h0] at this
  linarith

end Verif
