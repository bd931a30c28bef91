import Verif.Model.Resampling
import Verif.Lemmas.Utils
import Mathlib.Order.Interval.Finset.Nat
import Mathlib.Data.Int.Interval
import Mathlib.MeasureTheory.Integral.IntervalIntegral.Basic
import Mathlib.Analysis.SpecialFunctions.Integrals.Basic

namespace Verif

open XF Spec

/-- Entry is at least `v`. -/
def GeVal (v : ℝ) (x : XF) : Prop := x = pinf ∨ ∃ r, x = fin r ∧ v ≤ r

theorem geVal_fin (v r : ℝ) : GeVal v (fin r) ↔ v ≤ r := by
  simp [GeVal]

theorem searchsorted_le {n : ℕ} (c : Fin n → XF) (v : ℝ) : searchsorted c v ≤ n := by
  unfold searchsorted
  exact List.findIdx_le_length.trans (by simp)

theorem searchsorted_lt {n : ℕ} (c : Fin n → XF) (v : ℝ) (i : Fin n) (h : GeVal v (c i)) :
    searchsorted c v ≤ i := by
  unfold searchsorted
  by_contra hlt
  push Not at hlt
  have := List.not_of_lt_findIdx hlt
  simp at this
  rcases h with h | ⟨r, h, hr⟩
  · exact this.1 h
  · exact absurd hr (not_le.2 (this.2 r h))

theorem searchsorted_eq {n : ℕ} (c : Fin n → XF) (v : ℝ) (i : Fin n) :
    searchsorted c v = i ↔ GeVal v (c i) ∧ ∀ j, j < i → ¬ GeVal v (c j) := by
  unfold searchsorted
  rw [List.findIdx_eq (by simp)]
  simp only [List.getElem_ofFn, decide_eq_true_eq, decide_eq_false_iff_not]
  constructor
  · rintro ⟨h1, h2⟩
    refine ⟨h1, fun j hj => h2 j hj⟩
  · rintro ⟨h1, h2⟩
    refine ⟨h1, fun j hj => h2 ⟨j, lt_trans hj i.2⟩ hj⟩

theorem searchsorted_mono {n : ℕ} (c : Fin n → XF) {v v' : ℝ} (h : v ≤ v') :
    searchsorted c v ≤ searchsorted c v' := by
  by_cases hlt : searchsorted c v' < n
  · have := (searchsorted_eq c v' ⟨_, hlt⟩).1 rfl
    refine searchsorted_lt c v ⟨_, hlt⟩ ?_
    rcases this.1 with h1 | ⟨r, h1, hr⟩
    · exact Or.inl h1
    · exact Or.inr ⟨r, h1, h.trans hr⟩
  · exact (searchsorted_le c v).trans (not_lt.1 hlt)

/-- Sum of the first `k` weights. -/
noncomputable def prefixSum {n : ℕ} (p : Fin n → ℝ) (k : ℕ) : ℝ :=
  ∑ j ∈ Finset.univ.filter (fun j : Fin n => (j : ℕ) < k), p j

theorem prefixSum_zero {n : ℕ} (p : Fin n → ℝ) : prefixSum p 0 = 0 := by
  simp [prefixSum]

theorem prefixSum_full {n : ℕ} (p : Fin n → ℝ) : prefixSum p n = ∑ j, p j := by
  simp [prefixSum]

theorem prefixSum_succ {n : ℕ} (p : Fin n → ℝ) (i : Fin n) :
    prefixSum p (i + 1) = prefixSum p i + p i := by
  unfold prefixSum
  have : Finset.univ.filter (fun j : Fin n => (j : ℕ) < i + 1) =
      insert i (Finset.univ.filter (fun j : Fin n => (j : ℕ) < i)) := by
    ext j
    simp only [Finset.mem_filter, Finset.mem_univ, true_and, Finset.mem_insert]
    rw [Nat.lt_succ_iff_lt_or_eq, or_comm]
    rw [← Fin.ext_iff]
  rw [this, Finset.sum_insert (by simp), add_comm]

theorem prefixSum_mono {n : ℕ} {p : Fin n → ℝ} (h : ∀ i, 0 ≤ p i) {k l : ℕ} (hkl : k ≤ l) :
    prefixSum p k ≤ prefixSum p l := by
  unfold prefixSum
  apply Finset.sum_le_sum_of_subset_of_nonneg
  · intro j hj
    simp only [Finset.mem_filter, Finset.mem_univ, true_and] at hj ⊢
    omega
  · intro j _ _; exact h j

theorem cumsum1_fin {n : ℕ} {p : Fin n → ℝ} (h : ∑ j, p j = 1) (i : Fin n) :
    cumsum1 (fun j => fin (p j)) i = fin (prefixSum p (i + 1)) := by
  unfold cumsum1
  split_ifs with hi
  · rw [hi, prefixSum_full, h]
  · rw [sum_fin]
    congr 2
    ext j
    simp only [Finset.mem_filter, Finset.mem_univ, true_and, Fin.le_def]
    omega

/-- Which particle position `j` selects, for normalised weights and a positive position. -/
theorem systematicRow_eq {n : ℕ} {p : Fin n → ℝ} (hp : IsProb p) (u : Fin n → ℝ) (j i : Fin n)
    (hu : 0 < u j) :
    systematicRow (fun k => fin (p k)) u j = i ↔
      (n : ℝ) * prefixSum p i < j + u j ∧ (j : ℝ) + u j ≤ n * prefixSum p (i + 1) := by
  have hn : (0 : ℝ) < n := by exact_mod_cast j.pos
  unfold systematicRow
  rw [searchsorted_eq]
  simp only [cumsum1_fin hp.2, geVal_fin, positions, div_le_iff₀ hn, not_le]
  constructor
  · rintro ⟨h1, h2⟩
    refine ⟨?_, by linarith⟩
    by_cases hi : (i : ℕ) = 0
    · rw [hi, prefixSum_zero, mul_zero]
      positivity
    · have := h2 ⟨i - 1, by omega⟩ (by rw [Fin.lt_def]; simp; omega)
      have e : (i : ℕ) - 1 + 1 = i := by omega
      simp only [e] at this
      linarith
  · rintro ⟨h1, h2⟩
    refine ⟨by linarith, fun k hk => ?_⟩
    have : prefixSum p (k + 1) ≤ prefixSum p i := prefixSum_mono hp.1 (by rw [Fin.lt_def] at hk; omega)
    nlinarith

/-- Number of times particle `i` is selected. -/
noncomputable def offspring {n : ℕ} (r : Fin n → ℕ) (i : ℕ) : ℕ :=
  (Finset.univ.filter fun j => r j = i).card

theorem floor_sub_floor (a d : ℝ) :
    ⌊d⌋ ≤ ⌊a + d⌋ - ⌊a⌋ ∧ ⌊a + d⌋ - ⌊a⌋ ≤ ⌈d⌉ := by
  constructor
  · have := Int.le_floor_add a d; linarith
  · have h1 : a + d < (⌊a⌋ + 1 + ⌈d⌉ : ℤ) := by
      push_cast
      linarith [Int.lt_floor_add_one a, Int.le_ceil d]
    have := Int.floor_lt.2 h1
    linarith

theorem offspring_eq {n : ℕ} {p : Fin n → ℝ} (hp : IsProb p) (u : ℝ) (hu0 : 0 < u) (hu1 : u ≤ 1)
    (i : Fin n) :
    ((offspring (systematicRow (fun k => fin (p k)) fun _ => u) i : ℕ) : ℤ) =
      ⌊n * prefixSum p i - u + n * p i⌋ - ⌊n * prefixSum p i - u⌋ := by
  set a : ℝ := n * prefixSum p i - u with ha
  have hn : (0 : ℝ) < n := by exact_mod_cast i.pos
  have hb : n * prefixSum p (i + 1) - u = a + n * p i := by rw [prefixSum_succ]; rw [ha]; ring
  have hle : ⌊a⌋ ≤ ⌊a + n * p i⌋ := Int.floor_mono (by nlinarith [hp.1 i])
  have ha1 : -1 ≤ a := by
    have : 0 ≤ prefixSum p i := Finset.sum_nonneg fun j _ => hp.1 j
    rw [ha]; nlinarith
  have hfa : -1 ≤ ⌊a⌋ := Int.le_floor.2 (by exact_mod_cast ha1)
  have hbn : ⌊a + n * p i⌋ < n := by
    rw [Int.floor_lt, ← hb]
    have : prefixSum p (i + 1) ≤ prefixSum p n := prefixSum_mono hp.1 i.2
    rw [prefixSum_full, hp.2] at this
    push_cast
    nlinarith
  have key : offspring (systematicRow (fun k => fin (p k)) fun _ => u) i =
      (Finset.Ioc ⌊a⌋ ⌊a + n * p i⌋).card := by
    unfold offspring
    refine Finset.card_bij (fun j _ => (j : ℤ)) ?_ ?_ ?_
    · intro j hj
      simp only [Finset.mem_filter, Finset.mem_univ, true_and] at hj
      rw [systematicRow_eq hp _ j i hu0] at hj
      rw [Finset.mem_Ioc, Int.floor_lt, Int.le_floor, ← hb]
      push_cast
      constructor <;> [(rw [ha]; linarith [hj.1]); linarith [hj.2]]
    · intro j _ k _ h
      have : (j : ℤ) = k := h
      exact Fin.ext (by exact_mod_cast this)
    · intro z hz
      rw [Finset.mem_Ioc] at hz
      have hz0 : 0 ≤ z := by omega
      obtain ⟨m, rfl⟩ := Int.eq_ofNat_of_zero_le hz0
      have hm : m < n := by omega
      refine ⟨⟨m, hm⟩, ?_, rfl⟩
      simp only [Finset.mem_filter, Finset.mem_univ, true_and]
      rw [systematicRow_eq hp _ _ i hu0]
      rw [Int.floor_lt, Int.le_floor, ← hb] at hz
      push_cast at hz
      simp only
      constructor <;> [(rw [ha] at hz; linarith [hz.1]); linarith [hz.2]]
  rw [key, Int.card_Ioc, Int.toNat_of_nonneg (by omega)]

/-- Integral of the offspring count over the uniform draw. -/
theorem integral_offspring {n : ℕ} {p : Fin n → ℝ} (hp : IsProb p) (i : Fin n) :
    ∫ u in (0 : ℝ)..1, (offspring (systematicRow (fun k => fin (p k)) fun _ => u) i : ℝ) = n * p i := by
  classical
  set a : ℝ := n * prefixSum p i with ha
  set b : ℝ := n * prefixSum p (i + 1) with hb
  have hn : (0 : ℝ) < n := by exact_mod_cast i.pos
  have hab : b - a = n * p i := by rw [hb, ha, prefixSum_succ]; ring
  have ha0 : 0 ≤ a := mul_nonneg hn.le (Finset.sum_nonneg fun j _ => hp.1 j)
  have hab' : a ≤ b := by nlinarith [hp.1 i]
  have hbn : b ≤ n := by
    have : prefixSum p (i + 1) ≤ prefixSum p n := prefixSum_mono hp.1 i.2
    rw [prefixSum_full, hp.2] at this
    nlinarith
  let f : ℝ → ℝ := Set.indicator (Set.Ioc a b) 1
  have hfi : ∀ x y : ℝ, IntervalIntegrable f MeasureTheory.volume x y := by
    intro x y
    rw [intervalIntegrable_iff]
    refine MeasureTheory.IntegrableOn.indicator ?_ measurableSet_Ioc
    exact MeasureTheory.integrableOn_const (by simp) (by simp)
  have h1 : ∫ u in (0 : ℝ)..1, (offspring (systematicRow (fun k => fin (p k)) fun _ => u) i : ℝ) =
      ∫ u in (0 : ℝ)..1, ∑ j : Fin n, f ((j : ℝ) + u) := by
    apply intervalIntegral.integral_congr_ae
    filter_upwards with u
    intro hu
    rw [Set.uIoc_of_le zero_le_one] at hu
    unfold offspring
    rw [Finset.card_filter]
    push_cast
    refine Finset.sum_congr rfl fun j _ => ?_
    have := systematicRow_eq hp (fun _ => u) j i hu.1
    simp only [f, Set.indicator_apply, Set.mem_Ioc, Pi.one_apply, ha, hb]
    by_cases hc : systematicRow (fun k => fin (p k)) (fun _ => u) j = i
    · rw [if_pos hc, if_pos (this.1 hc)]
    · rw [if_neg hc, if_neg (fun h => hc (this.2 h))]
  have h2 : ∀ j : ℕ, ∫ u in (0 : ℝ)..1, f ((j : ℝ) + u) = ∫ t in (j : ℝ)..((j + 1 : ℕ) : ℝ), f t := by
    intro j
    rw [intervalIntegral.integral_comp_add_left]
    simp
  rw [h1, intervalIntegral.integral_finsetSum]
  · rw [Fin.sum_univ_eq_sum_range (fun j => ∫ u in (0 : ℝ)..1, f ((j : ℝ) + u)) n]
    simp only [h2]
    rw [intervalIntegral.sum_integral_adjacent_intervals (a := fun k : ℕ => (k : ℝ))
      (fun k _ => hfi _ _)]
    rw [intervalIntegral.integral_of_le (by exact_mod_cast n.zero_le)]
    rw [MeasureTheory.integral_indicator measurableSet_Ioc]
    rw [MeasureTheory.Measure.restrict_restrict measurableSet_Ioc]
    have : Set.Ioc a b ∩ Set.Ioc ((0 : ℕ) : ℝ) n = Set.Ioc a b := by
      apply Set.inter_eq_left.2
      intro x hx
      exact ⟨by push_cast; linarith [hx.1], hx.2.trans hbn⟩
    rw [this]
    simp [MeasureTheory.Measure.real, hab]
    exact Or.inl (hp.1 i)
  · intro j _
    have := (hfi ((j : ℝ) + 0) ((j : ℝ) + 1)).comp_add_left (j : ℝ)
    simpa using this

end Verif
