import Verif.Model.Threshold
import Mathlib.Analysis.SpecialFunctions.Pow.Real
import Mathlib.Tactic.Linarith
import Mathlib.Tactic.FieldSimp
import Mathlib.Tactic.Ring

/-!
# C61: threshold schedules
-/

namespace Verif.Props

open Verif.Threshold

/-- `p` is the entry of the first interval that contains the iteration. -/
def FirstInterval (d : List (ℤ × ℝ)) (iteration : ℤ) (p : ℤ × ℝ) : Prop :=
  p ∈ d ∧ iteration ≤ p.1 ∧ ∀ q ∈ d, iteration ≤ q.1 → p.1 ≤ q.1

/-- The part of the claim about interval thresholds, as stated. -/
def C61_claim : Prop :=
  ∀ (d : List (ℤ × ℝ)) (ending : ℝ) (iteration : ℤ) (p : ℤ × ℝ), (d.map Prod.fst).Nodup →
    FirstInterval d iteration p → (Thresholder.mkInterval d ending).get iteration = p.2

/-- A constant threshold is constant. -/
theorem C61_constant (t : ℝ) (iteration : ℤ) : (Thresholder.constant t).get iteration = t := by
  simp [Thresholder.get, Thresholder.mutate, Thresholder.min]

/-- A decaying threshold never increases, never falls below its minimum, starts at the start value and
halves every half-life until the minimum is reached. -/
theorem C61_decaying (min start : ℝ) (hs : 0 ≤ start) (hm : min ≤ start) (halfLife : ℤ) (hh : 0 < halfLife) :
    ∃ t, Thresholder.mkDecaying min start halfLife = some t ∧
      (∀ i j, i ≤ j → t.get j ≤ t.get i) ∧ (∀ i, min ≤ t.get i) ∧ t.get 0 = start ∧
      (∀ i, t.get i = max (start * (1 / 2 : ℝ) ^ ((i : ℝ) / halfLife)) min) ∧
      ∀ i, t.get (i + halfLife) = max (t.get i / 2) min ∨ t.get (i + halfLife) = min := by
  have hpos : (0 : ℝ) < halfLife := by exact_mod_cast hh
  have hexp : ∀ i : ℤ, Real.exp (-(Real.log 2 / halfLife) * i) = (1 / 2 : ℝ) ^ ((i : ℝ) / halfLife) := by
    intro i
    rw [Real.rpow_def_of_pos (by norm_num), one_div, Real.log_inv]
    congr 1
    field_simp
  refine ⟨.decaying min start (Real.log 2 / halfLife), ?_, ?_, ?_, ?_, ?_, ?_⟩
  · unfold Thresholder.mkDecaying
    rw [if_neg (by omega)]
  · intro i j hij
    unfold Thresholder.get Thresholder.mutate
    apply max_le_max_right
    apply mul_le_mul_of_nonneg_right _ hs
    apply Real.exp_le_exp.2
    have h1 : (0 : ℝ) ≤ Real.log 2 / halfLife := div_nonneg (Real.log_nonneg (by norm_num)) hpos.le
    have h2 : (i : ℝ) ≤ j := by exact_mod_cast hij
    nlinarith
  · intro i
    exact le_max_right _ _
  · simp [Thresholder.get, Thresholder.mutate, Thresholder.min, hm]
  · intro i
    show max (Real.exp (-(Real.log 2 / halfLife) * i) * start) min = _
    rw [hexp, mul_comm]
  · intro i
    have hhalf : Real.exp (-(Real.log 2 / halfLife) * (i + halfLife : ℤ)) =
        Real.exp (-(Real.log 2 / halfLife) * i) / 2 := by
      push_cast
      rw [mul_add, Real.exp_add]
      have : -(Real.log 2 / halfLife) * (halfLife : ℝ) = -Real.log 2 := by field_simp
      rw [this, Real.exp_neg, Real.exp_log (by norm_num)]
      ring
    show max (Real.exp (-(Real.log 2 / halfLife) * (i + halfLife : ℤ)) * start) min =
      max (max (Real.exp (-(Real.log 2 / halfLife) * i) * start) min / 2) min ∨ _ = min
    rw [hhalf]
    set x := Real.exp (-(Real.log 2 / halfLife) * i) * start
    have hx : Real.exp (-(Real.log 2 / halfLife) * i) / 2 * start = x / 2 := by
      simp only [x]; ring
    show max (Real.exp (-(Real.log 2 / halfLife) * i) / 2 * start) min = _ ∨
      max (Real.exp (-(Real.log 2 / halfLife) * (i + halfLife : ℤ)) * start) min = min
    rw [hhalf, hx]
    by_cases h : min ≤ x
    · left; rw [max_eq_left h]
    · right
      apply max_eq_right
      have hx0 : 0 ≤ x := mul_nonneg (Real.exp_pos _).le hs
      linarith [not_le.1 h]

/-- Where the sorted search ends up. -/
theorem find_sorted (d : List (ℤ × ℝ)) (iteration : ℤ) (p : ℤ × ℝ) (hn : (d.map Prod.fst).Nodup)
    (h : FirstInterval d iteration p) :
    (d.insertionSort fun a b => a.1 ≤ b.1).find? (fun u => iteration ≤ u.1) = some p := by
  have : Std.Total fun a b : ℤ × ℝ => a.1 ≤ b.1 := ⟨fun a b => le_total _ _⟩
  have : IsTrans (ℤ × ℝ) fun a b => a.1 ≤ b.1 := ⟨fun a b c => le_trans⟩
  have hperm := List.perm_insertionSort (fun a b : ℤ × ℝ => a.1 ≤ b.1) d
  have hsort := List.pairwise_insertionSort (fun a b : ℤ × ℝ => a.1 ≤ b.1) d
  have hn' : ((d.insertionSort fun a b => a.1 ≤ b.1).map Prod.fst).Nodup :=
    (hperm.map Prod.fst).nodup_iff.2 hn
  have h' : FirstInterval (d.insertionSort fun a b => a.1 ≤ b.1) iteration p :=
    ⟨hperm.mem_iff.2 h.1, h.2.1, fun q hq => h.2.2 q (hperm.mem_iff.1 hq)⟩
  generalize (d.insertionSort fun a b => a.1 ≤ b.1) = l at hsort hn' h'
  clear hn h hperm
  induction l with
  | nil => exact absurd h'.1 (by simp)
  | cons q l ih =>
    rw [List.find?_cons]
    by_cases hq : iteration ≤ q.1
    · simp only [hq, decide_true]
      have hle := h'.2.2 q List.mem_cons_self hq
      rcases List.mem_cons.1 h'.1 with rfl | hm
      · rfl
      · exfalso
        have hqp := (List.pairwise_cons.1 hsort).1 p hm
        have : q.1 = p.1 := le_antisymm hqp hle
        rw [List.map_cons, List.nodup_cons] at hn'
        exact hn'.1 (this ▸ List.mem_map.2 ⟨p, hm, rfl⟩)
    · simp only [hq, decide_false]
      refine ih (List.pairwise_cons.1 hsort).2 (List.nodup_cons.1 hn').2 ⟨?_, h'.2.1, ?_⟩
      · rcases List.mem_cons.1 h'.1 with rfl | hm
        · exact absurd h'.2.1 hq
        · exact hm
      · exact fun q' hq' => h'.2.2 q' (List.mem_cons_of_mem _ hq')

/-- Proved part: the value of the first interval that contains the iteration, provided that it is not
below the ending value, which acts as a lower bound; the ending value afterwards. Missing: intervals with
a value below the ending value. -/
theorem C61_interval_partial (d : List (ℤ × ℝ)) (ending : ℝ) (iteration : ℤ) (hn : (d.map Prod.fst).Nodup) :
    (∀ p, FirstInterval d iteration p → (Thresholder.mkInterval d ending).get iteration = max p.2 ending) ∧
      (∀ p, FirstInterval d iteration p → ending ≤ p.2 →
        (Thresholder.mkInterval d ending).get iteration = p.2) ∧
      ((∀ p ∈ d, p.1 < iteration) → (Thresholder.mkInterval d ending).get iteration = ending) := by
  have h1 : ∀ p, FirstInterval d iteration p →
      (Thresholder.mkInterval d ending).get iteration = max p.2 ending := by
    intro p hp
    show max (match (d.insertionSort fun a b => a.1 ≤ b.1).find? fun u => iteration ≤ u.1 with
      | some u => u.2 | none => ending) ending = _
    rw [find_sorted d iteration p hn hp]
  refine ⟨h1, fun p hp he => by rw [h1 p hp, max_eq_left he], fun h => ?_⟩
  show max (match (d.insertionSort fun a b => a.1 ≤ b.1).find? fun u => iteration ≤ u.1 with
      | some u => u.2 | none => ending) ending = _
  have : (d.insertionSort fun a b => a.1 ≤ b.1).find? (fun u => iteration ≤ u.1) = none := by
    rw [List.find?_eq_none]
    intro q hq
    have := h q ((List.perm_insertionSort _ d).mem_iff.1 hq)
    simpa using this
  rw [this]
  exact max_self _

/-- An interval threshold that rises at the end: 10% for the first 100 observations and 50% afterwards
is 50% from the start. -/
theorem C61_rising : (Thresholder.mkInterval [(100, 0.1)] 0.5).get 3 = 0.5 := by
  rw [(C61_interval_partial _ _ _ (by simp)).1 (100, 0.1) ⟨by simp, by norm_num, by simp⟩]
  norm_num

theorem C61_negation : ¬ C61_claim := by
  intro h
  have := h [(100, 0.1)] 0.5 3 (100, 0.1) (by simp) ⟨by simp, by norm_num, by simp⟩
  rw [C61_rising] at this
  norm_num at this

/-- A half-life of zero is refused. -/
theorem C61_zero_half_life (min start : ℝ) : Thresholder.mkDecaying min start 0 = none := by
  simp [Thresholder.mkDecaying]

example : (Thresholder.mkInterval [(200, 0.3), (100, 0.5)] 0.1).get 101 = 0.3 :=
  (C61_interval_partial _ _ _ (by simp)).2.1 (200, 0.3)
    ⟨by simp, by norm_num, by
      intro q hq hle
      simp only [List.mem_cons, List.not_mem_nil, or_false] at hq
      rcases hq with rfl | rfl
      · exact le_refl _
      · norm_num at hle⟩ (by norm_num)

example : ∃ t, Thresholder.mkDecaying 0.1 0.5 1000 = some t ∧ t.get 1000 = 0.25 := by
  obtain ⟨t, h1, -, -, -, h5, -⟩ := C61_decaying 0.1 0.5 (by norm_num) (by norm_num) 1000 (by norm_num)
  refine ⟨t, h1, ?_⟩
  rw [h5]
  norm_num

end Verif.Props
