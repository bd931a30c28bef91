import Verif.Model.TensorResampling
import Verif.Spec.TensorResampling
import Verif.Lemmas.TensorMove

/-!
# Lemmas about systematic resampling on tensors
-/

namespace Verif.Torch

theorem findIdx_first {N : ℕ} (g : ℕ → ℝ) (v : ℝ) [DecidablePred fun x => v ≤ x] (h : ∃ j < N, v ≤ g j) :
    ∃ j : Fin N, ((List.range N).map g).findIdx (fun x => decide (v ≤ x)) = j.val ∧ v ≤ g j ∧ ∀ i < j.val, g i < v := by
  obtain ⟨j, hj, hv⟩ := h
  have hl : ((List.range N).map g).findIdx (fun x => decide (v ≤ x)) < ((List.range N).map g).length :=
    List.findIdx_lt_length.2 ⟨g j, List.mem_map.2 ⟨j, List.mem_range.2 hj, rfl⟩, decide_eq_true hv⟩
  have h1 : v ≤ g (((List.range N).map g).findIdx fun x => decide (v ≤ x)) := by
    have := List.findIdx_getElem (w := hl)
    rw [List.getElem_map, List.getElem_range, decide_eq_true_iff] at this
    exact this
  refine ⟨⟨_, by rw [List.length_map, List.length_range] at hl; exact hl⟩, rfl, h1, fun i hi => ?_⟩
  have := List.not_of_lt_findIdx hi
  rw [List.getElem_map, List.getElem_range, decide_eq_false_iff_not, not_le] at this
  exact this

theorem sum_range_fin {N : ℕ} (f : ℕ → ℝ) (j : Fin N) : ∑ m ∈ Finset.range (j.val + 1), f m = ∑ i : Fin N with i ≤ j, f i.val := by
  symm
  refine Finset.sum_bij (fun i _ => i.val) (fun i hi => ?_) (fun a _ b _ h => Fin.ext h) (fun m hm => ?_) fun _ _ => rfl
  · have : i ≤ j := by simpa using hi
    exact Finset.mem_range.2 (Nat.lt_succ_of_le this)
  · have hm' := Finset.mem_range.1 hm
    have := j.2
    exact ⟨⟨m, by omega⟩, by simp only [Finset.mem_filter, Finset.mem_univ, true_and]; exact Fin.mk_le_of_le_val (by omega), rfl⟩

/-- The cumulated entries of a row as the code computes them. -/
noncomputable def cumulated (N : ℕ) (f : ℕ → ℝ) (j : ℕ) : ℝ := if j + 1 = N then 1 else ∑ m ∈ Finset.range (j + 1), f m

theorem cumulated_level {N : ℕ} (f : ℕ → ℝ) (j : Fin N) : cumulated N f j.val = level (fun i : Fin N => f i.val) j := by
  unfold cumulated level
  rw [sum_range_fin]

open Classical in
theorem row_first {N : ℕ} (hN : 0 < N) (f : ℕ → ℝ) (v : ℝ) (hv : v ≤ 1) :
    ∃ j : Fin N, ((List.range N).map (cumulated N f)).findIdx (fun x => decide (v ≤ x)) = j.val ∧
      FirstAbove (fun i : Fin N => f i.val) v j := by
  obtain ⟨j, j1, j2, j3⟩ := findIdx_first (N := N) (cumulated N f) v ⟨N - 1, by omega, by
    unfold cumulated
    rw [if_pos (by omega)]
    exact hv⟩
  refine ⟨j, j1, ?_, fun i hi => ?_⟩
  · rw [← cumulated_level]
    exact j2
  · rw [← cumulated_level]
    exact j3 i.val hi

theorem FirstAbove.unique {N : ℕ} {p : Fin N → ℝ} {v : ℝ} {i j : Fin N} (hi : FirstAbove p v i) (hj : FirstAbove p v j) : i = j := by
  rcases lt_trichotomy i j with h | h | h
  · exact absurd hi.1 (not_le.2 (hj.2 i h))
  · exact h
  · exact absurd hj.1 (not_le.2 (hi.2 j h))

/-- The first particle above a level of at most one. -/
theorem exists_first {N : ℕ} (hN : 0 < N) (p : Fin N → ℝ) (v : ℝ) (hv : v ≤ 1) : ∃ j, FirstAbove p v j := by
  classical
  obtain ⟨j, -, h⟩ := row_first hN (fun m => if h : m < N then p ⟨m, h⟩ else 0) v hv
  exact ⟨j, by simpa using h⟩

open Classical in
theorem systematicRows_ok {N m : ℕ} (hN : 0 < N) (u : ℕ → ℝ) (w : Tensor) (hw : w.shape = [N, m]) :
    ∃ r, systematicRows u w = .ok r ∧ r.shape = [N, m] ∧ ∀ k < m, ∀ n < N, r.val [n, k] =
      ((List.range N).map (cumulated N fun j => w.val [j, k])).findIdx fun x => decide ((n + u k) / N ≤ x) := by
  have e1 := zip_eq (f := (· + ·)) (x := ⟨[N, 1], fun i => (i.headD 0 : ℝ)⟩) (y := ⟨[1, m], fun i => u (i.tail.headD 0)⟩) (t := [N, m])
    rfl rfl (by simp only [broadcastShape, Option.map_some]; simp; omega)
  refine ⟨?w, ?eq, ?sh, ?val⟩
  case eq =>
    unfold systematicRows
    rw [hw]
    simp only [List.length_cons, List.length_nil, show ¬ (0 + 1 + 1 = 1) by omega, if_false, hw, List.headD_cons, List.getLastD_cons]
    rw [show List.getLastD [] m = m from rfl, e1, ok_bind]
    unfold Tensor.setLast Tensor.cumsum searchsortedT Tensor.map
    dsimp only
    rw [hw, if_neg (by simp; omega), ok_bind]
    dsimp only
    rw [if_pos rfl, ok_bind]
    rfl
  case sh => rfl
  case val =>
    intro k hk n hn
    dsimp only [List.headD_cons, List.tail_cons]
    congr 1
    · funext x
      congr 2
      simp [broadcastIndex]
      have a1 : (if N = 1 then (0 : ℝ) else n) = n := by
        split_ifs with h
        · rw [show n = 0 by omega]
          simp
        · rfl
      have a2 : (if m = 1 then 0 else k) = k := by split_ifs <;> omega
      rw [a1, a2]

end Verif.Torch
