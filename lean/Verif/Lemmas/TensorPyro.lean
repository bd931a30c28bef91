import Verif.Spec.TensorPyro
import Verif.Lemmas.TensorSmoothing

/-!
# Lemmas about the factor for `pyro` on tensors
-/

namespace Verif.Torch

theorem sum0_of {x : Tensor} {s : List ℕ} {n : ℕ} (h : x.shape = s ++ [n]) :
    x.sum0 = ⟨s, fun i => ∑ k ∈ Finset.range n, x.val (i ++ [k])⟩ := by
  obtain ⟨xs, xv⟩ := x
  subst h
  unfold Tensor.sum0
  rcases s with _ | ⟨a, s⟩
  · rfl
  · simp only [List.cons_append, List.getLastD_cons, Tensor.mk.injEq]
    refine ⟨by rw [← List.cons_append, List.dropLast_concat], ?_⟩
    rw [List.getLastD_eq_getLast?, List.getLast?_concat]
    rfl

theorem mean0_of {x : Tensor} {s : List ℕ} {n : ℕ} (h : x.shape = s ++ [n]) :
    x.mean0 = ⟨s, fun i => (∑ k ∈ Finset.range n, x.val (i ++ [k])) / n⟩ := by
  obtain ⟨xs, xv⟩ := x
  subst h
  unfold Tensor.mean0
  rcases s with _ | ⟨a, s⟩
  · rfl
  · simp only [List.cons_append, List.getLastD_cons, Tensor.mk.injEq]
    refine ⟨by rw [← List.cons_append, List.dropLast_concat], ?_⟩
    rw [List.getLastD_eq_getLast?, List.getLast?_concat]
    rfl

theorem inShape_concat {bs b : List ℕ} (h : InShape bs b) {N : ℕ} (n : Fin N) : InShape (bs ++ [N]) (b ++ [n.val]) :=
  inShape_append.2 ⟨b, _, rfl, h, inShape_one.2 ⟨_, rfl, n.2⟩⟩

theorem broadcastIndex_self {s b : List ℕ} (h : InShape s b) : broadcastIndex s b = b := by
  have e := broadcastIndex_inShape h [] []
  simpa [broadcastIndex] using e

theorem TimesG.sum0 {N : ℕ} {t : Tensor} {bs : List ℕ} {T : ℕ} {F : ℕ → Fin N → List ℕ → ℝ} (h : TimesG t bs T F) :
    WeightG t.sum0 bs fun n b => ∑ s ∈ Finset.range T, F s n b := by
  rw [sum0_of (s := bs ++ [N]) (n := T) (by rw [h.1]; simp)]
  refine ⟨rfl, fun n b hb => ?_⟩
  dsimp only
  refine Finset.sum_congr rfl fun s hs => ?_
  rw [← h.2 s (Finset.mem_range.1 hs) n b hb]
  simp

theorem WeightG.zip {N : ℕ} {x y : Tensor} {bs : List ℕ} {F G : Fin N → List ℕ → ℝ} (hx : WeightG x bs F) (hy : WeightG y bs G) :
    ∃ z, Tensor.zip (· + ·) x y = .ok z ∧ WeightG z bs fun n b => F n b + G n b := by
  refine ⟨_, zip_eq hx.1 hy.1 (broadcastShape_self _), rfl, fun n b hb => ?_⟩
  dsimp only
  rw [broadcastIndex_self (inShape_concat hb n), hx.2 n b hb, hy.2 n b hb]

theorem WeightG.mean0 {N : ℕ} {x : Tensor} {bs : List ℕ} {F : Fin N → List ℕ → ℝ} (hx : WeightG x bs F) :
    x.mean0.shape = bs ∧ ∀ b, InShape bs b → x.mean0.val b = (∑ n, F n b) / N := by
  rw [mean0_of hx.1]
  refine ⟨rfl, fun b hb => ?_⟩
  dsimp only
  rw [← Fin.sum_univ_eq_sum_range (fun k => x.val (b ++ [k]))]
  exact congrArg (· / _) (Finset.sum_congr rfl fun n _ => hx.2 n b hb)

theorem PathG.rest0 {N : ℕ} {z : Tensor} {ev bs : List ℕ} {T : ℕ} {path : ℕ → Fin N → List ℕ → Fin (dim ev) → ℝ}
    (h : PathG z ev bs T path) : z.rest0.shape = ev ++ (bs ++ [N, T]) ∧
      ∀ t < T, ∀ (n : Fin N) b, InShape bs b → ∀ j, z.rest0.val (compIx ev j.val ++ (b ++ [n.val, t])) = path (t + 1) n b j := by
  have e : z.shape = (ev ++ (bs ++ [N])) ++ [T + 1] := by rw [h.1]; simp
  refine ⟨?_, fun t ht n b hb j => ?_⟩
  · unfold Tensor.rest0
    rw [e, List.dropLast_concat, List.getLastD_eq_getLast?, List.getLast?_concat]
    simp
  · unfold Tensor.rest0
    dsimp only
    rw [show compIx ev j.val ++ (b ++ [n.val, t]) = (compIx ev j.val ++ (b ++ [n.val])) ++ [t] by simp, List.dropLast_concat,
      List.getLastD_eq_getLast?, List.getLast?_concat, ← h.2 (t + 1) (by omega) n b hb j]
    simp

theorem PathG.first0 {N : ℕ} {z : Tensor} {ev bs : List ℕ} {T : ℕ} {path : ℕ → Fin N → List ℕ → Fin (dim ev) → ℝ}
    (h : PathG z ev bs T path) : PartG z.first0 ev bs (path 0) := by
  have e : z.shape = (ev ++ (bs ++ [N])) ++ [T + 1] := by rw [h.1]; simp
  refine ⟨?_, fun n b hb j => ?_⟩
  · unfold Tensor.first0
    rw [e, List.dropLast_concat]
  · unfold Tensor.first0
    dsimp only
    rw [← h.2 0 (by omega) n b hb j]
    simp

theorem compIx_length (ev : List ℕ) (j : ℕ) : (compIx ev j).length = ev.length := by simp [compIx]

theorem spread_reads {y : Tensor} {oev : List ℕ} {K : ℕ} {fy : ℕ → Fin (dim oev) → ℝ} (bs : List ℕ) (N M : ℕ) (h1 : y.shape = oev ++ [K])
    (h2 : ∀ t < K, ∀ j, y.val (compIx oev j.val ++ [t]) = fy t j) :
    (y.spread (bs ++ [N, M])).shape = oev ++ (bs.map (fun _ => 1) ++ [1, K]) ∧
      ∀ t < K, ∀ j : Fin (dim oev), (y.spread (bs ++ [N, M])).val (compIx oev j.val ++ (bs.map (fun _ => 0) ++ [0, t])) = fy t j := by
  unfold Tensor.spread
  dsimp only
  rw [h1, List.dropLast_concat, List.getLastD_eq_getLast?, List.getLast?_concat,
    show bs ++ [N, M] = (bs ++ [N]) ++ [M] by simp, List.dropLast_concat]
  refine ⟨by simp, fun t ht j => ?_⟩
  rw [List.take_append_of_le_length (by rw [compIx_length]), List.take_of_length_le (by rw [compIx_length]),
    show compIx oev j.val ++ (bs.map (fun _ => 0) ++ [0, t]) = (compIx oev j.val ++ (bs.map (fun _ => 0) ++ [0])) ++ [t] by simp,
    List.getLastD_eq_getLast?, List.getLast?_concat]
  exact h2 t ht j

end Verif.Torch
