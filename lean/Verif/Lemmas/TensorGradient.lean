import Verif.Model.TensorGradient
import Verif.Lemmas.TensorPyro

/-!
# Lemmas about what the gradient proposal differentiates, on tensors
-/

namespace Verif.Torch

theorem TimesG.zip {N T : ℕ} {x y : Tensor} {bs : List ℕ} {F G : ℕ → Fin N → List ℕ → ℝ} (hx : TimesG x bs T F) (hy : TimesG y bs T G) :
    ∃ z, Tensor.zip (· + ·) x y = .ok z ∧ TimesG z bs T fun s n b => F s n b + G s n b := by
  refine ⟨_, zip_eq hx.1 hy.1 (broadcastShape_self _), rfl, fun s hs n b hb => ?_⟩
  dsimp only
  rw [broadcastIndex_inShape hb, broadcastIndex_cons n.2, broadcastIndex_cons hs, show broadcastIndex [] [] = [] from rfl,
    hx.2 s hs n b hb, hy.2 s hs n b hb]

theorem offset_ones (bs : List ℕ) (K t : ℕ) : offset (bs.map (fun _ => 1) ++ [1, K]) (bs.map (fun _ => 0) ++ [0, t]) = t := by
  induction bs with
  | nil => simp [offset]
  | cons _ _ ih =>
    simp only [List.map_cons, List.cons_append, offset, ih]
    omega

theorem reshape_reads {y : Tensor} {oev : List ℕ} {K : ℕ} {fy : ℕ → Fin (dim oev) → ℝ} (ho : oev.length ≤ 1) (bs : List ℕ) (N M : ℕ)
    (h : SeriesG y oev K fy) :
    ∃ z, y.reshape (oev ++ ((bs ++ [N, M]).dropLast.map (fun _ => 1) ++ [y.shape.getLastD 0])) = .ok z ∧
      z.shape = oev ++ (bs.map (fun _ => 1) ++ [1, K]) ∧
      ∀ t < K, ∀ j : Fin (dim oev), z.val (compIx oev j.val ++ (bs.map (fun _ => 0) ++ [0, t])) = fy t j := by
  have e0 : y.shape.getLastD 0 = K := by
    rcases h with ⟨h, -⟩ | ⟨-, h, -⟩ <;> rw [h]
    · rw [List.getLastD_eq_getLast?, List.getLast?_concat]
      rfl
    · rfl
  have e1 : oev ++ ((bs ++ [N, M]).dropLast.map (fun _ => 1) ++ [y.shape.getLastD 0]) = oev ++ (bs.map (fun _ => 1) ++ [1, K]) := by
    rw [e0, show bs ++ [N, M] = (bs ++ [N]) ++ [M] by simp, List.dropLast_concat]
    simp
  rw [e1]
  refine ⟨⟨oev ++ (bs.map (fun _ => 1) ++ [1, K]), fun i =>
    y.val (entry y.shape (offset (oev ++ (bs.map (fun _ => 1) ++ [1, K])) i))⟩, ?_, rfl, ?_⟩
  · unfold Tensor.reshape
    refine if_pos ?_
    rcases h with ⟨h, -⟩ | ⟨rfl, h, -⟩ <;> rw [h] <;> simp
  · intro t ht j
    dsimp only
    rcases h with ⟨h, h'⟩ | ⟨rfl, h, h'⟩
    · rw [h, ← h' t ht j]
      congr 1
      match oev, ho, j with
      | [], _, j =>
        simp only [compIx, List.map_nil, List.nil_append]
        rw [offset_ones]
        simp [entry, Nat.mod_eq_of_lt ht]
      | [D], _, j =>
        have hj : j.val < D := j.2
        simp only [compIx, List.map_cons, List.map_nil, List.cons_append, List.nil_append, offset, entry]
        rw [offset_ones]
        have a1 : (j.val + D * t) % D = j.val := by rw [Nat.add_mul_mod_self_left, Nat.mod_eq_of_lt hj]
        have a2 : (j.val + D * t) / D = t := by
          rw [Nat.add_mul_div_left _ _ (by omega), Nat.div_eq_of_lt hj, Nat.zero_add]
        rw [a1, a2, Nat.mod_eq_of_lt ht]
      | _ :: _ :: _, ho, _ => simp at ho
    · rw [h, ← h' t ht j]
      congr 1
      simp only [compIx, List.map_nil, List.nil_append]
      rw [offset_ones]
      simp [entry, Nat.mod_eq_of_lt ht, Nat.mod_one]

/-- Sums of tensors with a number for every filter. -/
theorem zip_batch {x y : Tensor} {bs : List ℕ} {f g : List ℕ → ℝ} (hx : x.shape = bs ∧ ∀ b, InShape bs b → x.val b = f b)
    (hy : y.shape = bs ∧ ∀ b, InShape bs b → y.val b = g b) :
    ∃ z, Tensor.zip (· + ·) x y = .ok z ∧ z.shape = bs ∧ ∀ b, InShape bs b → z.val b = f b + g b := by
  refine ⟨_, zip_eq hx.1 hy.1 (broadcastShape_self _), rfl, fun b hb => ?_⟩
  dsimp only
  rw [broadcastIndex_self hb, hx.2 b hb, hy.2 b hb]

end Verif.Torch
