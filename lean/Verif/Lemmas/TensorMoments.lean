import Verif.Model.TensorMoments
import Verif.Spec.TensorMoments
import Verif.Lemmas.TensorMove
import Verif.Props.TensorGaussian

/-!
# Lemmas about the moments of a state on tensors
-/

namespace Verif.Torch

open Matrix

theorem partG_reads {N : ℕ} {t : Tensor} {ev bs : List ℕ} {F : Fin N → List ℕ → Fin (dim ev) → ℝ} (h : PartG t ev bs F) :
    ∃ G, ReadsE t ev (bs ++ [N]) G ∧ ∀ (n : Fin N) b, InShape bs b → G (b ++ [n.val]) = F n b := by
  refine ⟨fun s j => t.val (compIx ev j.val ++ broadcastIndex (bs ++ [N]) s), ⟨h.1, fun s j => rfl⟩, fun n b hb => funext fun j => ?_⟩
  dsimp only
  rw [broadcastIndex_self (inShape_concat hb n)]
  exact h.2 n b hb j

theorem weightG_reads {N : ℕ} {t : Tensor} {bs : List ℕ} {W : Fin N → List ℕ → ℝ} (h : WeightG t bs W) :
    ∃ G, Reads0 t (bs ++ [N]) G ∧ ∀ (n : Fin N) b, InShape bs b → G (b ++ [n.val]) = W n b := by
  refine ⟨fun s => t.val (broadcastIndex (bs ++ [N]) s), ⟨h.1, fun s => rfl⟩, fun n b hb => ?_⟩
  dsimp only
  rw [broadcastIndex_self (inShape_concat hb n)]
  exact h.2 n b hb

/-- The covariance when particles, filters and components are as many, so that the weights of line 131 are read with filters in place of
particles and components in place of filters. -/
theorem cube_ok {n : ℕ} {x v : Tensor} {X : List ℕ → Fin n → ℝ} {V : List ℕ → Fin n → ℝ} {W : List ℕ → ℝ} (hx : Reads1 x n ([n] ++ [n]) X)
    (h1 : Reads1 v n [n] V) (h0 : Reads0 v ([n] ++ [n]) W) :
    ∃ m c r cc z, Tensor.zip (· * ·) v x = .ok m ∧ Tensor.zip (· - ·) x m.sum0 = .ok c ∧ c.unsqueeze2 = .ok r ∧
      c.unsqueeze1.matmul r = .ok cc ∧ Tensor.zip (· * ·) v.unsqueeze1.unsqueeze1 cc = .ok z ∧
      Reads2 z.sum0 n n [n] fun s => of fun i j => ∑ k : Fin n, W (broadcastIndex [n] s ++ [k.val]) *
        ((X (broadcastIndex [n] s ++ [k.val]) i - ∑ l : Fin n, V (broadcastIndex [n] s ++ [l.val]) i * X (broadcastIndex [n] s ++ [l.val]) i) *
        (X (broadcastIndex [n] s ++ [k.val]) j - ∑ l : Fin n, V (broadcastIndex [n] s ++ [l.val]) j * X (broadcastIndex [n] s ++ [l.val]) j)) := by
  obtain ⟨m, t, a1, a2, a3, a4, a5⟩ := zip_reads1 (f := (· * ·)) h1 hx (Sub.append [n] [n]) (Sub.refl _)
  obtain rfl := a3.antisymm a4
  have b1 := sum0_reads1 a5
  obtain ⟨c, t, c1, c2, c3, c4, c5⟩ := zip_reads1 (f := (· - ·)) hx b1 (Sub.refl _) (Sub.append [n] [n])
  obtain rfl := c2.antisymm c4
  obtain ⟨r, r1, r2⟩ := row_reads c5
  obtain ⟨cc, t, d1, d2, -, d3, d4⟩ := matmul_reads (column_reads c5) r2 (Sub.refl _) (Sub.refl _)
  obtain rfl := d2.antisymm d3
  obtain ⟨z, z1, z2⟩ := weigh_reads2 h0 d4
  have h := sum0_reads2 z2
  refine ⟨m, c, r, cc, z, a1, c1, r1, d1, z1, h.1, fun s i j => (h.2 s i j).trans ?_⟩
  show ∑ k : Fin n, _ = ∑ k : Fin n, _
  refine Finset.sum_congr rfl fun k _ => ?_
  show W (broadcastIndex [n] s ++ [k.val]) * (of _ * of _ : Matrix (Fin n) (Fin n) ℝ) i j = _
  rw [Matrix.mul_apply, Fin.sum_univ_one]
  dsimp only [of_apply]
  rw [broadcastIndex_prefix]

end Verif.Torch
