import Verif.Model.Pyro
import Verif.Lemmas.GradientScore
import Verif.Lemmas.Smoothing

/-!
# The factor for `pyro`
-/

namespace Verif.Pyro

open Verif XF Verif.Spec Verif.GradientScore

variable {N : ℕ} {X Y : Type}

/-- If the slice has one state per observation, the factor is the mean of the sums of all terms, at the times of the states. -/
theorem factor_times (D : Densities X Y) {k : ℕ} (hk : 0 < k) (x : List (Fin N → X)) (y : List Y) (paths : Fin N → ℕ → X)
    (τ : ℕ → ℕ) (L : ℕ) (hx : x.length = L + 1) (hs : (slice1 k x).length = y.length)
    (ht : (slice1 k ((List.range (L + 1)).map τ)).length = y.length) (hp : ∀ n v, x[n]? = some v → ∀ i, paths i n = v i) :
    factor D k ((List.range (L + 1)).map τ) x y
      = .ok (average fun i => (∑ n : Fin L, D.hidden (τ n) (paths i n) (paths i (n + 1)))
        + (∑ n : Fin y.length, D.obs (τ (1 + n * k)) (paths i (1 + n * k)) y[n]) + D.init (paths i 0)) := by
  obtain ⟨x0, xs, rfl⟩ : ∃ a l, x = a :: l := by
    cases x with
    | nil => simp at hx
    | cons a l => exact ⟨a, l, rfl⟩
  have hl : xs.length = L := by simpa using hx
  unfold factor
  simp only [List.drop_one, List.tail_cons]
  show (broadcast _ _ _ >>= _) = _
  rw [broadcast_same _ _ _ (by rw [List.length_zip, List.length_map, hs, ht, min_self])]
  show Except.ok _ = _
  congr 1
  refine congrArg mean (funext fun i => ?_)
  rw [hp 0 x0 rfl i]
  congr 2
  · rw [← List.sum_ofFn]
    congr 1
    apply List.ext_getElem
    · simp [hl]
    · intro n h1 h2
      have hn : n < L := by simpa using h2
      have a1 : paths i (n + 1) = xs[n] i := hp (n + 1) xs[n] (by simp [List.getElem?_eq_getElem (hl ▸ hn)]) i
      have a2 : paths i n = ((x0 :: xs)[n]'(by simp; omega)) i := hp n _ (List.getElem?_eq_getElem (by simp; omega)) i
      simp only [List.getElem_map, List.getElem_zipWith, List.getElem_zip, List.getElem_dropLast,
        List.getElem_range, List.getElem_ofFn, a1, a2, zero_add]
  · rw [← List.sum_ofFn]
    congr 1
    apply List.ext_getElem
    · simp only [List.length_map, List.length_zipWith, List.length_zip, hs, ht, List.length_ofFn, min_self]
    · intro n h1 h2
      have hn : n < y.length := by simpa using h2
      have e1 : (slice1 k (x0 :: xs))[n]'(hs ▸ hn) = (fun i => paths i (1 + n * k)) := by
        have h := slice1_getElem? hk (x0 :: xs) n
        rw [List.getElem?_eq_getElem (hs ▸ hn)] at h
        funext j
        exact (hp _ _ h.symm j).symm
      have e2 : (slice1 k ((List.range (L + 1)).map τ))[n]'(ht ▸ hn) = τ (1 + n * k) := by
        have h := slice1_getElem? hk ((List.range (L + 1)).map τ) n
        rw [List.getElem?_eq_getElem (ht ▸ hn), eq_comm, List.getElem?_eq_some_iff] at h
        obtain ⟨h3, h4⟩ := h
        rw [← h4]
        simp
      simp only [List.getElem_map, List.getElem_zipWith, List.getElem_zip, List.getElem_ofFn, Fin.getElem_fin, zero_add, e1, e2]

end Verif.Pyro
