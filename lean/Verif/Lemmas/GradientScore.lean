import Verif.Lemmas.XFloat
import Verif.Spec.CompleteData
import Mathlib.Algebra.BigOperators.Fin
import Mathlib.Algebra.BigOperators.Group.List.Lemmas

/-!
# The function that the gradient proposal differentiates
-/

namespace Verif.GradientScore

open Verif XF Verif.Spec

theorem div_add_pos (a b : XF) {c : ℝ} (hc : 0 < c) : (a + b) / fin c = a / fin c + b / fin c := by
  have h0 : c ≠ 0 := hc.ne'
  have hp : pinf / fin c = pinf := by
    show (if 0 ≤ c then pinf else ninf) = pinf
    rw [if_pos hc.le]
  have hn : ninf / fin c = ninf := by
    show (if 0 ≤ c then ninf else pinf) = ninf
    rw [if_pos hc.le]
  cases a <;> cases b <;> simp [hp, hn, fin_div h0, add_div]

theorem mean_add {N : ℕ} (hN : 0 < N) (u v : Fin N → XF) : mean (fun i => u i + v i) = mean u + mean v := by
  unfold mean
  rw [Finset.sum_add_distrib, div_add_pos _ _ (by exact_mod_cast hN)]

theorem broadcast_same {α β γ : Type} (f : α → β → γ) (as : List α) (bs : List β) (h : as.length = bs.length) :
    broadcast f as bs = .ok (List.zipWith f as bs) := by
  match as, bs, h with
  | [], [], _ => rfl
  | [a], [b], _ => rfl
  | a :: a' :: as, b :: b' :: bs, h => simp only [broadcast]; rw [if_pos h]

theorem broadcast_error {α β γ : Type} (f : α → β → γ) (as : List α) (bs : List β) (h : as.length ≠ bs.length)
    (h1 : as.length ≠ 1) (h2 : bs.length ≠ 1) : broadcast f as bs = .error .runtimeError := by
  match as, bs, h, h1, h2 with
  | [], [], h, _, _ => exact absurd rfl h
  | [], b :: b' :: bs, h, _, _ => simp only [broadcast]; rw [if_neg h]
  | a :: a' :: as, [], h, _, _ => simp only [broadcast]; rw [if_neg h]
  | a :: a' :: as, b :: b' :: bs, h, _, _ => simp only [broadcast]; rw [if_neg h]

variable {N : ℕ} {X Y : Type}

/-- If there is one observation for every transition, the function is the mean of the sums of all terms, at the times
of the states. -/
theorem modelLikelihood_times (hN : 0 < N) (D : Densities X Y) (prior : XF) (x : List (Fin N → X)) (y : List Y)
    (paths : Fin N → ℕ → X) (base : ℕ) (τ : ℕ → ℕ) (hx : x.length = y.length + 1)
    (hp : ∀ n v, x[n]? = some v → ∀ i, paths i n = v i) :
    modelLikelihood D prior base ((List.range x.length).map τ) x y
      = .ok (average (fun i => D.init (paths i 0) + ∑ n : Fin y.length, (D.hidden (base + τ n) (paths i n) (paths i (n + 1))
        + D.obs (base + τ (n + 1)) (paths i (n + 1)) y[n])) + prior) := by
  obtain ⟨x0, xs, rfl⟩ : ∃ a l, x = a :: l := by
    cases x with
    | nil => simp at hx
    | cons a l => exact ⟨a, l, rfl⟩
  have hl : xs.length = y.length := by simpa using hx
  unfold modelLikelihood
  simp only [List.drop_one, List.tail_cons]
  have hxt : (xs.zip (((List.range (x0 :: xs).length).map τ).tail.map (base + ·))).length = y.length := by
    simp [hl]
  show (broadcast _ _ _ >>= _) = _
  rw [broadcast_same _ _ _ hxt]
  show (broadcast _ _ _ >>= _) = _
  rw [broadcast_same _ _ _ (by simp [hl])]
  show Except.ok _ = _
  congr 1
  have hpath : ∀ i, paths i 0 = x0 i := fun i => hp 0 x0 rfl i
  have e : ∀ i, (List.map (fun r : Fin N → XF => r i) (List.zipWith (fun a b i => a i + b i)
      (List.zipWith (fun s v i => D.hidden s.2 (s.1 i) (v.1 i))
        ((x0 :: xs).dropLast.zip (((List.range (x0 :: xs).length).map τ).dropLast.map (base + ·)))
        (xs.zip (((List.range (x0 :: xs).length).map τ).tail.map (base + ·))))
      (List.zipWith (fun s y i => D.obs s.2 (s.1 i) y)
        (xs.zip (((List.range (x0 :: xs).length).map τ).tail.map (base + ·))) y))).sum
      = ∑ n : Fin y.length, (D.hidden (base + τ n) (paths i n) (paths i (n + 1))
        + D.obs (base + τ (n + 1)) (paths i (n + 1)) y[n]) := by
    intro i
    rw [← List.sum_ofFn]
    congr 1
    apply List.ext_getElem
    · simp [hl]
    · intro n h1 h2
      have hn : n < y.length := by simpa using h2
      have hn' : n < xs.length := by rw [hl]; exact hn
      have a1 : paths i (n + 1) = xs[n] i := hp (n + 1) xs[n] (by simp [List.getElem?_eq_getElem hn']) i
      have a2 : paths i n = ((x0 :: xs)[n]'(by simp; omega)) i :=
        hp n _ (List.getElem?_eq_getElem (by simp; omega)) i
      simp only [List.getElem_map, List.getElem_zipWith, List.getElem_zip, List.getElem_dropLast, List.getElem_tail,
        List.getElem_range, List.getElem_ofFn, Fin.getElem_fin, a1, a2]
  have e0 : (fun i => D.init (paths i 0)) = fun i => D.init (x0 i) := funext fun i => by rw [hpath]
  rw [show average (fun i => D.init (paths i 0) + ∑ n : Fin y.length, (D.hidden (base + τ n) (paths i n) (paths i (n + 1))
        + D.obs (base + τ (n + 1)) (paths i (n + 1)) y[n]))
    = mean (fun i => D.init (paths i 0)) + mean _ from mean_add hN _ _, e0, add_right_comm]
  congr 2
  exact congrArg mean (funext e)

/-- With a number of transitions that matches neither the number of observations nor one, it raises. -/
theorem modelLikelihood_error (D : Densities X Y) (prior : XF) (base : ℕ) (time : List ℕ) (x : List (Fin N → X))
    (y : List Y) (hne : x ≠ []) (ht : time.length = x.length) (h1 : x.length ≠ 2) (h2 : y.length ≠ 1)
    (h3 : x.length ≠ y.length + 1) : modelLikelihood D prior base time x y = .error .runtimeError := by
  obtain ⟨x0, xs, rfl⟩ : ∃ a l, x = a :: l := by
    cases x with
    | nil => exact absurd rfl hne
    | cons a l => exact ⟨a, l, rfl⟩
  have hlen : (xs.zip ((time.drop 1).map (base + ·))).length = xs.length := by simp [ht]
  unfold modelLikelihood
  simp only [List.drop_one, List.tail_cons]
  show (broadcast _ _ _ >>= _) = _
  simp only [List.length_cons] at h1 h3
  rw [broadcast_error]
  · rfl
  · rw [← List.drop_one, hlen]; omega
  · rw [← List.drop_one, hlen]; omega
  · exact h2

/-- With two states and any number of observations, the transition is counted once for every observation and all
observations are evaluated at the second state. -/
theorem modelLikelihood_two (hN : 0 < N) (D : Densities X Y) (prior : XF) (base t1 t2 : ℕ) (x1 x2 : Fin N → X)
    (y : List Y) : modelLikelihood D prior base [t1, t2] [x1, x2] y
      = .ok (average (fun i => D.init (x1 i) + ∑ n : Fin y.length, (D.hidden (base + t1) (x1 i) (x2 i)
        + D.obs (base + t2) (x2 i) y[n])) + prior) := by
  have h : modelLikelihood D prior base [t1, t2] [x1, x2] y
      = .ok (mean (fun i => D.init (x1 i)) + prior + mean fun i =>
        (((y.map fun y i => D.obs (base + t2) (x2 i) y).map fun b i => D.hidden (base + t1) (x1 i) (x2 i) + b i).map
          fun r : Fin N → XF => r i).sum) := rfl
  rw [h]
  congr 1
  rw [show average (fun i => D.init (x1 i) + ∑ n : Fin y.length, (D.hidden (base + t1) (x1 i) (x2 i)
        + D.obs (base + t2) (x2 i) y[n])) = mean (fun i => D.init (x1 i)) + mean _ from mean_add hN _ _, add_right_comm]
  congr 2
  refine congrArg mean (funext fun i => ?_)
  rw [List.map_map, List.map_map, ← List.sum_ofFn]
  congr 1
  apply List.ext_getElem
  · simp
  · intro n h1 h2
    simp

end Verif.GradientScore
