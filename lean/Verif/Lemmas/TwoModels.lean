import Verif.Spec.TwoModels
import Verif.Lemmas.Unbiased
import Verif.Lemmas.GaussianProposal
import Verif.Lemmas.TensorGpf
import Verif.Lemmas.TensorRun
import Verif.Lemmas.Stream
import Verif.Spec.TensorResampling

/-!
# Lemmas about the two models of the particle filters
-/

namespace Verif.Torch

open Verif.Unbiased (sm)

variable {N B : ℕ} {ev : List ℕ}

/-- A function of the filter as a function of the index of a tensor. -/
def onIx {α : Type} (f : Fin B → α) (d : α) (b : List ℕ) : α := if h : b.headD 0 < B then f ⟨b.headD 0, h⟩ else d

theorem onIx_one {α : Type} (f : Fin B → α) (d : α) (b : Fin B) : onIx f d [b.val] = f b := by
  unfold onIx
  rw [dif_pos (show [b.val].headD 0 < B from b.2)]
  rfl

theorem inB (b : Fin B) : InShape [B] [b.val] := inShape_one.2 ⟨b, rfl, b.2⟩

theorem partG_of {t : Tensor} {x : Fin N → Fin B → Fin (dim ev) → ℝ}
    (h : t.shape = ev ++ [B, N] ∧ ∀ (n : Fin N) (b : Fin B) j, t.val (compIx ev j.val ++ [b.val, n.val]) = x n b j) :
    PartG t ev [B] fun (n : Fin N) b => onIx (x n) (fun _ => 0) b := by
  refine ⟨h.1, fun n b hb j => ?_⟩
  obtain ⟨k, rfl, hk⟩ := inShape_one.1 hb
  exact (h.2 n ⟨k, hk⟩ j).trans (congrFun (onIx_one (x n) _ ⟨k, hk⟩).symm j)

theorem weightG_of {t : Tensor} (h : t.shape = [B, N]) :
    WeightG t [B] fun (n : Fin N) b => t.val (b ++ [n.val]) := ⟨h, fun _ _ _ => rfl⟩

theorem indexG_of {t : Index} {a : Fin N → Fin B → Fin N}
    (h : t.shape = [B, N] ∧ ∀ (n : Fin N) (b : Fin B), t.val [b.val, n.val] = (a n b).val) :
    IndexG t [B] fun (n : Fin N) b => onIx (a n) n b := by
  refine ⟨h.1, fun n b hb => ?_⟩
  obtain ⟨k, rfl, hk⟩ := inShape_one.1 hb
  exact (h.2 n ⟨k, hk⟩).trans (congrArg Fin.val (onIx_one (a n) _ ⟨k, hk⟩).symm)

theorem eq_fin {w : Fin N → Fin B → XF} {v : Fin N → Fin B → ℝ} (h : ∀ n b, w n b = .fin (v n b)) : w = fun n b => .fin (v n b) := by
  funext n b
  exact h n b

theorem softmax_sm (w : Fin N → Fin B → ℝ) (b : Fin B) : sm w b = softmaxOf fun n => w n b := rfl

theorem ess_sm (w : Fin N → Fin B → ℝ) (b : Fin B) : Spec.essOf (sm w b) = essOf fun n => w n b := by
  unfold Spec.essOf essOf
  rw [softmax_sm, one_div]
  simp only [pow_two]

theorem countP_finRange (low : ℕ → Bool) : ∀ {B : ℕ} (b : ℕ), b ≤ B → (mask : Fin B → Bool) → (∀ i, mask i = low i.val) →
    colRank mask b = ((List.range b).filter low).length := by
  intro B b hb mask h
  unfold colRank
  rw [← List.countP_eq_length_filter, show mask = fun i => low i.val from funext h]
  rw [show ((List.finRange B).take b).countP (fun i => low i.val) = (((List.finRange B).take b).map Fin.val).countP low by
    rw [List.countP_map]; rfl]
  rw [List.map_take, List.map_coe_finRange_eq_range, List.take_range, min_eq_left hb]

theorem loglik_weighted (hN : 0 < N) (v u : Fin N → Fin B → ℝ) (b : Fin B) (pos : ∀ n, 0 < u n b) :
    logLikelihood (fun n b => .fin (v n b)) (some fun n b => .fin (u n b)) b = .fin (Real.log (∑ n, u n b * Real.exp (v n b))) := by
  have hp : 0 < ∑ n, u n b * Real.exp (v n b) :=
    Finset.sum_pos (fun n _ => mul_pos (pos n) (Real.exp_pos _)) ⟨⟨0, hN⟩, Finset.mem_univ _⟩
  rw [logLikelihood_weighted _ _ b (fun n => u n b) (fun _ => rfl) (fun n => (pos n).le) (fun n => Or.inr ⟨_, rfl⟩) ⟨⟨0, hN⟩, _, rfl⟩]
  exact if_neg hp.ne'

theorem onIx_values (x : Fin N → Fin B → Fin (dim ev) → ℝ) (b : Fin B) :
    (fun k : Fin N => onIx (x k) (fun _ => (0 : ℝ)) [b.val]) = fun k => x k b := funext fun k => onIx_one _ _ b

/-- Normalised weights of tensors that hold finite log-weights. -/
theorem normalized_holds (hN : 0 < N) {w : Tensor} (hw : w.shape = [B, N]) :
    ∃ v, normalizeT w = .ok v ∧ v.shape = [B, N] ∧
      ∀ (n : Fin N) (b : Fin B), v.val [b.val, n.val] = sm (fun (n : Fin N) (b : Fin B) => w.val [b.val, n.val]) b n := by
  obtain ⟨v, v1, v2⟩ := normalizeT_ok hN (weightG_of (N := N) hw)
  exact ⟨v, v1, v2.1, fun n b => v2.2 n _ (inB b)⟩

theorem sysFin_first {p : Fin N → ℝ} {u : ℝ} {n j : Fin N} (h : FirstAbove p ((n.val + u) / N) j) : Unbiased.sysFin p u n = j := by
  have e : Unbiased.sysIdx p u n = j.val := by
    unfold Unbiased.sysIdx systematicRow
    rw [searchsorted_eq]
    simp only [Unbiased.cumsum1_real, geVal_fin, positions]
    exact ⟨h.1, fun i hi => not_le.2 (h.2 i hi)⟩
  unfold Unbiased.sysFin
  rw [dif_pos (by rw [e]; exact j.2)]
  exact Fin.ext e

end Verif.Torch
