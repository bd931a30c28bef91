import Verif.Lemmas.TensorGradient
import Verif.Spec.TensorGradient
import Verif.Props.TensorPyro
import Mathlib.Analysis.Calculus.Deriv.Add
import Mathlib.Analysis.Calculus.Deriv.Pow

/-!
# Property C146: the gradient proposal for every chain
-/

namespace Verif.Props

open Verif Verif.Torch

/-- However scalar observations are stored, `_model_likelihood` has one number for every chain, from its own paths, parameters and
prior. -/
theorem C146_target (N T : ℕ) (ev oev bs : List ℕ) (ho : oev.length ≤ 1)
    (hiddenLp obsLp initLp : Tensor → Except PyErr Tensor) (prior smoothed y : Tensor)
    (path : ℕ → Fin N → List ℕ → Fin (dim ev) → ℝ) (fy : ℕ → Fin (dim oev) → ℝ)
    (H : ℕ → Fin N → List ℕ → (Fin (dim ev) → ℝ) → ℝ) (O : ℕ → Fin N → List ℕ → (Fin (dim oev) → ℝ) → ℝ)
    (I : List ℕ → (Fin (dim ev) → ℝ) → ℝ) (R : List ℕ → ℝ)
    (hs : PathG smoothed ev bs T path) (hy : SeriesG y oev T fy)
    (hH : HiddenG N ev bs T hiddenLp H) (hO : ObsG N oev bs T obsLp O) (hI : InitG N ev bs initLp I)
    (hR : prior.shape = bs ∧ ∀ b, InShape bs b → prior.val b = R b) :
    ∃ z, modelLikelihood hiddenLp obsLp initLp (bs ++ [N, T]) oev prior smoothed y = .ok z ∧ z.shape = bs ∧
      ∀ b, InShape bs b → z.val b = averageLp N T I H O R path fy b := by
  obtain ⟨h, h1, h2⟩ := hH smoothed.rest0 (fun t => path (t + 1)) hs.rest0.1 hs.rest0.2
  obtain ⟨y', y1, y2, y3⟩ := reshape_reads ho bs N T hy
  obtain ⟨o, o1, o2⟩ := hO y' fy y2 y3
  obtain ⟨i, i1, i2⟩ := hI smoothed.first0 (path 0) hs.first0
  obtain ⟨a, a1, a2⟩ := h2.zip o2
  obtain ⟨c, c1, c2⟩ := zip_batch i2.mean0 hR
  obtain ⟨d, d1, d2, d3⟩ := zip_batch c2 a2.sum0.mean0
  refine ⟨d, ?_, d2, fun b hb => ?_⟩
  · unfold modelLikelihood
    simp only [y1, h1, o1, i1, a1, c1, d1, ok_bind]
  · rw [d3 b hb]
    unfold averageLp
    rw [Finset.sum_add_distrib]
    ring

/-- `logl.backward(torch.ones_like(logl))` gives each of `B` chains the derivative of its own number with respect to its own
parameter. -/
theorem C146_backward (N T B : ℕ) (ev oev : List ℕ) (ho : oev.length ≤ 1)
    (hiddenLp obsLp initLp : (Fin B → ℝ) → Tensor → Except PyErr Tensor) (prior : (Fin B → ℝ) → Tensor) (smoothed y : Tensor)
    (path : ℕ → Fin N → List ℕ → Fin (dim ev) → ℝ) (fy : ℕ → Fin (dim oev) → ℝ)
    (H : ℝ → ℕ → Fin N → List ℕ → (Fin (dim ev) → ℝ) → ℝ) (O : ℝ → ℕ → Fin N → List ℕ → (Fin (dim oev) → ℝ) → ℝ)
    (I : ℝ → List ℕ → (Fin (dim ev) → ℝ) → ℝ) (R : ℝ → ℝ)
    (hs : PathG smoothed ev [B] T path) (hy : SeriesG y oev T fy)
    (hH : ∀ θ, HiddenG N ev [B] T (hiddenLp θ) fun t n b => H (own θ b) t n b)
    (hO : ∀ θ, ObsG N oev [B] T (obsLp θ) fun t n b => O (own θ b) t n b)
    (hI : ∀ θ, InitG N ev [B] (initLp θ) fun b => I (own θ b) b)
    (hR : ∀ θ, (prior θ).shape = [B] ∧ ∀ b : Fin B, (prior θ).val [b.val] = R (θ b)) :
    ∃ z : (Fin B → ℝ) → Tensor,
      (∀ θ, modelLikelihood (hiddenLp θ) (obsLp θ) (initLp θ) ([B] ++ [N, T]) oev (prior θ) smoothed y = .ok (z θ)) ∧
      ∀ θ (c : Fin B) g, HasDerivAt (fun s => averageLp N T (I s) (H s) (O s) (fun _ => R s) path fy [c.val]) g (θ c) →
        HasDerivAt (fun s => (z (Function.update θ c s)).total) g (θ c) := by
  have own_of (θ : Fin B → ℝ) (b : Fin B) : own θ [b.val] = θ b := dif_pos b.2
  have key (θ : Fin B → ℝ) := C146_target N T ev oev [B] ho (hiddenLp θ) (obsLp θ) (initLp θ) (prior θ) smoothed y path fy _ _ _
    (fun b => R (own θ b)) hs hy (hH θ) (hO θ) (hI θ) ⟨(hR θ).1, fun b hb => by
      obtain ⟨k, rfl, hk⟩ := inShape_one.1 hb
      rw [(hR θ).2 ⟨k, hk⟩, own_of θ ⟨k, hk⟩]⟩
  choose z z1 z2 z3 using key
  refine ⟨z, z1, fun θ c g hg => ?_⟩
  have e (θ : Fin B → ℝ) : (z θ).total = ∑ b : Fin B, averageLp N T (I (θ b)) (H (θ b)) (O (θ b)) (fun _ => R (θ b)) path fy [b.val] := by
    unfold Tensor.total
    rw [z2 θ]
    dsimp only
    rw [← Fin.sum_univ_eq_sum_range (fun k => (z θ).val [k])]
    refine Finset.sum_congr rfl fun b _ => ?_
    rw [z3 θ [b.val] (inShape_one.2 ⟨_, rfl, b.2⟩)]
    unfold averageLp
    dsimp only
    rw [own_of]
  have e' (s : ℝ) : (z (Function.update θ c s)).total =
      averageLp N T (I s) (H s) (O s) (fun _ => R s) path fy [c.val] +
      ∑ b ∈ Finset.univ.erase c, averageLp N T (I (θ b)) (H (θ b)) (O (θ b)) (fun _ => R (θ b)) path fy [b.val] := by
    rw [e, ← Finset.add_sum_erase _ _ (Finset.mem_univ c), Function.update_self]
    congr 1
    refine Finset.sum_congr rfl fun b hb => ?_
    rw [Function.update_of_ne (Finset.ne_of_mem_erase hb)]
  simp only [e']
  exact hg.add_const _

/-- A case of `C146_target`: two chains of three paths, scalar observations at two times stored as vectors with one component. -/
example : ∃ z, modelLikelihood flatLp (Dist.normal ⟨[2, 3, 2], fun i => (i.headD 0 : ℝ)⟩ ⟨[2, 3, 2], fun _ => 1⟩).logProb flatLp [2, 3, 2] []
    ⟨[2], fun i => (i.headD 0 : ℝ)⟩ ⟨[2, 3, 3], fun i => (i.headD 0 : ℝ)⟩ ⟨[1, 2], fun i => (i.getLastD 0 : ℝ)⟩ = .ok z ∧ z.shape = [2] ∧
    z.val [1] = (∑ _n : Fin 3, (0 + ∑ t ∈ Finset.range 2, (0 + normalLogProb (1 : ℕ) 1 (t : ℝ)))) / (3 : ℕ) + (1 : ℕ) := by
  obtain ⟨z, h1, h2, h3⟩ := C146_target 3 2 [] [] [2] (by simp) flatLp
    (Dist.normal ⟨[2, 3, 2], fun i => (i.headD 0 : ℝ)⟩ ⟨[2, 3, 2], fun _ => 1⟩).logProb flatLp ⟨[2], fun i => (i.headD 0 : ℝ)⟩
    ⟨[2, 3, 3], fun i => (i.headD 0 : ℝ)⟩ ⟨[1, 2], fun i => (i.getLastD 0 : ℝ)⟩
    (fun _ _ b _ => (b.headD 0 : ℝ)) (fun t _ => (t : ℝ)) (fun _ _ _ _ => 0)
    (fun _ _ b x => normalLogProb (b.headD 0 : ℝ) 1 (x (0 : Fin 1))) (fun _ _ => 0) (fun b => (b.headD 0 : ℝ))
    ⟨rfl, fun _ _ _ b hb _ => by obtain ⟨k, rfl, -⟩ := inShape_one.1 hb; rfl⟩ (Or.inr ⟨rfl, rfl, fun _ _ _ => rfl⟩)
    (fun z V hz _ => ⟨_, rfl, hz, fun _ _ _ _ _ => rfl⟩)
    (C145_normal_density 3 2 [2] _ _ (fun _ _ b => (b.headD 0 : ℝ)) (fun _ _ _ => 1)
      ⟨rfl, fun _ _ _ b hb => by obtain ⟨k, rfl, -⟩ := inShape_one.1 hb; rfl⟩ ⟨rfl, fun _ _ _ _ _ => rfl⟩ (by simp))
    (fun z V hz => ⟨_, rfl, hz.1, fun _ _ _ => rfl⟩) ⟨rfl, fun _ _ => rfl⟩
  exact ⟨z, h1, h2, h3 [1] (inShape_one.2 ⟨1, rfl, by omega⟩)⟩

/-- A log-density of zero for observations at one time, given two paths of three chains. -/
def flatLp' (_ : Tensor) : Except PyErr Tensor := .ok ⟨[3, 2, 1], fun _ => 0⟩

/-- A case of `C146_backward`: three chains with prior `θ ^ 2` and flat densities; the second has derivative `2 θ`. -/
example (θ : Fin 3 → ℝ) : ∃ z : (Fin 3 → ℝ) → Tensor,
    (∀ θ, modelLikelihood flatLp flatLp' flatLp [3, 2, 1] [] ⟨[3], fun i => own θ i ^ 2⟩ ⟨[3, 2, 2], fun _ => 0⟩ ⟨[1], fun _ => 0⟩ = .ok (z θ)) ∧
    HasDerivAt (fun s => (z (Function.update θ 1 s)).total) (2 * θ 1) (θ 1) := by
  obtain ⟨z, h1, h2⟩ := C146_backward 2 1 3 [] [] (by simp) (fun _ => flatLp) (fun _ => flatLp') (fun _ => flatLp)
    (fun θ => ⟨[3], fun i => own θ i ^ 2⟩) ⟨[3, 2, 2], fun _ => 0⟩ ⟨[1], fun _ => 0⟩ (fun _ _ _ _ => 0) (fun _ _ => 0) (fun _ _ _ _ _ => 0)
    (fun _ _ _ _ _ => 0) (fun _ _ _ => 0) (fun s => s ^ 2) ⟨rfl, fun _ _ _ _ _ _ => rfl⟩ (Or.inl ⟨rfl, fun _ _ _ => rfl⟩)
    (fun _ z V hz _ => ⟨_, rfl, hz, fun _ _ _ _ _ => rfl⟩) (fun _ z V hz _ => ⟨_, rfl, rfl, fun _ _ _ _ _ => rfl⟩)
    (fun _ z V hz => ⟨_, rfl, hz.1, fun _ _ _ => rfl⟩) (fun θ => ⟨rfl, fun b => by dsimp only; rw [show own θ [b.val] = θ b from dif_pos b.2]⟩)
  refine ⟨z, h1, h2 θ 1 _ ?_⟩
  have := hasDerivAt_pow 2 (θ 1)
  simpa [averageLp] using this

end Verif.Props
