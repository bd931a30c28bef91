import Verif.Model.TensorGpf
import Verif.Spec.TensorGaussian
import Verif.Spec.TensorSteps

/-!
# The Gaussian particle filter that is alone
-/

namespace Verif.Torch

open Matrix

/-- A log-density of the observation that works particle by particle. -/
def DensG (N : ℕ) (ev bs : List ℕ) (f : Tensor → Except PyErr Tensor) (L : Fin N → List ℕ → (Fin (dim ev) → ℝ) → ℝ) : Prop :=
  ∀ (z : Tensor) (G : Fin N → List ℕ → Fin (dim ev) → ℝ), PartG z ev bs G → ∃ t, f z = .ok t ∧ WeightG t bs fun n b => L n b (G n b)

/-- A state from the normal distribution with the mean and covariance of the particles `x` with weights `v`. -/
noncomputable def fittedDraw {N : ℕ} (chol : ∀ n, Matrix (Fin n) (Fin n) ℝ → Matrix (Fin n) (Fin n) ℝ) (ev : List ℕ)
    (x : Fin N → Fin (dim ev) → ℝ) (v : Fin N → ℝ) (eps : Fin (dim ev) → ℝ) : Fin (dim ev) → ℝ :=
  (fun e => ∑ k, v k * x k e) +
    covFactor chol ev (of fun e e' => ∑ k, v k * ((x k e - ∑ i, v i * x i e) * (x k e' - ∑ i, v i * x i e'))) *ᵥ eps

/-- The Gaussian particle filter with draws `S` and weights `V`, or propagation with `T` if there is no observation. -/
def gpfMove {N d : ℕ} : OneObs N d → OneMove N d
  | .seen S V => fun s s' l => s'.a = s.a ∧ (∀ n, s'.x n = S n s.x (softmaxOf s.w)) ∧ (∀ n, s'.w n = V n s.x (softmaxOf s.w)) ∧
      l = Real.log ((∑ n, Real.exp (V n s.x (softmaxOf s.w))) / N)
  | .missing T => fun s s' l => s'.a = s.a ∧ (∀ n, s'.x n = T n (s.x n)) ∧ (∀ n, s'.w n = s.w n) ∧ l = 0

/-- Steps of the `GPF`, and what they do to filter `b`. -/
inductive GpfStep (N : ℕ) (ev bs : List ℕ) : StepT → (List ℕ → OneMove N (dim ev)) → Prop
  | seen {f S V} : PropG N ev bs f S V →
    GpfStep N ev bs ⟨gpfPredict, .seen (gpfCorrect f)⟩ fun b => gpfMove (.seen (fun n => S n b) fun n => V n b)
  | missing {f T} : PropagateG N ev bs f T → GpfStep N ev bs ⟨gpfPredict, .missing f⟩ fun b => gpfMove (.missing fun n => T n b)

end Verif.Torch
