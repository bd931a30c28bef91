import Verif.Spec.TensorMove

/-!
# A particle filter that is alone
-/

namespace Verif.Torch

/-- The particles, log-weights and previous indices of a single filter. -/
structure OneFilter (N d : ℕ) where
  x : Fin N → Fin d → ℝ
  w : Fin N → ℝ
  a : Fin N → Fin N

/-- Filter `b` of a batch. -/
def oneOf {N d : ℕ} (F : Fin N → List ℕ → Fin d → ℝ) (W : Fin N → List ℕ → ℝ) (Q : Fin N → List ℕ → Fin N) (b : List ℕ) : OneFilter N d :=
  ⟨fun n => F n b, fun n => W n b, fun n => Q n b⟩

/-- A possible move of a single filter, with its estimate of the log-likelihood. -/
abbrev OneMove (N d : ℕ) := OneFilter N d → OneFilter N d → ℝ → Prop

/-- A sequence of moves of a single filter, with the sum of the estimates. -/
inductive OneRun {N d : ℕ} : List (OneMove N d) → OneFilter N d → OneFilter N d → ℝ → Prop
  | nil (s) : OneRun [] s s 0
  | cons {R Rs s s' s'' l L} : R s s' l → OneRun Rs s' s'' L → OneRun (R :: Rs) s s'' (l + L)

/-- What a single filter does with an observation: draw with `S` and weigh with `V` (functions of particles and normalised weights),
or, if there is none, propagate with `T`. -/
inductive OneObs (N d : ℕ) where
  | seen (S : Fin N → (Fin N → Fin d → ℝ) → (Fin N → ℝ) → Fin d → ℝ) (V : Fin N → (Fin N → Fin d → ℝ) → (Fin N → ℝ) → ℝ)
  | missing (T : Fin N → (Fin d → ℝ) → Fin d → ℝ)

/-- Sequential importance sampling from particles `y` with log-weights `w` and normalised weights `v`. -/
def OneObs.Result {N d : ℕ} (o : OneObs N d) (y : Fin N → Fin d → ℝ) (w v : Fin N → ℝ) (s : OneFilter N d) (l : ℝ) : Prop :=
  match o with
  | .seen S V => (∀ n, s.x n = S n y v) ∧ (∀ n, s.w n = V n y v + w n) ∧ l = Real.log (∑ n, v n * Real.exp (V n y v))
  | .missing T => (∀ n, s.x n = T n (y n)) ∧ (∀ n, s.w n = w n) ∧ l = 0

/-- Sequential importance sampling with resampling below the threshold, by a scheme `A`. -/
def sisrMove {N d : ℕ} (threshold : ℝ) (A : (Fin N → ℝ) → Fin N → Fin N) (o : OneObs N d) : OneMove N d := fun s s' l =>
  (essOf s.w < threshold → s'.a = A (softmaxOf s.w) ∧ o.Result (fun n => s.x (s'.a n)) (fun _ => 0) (fun _ => 1 / N) s' l) ∧
  (¬ essOf s.w < threshold → s'.a = s.a ∧ o.Result s.x s.w (softmaxOf s.w) s' l)

/-- The auxiliary particle filter with pre-weights `P` and resampling by a scheme `A`. -/
def apfMove {N d : ℕ} (A : (Fin N → ℝ) → Fin N → Fin N) (P : Fin N → (Fin N → Fin d → ℝ) → ℝ) : OneObs N d → OneMove N d
  | .seen S V => fun s s' l =>
    s'.a = A (fun n => P n s.x + s.w n) ∧ (∀ n, s'.x n = S n (fun k => s.x (s'.a k)) fun _ => 1 / N) ∧
    (∀ n, s'.w n = V n (fun k => s.x (s'.a k)) (fun _ => 1 / N) - P (s'.a n) s.x) ∧
    l = Real.log ((∑ n, Real.exp (s'.w n)) / N) + Real.log (∑ n, softmaxOf s.w n * Real.exp (P n s.x))
  | .missing T => fun s s' l => (∀ n, s'.a n = n) ∧ (∀ n, s'.x n = T n (s.x n)) ∧ (∀ n, s'.w n = s.w n) ∧ l = 0

/-- Propagation that works particle by particle. -/
def PropagateG (N : ℕ) (ev bs : List ℕ) (f : Tensor → Except PyErr Tensor) (T : Fin N → List ℕ → (Fin (dim ev) → ℝ) → Fin (dim ev) → ℝ) :
    Prop :=
  ∀ (z : Tensor) (G : Fin N → List ℕ → Fin (dim ev) → ℝ), PartG z ev bs G → ∃ z', f z = .ok z' ∧ PartG z' ev bs fun n b => T n b (G n b)

end Verif.Torch
