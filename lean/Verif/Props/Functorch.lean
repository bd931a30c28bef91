import Verif.Model.Functorch
import Mathlib.Analysis.Calculus.Deriv.Pow
import Mathlib.Analysis.Calculus.Deriv.Add
import Mathlib.Analysis.Calculus.Deriv.Mul
import Mathlib.Tactic.NormNum

/-!
# Property C133: the linearised proposal differentiates every particle's log-density with the parameters of its filter
-/

namespace Verif.Props

open Verif Verif.Functorch

/-- A vector as a tensor. -/
def row {N : ℕ} (g : Fin N → ℝ) : Tensor [N] := g

/-- A matrix as a tensor. -/
def grid {N B : ℕ} (g : Fin N → Fin B → ℝ) : Tensor [N, B] := g

theorem collect_ok {n : ℕ} {α : Type} {f : Fin n → Except PyErr α} {g : Fin n → α} (h : ∀ i, f i = .ok (g i)) :
    collect f = .ok g := by
  classical
  unfold collect
  have hn : ¬ ∃ i e, f i = .error e := by
    rintro ⟨i, e, hi⟩
    rw [h i] at hi
    cases hi
  rw [dif_neg hn]
  congr 1
  funext i
  split
  · next a ha => rw [h i] at ha; exact (Except.ok.inj ha).symm
  · next e he => exact absurd ⟨i, e, he⟩ hn

theorem collect_error {n : ℕ} (hn : 0 < n) {α : Type} {f : Fin n → Except PyErr α} {e : PyErr} (h : ∀ i, f i = .error e) :
    collect f = .error e := by
  classical
  unfold collect
  have hex : ∃ i e, f i = .error e := ⟨⟨0, hn⟩, e, h _⟩
  rw [dif_pos hex]
  exact congrArg Except.error (Except.error.inj (hex.choose_spec.choose_spec.symm.trans (h hex.choose)))

/-- What is claimed: for `N` particles of each of `B` parallel filters, where filter `b` has parameter `θ b` (the same for all if
the model has a plain number), the entry of particle `i` of filter `b` is the derivative of the log-density with parameter `θ b`. -/
def C133_claim : Prop :=
  ∀ (N B : ℕ) (logp : ℝ → ℝ → ℝ → ℝ → ℝ) (model : Param) (θ : Fin B → ℝ),
    ((∃ v, model = .plain v ∧ ∀ b, θ b = v) ∨ model = .bound B θ) → ∀ (x oldX : Fin N → Fin B → ℝ) (y : ℝ),
    gradient logp model [N, B] (grid x) y (grid oldX) = .ok (grid fun i b => deriv (fun z => logp (θ b) (oldX i b) y z) (x i b))

/-- C133 holds for models with plain numbers as parameters, for one filter and for parallel filters. Missing: parameters of a
context, for which it fails (`C133_raises`). -/
theorem C133_plain_partial (N B : ℕ) (logp : ℝ → ℝ → ℝ → ℝ → ℝ) (v y : ℝ) :
    (∀ x oldX : Fin N → ℝ, gradient logp (.plain v) [N] (row x) y (row oldX)
      = .ok (row fun i => deriv (fun z => logp v (oldX i) y z) (x i))) ∧
    ∀ x oldX : Fin N → Fin B → ℝ, gradient logp (.plain v) [N, B] (grid x) y (grid oldX)
      = .ok (grid fun i b => deriv (fun z => logp v (oldX i b) y z) (x i b)) := by
  refine ⟨fun x oldX => ?_, fun x oldX => ?_⟩
  · exact collect_ok fun i => rfl
  · exact collect_ok fun i => collect_ok fun b => rfl

/-- With parameters of a context and parallel filters, the finder raises, even for a single filter (`B = 1`): inside the maps
the densities still see the parameters of all filters, and the derivative of a vector is refused. -/
theorem C133_raises (N B : ℕ) (hN : 0 < N) (hB : 0 < B) (logp : ℝ → ℝ → ℝ → ℝ → ℝ) (θ : Fin B → ℝ) (x oldX : Fin N → Fin B → ℝ)
    (y : ℝ) : gradient logp (.bound B θ) [N, B] (grid x) y (grid oldX) = .error .runtimeError := by
  refine collect_error hN fun i => collect_error hB fun b => ?_
  show (slice (.bound B θ) (some 0) B b >>= _) = _
  unfold slice
  simp only [dite_true]
  rfl

/-- With a parameter of a context without batch shape, the finder raises too: there is no dimension to map over. -/
theorem C133_unbatched_raises (N : ℕ) (hN : 0 < N) (logp : ℝ → ℝ → ℝ → ℝ → ℝ) (v : ℝ) (x oldX : Fin N → ℝ) (y : ℝ) :
    gradient logp (.single v) [N] (row x) y (row oldX) = .error .valueError :=
  collect_error hN fun _ => rfl

/-- Two filters with parameters 1 and 2. -/
theorem C133_negation : ¬ C133_claim := by
  intro h
  have h1 := h 1 2 (fun θ _ _ z => θ * z ^ 2) (.bound 2 fun b => b + 1) (fun b => b + 1) (Or.inr rfl) (fun _ _ => 1) (fun _ _ => 0) 0
  rw [C133_raises 1 2 one_pos two_pos] at h1
  cases h1

/-- A case of the partial theorem: the derivatives at two particles of three filters. -/
example : gradient (fun v _ y z => v * z ^ 2 + y * z) (.plain 2) [2, 3] (grid fun i b => (i : ℝ) + b) 5
    (grid fun _ _ => 0) = .ok (grid fun i b => 4 * ((i : ℝ) + b) + 5) := by
  rw [(C133_plain_partial 2 3 _ 2 5).2]
  congr 1
  refine congrArg grid ?_
  funext i b
  have h : HasDerivAt (fun z : ℝ => 2 * z ^ 2 + 5 * z) (2 * (2 * ((i : ℝ) + b)) + 5 * 1) ((i : ℝ) + b) := by
    have h1 := ((hasDerivAt_pow 2 ((i : ℝ) + b)).const_mul 2).add ((hasDerivAt_id ((i : ℝ) + b)).const_mul 5)
    refine HasDerivAt.congr_deriv (f := fun z : ℝ => 2 * z ^ 2 + 5 * z) h1 ?_
    norm_num
  refine h.deriv.trans ?_
  ring

end Verif.Props
