import Verif.Model.Sequential

/-!
# What a filter result is the outcome of
-/

namespace Verif.Spec

open Mcmc

/-- The observations that a filter result has seen. -/
def seenData {d : ℕ} {Y Ω : Type} : Slot d Y Ω → List Y
  | .start _ _ _ => []
  | .step s _ y _ => seenData s ++ [y]

/-- The number of state particles that a filter result was computed with. -/
def stateParticles {d : ℕ} {Y Ω : Type} : Slot d Y Ω → ℕ
  | .start n _ _ => n
  | .step s _ _ _ => stateParticles s

/-- The models that were used on the way. -/
def usedModels {d : ℕ} {Y Ω : Type} : Slot d Y Ω → List (Mdl d)
  | .start _ m _ => [m]
  | .step s m _ _ => m :: usedModels s

/-- The slot is the outcome of filtering exactly `ys` with a model whose live and whose computed tensors all
belong to `θ`. -/
def RanWith {d : ℕ} {Y Ω : Type} (θ : Row d) (ys : List Y) (s : Slot d Y Ω) : Prop :=
  seenData s = ys ∧ ∀ m ∈ usedModels s, m = ⟨θ, θ⟩

/-- The same with a weaker requirement: the live tensors all belong to `θ`. -/
def RanLive {d : ℕ} {Y Ω : Type} (θ : Row d) (ys : List Y) (s : Slot d Y Ω) : Prop :=
  seenData s = ys ∧ ∀ m ∈ usedModels s, m.live = θ

/-- Log-likelihoods of the last `n` steps of a filter result, in order. -/
def recentIncs {d : ℕ} {Y Ω : Type} (env : Env d Y Ω) : ℕ → Slot d Y Ω → List XF
  | 0, _ => []
  | _ + 1, .start _ _ _ => []
  | n + 1, .step s m y o => recentIncs env n s ++ [env.inc s m y o]

/-- First occurrences. -/
def firsts : List ℕ → List ℕ
  | [] => []
  | a :: l => a :: (firsts l).filter (· ≠ a)

/-- Mean of a list of numbers. -/
noncomputable def listMean (l : List ℝ) : ℝ := l.sum / l.length

end Verif.Spec
