import Verif.Spec.Container

/-!
# Specification of a filter result

What a user expects of the reported log-likelihood and of the recorded moments, without storage.
-/

namespace Verif.Spec

/-- `first` is the log-likelihood of the initial state (carried along when filters are resampled), `total`
the sum of the log-likelihoods of all states, `means` and `vars` all moments from the initial state on. -/
structure Ideal (B : ℕ) (V : Type) where
  first : Fin B → V
  total : Fin B → V
  means : List (Fin B → V)
  vars : List (Fin B → V)

/-- The initial state. -/
def Ideal.start {B : ℕ} {V : Type} (ll m v : Fin B → V) : Ideal B V := ⟨ll, ll, [m], [v]⟩

/-- A further state with log-likelihood `ll` and moments `m`, `v`. -/
def Ideal.add {B : ℕ} {V : Type} [Add V] (i : Ideal B V) (ll m v : Fin B → V) : Ideal B V :=
  ⟨i.first, i.total + ll, i.means ++ [m], i.vars ++ [v]⟩

/-- Slot `j` takes over what slot `idx j` had. -/
def Ideal.resample {B : ℕ} {V : Type} (i : Ideal B V) (idx : Fin B → Fin B) (history : Bool) : Ideal B V :=
  ⟨i.first ∘ idx, i.total ∘ idx, if history then i.means.map (· ∘ idx) else i.means,
    if history then i.vars.map (· ∘ idx) else i.vars⟩

end Verif.Spec
