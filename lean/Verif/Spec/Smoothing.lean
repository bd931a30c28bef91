import Verif.Model.Particle
import Verif.Spec.Weights
import Verif.Spec.Likelihood

/-!
# Ancestry of particles

Who descends from whom, followed beside the filter and independently of the indices it stores.
-/

namespace Verif.Spec

open Verif

variable {N B d : ℕ} {V Y Ω : Type}

/-- The parallel filter `b` is resampled by SISR in this state. -/
def Degenerate (M : ParticleModel N B d V Y Ω) (s : PCorr N B d V) (b : Fin B) : Prop :=
  essOf (colProb M.lo s.w b) < M.threshold

/-- In the prediction step of SISR from `s`, particle `i` of filter `b` is made from particle `sel i b`:
the one selected by the resampler if the filter is degenerate, particle `i` itself otherwise. -/
def SisrSelects (M : ParticleModel N B d V Y Ω) (s : PCorr N B d V) (ω : Ω)
    (sel : Fin N → Fin B → Fin N) : Prop :=
  ∃ cols : List (Fin B), cols.Pairwise (· < ·) ∧ (∀ b, b ∈ cols ↔ Degenerate M s b) ∧
    (∀ i (j : Fin cols.length), sel i (cols.get j) =
      (M.resampler (fun i j => XF.fin (colProb M.lo s.w (cols.get j) i)) true ω).1 i j) ∧
    ∀ b, b ∉ cols → ∀ i, sel i b = i

/-- One recorded step of a SISR filter from `s` to `c`, in which particle `i` of `c` descends from particle
`sel i` of `s`: an observed step or a pure prediction. -/
inductive SisrStep (M : ParticleModel N B d V Y Ω) : PCorr N B d V → (Fin N → Fin B → Fin N) → PCorr N B d V → Prop
  | observe (s ω y ω' sel) (h : SisrSelects M s ω sel) :
      SisrStep M s sel (M.sisrCorrect y (M.sisrPredict s ω).1 ω').1
  | predict (s ω ω' sel) (h : SisrSelects M s ω sel) :
      SisrStep M s sel (M.createState (M.sisrPredict s ω).1 ω').1

/-- One recorded step of an auxiliary particle filter: in an observed step particle `i` descends from the
particle selected by the resampler, in a pure prediction from particle `i`. -/
inductive ApfStep (M : ParticleModel N B d V Y Ω) : PCorr N B d V → (Fin N → Fin B → Fin N) → PCorr N B d V → Prop
  | observe (s ω y ω') :
      ApfStep M s (M.resampler (fun i b => M.preWeight y s.x i b + (M.apfPredict s ω).1.w i b) false ω').1
        (M.apfCorrect y (M.apfPredict s ω).1 ω').1
  | predict (s ω ω') : ApfStep M s (fun i _ => i) (M.createState (M.apfPredict s ω).1 ω').1

/-- A run, newest state first, together with the path of every particle (newest value first). -/
inductive Lineage (step : PCorr N B d V → (Fin N → Fin B → Fin N) → PCorr N B d V → Prop)
    (Init : PCorr N B d V → Prop) :
    List (PCorr N B d V) → (Fin N → Fin B → List (Fin d → V)) → Prop
  | init (s) (h : Init s) : Lineage step Init [s] (fun i b => [s.x.value i b])
  | step (s rest path sel c) (h : Lineage step Init (s :: rest) path) (hs : step s sel c) :
      Lineage step Init (c :: s :: rest) (fun i b => c.x.value i b :: path (sel i b) b)

/-- Average of `Φ` over the backward simulation of the earlier states (newest first) from the value `x`: in
each state particle `j` is chosen with probability proportional to its weight times the density of the move from
it to the value chosen one step later. -/
noncomputable def backward (logf : TS N B d V → Fin N → Fin B → (Fin d → V) → ℝ) (b : Fin B) :
    List (TS N B d V × (Fin N → Fin B → ℝ)) → (Fin d → V) → (List (Fin d → V) → ENNReal) → ENNReal
  | [], _, Φ => Φ []
  | (s, w) :: rest, x, Φ => ∑ j, ENNReal.ofReal
      (Real.exp (w j b) * Real.exp (logf s j b x) / ∑ k, Real.exp (w k b) * Real.exp (logf s k b x)) *
        backward logf b rest (s.value j b) fun path => Φ (s.value j b :: path)

/-- Draws from categorical distributions given by logits: entry `i`, `b` is `k` with probability
proportional to the exponential of logit `k`. -/
def DrawsCategorical [MeasurableSpace Ω] (P : MeasureTheory.Measure Ω)
    (categorical : (Fin N → Fin B → Fin N → XF) → Ω → (Fin N → Fin B → Fin N) × Ω) : Prop :=
  ∀ l : Fin N → Fin B → Fin N → ℝ, ∃ ν, Draws P (categorical fun i b k => XF.fin (l i b k)) ν ∧
    ∀ i b k, ν {a | a i b = k} = ENNReal.ofReal (Real.exp (l i b k) / ∑ j, Real.exp (l i b j))

/-- Initial states. -/
def Initial (lo : ℝ) (s : PCorr N B d V) : Prop := ∃ x, s = initializeFilter lo x

end Verif.Spec
