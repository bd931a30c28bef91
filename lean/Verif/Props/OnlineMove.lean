import Verif.Props.Jitter
import Verif.Model.Sequential
import Verif.Lemmas.Utils

/-!
# Properties C69 and C74 in a step of NESS: what the online kernel makes of a state
-/

namespace Verif.Props

open Verif Verif.Spec Verif.Jitter Verif.Seq Verif.Mcmc

variable {P d : ℕ} [NeZero P] {Y Ω : Type}

/-- The probabilities that log-weights stand for. -/
noncomputable def weightsOf (lo : ℝ) (w : Fin P → XF) (i : Fin P) : ℝ := mass lo (w i) / ∑ j, mass lo (w j)

/-- The rejuvenation of NESS, from the log-weights of a state: every slot gets the filter result of the slot drawn for
it, its parameters are those of that same slot, moved towards the mean under the probabilities that the log-weights
stand for, plus noise, the models are rebuilt with the new parameters, and all log-weights become zero. -/
theorem C69_state (env : Env d Y Ω) (cfg : OnlineCfg d) (hk : ∀ s, cfg.kernel ≠ .constant (.float s)) (sys : Sys P d)
    (obj : Obj P d Y Ω) (h : ∃ i, Usable (obj.w i)) :
    ∃ (move : (Fin d → ℝ) → Fin d → ℝ) (std : Fin d → ℝ),
      (∀ j, cfg.minStd ≤ std j) ∧
      (cfg.kernel = .nonShrinking ∨ (∃ c, cfg.kernel = .constant c) → move = id) ∧
      (Shrinks cfg.kernel → 0 < env.eps → env.eps < 1 / 2 → ∀ θ j, move θ j =
        ∑ i, weightsOf env.lo obj.w i * sys.params i j + factor env.eps (weightsOf env.lo obj.w) cfg.kernel *
          (θ j - ∑ i, weightsOf env.lo obj.w i * sys.params i j)) ∧
      ∀ r : StepDraws P d Ω, ∃ sys' obj', onlineUpdate env cfg sys obj r = (sys', obj', none) ∧
        (∀ i, obj'.res i = obj.res (r.inds i)) ∧
        (∀ i, (cfg.discrete = false ∨ r.coins i = true) →
          sys'.params i = fun j => move (sys.params (r.inds i)) j + std j * r.jitter i j) ∧
        (∀ i, cfg.discrete = true → r.coins i = false → sys'.params i = sys.params (r.inds i)) ∧
        sys'.built = sys'.params ∧ sys'.particles = sys.particles ∧ (∀ i, obj'.w i = 0) ∧
        obj'.iter = obj.iter ∧ obj'.id = obj.id := by
  have hn : (fun i => val ((normalize1 env.lo obj.w).2 i)) = weightsOf env.lo obj.w := by
    funext i
    rw [normalize1_usable env.lo obj.w h i]
    rfl
  obtain ⟨move, std, h1, h2, h3, h4⟩ := C69_same_ancestor env.eps cfg.minStd cfg.kernel hk
    ⟨sys.params, obj.res, sys.built, fun i => val (obj.w i)⟩ (weightsOf env.lo obj.w)
  refine ⟨move, std, h1, h2, h3, fun r => ?_⟩
  obtain ⟨t, e, g1, g2, g3, g4, g5⟩ := h4 cfg.discrete r.inds r.jitter r.coins
  refine ⟨{ sys with params := t.params, built := t.built }, { obj with w := fun _ => 0, res := t.res }, ?_, g1, g2, g3,
    g4, rfl, fun _ => rfl, rfl, rfl⟩
  unfold onlineUpdate
  simp only [hn]
  rw [e]

/-- Case: three slots with log-weights 0, 0 and `-∞`, Liu-West shrinkage. -/
example (env : Env 2 ℝ ℝ) (sys : Sys 3 2) (res : Fin 3 → Slot 2 ℝ ℝ) :=
  C69_state env ⟨.liuWest 0.6 0.8, 0.01, false⟩ (by intro s; simp) sys
    ⟨0, ![XF.fin 0, XF.fin 0, XF.ninf], res, 4⟩ ⟨0, trivial⟩

end Verif.Props
