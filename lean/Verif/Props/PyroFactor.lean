import Verif.Lemmas.Pyro
import Verif.Props.ScoreConsistency
import Verif.Props.Backward
import Verif.Lemmas.LiftedRun
import Mathlib.MeasureTheory.Measure.Count
import Mathlib.MeasureTheory.Constructions.BorelSpace.Basic

/-!
# Property C134: the factor that is registered for `pyro`
-/

namespace Verif.Props

open Verif Verif.Spec Verif.Unbiased Verif.GradientScore Verif.Fisher XF MeasureTheory ProbabilityTheory
open scoped ENNReal

variable {N B d : ℕ} {V Y Ω : Type}

/-- The log-density of a path over `L` steps together with observations of every `k`-th state, starting with the first one after
the initial one. -/
noncomputable def everyLog {X : Type} (D : Densities X Y) (k L : ℕ) (x : ℕ → X) (ys : List Y) : XF :=
  (∑ n : Fin L, D.hidden n (x n) (x (n + 1))) + (∑ n : Fin ys.length, D.obs (1 + n * k) (x (1 + n * k)) ys[n]) + D.init (x 0)

theorem times_range (states : List (PCorr N B d V)) (h : OneStepApart states) (h0 : ∀ s, states[0]? = some s → s.x.time = 0) :
    (states.map fun c => c.x.time) = List.range states.length := by
  have key : ∀ (n : ℕ) (c : PCorr N B d V), states[n]? = some c → c.x.time = n := by
    intro n
    induction n with
    | zero => exact h0
    | succ n ih =>
      intro c hc
      obtain ⟨h1, -⟩ := List.getElem?_eq_some_iff.1 hc
      have h2 : states[n]? = some (states[n]'(by omega)) := List.getElem?_eq_getElem _
      rw [h n _ _ h2 hc, ih _ h2]
  apply List.ext_getElem
  · simp
  · intro n h1 h2
    rw [List.length_map] at h1
    rw [List.getElem_map, List.getElem_range]
    exact key n _ (List.getElem?_eq_getElem h1)

/-- What a run records when all states are recorded. -/
theorem recorded_run (fk : FilterKind) (M : ParticleModel N B d V Y Ω) (hkind : M.kind.increment = 1) {k : ℕ} (hk : 0 < k)
    (intermediary : Bool) (hopt : intermediary = true ∨ k = 1) (nan : NanStrategy) (km : Option ℕ) (fuel : ℕ) (hfuel : k - 1 ≤ fuel)
    (ys : List Y) (init : PCorr N B d V) (h0 : init.x.time = 0) (ω : Ω) :
    ∃ r new, (fk.ops M).batchFilter ⟨k, intermediary, nan⟩ none km (fun _ => ()) fuel ys init ω = some r ∧
      r.2.1.states.items = init :: new ∧
      ((init :: new).map fun c => c.x.time) = List.range (new.length + 1) ∧
      (∀ {α : Type} (l : List α), l.length = new.length + 1 → (slice1 k l).length = ys.length) ∧
      ∀ n y, ys[n]? = some y → ∃ c, (init :: new)[1 + n * k]? = some c ∧ Observed (fk.ops M) (n * k) y c := by
  obtain ⟨c, new, ω', h1, h2⟩ := C40_slice_pairs_observations fk M hkind hk fuel hfuel nan ys init h0 ω
  have h3 : (fk.ops M).filterAll ⟨k, intermediary, nan⟩ fuel ys init ω = some (c, new, ω') := by
    rw [Lifted.filterAll_one _ k intermediary nan fuel hopt, ← h1]
  obtain ⟨r, h4, h5⟩ := C81_recorded_steps_partial fk M hkind ⟨k, intermediary, nan⟩ hk fuel hfuel hopt ys init ω h0
  rw [h3] at h4
  cases h4
  refine ⟨(c, (init :: new).foldl (FilterOps.Recorded.append fun _ => ()) ⟨⟨none, []⟩, ⟨km, []⟩⟩, ω'), new, ?_, ?_, ?_, ?_, ?_⟩
  · unfold FilterOps.batchFilter
    rw [h3]
    rfl
  · dsimp only
    rw [FilterOps.foldl_append]
    exact FilterOps.foldl_append_lastN none _
  · exact times_range _ h5 (by simp [h0])
  · intro α l hl
    exact (h2 l (by simpa using hl)).1
  · intro n y hy
    obtain ⟨c, -, h6, h7, -⟩ := (h2 (init :: new) rfl).2 n y hy
    exact ⟨c, h6, h7⟩

/-- What the factor is, if intermediary states are recorded or every step is observed, for every filter: the mean, over paths
through the particles of the recorded states, of the log-density of the path and all observations, each observation at the
state that it was used for. -/
theorem C134_complete (fk : FilterKind) (M : ParticleModel N B d V Y Ω) (hkind : M.kind.increment = 1)
    {k : ℕ} (hk : 0 < k) (intermediary : Bool) (hopt : intermediary = true ∨ k = 1) (nan : NanStrategy) (km : Option ℕ) (fuel : ℕ)
    (hfuel : k - 1 ≤ fuel) (ys : List Y) (init : PCorr N B d V) (h0 : init.x.time = 0) (ω : Ω) (K : Backward N B d V Ω)
    (D : Fin B → Densities (Fin d → V) Y) (method : List Char) (hmethod : lowerChars method = ['f', 'f', 'b', 's']) :
    ∃ r, (fk.ops M).batchFilter ⟨k, intermediary, nan⟩ none km (fun _ => ()) fuel ys init ω = some r ∧
    ∃ (f : Fin B → Except PyErr XF) (paths : Fin N → Fin B → ℕ → Fin d → V) (L : ℕ),
      Pyro.doSample M K D k none r.2.1.states.items ys method r.2.2 = .ok f ∧ r.2.1.states.items.length = L + 1 ∧
      (∀ i b n, n ≤ L → ∃ c j, r.2.1.states.items[n]? = some c ∧ c.x.time = n ∧ paths i b n = c.x.value j b) ∧
      (∀ n y, ys[n]? = some y → ∃ c, r.2.1.states.items[1 + n * k]? = some c ∧ Observed (fk.ops M) (n * k) y c) ∧
      ∀ b, f b = .ok (average fun i => everyLog (D b) k L (paths i b) ys) := by
  obtain ⟨r, new, hr, hitems, htimes, hslice, hobs⟩ := recorded_run fk M hkind hk intermediary hopt nan km fuel hfuel ys init h0 ω
  obtain ⟨sm, ω', g1, g2, g3⟩ := (C38_paths_of_particles M K (init :: new) (by simp) r.2.2).2
  have hlen : sm.length = new.length + 1 := by simpa using g2
  obtain ⟨v0, -⟩ : ∃ a, a ∈ sm := List.exists_mem_of_length_pos (by omega)
  obtain ⟨paths, hpaths⟩ := paths_exist sm v0
  have hs : smooth M K (init :: new) ['f', 'f', 'b', 's'] r.2.2 = .ok (sm, ω') := by
    rw [← g1]
    rfl
  refine ⟨r, hr, fun b => Pyro.factor (D b) k ((init :: new).map fun c => c.x.time) (sm.map fun v i => v i b) ys, paths, new.length,
    ?_, by rw [hitems]; rfl, ?_, fun n y hy => by rw [hitems]; exact hobs n y hy, fun b => ?_⟩
  · unfold Pyro.doSample Pyro.doFfbs
    rw [if_pos hmethod, if_pos rfl, hitems, hs]
    rfl
  · intro i b n hn
    have hn' : n < sm.length := by omega
    obtain ⟨c, h1, h2⟩ := g3 n _ (List.getElem?_eq_getElem hn')
    obtain ⟨j, hj⟩ := h2 i b
    refine ⟨c, j, by rw [hitems]; exact h1, ?_, by rw [hpaths n _ (List.getElem?_eq_getElem hn'), hj]⟩
    have := congrArg (fun l => l[n]?) htimes
    rw [List.getElem?_map] at this
    rw [h1, List.getElem?_range (by omega)] at this
    simpa using this
  · have := Pyro.factor_times (D b) hk (sm.map fun v i => v i b) ys (fun i => paths i b) id new.length (by simpa using hlen)
      (hslice _ (by simpa using hlen)) (hslice _ (by simp)) (by
        intro n v hv i
        rw [List.getElem?_map, Option.map_eq_some_iff] at hv
        obtain ⟨w, hw, rfl⟩ := hv
        exact hpaths n w hw i b)
    have ht : ((init :: new).map fun c => c.x.time) = (List.range (new.length + 1)).map id := by rw [htimes, List.map_id]
    dsimp only
    rw [ht, this]
    rfl

/-- Other methods are refused, in any spelling of `ffbs` it is backward simulation; a run without all states is refused. -/
theorem C134_refused (M : ParticleModel N B d V Y Ω) (K : Backward N B d V Ω) (D : Fin B → Densities (Fin d → V) Y) (k : ℕ)
    (ks : Option ℕ) (states : List (PCorr N B d V)) (ys : List Y) (method : List Char) (ω : Ω) :
    (lowerChars method ≠ ['f', 'f', 'b', 's'] → Pyro.doSample M K D k ks states ys method ω = .error .notImplementedError) ∧
    (lowerChars method = ['f', 'f', 'b', 's'] → ks ≠ none → Pyro.doSample M K D k ks states ys method ω = .error .assertionError) := by
  unfold Pyro.doSample Pyro.doFfbs
  exact ⟨fun h => if_neg h, fun h h1 => by rw [if_pos h, if_neg h1]⟩

/-- If every step is observed, the factor is what the gradient proposal differentiates, without the prior. -/
theorem factor_target (hN : 0 < N) (M : ParticleModel N B d V Y Ω) (K : Backward N B d V Ω)
    (D : Fin B → Densities (Fin d → V) Y) (states : List (PCorr N B d V)) (ys : List Y) (ω : Ω)
    (htimes : (states.map fun c => c.x.time) = List.range (ys.length + 1)) :
    Pyro.doSample M K D 1 none states ys ['f', 'f', 'b', 's'] ω = target M K D (fun _ => fin 0) states ys ω := by
  obtain ⟨s, rest, rfl⟩ : ∃ s rest, states = s :: rest := by
    cases states with
    | nil => simp at htimes
    | cons s rest => exact ⟨s, rest, rfl⟩
  have h0 : s.x.time = 0 := by
    rw [List.range_succ_eq_map] at htimes
    exact (List.cons.inj htimes).1
  have hl : rest.length = ys.length := by simpa using congrArg List.length htimes
  obtain ⟨sm, ω', g1, g2, g3⟩ := (C38_paths_of_particles M K (s :: rest) (by simp) ω).2
  have hlen : sm.length = ys.length + 1 := by simpa [hl] using g2
  obtain ⟨v0, -⟩ : ∃ a, a ∈ sm := List.exists_mem_of_length_pos (by omega)
  obtain ⟨paths, hpaths⟩ := paths_exist sm v0
  have hs : smooth M K (s :: rest) ['f', 'f', 'b', 's'] ω = .ok (sm, ω') := by
    rw [← g1]
    rfl
  unfold Pyro.doSample Pyro.doFfbs target
  rw [if_pos (by decide), if_pos rfl, hs]
  show Except.ok _ = Except.ok _
  congr 1
  funext b
  have hp : ∀ (n : ℕ) (v : Fin N → Fin d → V), (sm.map fun v i => v i b)[n]? = some v → ∀ i, paths i b n = v i := by
    intro n v hv i
    rw [List.getElem?_map, Option.map_eq_some_iff] at hv
    obtain ⟨w, hw, rfl⟩ := hv
    exact hpaths n w hw i b
  have hsl : ∀ {α : Type} (l : List α), l.length = ys.length + 1 → (slice1 1 l).length = ys.length := by
    intro α l hl
    have h1 : slice1 1 l = l.drop 1 := by
      apply List.ext_getElem?
      intro n
      rw [slice1_getElem? one_pos, List.getElem?_drop, mul_one]
    rw [h1]
    simp [hl]
  have e1 := Pyro.factor_times (D b) one_pos (sm.map fun v i => v i b) ys (fun i => paths i b) id ys.length (by simpa using hlen)
      (hsl _ (by simpa using hlen)) (hsl _ (by simp)) hp
  have e2 := modelLikelihood_times hN (D b) (fin 0) (sm.map fun v i => v i b) ys (fun i => paths i b) 0 id (by simpa using hlen) hp
  rw [List.length_map, hlen] at e2
  have ht : ((s :: rest).map fun c => c.x.time) = (List.range (ys.length + 1)).map id := by rw [htimes, List.map_id]
  dsimp only
  rw [ht, e1, h0, e2, ← zero_def, add_zero]
  congr 2
  funext i
  rw [Finset.sum_add_distrib, add_comm]
  congr 2
  · exact Finset.sum_congr rfl fun n _ => by simp
  · exact Finset.sum_congr rfl fun n _ => by simp [add_comm 1]

variable [MeasurableSpace V] [MeasurableSpace Ω]

/-- C134 for gradients: the derivative of the factor in a parameter converges to the derivative of the log-likelihood. Missing: the
value of the factor, which is no estimate of the log-likelihood (`C134_negation`). -/
theorem C134_gradient_partial (P : Measure Ω) [IsProbabilityMeasure P] (hB : 0 < B) (lo τ : ℝ) (hτ : 1 < τ)
    (mult : ∀ N, TorchMultinomial (N + 1) Ω) (hmult : ∀ N, MutualMultinomial P (mult N))
    (θ₀ : Fin B → ℝ) (ε S : ℝ) (hε : 0 < ε) (hS : 0 < S) (lam₀ lam : Fin B → Measure (Fin d → V)) [∀ b, SigmaFinite (lam b)]
    (μ : Fin B → ℝ → Measure (Fin d → V)) (K : Fin B → ℝ → ℕ → Kernel (Fin d → V) (Fin d → V))
    (li dli : Fin B → ℝ → (Fin d → V) → ℝ) (lf dlf : Fin B → ℝ → ℕ → (Fin d → V) → (Fin d → V) → ℝ)
    (lg dlg : Fin B → ℝ → Y → ℕ → (Fin d → V) → ℝ)
    (hmodel : ∀ b, SmoothModel (lam₀ b) (lam b) (μ b) (K b) (li b) (lf b) (lg b) (dli b) (dlf b) (dlg b) (θ₀ b) ε S)
    (c : Y → ℝ) (hc : ∀ b y t x, lg b (θ₀ b) y t x ≤ c y)
    (init : ∀ N, Ω → (Fin (N + 1) → Fin B → Fin d → V) × Ω) (hinit : ∀ N, MutualInitial P (init N) fun b => μ b (θ₀ b))
    (propagate : ∀ N, TS (N + 1) B d V → Ω → (Fin (N + 1) → Fin B → Fin d → V) × Ω)
    (hK : ∀ N, MutualTransitions P (propagate N) fun b => K b (θ₀ b))
    (pre : ∀ N, Y → TS (N + 1) B d V → Fin (N + 1) → Fin B → XF) (missing : Y → Bool) (KB : ∀ N, Backward (N + 1) B d V Ω)
    (hKB : ∀ N s j b x, (KB N).logDensity s j b x = fin (lf b (θ₀ b) s.time (s.value j b) x))
    (hcat : ∀ N, IndependentCategorical P (KB N).categorical) (intermediary : Bool) (nan : NanStrategy) (km : Option ℕ)
    (fuel : ℕ) (ys : List Y) (hmiss : ∀ y ∈ ys, missing y = false)
    (run : ∀ N, Ω → PCorr (N + 1) B d V × FilterOps.Recorded (PCorr (N + 1) B d V) Unit × Ω)
    (hrun : ∀ N ω, (FilterKind.sisr.ops (bootstrapModel lo (τ * (N + 1 : ℕ)) (multinomial2 lo (mult N)) (propagate N)
          (fun y x i b => fin (lg b (θ₀ b) y x.time (x.value i b))) (pre N) missing)).batchFilter ⟨1, intermediary, nan⟩ none km
            (fun _ => ()) fuel ys (initializeFilter lo (init N ω).1) (init N ω).2 = some (run N ω))
    (f : ℕ → Ω → Fin B → ℝ → ℝ)
    (hf : ∀ N ω (θ : Fin B → ℝ), Pyro.doSample (bootstrapModel lo (τ * (N + 1 : ℕ)) (multinomial2 lo (mult N)) (propagate N)
          (fun y x i b => fin (lg b (θ₀ b) y x.time (x.value i b))) (pre N) missing) (KB N)
          (fun b => ⟨fun x => fin (li b (θ b) x), fun t x x' => fin (lf b (θ b) t x x'), fun t x y => fin (lg b (θ b) y t x)⟩)
          1 none (run N ω).2.1.states.items ys ['f', 'f', 'b', 's'] (run N ω).2.2 = .ok fun b => .ok (fin (f N ω b (θ b))))
    (b : Fin B) (score : ℝ)
    (hscore : HasDerivAt (fun θ => Real.log (∫⁻ x, lik (K b θ) (fun y t x => ENNReal.ofReal (Real.exp (lg b θ y t x)))
          (ys.map some) 0 x ∂(μ b θ)).toReal) score (θ₀ b)) :
    Filter.Tendsto (fun N => ∫⁻ ω, ENNReal.ofReal ((deriv (f N ω b) (θ₀ b) - score) ^ 2) ∂P) Filter.atTop (nhds 0) := by
  refine C131_consistent P hB lo τ hτ mult hmult θ₀ ε S hε hS lam₀ lam μ K li dli lf dlf lg dlg hmodel c hc (fun _ _ => 0)
    (fun _ _ => 0) (fun _ => hasDerivAt_const _ _) init hinit propagate hK pre missing KB hKB hcat intermediary nan none km fuel ys
    hmiss (by simp) run hrun f (fun N ω θ => ?_) b score (by simpa using hscore)
  rw [← hf N ω θ, ← factor_target (Nat.succ_pos N)]
  obtain ⟨r, new, h1, h2, h3, h4, -⟩ := recorded_run .sisr (bootstrapModel lo (τ * (N + 1 : ℕ)) (multinomial2 lo (mult N)) (propagate N)
          (fun y x i b => fin (lg b (θ₀ b) y x.time (x.value i b))) (pre N) missing) rfl one_pos intermediary (Or.inr rfl) nan km fuel
          (by omega) ys (initializeFilter lo (init N ω).1) rfl (init N ω).2
  rw [hrun N ω] at h1
  cases h1
  rw [h2, h3]
  congr 2
  have h5 := h4 (List.range (new.length + 1)) (by simp)
  have h6 : slice1 1 (List.range (new.length + 1)) = (List.range (new.length + 1)).drop 1 := by
    apply List.ext_getElem?
    intro n
    rw [slice1_getElem? one_pos, List.getElem?_drop, mul_one]
  rw [h6] at h5
  simpa using h5

/-- What is claimed: as the number of particles grows, the factor that is registered converges to the log-likelihood. -/
def C134_claim : Prop :=
  ∀ (B d : ℕ) (V Y Ω : Type) [MeasurableSpace V] [MeasurableSpace Ω] (P : Measure Ω) [IsProbabilityMeasure P] (_ : 0 < B)
    (lo τ : ℝ) (_ : 1 < τ) (mult : ∀ N, TorchMultinomial (N + 1) Ω) (_ : ∀ N, MutualMultinomial P (mult N))
    (lam₀ lam : Fin B → Measure (Fin d → V)) [∀ b, SigmaFinite (lam b)]
    (μ : Fin B → Measure (Fin d → V)) (K : Fin B → ℕ → Kernel (Fin d → V) (Fin d → V))
    (li : Fin B → (Fin d → V) → ℝ) (lf : Fin B → ℕ → (Fin d → V) → (Fin d → V) → ℝ) (lg : Fin B → Y → ℕ → (Fin d → V) → ℝ)
    (_ : ∀ b, μ b = (lam₀ b).withDensity fun x => ENNReal.ofReal (Real.exp (li b x)))
    (_ : ∀ b t x, K b t x = (lam b).withDensity fun x' => ENNReal.ofReal (Real.exp (lf b t x x')))
    (_ : ∀ b, Measurable (li b)) (_ : ∀ b t, Measurable fun z : (Fin d → V) × (Fin d → V) => lf b t z.1 z.2)
    (_ : ∀ b y t, Measurable (lg b y t)) (c : Y → ℝ) (_ : ∀ b y t x, lg b y t x ≤ c y)
    (init : ∀ N, Ω → (Fin (N + 1) → Fin B → Fin d → V) × Ω) (_ : ∀ N, MutualInitial P (init N) μ)
    (propagate : ∀ N, TS (N + 1) B d V → Ω → (Fin (N + 1) → Fin B → Fin d → V) × Ω) (_ : ∀ N, MutualTransitions P (propagate N) K)
    (pre : ∀ N, Y → TS (N + 1) B d V → Fin (N + 1) → Fin B → XF) (missing : Y → Bool) (KB : ∀ N, Backward (N + 1) B d V Ω)
    (_ : ∀ N s j b x, (KB N).logDensity s j b x = fin (lf b s.time (s.value j b) x))
    (_ : ∀ N, IndependentCategorical P (KB N).categorical) (intermediary : Bool) (nan : NanStrategy) (km : Option ℕ)
    (fuel : ℕ) (ys : List Y) (_ : ∀ y ∈ ys, missing y = false)
    (run : ∀ N, Ω → PCorr (N + 1) B d V × FilterOps.Recorded (PCorr (N + 1) B d V) Unit × Ω)
    (_ : ∀ N ω, (FilterKind.sisr.ops (bootstrapModel lo (τ * (N + 1 : ℕ)) (multinomial2 lo (mult N)) (propagate N)
          (fun y x i b => fin (lg b y x.time (x.value i b))) (pre N) missing)).batchFilter ⟨1, intermediary, nan⟩ none km
            (fun _ => ()) fuel ys (initializeFilter lo (init N ω).1) (init N ω).2 = some (run N ω))
    (f : ℕ → Ω → Fin B → ℝ)
    (_ : ∀ N ω, Pyro.doSample (bootstrapModel lo (τ * (N + 1 : ℕ)) (multinomial2 lo (mult N)) (propagate N)
          (fun y x i b => fin (lg b y x.time (x.value i b))) (pre N) missing) (KB N)
          (fun b => ⟨fun x => fin (li b x), fun t x x' => fin (lf b t x x'), fun t x y => fin (lg b y t x)⟩)
          1 none (run N ω).2.1.states.items ys ['f', 'f', 'b', 's'] (run N ω).2.2 = .ok fun b => .ok (fin (f N ω b)))
    (b : Fin B), Filter.Tendsto (fun N => ∫⁻ ω, ENNReal.ofReal ((f N ω b - Real.log (∫⁻ x, lik (K b)
      (fun y t x => ENNReal.ofReal (Real.exp (lg b y t x))) (ys.map some) 0 x ∂(μ b)).toReal) ^ 2) ∂P) Filter.atTop (nhds 0)

/-! ## Fair coins -/

/-- A fair coin: the sign of a normal random number. -/
noncomputable def coinOf (z : Fin 2 → ℝ) : Fin 1 → Bool := fun _ => decide (0 < z 0)

theorem measurable_coinOf : Measurable coinOf := by
  refine measurable_pi_lambda _ fun _ => measurable_to_bool ?_
  have h : (fun z : Fin 2 → ℝ => decide (0 < z 0)) ⁻¹' {true} = {z | 0 < z 0} := by
    ext z
    simp
  change MeasurableSet ((fun z : Fin 2 → ℝ => decide (0 < z 0)) ⁻¹' {true})
  rw [h]
  exact measurableSet_lt measurable_const (measurable_pi_apply 0)

theorem gaussian_halves : gaussianReal 0 1 (Set.Ioi 0) = 2⁻¹ ∧ gaussianReal 0 1 (Set.Iic 0) = 2⁻¹ := by
  have := nullSingletonClass_gaussianReal (μ := 0) (v := 1) one_ne_zero
  have h1 : gaussianReal 0 1 (Set.Ioi 0) = gaussianReal 0 1 (Set.Iic 0) := by
    rw [← Iio_ae_eq_Iic.measure_eq]
    have h2 := gaussianReal_map_neg (μ := 0) (v := 1)
    rw [neg_zero] at h2
    conv_rhs => rw [← h2]
    rw [Measure.map_apply measurable_neg measurableSet_Iio]
    congr 1
    ext x
    simp
  have h3 : gaussianReal 0 1 (Set.Iic 0) + gaussianReal 0 1 (Set.Ioi 0) = 1 := by
    rw [← measure_union (Set.Iic_disjoint_Ioi le_rfl) measurableSet_Ioi, Set.Iic_union_Ioi, measure_univ]
  have h4 : gaussianReal 0 1 (Set.Iic 0) = 2⁻¹ := by
    rw [h1, ← two_mul] at h3
    exact ENNReal.eq_inv_of_mul_eq_one_left (by rw [mul_comm]; exact h3)
  exact ⟨h1.trans h4, h4⟩

/-- The law of the coin has density one half with respect to the counting measure. -/
theorem coin_density : (Measure.pi fun _ : Fin 2 => gaussianReal 0 1).map coinOf
    = (Measure.count : Measure (Fin 1 → Bool)).withDensity fun _ => ENNReal.ofReal (Real.exp (-Real.log 2)) := by
  have e : ENNReal.ofReal (Real.exp (-Real.log 2)) = 2⁻¹ := by
    rw [Real.exp_neg, Real.exp_log two_pos, ENNReal.ofReal_inv_of_pos two_pos]
    simp
  rw [e]
  refine Measure.ext_of_singleton fun a => ?_
  rw [Measure.map_apply measurable_coinOf (measurableSet_singleton _), withDensity_const, Measure.smul_apply,
    Measure.count_singleton, smul_eq_mul, mul_one]
  have hpre : coinOf ⁻¹' {a} = (fun z : Fin 2 → ℝ => z 0) ⁻¹' (if a 0 then Set.Ioi 0 else Set.Iic 0) := by
    ext z
    simp only [Set.mem_preimage, Set.mem_singleton_iff]
    have h : coinOf z = a ↔ decide (0 < z 0) = a 0 := by
      constructor
      · rintro rfl
        rfl
      · intro h
        funext i
        rw [Subsingleton.elim i 0, ← h]
        rfl
    rw [h]
    cases a 0 <;> simp
  have hm : MeasurableSet (if a 0 then Set.Ioi (0 : ℝ) else Set.Iic 0) := by
    split_ifs
    · exact measurableSet_Ioi
    · exact measurableSet_Iic
  rw [hpre, (measurePreserving_eval (fun _ : Fin 2 => gaussianReal 0 1) 0).measure_preimage hm.nullMeasurableSet]
  split_ifs
  · exact gaussian_halves.1
  · exact gaussian_halves.2

/-- Coins are thrown at all times, and the observation has nothing to do with them: the log-likelihood is 0, but the factor is
`-2 log 2` for every number of particles and all random numbers, since it contains the log-density of the path. -/
theorem C134_negation : ¬ C134_claim := by
  intro h
  let P := streamLaw kernelEntryLaw
  let mult : ∀ N, TorchMultinomial (N + 1) (ℕ → KernelEntry) := fun N =>
    multinomialBy (Nat.succ_pos N) fun ω => ((next ω).1.2.1, (next ω).2)
  let move : Fin 1 → ℕ → (Fin 1 → Bool) × (Fin 2 → ℝ) → Fin 1 → Bool := fun _ _ q => coinOf q.2
  have hmove : ∀ b t, Measurable (move b t) := fun b t =>
    measurable_coinOf.comp measurable_snd
  let M : ∀ N, ParticleModel (N + 1) 1 1 Bool Unit (ℕ → KernelEntry) := fun N =>
    bootstrapModel 0 (2 * (N + 1 : ℕ)) (multinomial2 0 (mult N)) (noisePropagate (fun ω => ((next ω).1.2.2.1, (next ω).2)) move)
      (fun _ _ _ _ => fin 0) (fun _ _ _ _ => fin 0) fun _ => false
  let init : ∀ N, (ℕ → KernelEntry) → (Fin (N + 1) → Fin 1 → Fin 1 → Bool) × (ℕ → KernelEntry) := fun N ω =>
    (fun i b => coinOf ((next ω).1.2.2.1 (i, b)), (next ω).2)
  let KB : ∀ N, Backward (N + 1) 1 1 Bool (ℕ → KernelEntry) := fun N =>
    ⟨fun _ _ _ _ => fin (-Real.log 2), categoricalBy fun ω => ((next ω).1.2.1, (next ω).2)⟩
  have hc := fun N ω => C134_complete .sisr (M N) rfl one_pos false (Or.inr rfl) .skip none 0 (le_refl _) [()]
    (initializeFilter 0 (init N ω).1) rfl (init N ω).2 (KB N)
    (fun _ => ⟨fun _ => fin (-Real.log 2), fun _ _ _ => fin (-Real.log 2), fun _ _ _ => fin 0⟩) ['f', 'f', 'b', 's'] (by decide)
  choose run hrun hc using hc
  have hf : ∀ N ω, Pyro.doSample (M N) (KB N)
      (fun _ => ⟨fun _ => fin (-Real.log 2), fun _ _ _ => fin (-Real.log 2), fun _ _ _ => fin 0⟩) 1 none
      (run N ω).2.1.states.items [()] ['f', 'f', 'b', 's'] (run N ω).2.2 = .ok fun _ => .ok (fin (-2 * Real.log 2)) := by
    intro N ω
    obtain ⟨f, paths, L, h1, h2, h3, h4, h5⟩ := hc N ω
    have hL : L = 1 := by
      obtain ⟨r, new, g1, g2, g3, g4, -⟩ := recorded_run .sisr (M N) rfl one_pos false (Or.inr rfl) .skip none 0 (le_refl _) [()]
        (initializeFilter 0 (init N ω).1) rfl (init N ω).2
      rw [hrun N ω] at g1
      cases g1
      have g5 := g4 (List.range (new.length + 1)) (by simp)
      have g6 : slice1 1 (List.range (new.length + 1)) = (List.range (new.length + 1)).drop 1 := by
        apply List.ext_getElem?
        intro n
        rw [slice1_getElem? one_pos, List.getElem?_drop, mul_one]
      rw [g6] at g5
      rw [g2] at h2
      simp at g5 h2
      omega
    rw [h1]
    congr 1
    funext b
    rw [h5 b]
    congr 1
    subst hL
    have hN' : ((N + 1 : ℕ) : ℝ) ≠ 0 := by positivity
    have he : ∀ i, everyLog (⟨fun _ => fin (-Real.log 2), fun _ _ _ => fin (-Real.log 2), fun _ _ _ => fin 0⟩ :
        Densities (Fin 1 → Bool) Unit) 1 1 (paths i b) [()] = fin (-2 * Real.log 2) := by
      intro i
      unfold everyLog
      simp only [XF.sum_fin, fin_add]
      congr 1
      simp
      ring
    unfold Spec.average
    simp only [he]
    rw [XF.sum_fin, fin_div hN']
    congr 1
    rw [Finset.sum_const, Finset.card_univ, Fintype.card_fin, nsmul_eq_mul]
    field_simp
  have hlim := h 1 1 Bool Unit (ℕ → KernelEntry) P one_pos 0 2 one_lt_two mult (fun N => multinomialBy_mutual _ kernel_rand2)
    (fun _ => Measure.count) (fun _ => Measure.count) (fun _ => (Measure.pi fun _ : Fin 2 => gaussianReal 0 1).map coinOf)
    (fun b t => noiseKernel (Measure.pi fun _ : Fin 2 => gaussianReal 0 1) (move b t))
    (fun _ _ => -Real.log 2) (fun _ _ _ _ => -Real.log 2) (fun _ _ _ _ => 0) (fun _ => coin_density)
    (fun b t x => by rw [noiseKernel_apply _ (hmove b t)]; exact coin_density)
    (fun _ => measurable_const) (fun _ _ => measurable_const) (fun _ _ _ => measurable_const) (fun _ => 0) (fun _ _ _ _ => le_rfl)
    init (fun N => noise_initial_mutual _ kernel_noise (f := fun _ z => coinOf z) fun _ => measurable_coinOf)
    (fun N => noisePropagate (fun ω => ((next ω).1.2.2.1, (next ω).2)) move) (fun N => noise_mutual _ kernel_noise hmove)
    (fun _ _ _ _ _ => fin 0) (fun _ => false) KB (fun _ _ _ _ _ => rfl) (fun N => categoricalBy_independent kernel_rand2)
    false .skip none 0 [()] (by simp) run hrun (fun _ _ _ => -2 * Real.log 2) hf 0
  have hprob : IsProbabilityMeasure ((Measure.pi fun _ : Fin 2 => gaussianReal 0 1).map coinOf) :=
    Measure.isProbabilityMeasure_map measurable_coinOf.aemeasurable
  have hlik : (∫⁻ x, lik (noiseKernel (Measure.pi fun _ : Fin 2 => gaussianReal 0 1) <| move 0 ·)
      (fun (_ : Unit) _ _ => ENNReal.ofReal (Real.exp 0)) [some ()] 0 x ∂((Measure.pi fun _ : Fin 2 => gaussianReal 0 1).map coinOf))
      = 1 := by
    have h1 : ∀ x, lik (noiseKernel (Measure.pi fun _ : Fin 2 => gaussianReal 0 1) <| move 0 ·)
      (fun (_ : Unit) _ _ => ENNReal.ofReal (Real.exp 0)) [some ()] 0 x = 1 := by
      intro x
      simp only [lik, Real.exp_zero, ENNReal.ofReal_one, mul_one, lintegral_const, one_mul]
      rw [noiseKernel_apply _ (hmove 0 0)]
      exact hprob.measure_univ
    simp only [h1, lintegral_const, measure_univ, mul_one]
  simp only [List.map_cons, List.map_nil] at hlim
  rw [hlik] at hlim
  simp only [ENNReal.toReal_one, Real.log_one, sub_zero, lintegral_const] at hlim
  have hu : P Set.univ = 1 := measure_univ
  rw [hu, mul_one] at hlim
  have := (tendsto_nhds_unique hlim tendsto_const_nhds).symm
  rw [ENNReal.ofReal_eq_zero] at this
  have hl : 0 < Real.log 2 := Real.log_pos one_lt_two
  nlinarith

/-- A case for the partial theorem is that of C131 with `record_states=True`; here a case for `C134_complete`: the walk of C24, of
which every third step is observed. -/
example : (walk .bootstrap).kind.increment = 1 ∧ (0 < 3) ∧ 3 - 1 ≤ 2 ∧ walkInit.x.time = 0 ∧
    lowerChars ['F', 'F', 'b', 's'] = ['f', 'f', 'b', 's'] :=
  ⟨rfl, by norm_num, by norm_num, rfl, by decide⟩

end Verif.Props
