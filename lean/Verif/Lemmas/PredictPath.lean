import Verif.Model.PredictPath
import Verif.Spec.PredictPath
import Verif.Lemmas.Stability
import Mathlib.Probability.Kernel.Composition.MeasureComp

/-!
# Lemmas for predicted paths
-/

namespace Verif.FilterOps

open Verif.Spec

variable {S P Y Ω : Type}

/-- Elementary steps from a corrected state: the last state and the generator afterwards. -/
def endO (F : FilterOps S P Y Ω) : List (Option Y) → S → Ω → S × Ω
  | [], c, ω => (c, ω)
  | o :: os, c, ω =>
    let p := F.predict c ω
    let c' := F.applyO o p.1 p.2
    F.endO os c'.1 c'.2

variable {F : FilterOps S P Y Ω} {time : S → ℕ} {Z : S → Prop}

/-- The same from a prediction. -/
def endP (F : FilterOps S P Y Ω) (o : Option Y) (os : List (Option Y)) (p : P) (ω : Ω) : S × Ω :=
  F.endO os (F.applyO o p ω).1 (F.applyO o p ω).2

/-- The steps of a list of slots from a prediction; `e` if there are none. -/
def endL (F : FilterOps S P Y Ω) (e : S × Ω) : List (Option Y) → P → Ω → S × Ω
  | [], _, _ => e
  | o :: os, p, ω => F.endP o os p ω

theorem endO_eq (e : S × Ω) (c : S) (ω : Ω) (l : List (Option Y)) (hl : l ≠ []) :
    F.endO l c ω = F.endL e l (F.predict c ω).1 (F.predict c ω).2 := by
  cases l with
  | nil => exact absurd rfl hl
  | cons o os => rfl

theorem loop_end (hF : Ticks F time Z) (k q : ℕ) : ∀ (r : ℕ), r < k → ∀ (fuel : ℕ), r ≤ fuel →
    ∀ (p : P) (ω : Ω), F.time p + r = q * k →
    ∃ p' cs ω', F.loop k fuel p ω = some (p', cs, ω') ∧ F.time p' = q * k ∧
      ∀ e o os, F.endL e (List.replicate r none ++ o :: os) p ω = F.endP o os p' ω' := by
  intro r
  induction r with
  | zero =>
    intro _ fuel _ p ω h
    refine ⟨p, [], ω, loop_stop F k fuel p ω ?_, by omega, fun e o os => rfl⟩
    rw [Nat.add_zero] at h
    rw [h, Nat.mul_mod_left]
  | succ r ih =>
    intro hr fuel hf p ω h
    obtain ⟨fuel, rfl⟩ : ∃ f, fuel = f + 1 := ⟨fuel - 1, by omega⟩
    have hne : F.time p % k ≠ 0 := by
      intro h0
      obtain ⟨m, hm⟩ := Nat.dvd_of_mod_eq_zero h0
      have h1 : k ∣ (r + 1) := by
        have h2 : k ∣ F.time p + (r + 1) := ⟨q, by rw [h, Nat.mul_comm]⟩
        exact (Nat.dvd_add_right ⟨m, hm⟩).1 h2
      have := Nat.le_of_dvd (by omega) h1
      omega
    have ht : F.time (F.predict (F.propagate p ω).1 (F.propagate p ω).2).1 = F.time p + 1 := by
      rw [hF.predict, hF.propagate]
    obtain ⟨p', cs, ω', h1, h2, h4⟩ := ih (by omega) fuel (by omega)
      (F.predict (F.propagate p ω).1 (F.propagate p ω).2).1
      (F.predict (F.propagate p ω).1 (F.propagate p ω).2).2 (by rw [ht]; omega)
    refine ⟨p', (F.propagate p ω).1 :: cs, ω', ?_, h2, fun e o os => ?_⟩
    · rw [loop_step F k fuel p ω hne, h1]; rfl
    · rw [← h4 e o os]
      show F.endO (List.replicate r none ++ o :: os) (F.propagate p ω).1 (F.propagate p ω).2 = _
      rw [endO_eq e _ _ _ (by simp)]

/-- The whole run: the last state and the generator are those of the elementary steps. -/
theorem filterAll_end (hF : Ticks F time Z) (opt : FilterOptions) (hk : 0 < opt.observeEveryStep) (fuel : ℕ)
    (hfuel : opt.observeEveryStep - 1 ≤ fuel) : ∀ (ys : List Y) (n : ℕ) (c : S) (ω : Ω),
    time c = startTime opt.observeEveryStep n →
    ∃ r, F.filterAll opt fuel ys c ω = some r ∧ (r.1, r.2.2) = F.endO (F.slotsFrom opt.observeEveryStep n ys) c ω
  | [], n, c, ω, _ => ⟨_, rfl, rfl⟩
  | y :: ys, n, c, ω, hc => by
    obtain ⟨k, hk'⟩ : ∃ k, k = opt.observeEveryStep := ⟨_, rfl⟩
    rw [← hk'] at hk hfuel hc
    have ht : F.time (F.predict c ω).1 = startTime k n := by rw [hF.predict, hc]
    obtain ⟨r, hr, hrk, hsum⟩ : ∃ r, r = (if n = 0 then 0 else k - 1) ∧ r < k ∧ startTime k n + r = n * k := by
      refine ⟨_, rfl, ?_, ?_⟩
      · split <;> omega
      · cases n with
        | zero => simp [startTime]
        | succ n => simp [startTime, Nat.succ_mul]; omega
    obtain ⟨p, cs, ω', h1, h2, h4⟩ := loop_end hF k n r hrk fuel (by split at hr <;> omega) _
      (F.predict c ω).2 (by rw [ht, hsum])
    have hfilt := filter_eq F opt fuel y c ω (p := p) (cs := cs) (ω' := ω') (by rw [← hk']; exact h1)
    rw [← applyO_obsOf] at hfilt
    have hs : time (F.applyO (F.obsOf y) p ω').1 = startTime k (n + 1) := by
      rw [applyO_obsOf]
      split
      · rw [hF.propagate, h2]; rfl
      · rw [hF.correct, h2]; rfl
    obtain ⟨r', h5, h6⟩ := filterAll_end hF opt (hk' ▸ hk) fuel (hk' ▸ hfuel) ys (n + 1)
      (F.applyO (F.obsOf y) p ω').1 (F.applyO (F.obsOf y) p ω').2 (hk' ▸ hs)
    refine ⟨_, by rw [filterAll, hfilt]; simp only [h5]; rfl, ?_⟩
    dsimp only
    rw [← hk', slotsFrom, ← hr, endO_eq (c, ω) _ _ _ (by simp), h4]
    show _ = F.endO _ (F.applyO (F.obsOf y) p ω').1 (F.applyO (F.obsOf y) p ω').2
    rw [hk', ← h6]

end Verif.FilterOps

namespace Verif.Unbiased

open Verif Verif.Spec XF MeasureTheory ProbabilityTheory
open scoped ENNReal

section
variable {X : Type} [MeasurableSpace X] {K : ℕ → Kernel X X}

theorem measurable_futureAvg [∀ t, IsMarkovKernel (K t)] : ∀ (n : ℕ) {A : Type} [MeasurableSpace A]
    {Φ : A → (Fin n → X) → ℝ≥0∞}, (Measurable fun q : A × (Fin n → X) => Φ q.1 q.2) → ∀ t : ℕ,
    Measurable fun q : A × X => futureAvg K n (Φ q.1) t q.2
  | 0, A, _, Φ, hΦ, t => by
    have h : Measurable fun q : A × X => (q.1, (fun k => k.elim0 : Fin 0 → X)) := measurable_fst.prodMk measurable_const
    exact hΦ.comp h
  | n + 1, A, _, Φ, hΦ, t => by
    have hc : Measurable fun q : (A × X) × (Fin n → X) => (q.1.1, (Fin.cons q.1.2 q.2 : Fin (n + 1) → X)) := by
      refine (measurable_fst.comp measurable_fst).prodMk ?_
      rw [measurable_pi_iff]
      intro k
      refine Fin.cases ?_ (fun k => ?_) k
      · exact measurable_snd.comp measurable_fst
      · simp only [Fin.cons_succ]
        exact (measurable_pi_apply k).comp measurable_snd
    have ih := measurable_futureAvg n (A := A × X) (Φ := fun q p => Φ q.1 (Fin.cons q.2 p)) (hΦ.comp hc) (t + 1)
    have ih2 : Measurable fun q : (A × X) × X => futureAvg K n (fun p => Φ q.1.1 (Fin.cons q.2 p)) (t + 1) q.2 := by
      have h : Measurable fun q : (A × X) × X => ((q.1.1, q.2), q.2) := by fun_prop
      exact ih.comp h
    exact Measurable.lintegral_kernel_prod_right' (κ := (K t).comap Prod.snd measurable_snd) ih2

theorem futureAvg_le [∀ t, IsMarkovKernel (K t)] : ∀ (n : ℕ) {Φ : (Fin n → X) → ℝ≥0∞} {H : ℝ≥0∞}, (∀ q, Φ q ≤ H) →
    ∀ t x, futureAvg K n Φ t x ≤ H
  | 0, _, _, h, _, _ => h _
  | n + 1, Φ, H, h, t, x => by
    show ∫⁻ x', futureAvg K n (fun q => Φ (Fin.cons x' q)) (t + 1) x' ∂(K t x) ≤ H
    calc ∫⁻ x', futureAvg K n (fun q => Φ (Fin.cons x' q)) (t + 1) x' ∂(K t x) ≤ ∫⁻ _, H ∂(K t x) :=
          lintegral_mono fun x' => futureAvg_le n (fun q => h _) (t + 1) x'
      _ = H := by rw [lintegral_const, measure_univ, mul_one]
end

variable {N B d : ℕ} {V Y Ω : Type} [MeasurableSpace Ω] [MeasurableSpace V] (P : Measure Ω)

theorem transitions_markov (hN : 0 < N) {propagate : TS N B d V → Ω → (Fin N → Fin B → Fin d → V) × Ω}
    {K : Fin B → ℕ → Kernel (Fin d → V) (Fin d → V)} (hK : IndependentTransitions P propagate K) (b : Fin B) (t : ℕ) :
    IsMarkovKernel (K b t) := by
  refine ⟨fun x => ?_⟩
  obtain ⟨ν, hν, hm, -⟩ := hK.draws ⟨fun _ _ => x, t⟩
  have := hν.prob
  rw [← hm ⟨0, hN⟩ b]
  exact Measure.isProbabilityMeasure_map ((measurable_pi_apply b).comp (measurable_pi_apply _)).aemeasurable

/-- The values of a predicted path of one particle. -/
def pathOf {n : ℕ} (xs : Fin n → TS N B d V) (i : Fin N) (b : Fin B) : Fin n → Fin d → V := fun k => (xs k).value i b

/-- The values of predicted paths. -/
def valuesOf {n : ℕ} (xs : Fin n → TS N B d V) : Fin n → Fin N → Fin B → Fin d → V := fun k => (xs k).value

omit [MeasurableSpace Ω] [MeasurableSpace V] in
theorem pathOf_cons {n : ℕ} (x : TS N B d V) (xs : Fin n → TS N B d V) (i : Fin N) (b : Fin B) :
    pathOf (Fin.cons x xs : Fin (n + 1) → TS N B d V) i b = Fin.cons (x.value i b) (pathOf xs i b) := by
  funext k
  refine Fin.cases rfl (fun k => rfl) k

omit [MeasurableSpace Ω] [MeasurableSpace V] in
theorem valuesOf_cons {n : ℕ} (x : TS N B d V) (xs : Fin n → TS N B d V) :
    valuesOf (Fin.cons x xs : Fin (n + 1) → TS N B d V) = Fin.cons x.value (valuesOf xs) := by
  funext k
  refine Fin.cases rfl (fun k => rfl) k

theorem measurable_consPath {A : Type} [MeasurableSpace A] {Z : Type} [MeasurableSpace Z] {n : ℕ} {f : A → Z}
    (hf : Measurable f) {g : A → Fin n → Z} (hg : Measurable g) : Measurable fun a => (Fin.cons (f a) (g a) : Fin (n + 1) → Z) := by
  rw [measurable_pi_iff]
  intro k
  refine Fin.cases hf (fun k => ?_) k
  simp only [Fin.cons_succ]
  exact (measurable_pi_apply k).comp hg

theorem measurable_sampleStates {M : ParticleModel N B d V Y Ω}
    {K : Fin B → ℕ → Kernel (Fin d → V) (Fin d → V)} (hK : IndependentTransitions P M.propagateValues K) :
    ∀ (n t : ℕ), Measurable fun q : (Fin N → Fin B → Fin d → V) × Ω =>
      (valuesOf (M.sampleStates n ⟨q.1, t⟩ q.2).1, (M.sampleStates n ⟨q.1, t⟩ q.2).2)
  | 0, t => (measurable_of_subsingleton_codomain _).prodMk measurable_snd
  | n + 1, t => by
    have h := (measurable_sampleStates hK n (t + 1)).comp (hK.measurable t)
    have e : (fun q : (Fin N → Fin B → Fin d → V) × Ω =>
        (valuesOf (M.sampleStates (n + 1) ⟨q.1, t⟩ q.2).1, (M.sampleStates (n + 1) ⟨q.1, t⟩ q.2).2)) =
      fun q => ((Fin.cons (M.propagateValues ⟨q.1, t⟩ q.2).1
        (valuesOf (M.sampleStates n ⟨(M.propagateValues ⟨q.1, t⟩ q.2).1, t + 1⟩ (M.propagateValues ⟨q.1, t⟩ q.2).2).1) :
          Fin (n + 1) → Fin N → Fin B → Fin d → V),
        (M.sampleStates n ⟨(M.propagateValues ⟨q.1, t⟩ q.2).1, t + 1⟩ (M.propagateValues ⟨q.1, t⟩ q.2).2).2) := by
      funext q
      refine Prod.ext ?_ rfl
      exact valuesOf_cons _ _
    rw [e]
    have h1 : Measurable fun q : (Fin N → Fin B → Fin d → V) × Ω =>
        valuesOf (M.sampleStates n ⟨(M.propagateValues ⟨q.1, t⟩ q.2).1, t + 1⟩ (M.propagateValues ⟨q.1, t⟩ q.2).2).1 :=
      h.fst
    have h2 : Measurable fun q : (Fin N → Fin B → Fin d → V) × Ω =>
        (M.sampleStates n ⟨(M.propagateValues ⟨q.1, t⟩ q.2).1, t + 1⟩ (M.propagateValues ⟨q.1, t⟩ q.2).2).2 :=
      h.snd
    exact (measurable_consPath (measurable_fst.comp (hK.measurable t)) h1).prodMk h2

theorem measurable_pathOf {n : ℕ} (i : Fin N) (b : Fin B) :
    Measurable fun v : Fin n → Fin N → Fin B → Fin d → V => fun k => v k i b := by
  rw [measurable_pi_iff]
  intro k
  exact (measurable_pi_apply b).comp ((measurable_pi_apply i).comp (measurable_pi_apply k))

theorem measurable_samplePath {M : ParticleModel N B d V Y Ω}
    {K : Fin B → ℕ → Kernel (Fin d → V) (Fin d → V)} (hK : IndependentTransitions P M.propagateValues K)
    (n t : ℕ) (i : Fin N) (b : Fin B) : Measurable fun q : (Fin N → Fin B → Fin d → V) × Ω =>
      pathOf (M.sampleStates n ⟨q.1, t⟩ q.2).1 i b :=
  (measurable_pathOf i b).comp (measurable_fst.comp (measurable_sampleStates P hK n t))

/-- The path of one particle. -/
theorem sampleStates_one [IsProbabilityMeasure P] (hN : 0 < N) {M : ParticleModel N B d V Y Ω}
    {K : Fin B → ℕ → Kernel (Fin d → V) (Fin d → V)} (hK : IndependentTransitions P M.propagateValues K) (i : Fin N) (b : Fin B) :
    ∀ (n : ℕ) {Φ : (Fin n → Fin d → V) → ℝ≥0∞}, Measurable Φ → ∀ (t : ℕ) (x : Fin N → Fin B → Fin d → V),
    ∫⁻ ω, Φ (pathOf (M.sampleStates n ⟨x, t⟩ ω).1 i b) ∂P = futureAvg (K b) n Φ t (x i b)
  | 0, Φ, hΦ, t, x => by
    have : ∀ ω, Φ (pathOf (M.sampleStates 0 ⟨x, t⟩ ω).1 i b) = Φ fun k => k.elim0 := fun ω => by
      congr 1
      exact Subsingleton.elim _ _
    simp only [this]
    rw [lintegral_const, measure_univ, mul_one]
    rfl
  | n + 1, Φ, hΦ, t, x => by
    have := fun t => transitions_markov P hN hK b t
    obtain ⟨ν, hν, hm, -⟩ := hK.draws ⟨x, t⟩
    have hi : Measurable fun v : Fin N → Fin B → Fin d → V => v i b := by fun_prop
    have hG : Measurable fun q : (Fin N → Fin B → Fin d → V) × Ω =>
        Φ (Fin.cons (q.1 i b) (pathOf (M.sampleStates n ⟨q.1, t + 1⟩ q.2).1 i b)) :=
      hΦ.comp (measurable_consPath (hi.comp measurable_fst) (measurable_samplePath P hK n (t + 1) i b))
    have e : ∀ ω, Φ (pathOf (M.sampleStates (n + 1) ⟨x, t⟩ ω).1 i b) =
        Φ (Fin.cons ((M.propagateValues ⟨x, t⟩ ω).1 i b) (pathOf (M.sampleStates n ⟨(M.propagateValues ⟨x, t⟩ ω).1, t + 1⟩
          (M.propagateValues ⟨x, t⟩ ω).2).1 i b)) := fun ω => congrArg Φ (pathOf_cons _ _ i b)
    simp only [e]
    rw [draws_lintegral hν hG]
    have e2 : ∀ v : Fin N → Fin B → Fin d → V,
        ∫⁻ ω, Φ (Fin.cons (v i b) (pathOf (M.sampleStates n ⟨v, t + 1⟩ ω).1 i b)) ∂P
          = futureAvg (K b) n (fun q => Φ (Fin.cons (v i b) q)) (t + 1) (v i b) := fun v =>
      sampleStates_one hN hK i b n (hΦ.comp (measurable_consPath measurable_const measurable_id)) (t + 1) v
    simp only [e2]
    have hm2 : Measurable fun x' : Fin d → V => futureAvg (K b) n (fun q => Φ (Fin.cons x' q)) (t + 1) x' := by
      have h1 := measurable_futureAvg (K := K b) n (A := Fin d → V) (Φ := fun x' q => Φ (Fin.cons x' q))
        (hΦ.comp (measurable_consPath measurable_fst measurable_snd)) (t + 1)
      exact h1.comp (measurable_id.prodMk measurable_id)
    rw [← lintegral_map (f := fun x' : Fin d → V => futureAvg (K b) n (fun q => Φ (Fin.cons x' q)) (t + 1) x') hm2 hi, hm i b]
    rfl

/-- The paths of two particles. -/
theorem sampleStates_two [IsProbabilityMeasure P] (hN : 0 < N) {M : ParticleModel N B d V Y Ω}
    {K : Fin B → ℕ → Kernel (Fin d → V) (Fin d → V)} (hK : IndependentTransitions P M.propagateValues K) {i j : Fin N} (hij : i ≠ j)
    (b : Fin B) :
    ∀ (n : ℕ) {Φ Ψ : (Fin n → Fin d → V) → ℝ≥0∞}, Measurable Φ → Measurable Ψ → ∀ (t : ℕ) (x : Fin N → Fin B → Fin d → V),
    ∫⁻ ω, Φ (pathOf (M.sampleStates n ⟨x, t⟩ ω).1 i b) * Ψ (pathOf (M.sampleStates n ⟨x, t⟩ ω).1 j b) ∂P
      = futureAvg (K b) n Φ t (x i b) * futureAvg (K b) n Ψ t (x j b)
  | 0, Φ, Ψ, hΦ, hΨ, t, x => by
    have : ∀ ω, Φ (pathOf (M.sampleStates 0 ⟨x, t⟩ ω).1 i b) * Ψ (pathOf (M.sampleStates 0 ⟨x, t⟩ ω).1 j b)
        = (Φ fun k => k.elim0) * Ψ fun k => k.elim0 := fun ω => by
      congr 2 <;> exact Subsingleton.elim _ _
    simp only [this]
    rw [lintegral_const, measure_univ, mul_one]
    rfl
  | n + 1, Φ, Ψ, hΦ, hΨ, t, x => by
    have := fun t => transitions_markov P hN hK b t
    obtain ⟨ν, hν, hm, hpair⟩ := hK.draws ⟨x, t⟩
    have hi : ∀ i, Measurable fun v : Fin N → Fin B → Fin d → V => v i b := fun i => by fun_prop
    have hG : ∀ (i : Fin N) {Φ : (Fin (n + 1) → Fin d → V) → ℝ≥0∞}, Measurable Φ →
        Measurable fun q : (Fin N → Fin B → Fin d → V) × Ω =>
          Φ (Fin.cons (q.1 i b) (pathOf (M.sampleStates n ⟨q.1, t + 1⟩ q.2).1 i b)) := fun i Φ hΦ =>
      hΦ.comp (measurable_consPath ((hi i).comp measurable_fst) (measurable_samplePath P hK n (t + 1) i b))
    have e : ∀ (i : Fin N) (Φ : (Fin (n + 1) → Fin d → V) → ℝ≥0∞) ω, Φ (pathOf (M.sampleStates (n + 1) ⟨x, t⟩ ω).1 i b) =
        Φ (Fin.cons ((M.propagateValues ⟨x, t⟩ ω).1 i b) (pathOf (M.sampleStates n ⟨(M.propagateValues ⟨x, t⟩ ω).1, t + 1⟩
          (M.propagateValues ⟨x, t⟩ ω).2).1 i b)) := fun i Φ ω => congrArg Φ (pathOf_cons _ _ i b)
    simp only [e]
    have e0 := draws_lintegral hν ((hG i hΦ).mul (hG j hΨ))
    simp only [Pi.mul_apply] at e0
    rw [e0]
    have e2 : ∀ v : Fin N → Fin B → Fin d → V,
        ∫⁻ ω, Φ (Fin.cons (v i b) (pathOf (M.sampleStates n ⟨v, t + 1⟩ ω).1 i b)) *
            Ψ (Fin.cons (v j b) (pathOf (M.sampleStates n ⟨v, t + 1⟩ ω).1 j b)) ∂P
          = futureAvg (K b) n (fun q => Φ (Fin.cons (v i b) q)) (t + 1) (v i b) *
            futureAvg (K b) n (fun q => Ψ (Fin.cons (v j b) q)) (t + 1) (v j b) := fun v =>
      sampleStates_two hN hK hij b n (hΦ.comp (measurable_consPath measurable_const measurable_id))
        (hΨ.comp (measurable_consPath measurable_const measurable_id)) (t + 1) v
    simp only [e2]
    have hm2 : ∀ {Φ : (Fin (n + 1) → Fin d → V) → ℝ≥0∞}, Measurable Φ →
        Measurable fun x' : Fin d → V => futureAvg (K b) n (fun q => Φ (Fin.cons x' q)) (t + 1) x' := fun {Φ} hΦ => by
      have h1 := measurable_futureAvg (K := K b) n (A := Fin d → V) (Φ := fun x' q => Φ (Fin.cons x' q))
        (hΦ.comp (measurable_consPath measurable_fst measurable_snd)) (t + 1)
      exact h1.comp (measurable_id.prodMk measurable_id)
    have hpp : Measurable fun q : (Fin d → V) × (Fin d → V) =>
        futureAvg (K b) n (fun p => Φ (Fin.cons q.1 p)) (t + 1) q.1 * futureAvg (K b) n (fun p => Ψ (Fin.cons q.2 p)) (t + 1) q.2 :=
      ((hm2 hΦ).comp measurable_fst).mul ((hm2 hΨ).comp measurable_snd)
    have e3 := lintegral_map (μ := ν) hpp ((hi i).prodMk (hi j))
    rw [hpair i j b hij, lintegral_prod_mul (hm2 hΦ).aemeasurable (hm2 hΨ).aemeasurable] at e3
    exact e3.symm

/-- First and second moment of the weighted average over predicted paths, given the state. -/
theorem predict_moments [IsProbabilityMeasure P] (hN : 0 < N) {M : ParticleModel N B d V Y Ω}
    {K : Fin B → ℕ → Kernel (Fin d → V) (Fin d → V)} (hK : IndependentTransitions P M.propagateValues K) (b : Fin B)
    (n : ℕ) {Φ : (Fin n → Fin d → V) → ℝ≥0∞} (hΦ : Measurable Φ) (hΦ1 : ∀ q, Φ q ≤ 1) (t : ℕ) (x : Fin N → Fin B → Fin d → V)
    (s : Fin N → ℝ≥0∞) :
    ∫⁻ ω, ∑ i, s i * Φ (pathOf (M.sampleStates n ⟨x, t⟩ ω).1 i b) ∂P = ∑ i, s i * futureAvg (K b) n Φ t (x i b) ∧
    ∫⁻ ω, (∑ i, s i * Φ (pathOf (M.sampleStates n ⟨x, t⟩ ω).1 i b)) ^ 2 ∂P
      ≤ (∑ i, s i * futureAvg (K b) n Φ t (x i b)) ^ 2 + ∑ i, s i ^ 2 := by
  have hx : Measurable fun ω : Ω => (x, ω) := measurable_const.prodMk measurable_id
  have hm : ∀ i, Measurable fun ω => Φ (pathOf (M.sampleStates n ⟨x, t⟩ ω).1 i b) := fun i =>
    hΦ.comp ((measurable_samplePath P hK n t i b).comp hx)
  have h1 := fun i => sampleStates_one P hN hK i b n hΦ t x
  constructor
  · rw [lintegral_finsetSum _ fun i _ => (hm i).const_mul _]
    exact Finset.sum_congr rfl fun i _ => by rw [lintegral_const_mul _ (hm i), h1]
  · have h2 := second_moment P (fun i ω => Φ (pathOf (M.sampleStates n ⟨x, t⟩ ω).1 i b)) hm s 1
      (fun i => ae_of_all _ fun ω => hΦ1 _) fun i j hij => by
        rw [sampleStates_two P hN hK hij b n hΦ hΦ t x, h1, h1]
    simpa only [h1, one_pow, one_mul] using h2

/-! ## The likelihood and the last state of a run, jointly -/

/-- After the prediction of SISR the weights are not too uneven. -/
theorem predict_sq {M : ParticleModel N B d V Y Ω} (hN : 0 < N) (hthr : 0 < M.threshold) (b : Fin B) {δ : ℝ≥0∞}
    (hδN : ENNReal.ofReal (1 / N) ≤ δ) (hδt : ENNReal.ofReal (1 / M.threshold) ≤ δ) (x : Fin N → Fin B → Fin d → V) (t : ℕ)
    (w : Fin N → Fin B → ℝ) (ll prev) (ω : Ω) (w' : Fin N → Fin B → ℝ)
    (h : (M.sisrPredict ⟨⟨x, t⟩, fun i b => fin (w i b), ll, prev⟩ ω).1.w = fun i b => fin (w' i b)) :
    ∑ i, ENNReal.ofReal (sm w' b i) ^ 2 ≤ δ := by
  have inj : ∀ u : Fin N → Fin B → ℝ, (fun i b => fin (u i b)) = (fun i b => fin (w' i b) : Fin N → Fin B → XF) → w' = u := by
    intro u hu
    funext i j
    exact XF.fin.inj (congrFun (congrFun hu i) j).symm
  have hkeep : maskOf M.threshold w b = false → ∑ i, ENNReal.ofReal (sm w b i) ^ 2 ≤ δ :=
    fun hb => (sum_sq_keep hthr w b hN hb).trans hδt
  by_cases hm : ∀ b, maskOf M.threshold w b = false
  · rw [sisrPredict_keep M hN x t w ll prev ω hm] at h
    rw [inj w h]
    exact hkeep (hm b)
  · obtain ⟨idx, hi⟩ := sisrPredict_select M hN x t w ll prev ω _ rfl hm
    rw [hi] at h
    rw [inj _ h]
    cases hb : maskOf M.threshold w b with
    | true => exact (sum_sq_even b _ (sm_zero _ b fun i => by simp [selectW, hb])).trans hδN
    | false =>
      rw [sm_congr (selectW (maskOf M.threshold w) w) w b fun i => by simp [selectW, hb]]
      exact hkeep hb

/-- One step of SISR with its log-likelihood for filter `b`. -/
theorem step_joint [IsProbabilityMeasure P] {M : ParticleModel N B d V Y Ω} (hN : 0 < N) (hinc : M.kind.increment = 1)
    (hr : IndependentResampler P M.resampler) (hthr : 0 < M.threshold) {K : Fin B → ℕ → Kernel (Fin d → V) (Fin d → V)}
    (hK : IndependentTransitions P M.propagateValues K) {logg : Fin B → Y → ℕ → (Fin d → V) → ℝ} {c : Y → ℝ}
    (hS : IndependentProposal P M.sampleValues K logg c) (b : Fin B) {δ : ℝ≥0∞}
    (hδN : ENNReal.ofReal (1 / N) ≤ δ) (hδt : ENNReal.ofReal (1 / M.threshold) ≤ δ) (o : Option Y) (t : ℕ) :
    ∃ A : ZSt N B d V Ω → (((Fin N → Fin B → Fin d → V) × (Fin N → Fin B → ℝ)) × ℝ) × Ω, Measurable A ∧
      (∀ x w ll prev ω, ∃ ll' prev', stepO M o ⟨⟨x, t⟩, fun i b => fin (w i b), ll, prev⟩ ω =
          (⟨⟨(A ((x, w), ω)).1.1.1, t + 1⟩, fun i b => fin ((A ((x, w), ω)).1.1.2 i b), ll', prev'⟩, (A ((x, w), ω)).2) ∧
        ll' b = fin (A ((x, w), ω)).1.2 ∧ Real.exp (A ((x, w), ω)).1.2 ≤ boundOf c [o] ∧
        ENNReal.ofReal (Real.exp (A ((x, w), ω)).1.2) ^ 2 * ∑ i, ENNReal.ofReal (sm (A ((x, w), ω)).1.1.2 b i) ^ 2
          ≤ ENNReal.ofReal (boundOf c [o]) ^ 2 * δ) ∧
      ∀ x w, ∃ ν, Draws P (fun ω => A ((x, w), ω)) ν := by
  obtain ⟨A, hA, h1, h2⟩ := predict_map P hN hr t
  -- the second half of the step
  obtain ⟨C, hC, g1, g2⟩ : ∃ C : ZSt N B d V Ω → (((Fin N → Fin B → Fin d → V) × (Fin N → Fin B → ℝ)) × ℝ) × Ω, Measurable C ∧
      (∀ x w idx ω, ∃ ll' prev', (FilterKind.sisr.ops M).applyO o
          ⟨⟨x, t⟩, fun i b => fin (w i b), fun i b => fin (sm w b i), idx⟩ ω =
          (⟨⟨(C ((x, w), ω)).1.1.1, t + 1⟩, fun i b => fin ((C ((x, w), ω)).1.1.2 i b), ll', prev'⟩, (C ((x, w), ω)).2) ∧
        ll' b = fin (C ((x, w), ω)).1.2 ∧ Real.exp (C ((x, w), ω)).1.2 ≤ boundOf c [o] ∧
        ENNReal.ofReal (Real.exp (C ((x, w), ω)).1.2) ^ 2 * ∑ i, ENNReal.ofReal (sm (C ((x, w), ω)).1.1.2 b i) ^ 2
          ≤ ENNReal.ofReal (boundOf c [o]) ^ 2 * ∑ i, ENNReal.ofReal (sm w b i) ^ 2) ∧
      ∀ x w, ∃ ν, Draws P (fun ω => C ((x, w), ω)) ν := by
    cases o with
    | none =>
      have h3 : Measurable fun z : ZSt N B d V Ω => M.propagateValues ⟨z.1.1, t⟩ z.2 :=
        (hK.measurable t).comp ((measurable_fst.comp measurable_fst).prodMk measurable_snd)
      refine ⟨fun z => ((((M.propagateValues ⟨z.1.1, t⟩ z.2).1, z.1.2), 0), (M.propagateValues ⟨z.1.1, t⟩ z.2).2),
        (((measurable_fst.comp h3).prodMk (measurable_snd.comp measurable_fst)).prodMk measurable_const).prodMk
          (measurable_snd.comp h3),
        fun x w idx ω => ⟨_, _, rfl, rfl, ?_, ?_⟩, fun x w => ?_⟩
      · rw [Real.exp_zero]; rfl
      · simp [boundOf]
      · obtain ⟨ν, hν, -⟩ := hK.draws ⟨x, t⟩
        exact ⟨_, draws_map hν (g := fun v => ((v, w), (0 : ℝ))) ((measurable_id.prodMk measurable_const).prodMk measurable_const)⟩
    | some y =>
      obtain ⟨S, hSm, hSe, hSc, hSν⟩ := hS.sample y t
      let Z : (Fin N → Fin B → ℝ) → (Fin N → Fin B → ℝ) → ℝ := fun w l => ∑ i, sm w b i * Real.exp (l i b)
      have hZpos : ∀ w l, 0 < Z w l := fun w l => Finset.sum_pos
        (fun i _ => mul_pos (sm_pos w b i) (Real.exp_pos _)) ⟨⟨0, hN⟩, Finset.mem_univ _⟩
      have hZm : Measurable fun q : (Fin N → Fin B → ℝ) × (Fin N → Fin B → ℝ) => Real.log (Z q.1 q.2) := by
        have h3 : ∀ i, Measurable fun q : (Fin N → Fin B → ℝ) × (Fin N → Fin B → ℝ) => sm q.1 b i :=
          fun i => (measurable_sm b i).comp measurable_fst
        exact Real.measurable_log.comp (Finset.measurable_sum _ fun i _ => (h3 i).mul (by fun_prop))
      have hS1 : Measurable fun z : ZSt N B d V Ω => S (z.1.1, z.2) :=
        hSm.comp ((measurable_fst.comp measurable_fst).prodMk measurable_snd)
      have hadd : Measurable fun q : (Fin N → Fin B → ℝ) × (Fin N → Fin B → ℝ) =>
          (fun i b => q.2 i b + q.1 i b : Fin N → Fin B → ℝ) := by fun_prop
      have hw : Measurable fun z : ZSt N B d V Ω => (z.1.2, (S (z.1.1, z.2)).1.2) :=
        (measurable_snd.comp measurable_fst).prodMk (measurable_snd.comp (measurable_fst.comp hS1))
      refine ⟨fun z => ((((S (z.1.1, z.2)).1.1, fun i b => (S (z.1.1, z.2)).1.2 i b + z.1.2 i b),
          Real.log (Z z.1.2 (S (z.1.1, z.2)).1.2)), (S (z.1.1, z.2)).2),
        (((measurable_fst.comp (measurable_fst.comp hS1)).prodMk (hadd.comp hw)).prodMk (hZm.comp hw)).prodMk
          (measurable_snd.comp hS1), fun x w idx ω => ?_, fun x w => ?_⟩
      · refine ⟨logLikelihood (fun i b => fin ((S (x, ω)).1.2 i b)) (some fun i b => fin (sm w b i)), idx, ?_, ?_, ?_, ?_⟩
        · set p : PPred N B d V := ⟨⟨x, t⟩, fun i b => fin (w i b), fun i b => fin (sm w b i), idx⟩ with hp
          have hs := hSe p ω rfl
          show M.sisrCorrect y p ω = _
          unfold ParticleModel.sisrCorrect ParticleModel.sampleAndWeight
          rw [hs, hinc]
          rfl
        · rw [logLikelihood_weighted _ _ b (sm w b) (fun _ => rfl) (sm_nonneg w b)
            (fun i => Or.inr ⟨_, rfl⟩) ⟨⟨0, hN⟩, _, rfl⟩]
          exact if_neg (hZpos w (S (x, ω)).1.2).ne'
        · dsimp only
          rw [Real.exp_log (hZpos _ _)]
          simp only [boundOf, mul_one]
          calc Z w (S (x, ω)).1.2 ≤ ∑ i, sm w b i * Real.exp (c y) :=
                Finset.sum_le_sum fun i _ => mul_le_mul_of_nonneg_left (Real.exp_le_exp.2 (hSc _ i b)) (sm_nonneg w b i)
            _ = Real.exp (c y) := by rw [← Finset.sum_mul, (sm_isProb w b hN).2, one_mul]
        · dsimp only
          rw [Real.exp_log (hZpos _ _)]
          simp only [boundOf, mul_one]
          rw [Finset.mul_sum, Finset.mul_sum]
          refine Finset.sum_le_sum fun i _ => ?_
          rw [← mul_pow, ← mul_pow, ← ENNReal.ofReal_mul (hZpos _ _).le, ← ENNReal.ofReal_mul (Real.exp_pos _).le,
            sm_update]
          refine pow_le_pow_left' (ENNReal.ofReal_le_ofReal ?_) 2
          rw [mul_comm]
          exact mul_le_mul_of_nonneg_right (Real.exp_le_exp.2 (hSc _ i b)) (sm_nonneg w b i)
      · obtain ⟨ν, hν, -⟩ := hSν x
        have hwc : Measurable fun q : (Fin N → Fin B → Fin d → V) × (Fin N → Fin B → ℝ) => (w, q.2) :=
          measurable_const.prodMk measurable_snd
        exact ⟨_, draws_map hν (g := fun q : (Fin N → Fin B → Fin d → V) × (Fin N → Fin B → ℝ) =>
          ((q.1, fun i b => q.2 i b + w i b), Real.log (Z w q.2)))
          ((measurable_fst.prodMk (hadd.comp hwc)).prodMk (hZm.comp hwc))⟩
  refine ⟨fun z => C (A z), hC.comp hA, fun x w ll prev ω => ?_, fun x w => ?_⟩
  · obtain ⟨idx, hi⟩ := h1 x w ll prev ω
    obtain ⟨ll', prev', hl, hl2, hl3, hl4⟩ := g1 (A ((x, w), ω)).1.1 (A ((x, w), ω)).1.2 idx (A ((x, w), ω)).2
    refine ⟨ll', prev', ?_, hl2, hl3, hl4.trans (mul_le_mul' le_rfl ?_)⟩
    · show (FilterKind.sisr.ops M).applyO o (M.sisrPredict _ ω).1 (M.sisrPredict _ ω).2 = _
      rw [hi]
      exact hl
    · exact predict_sq hN hthr b hδN hδt x t w ll prev ω _ (by rw [hi])
  · obtain ⟨ν, hν⟩ := h2 x w
    choose κ hκ using fun a : (Fin N → Fin B → Fin d → V) × (Fin N → Fin B → ℝ) => g2 a.1 a.2
    obtain ⟨ν', hν', -⟩ := draws_comp hν (g := fun a ω => C (a, ω)) hC hκ (h := Prod.snd) measurable_snd
    exact ⟨ν', hν'⟩

/-- A run of SISR with its log-likelihood for filter `b`. -/
theorem run_joint [IsProbabilityMeasure P] {M : ParticleModel N B d V Y Ω} (hN : 0 < N) (hinc : M.kind.increment = 1)
    (hr : IndependentResampler P M.resampler) (hthr : 0 < M.threshold) {K : Fin B → ℕ → Kernel (Fin d → V) (Fin d → V)}
    (hK : IndependentTransitions P M.propagateValues K) {logg : Fin B → Y → ℕ → (Fin d → V) → ℝ} {c : Y → ℝ}
    (hS : IndependentProposal P M.sampleValues K logg c) (b : Fin B) {δ : ℝ≥0∞}
    (hδN : ENNReal.ofReal (1 / N) ≤ δ) (hδt : ENNReal.ofReal (1 / M.threshold) ≤ δ) : ∀ (os : List (Option Y)) (t : ℕ),
    ∃ A : ZSt N B d V Ω → (((Fin N → Fin B → Fin d → V) × (Fin N → Fin B → ℝ)) × ℝ) × Ω, Measurable A ∧
      (∀ x w ll prev ω, ∃ ll' prev',
        (FilterKind.sisr.ops M).endO os ⟨⟨x, t⟩, fun i b => fin (w i b), ll, prev⟩ ω =
          (⟨⟨(A ((x, w), ω)).1.1.1, t + os.length⟩, fun i b => fin ((A ((x, w), ω)).1.1.2 i b), ll', prev'⟩, (A ((x, w), ω)).2) ∧
        ((FilterKind.sisr.ops M).runO (fun c => c.ll b) os ⟨⟨x, t⟩, fun i b => fin (w i b), ll, prev⟩ ω).1
          = fin (A ((x, w), ω)).1.2 ∧
        (∑ i, ENNReal.ofReal (sm w b i) ^ 2 ≤ δ ∨ os ≠ [] →
          ENNReal.ofReal (Real.exp (A ((x, w), ω)).1.2) ^ 2 * ∑ i, ENNReal.ofReal (sm (A ((x, w), ω)).1.1.2 b i) ^ 2
            ≤ ENNReal.ofReal (boundOf c os) ^ 2 * δ)) ∧
      ∀ x w, ∃ ν, Draws P (fun ω => A ((x, w), ω)) ν
  | [], t => by
    refine ⟨fun z => ((z.1, 0), z.2), by fun_prop, fun x w ll prev ω => ⟨ll, prev, rfl, rfl, ?_⟩, fun x w => ?_⟩
    · rintro (h | h)
      · simpa [boundOf] using h
      · exact absurd rfl h
    · show ∃ ν, Draws P (fun ω => (((x, w), (0 : ℝ)), ω)) ν
      exact ⟨Measure.dirac ((x, w), 0), measurable_const.prodMk measurable_id, inferInstance, by rw [Measure.dirac_prod]⟩
  | o :: os, t => by
    obtain ⟨A, hA, a1, a2⟩ := step_joint P hN hinc hr hthr hK hS b hδN hδt o t
    obtain ⟨C, hC, c1, c2⟩ := run_joint hN hinc hr hthr hK hS b hδN hδt os (t + 1)
    have hbo : boundOf c (o :: os) = boundOf c [o] * boundOf c os := by cases o <;> simp [boundOf]
    have hC1 : Measurable fun z : ZSt N B d V Ω => C ((A z).1.1, (A z).2) :=
      hC.comp ((measurable_fst.comp (measurable_fst.comp hA)).prodMk (measurable_snd.comp hA))
    refine ⟨fun z => (((C ((A z).1.1, (A z).2)).1.1, (A z).1.2 + (C ((A z).1.1, (A z).2)).1.2), (C ((A z).1.1, (A z).2)).2),
      ((measurable_fst.comp (measurable_fst.comp hC1)).prodMk ((measurable_snd.comp (measurable_fst.comp hA)).add
        (measurable_snd.comp (measurable_fst.comp hC1)))).prodMk (measurable_snd.comp hC1), fun x w ll prev ω => ?_, fun x w => ?_⟩
    · obtain ⟨l1, p1, e1, e2, e3, e4⟩ := a1 x w ll prev ω
      obtain ⟨l2, p2, f1, f2, f3⟩ := c1 (A ((x, w), ω)).1.1.1 (A ((x, w), ω)).1.1.2 l1 p1 (A ((x, w), ω)).2
      refine ⟨l2, p2, ?_, ?_, fun _ => ?_⟩
      · show (FilterKind.sisr.ops M).endO os (stepO M o _ ω).1 (stepO M o _ ω).2 = _
        rw [e1, f1, List.length_cons, Nat.add_assoc, Nat.add_comm 1]
      · show (stepO M o _ ω).1.ll b + ((FilterKind.sisr.ops M).runO (fun c => c.ll b) os (stepO M o _ ω).1 (stepO M o _ ω).2).1 = _
        rw [e1, f2]
        show l1 b + _ = _
        rw [e2, fin_add]
      · dsimp only
        rw [Real.exp_add, ENNReal.ofReal_mul (Real.exp_pos _).le, hbo, ENNReal.ofReal_mul (boundOf_pos c _).le, mul_pow, mul_pow]
        cases os with
        | nil =>
          have hC0 := congrArg (fun q => q.1.w) f1
          have hC2 : (C ((A ((x, w), ω)).1.1, (A ((x, w), ω)).2)).1.1.2 = (A ((x, w), ω)).1.1.2 := by
            funext i j
            exact XF.fin.inj (congrFun (congrFun hC0 i) j).symm
          have hC3 : (C ((A ((x, w), ω)).1.1, (A ((x, w), ω)).2)).1.2 = 0 := (XF.fin.inj f2).symm
          rw [hC2, hC3]
          simpa [boundOf] using e4
        | cons o' os =>
          rw [mul_assoc, mul_assoc]
          exact mul_le_mul' (pow_le_pow_left' (ENNReal.ofReal_le_ofReal e3) 2) (f3 (Or.inr (by simp)))
    · obtain ⟨ν, hν⟩ := a2 x w
      choose κ hκ using fun a : (Fin N → Fin B → Fin d → V) × (Fin N → Fin B → ℝ) => c2 a.1 a.2
      obtain ⟨ν', hν', -⟩ := draws_comp hν
        (g := fun (a : ((Fin N → Fin B → Fin d → V) × (Fin N → Fin B → ℝ)) × ℝ) ω => C (a.1, ω))
        (hC.comp ((measurable_fst.comp measurable_fst).prodMk measurable_snd)) (fun a => hκ a.1)
        (h := fun q : (((Fin N → Fin B → Fin d → V) × (Fin N → Fin B → ℝ)) × ℝ) ×
          (((Fin N → Fin B → Fin d → V) × (Fin N → Fin B → ℝ)) × ℝ) => (q.2.1, q.1.2 + q.2.2)) (by fun_prop)
      exact ⟨ν', hν'⟩

/-- A run of SISR from the initial sampler: the log-likelihood for filter `b`, the last state and the generator afterwards. -/
theorem initial_joint [IsProbabilityMeasure P] {M : ParticleModel N B d V Y Ω} (hN : 0 < N) (hinc : M.kind.increment = 1)
    (hr : IndependentResampler P M.resampler) (hthr : 0 < M.threshold) {K : Fin B → ℕ → Kernel (Fin d → V) (Fin d → V)}
    {μ : Fin B → Measure (Fin d → V)} {init : Ω → (Fin N → Fin B → Fin d → V) × Ω} (hinit : IndependentInitial P init μ)
    (hK : IndependentTransitions P M.propagateValues K) {logg : Fin B → Y → ℕ → (Fin d → V) → ℝ} {c : Y → ℝ}
    (hS : IndependentProposal P M.sampleValues K logg c) (b : Fin B) {δ : ℝ≥0∞}
    (hδN : ENNReal.ofReal (1 / N) ≤ δ) (hδt : ENNReal.ofReal (1 / M.threshold) ≤ δ) (os : List (Option Y)) :
    ∃ J : Ω → (((Fin N → Fin B → Fin d → V) × (Fin N → Fin B → ℝ)) × ℝ) × Ω,
      (∀ ω, ∃ ll' prev', (FilterKind.sisr.ops M).endO os (initializeFilter M.lo (init ω).1) (init ω).2 =
          (⟨⟨(J ω).1.1.1, os.length⟩, fun i b => fin ((J ω).1.1.2 i b), ll', prev'⟩, (J ω).2) ∧
        ((FilterKind.sisr.ops M).runO (fun c => c.ll b) os (initializeFilter M.lo (init ω).1) (init ω).2).1 = fin (J ω).1.2 ∧
        ENNReal.ofReal (Real.exp (J ω).1.2) ^ 2 * ∑ i, ENNReal.ofReal (sm (J ω).1.1.2 b i) ^ 2
          ≤ ENNReal.ofReal (boundOf c os) ^ 2 * δ) ∧
      ∃ ν, Draws P J ν := by
  obtain ⟨A, hA, h1, h2⟩ := run_joint P hN hinc hr hthr hK hS b hδN hδt os 0
  obtain ⟨ν, hν, -⟩ := hinit
  refine ⟨fun ω => A (((init ω).1, fun _ _ => 0), (init ω).2), fun ω => ?_, ?_⟩
  · obtain ⟨ll', prev', e1, e2, e3⟩ := h1 (init ω).1 (fun _ _ => 0) (initializeFilter M.lo (init ω).1).ll
      (initializeFilter M.lo (init ω).1).prev (init ω).2
    rw [Nat.zero_add] at e1
    exact ⟨ll', prev', e1, e2, e3 (Or.inl ((sum_sq_even b _ (sm_zero _ b fun _ => rfl)).trans hδN))⟩
  · choose κ hκ using fun a : Fin N → Fin B → Fin d → V => h2 a fun _ _ => 0
    obtain ⟨ν', hν', -⟩ := draws_comp hν (g := fun a ω => A ((a, fun _ _ => 0), ω))
      (hA.comp ((measurable_fst.prodMk measurable_const).prodMk measurable_snd)) hκ (h := Prod.snd) measurable_snd
    exact ⟨ν', hν'⟩

end Verif.Unbiased
