import Verif.Model.Config
import Verif.Props.Particle

/-!
# Properties C32 and C33: copies and particle counts
-/

namespace Verif.Props

open Verif Verif.Spec

/-- A fresh SISR filter with the given relative threshold. -/
noncomputable def sisrConfig (particles : ℕ) (ess : ℝ) (p : ProposalConfig) : FilterConfig :=
  FilterConfig.init .sisr "model" particles "systematic" p ess (.bool false) (.bool true) .skip false

/-! ## C32 -/

/-- C32 in full: a copy has the same configuration. -/
def C32_claim : Prop := ∀ f : FilterConfig, f.copy = f

/-- C32 where it holds: class, model, particle count, resampler, recording options, NaN strategy,
batch shape, kind of proposal, and the numerical options of nested and linearised proposals are kept.
Missing: the threshold and the pre-weight function, see the next theorems. -/
theorem C32_copy_partial (f : FilterConfig) :
    f.copy.cls = f.cls ∧ f.copy.modelBuilder = f.modelBuilder ∧ f.copy.particles = f.particles ∧
    f.copy.resampler = f.resampler ∧ f.copy.recordStates = f.recordStates ∧
    f.copy.recordMoments = f.recordMoments ∧ f.copy.nanStrategy = f.nanStrategy ∧
    f.copy.recordIntermediary = f.recordIntermediary ∧ f.copy.batchShape = f.batchShape ∧
    f.copy.proposal.kind = f.proposal.kind ∧
    (f.proposal.kind = .nested → f.copy.proposal.numSamples = f.proposal.numSamples) ∧
    (f.proposal.kind = .linearized → f.copy.proposal.nSteps = f.proposal.nSteps ∧
      f.copy.proposal.alpha = f.proposal.alpha ∧
      f.copy.proposal.useSecondOrder = f.proposal.useSecondOrder ∧
      f.copy.proposal.useFunctorch = f.proposal.useFunctorch) := by
  refine ⟨rfl, rfl, rfl, rfl, rfl, rfl, rfl, rfl, rfl, ?_, ?_, ?_⟩
  · show f.proposal.copy.kind = f.proposal.kind
    cases h : f.proposal.kind <;> simp [ProposalConfig.copy, h, ProposalConfig.default]
  · intro h
    show f.proposal.copy.numSamples = _
    simp [ProposalConfig.copy, h]
  · intro h
    show f.proposal.copy.nSteps = _ ∧ f.proposal.copy.alpha = _ ∧ f.proposal.copy.useSecondOrder = _ ∧
      f.proposal.copy.useFunctorch = _
    simp [ProposalConfig.copy, h]

example : (sisrConfig 100 0.9 { ProposalConfig.default .nested with numSamples := 20 }).proposal.kind = .nested :=
  rfl

/-- How C32 fails, threshold: the copy's threshold is multiplied by the number of particles, so it is
equal only for one particle or the threshold zero. -/
theorem C32_threshold_scaled (f : FilterConfig) :
    f.copy.threshold = f.threshold * f.particles ∧
    (f.copy.threshold = f.threshold ↔ f.particles = 1 ∨ f.threshold = 0) := by
  refine ⟨rfl, ?_⟩
  show f.threshold * f.particles = f.threshold ↔ _
  constructor
  · intro h
    by_cases h0 : f.threshold = 0
    · exact Or.inr h0
    · left
      have := mul_left_cancel₀ h0 (h.trans (mul_one _).symm)
      exact_mod_cast this
  · rintro (h | h)
    · rw [h]; simp
    · rw [h]; simp

/-- Repeated copying multiplies the threshold again and again. -/
theorem C32_threshold_after_copies (f : FilterConfig) (n : ℕ) :
    (FilterConfig.copy^[n] f).threshold = f.threshold * (f.particles : ℝ) ^ n ∧
      (FilterConfig.copy^[n] f).particles = f.particles := by
  induction n with
  | zero => simp
  | succ n ih =>
    rw [Function.iterate_succ_apply']
    constructor
    · show (FilterConfig.copy^[n] f).threshold * ((FilterConfig.copy^[n] f).particles : ℝ) = _
      rw [ih.1, ih.2, pow_succ]; ring
    · exact ih.2

/-- The consequence for filtering: if the original threshold exceeds one effective particle, the copy of
a SISR filter resamples every parallel filter at every step, whatever the weights. -/
theorem C32_copy_always_resamples {N B d : ℕ} {V Y Ω : Type} (f : FilterConfig) (hp : f.particles = N)
    (ht : 1 < f.threshold) (M : ParticleModel N B d V Y Ω) (hM : M.threshold = f.copy.threshold)
    (s : PCorr N B d V) (ω : Ω) (hN : 0 < N) (hs : ∀ i b, Usable (s.w i b)) (i : Fin N) (b : Fin B) :
    (M.sisrPredict s ω).1.w i b = XF.fin 0 := by
  obtain ⟨cols, sub, -, hmem, -, -, hin, -, -⟩ := C27_resamples_exactly_degenerate M s ω hN hs
  have hb : b ∈ cols := by
    rw [hmem, hM, (C32_threshold_scaled f).1, hp]
    have hprob := isProb_mass M.lo (fun i => s.w i b) ⟨i, hs i b⟩
    have hsq := (isProb_sq hprob).1
    have hNr : (0 : ℝ) < N := by exact_mod_cast hN
    have hpos : 0 < ∑ i, colProb M.lo s.w b i * colProb M.lo s.w b i := by
      by_contra h
      have : (N : ℝ) * ∑ i, colProb M.lo s.w b i * colProb M.lo s.w b i ≤ 0 :=
        mul_nonpos_of_nonneg_of_nonpos hNr.le (not_lt.1 h)
      have h2 : 1 ≤ (N : ℝ) * ∑ i, colProb M.lo s.w b i * colProb M.lo s.w b i := hsq
      linarith
    unfold essOf
    rw [div_lt_iff₀ hpos]
    have h2 : 1 ≤ (N : ℝ) * ∑ i, colProb M.lo s.w b i * colProb M.lo s.w b i := hsq
    nlinarith [mul_pos hNr hpos]
  obtain ⟨j, rfl⟩ := List.get_of_mem hb
  exact (hin j i).2.2.1

/-- Case: the default relative threshold 0.9 with 100 particles, threshold 90 for the filter and 9000 for
its copy. -/
example : 1 < (sisrConfig 100 0.9 (ProposalConfig.default .bootstrap)).threshold ∧
    (sisrConfig 100 0.9 (ProposalConfig.default .bootstrap)).copy.threshold = 9000 := by
  constructor <;> norm_num [sisrConfig, FilterConfig.init, FilterConfig.copy]

/-- How C32 fails, proposal: no proposal keeps a pre-weight function. -/
theorem C32_pre_weight_function_lost (f : FilterConfig) : f.copy.proposal.preWeightFunc = none := by
  show f.proposal.copy.preWeightFunc = none
  cases h : f.proposal.kind <;> simp [ProposalConfig.copy, h, ProposalConfig.default]

/-- C32 is false. -/
theorem C32_negation : ¬ C32_claim := by
  intro h
  have h1 := (C32_threshold_scaled (sisrConfig 2 1 (ProposalConfig.default .bootstrap))).2.1 (by rw [h])
  rcases h1 with h1 | h1 <;> norm_num [sisrConfig, FilterConfig.init] at h1

/-! ## C33 -/

/-- C33: after any sequence of integer factors the particle count is the product, and the relative
threshold is what it was; nothing else changes. -/
theorem C33_relative_threshold_kept (f : FilterConfig) (factors : List ℕ) :
    (factors.foldl FilterConfig.increaseParticles f).particles = factors.prod * f.particles ∧
    (factors.foldl FilterConfig.increaseParticles f).threshold * f.particles =
      f.threshold * (factors.foldl FilterConfig.increaseParticles f).particles ∧
    { factors.foldl FilterConfig.increaseParticles f with particles := f.particles, threshold := f.threshold }
      = f := by
  induction factors generalizing f with
  | nil => simp
  | cons a l ih =>
    obtain ⟨h1, h2, h3⟩ := ih (f.increaseParticles a)
    simp only [List.foldl_cons, List.prod_cons]
    refine ⟨?_, ?_, ?_⟩
    · rw [h1]; simp only [FilterConfig.increaseParticles]; ring
    · rw [h1]
      have h4 : (l.foldl FilterConfig.increaseParticles (f.increaseParticles a)).threshold
          = f.threshold * a * l.prod := by
        clear h1 h2 h3 ih
        have : ∀ (l : List ℕ) (g : FilterConfig),
            (l.foldl FilterConfig.increaseParticles g).threshold = g.threshold * l.prod := by
          intro l
          induction l with
          | nil => intro g; simp
          | cons b l ih =>
            intro g
            rw [List.foldl_cons, ih, List.prod_cons]
            simp only [FilterConfig.increaseParticles]
            push_cast
            ring
        rw [this]
        simp only [FilterConfig.increaseParticles]
      rw [h4]
      simp only [FilterConfig.increaseParticles]
      push_cast
      ring
    · have := congrArg (fun g : FilterConfig => { g with particles := f.particles, threshold := f.threshold }) h3
      exact this

/-- A filter constructed with relative threshold `ess` has it after any number of doublings. -/
theorem C33_constructed (n : ℕ) (hn : 0 < n) (ess : ℝ) (p : ProposalConfig) (factors : List ℕ)
    (hf : ∀ a ∈ factors, 0 < a) :
    (factors.foldl FilterConfig.increaseParticles (sisrConfig n ess p)).threshold =
      ess * (factors.foldl FilterConfig.increaseParticles (sisrConfig n ess p)).particles := by
  obtain ⟨-, h2, -⟩ := C33_relative_threshold_kept (sisrConfig n ess p) factors
  have hn' : ((n : ℕ) : ℝ) ≠ 0 := by exact_mod_cast hn.ne'
  have h3 : (sisrConfig n ess p).threshold = ess * n := rfl
  have h4 : (sisrConfig n ess p).particles = n := rfl
  rw [h3, h4] at h2
  apply mul_right_cancel₀ hn'
  rw [h2]; ring

example : ∀ a ∈ [2, 2, 3], 0 < a := by decide

end Verif.Props
