import Verif.Spec.PmmhFilter
import Verif.Lemmas.Unbiased
import Verif.Lemmas.RunSlots
import Verif.Props.Unbiased

/-!
# The likelihood estimate as a function of parameters and generator state
-/

namespace Verif.PmmhFilter

open Verif Verif.Spec Verif.Unbiased Verif.Mcmc XF MeasureTheory ProbabilityTheory
open scoped ENNReal

/-! ### The filter result of PMMH is the run of the filter -/

section
variable {c : Priors.Registry} {e : ℕ} {V Y Ω : Type}

theorem loglik_fold (f : Builder (∀ i, Fin (c.numel i) → ℝ) e V Y Ω) (lo eps : ℝ) (m : Mdl c.dim)
    (noise : ℕ → Ω) : ∀ (ys : List Y) (j : ℕ) (s : Slot c.dim Y Ω) (q : PCorr s.particles 1 e V × Ω)
    (r : PCorr s.particles 1 e V × List (PCorr s.particles 1 e V) × Ω), f.state s = some q →
    (f.kind.ops (f.model s.particles (c.unstack m.built false))).filterAll f.opt f.fuel ys q.1 q.2 = some r →
    (f.env lo eps).loglik ((ys.zipIdx j).foldl (fun s y => .step s m y.1 (noise (y.2 + 1))) s)
      = (f.env lo eps).loglik s + (r.2.1.map fun k => k.ll 0).sum
  | [], j, s, q, r, _, h => by
    cases Option.some.inj h
    exact (add_zero ((f.env lo eps).loglik s)).symm
  | y :: ys, j, s, q, r, hs, h => by
    rw [FilterOps.filterAll] at h
    obtain ⟨r1, h1⟩ : ∃ r1, f.move s.particles m y q = some r1 := by
      cases h1 : f.move s.particles m y q with
      | some r1 => exact ⟨r1, rfl⟩
      | none =>
        unfold Builder.move at h1
        rw [h1] at h
        cases h
    have h1' := h1
    unfold Builder.move at h1'
    rw [h1'] at h
    obtain ⟨k1, new, ω1⟩ := r1
    obtain ⟨r2, h2, h3⟩ := Option.map_eq_some_iff.1 h
    have hst : f.state (.step s m y (noise (j + 1))) = some (k1, ω1) := by
      rw [Builder.state, hs, Option.bind_some, h1]
      rfl
    have ih := loglik_fold f lo eps m noise ys (j + 1) (.step s m y (noise (j + 1))) (k1, ω1) r2 hst h2
    rw [List.zipIdx_cons, List.foldl_cons, ih]
    have hinc : (f.env lo eps).loglik (.step s m y (noise (j + 1)))
        = (f.env lo eps).loglik s + (new.map fun k => k.ll 0).sum := by
      show _ + f.inc s m y (noise (j + 1)) = _
      unfold Builder.inc
      rw [hs, Option.bind_some, h1]
    rw [hinc, ← h3]
    show _ = _ + ((new ++ r2.2.1).map _).sum
    rw [List.map_append, List.sum_append, add_assoc]
    rfl

theorem loglik_batchFilter (f : Builder (∀ i, Fin (c.numel i) → ℝ) e V Y Ω) (lo eps : ℝ) (n : ℕ)
    (v u : Row c.dim) (ys : List Y) (noise : ℕ → Ω) (r : PCorr n 1 e V × List (PCorr n 1 e V) × Ω)
    (h : (f.kind.ops (f.model n (c.unstack u false))).filterAll f.opt f.fuel ys
      (initializeFilter f.lo (f.init n (c.unstack u false) (noise 0)).1)
      (f.init n (c.unstack u false) (noise 0)).2 = some r) :
    (f.env lo eps).loglik (Mcmc.batchFilter n ⟨v, u⟩ ys noise) = (r.2.1.map fun k => k.ll 0).sum := by
  have := loglik_fold f lo eps ⟨v, u⟩ noise ys 0 (.start n ⟨v, u⟩ (noise 0)) _ r rfl h
  exact this.trans (zero_add _)

end

/-! ### Parameters as part of the generator state -/

section
variable {Θ : Type} {e : ℕ} {V Y Ω : Type}

/-- The filter whose generator state carries the parameters along. -/
def carry (f : Builder Θ e V Y Ω) (n : ℕ) : ParticleModel n 1 e V Y (Θ × Ω) where
  lo := f.lo
  threshold := f.threshold n
  resampler w b z := ((f.resampler n w b z.2).1, (z.1, (f.resampler n w b z.2).2))
  propagateValues x z := ((f.hidden n z.1 x z.2).1, (z.1, (f.hidden n z.1 x z.2).2))
  kind := f.proposal
  sampleValues y p z := ((f.sample n z.1 y p z.2).1, (z.1, (f.sample n z.1 y p z.2).2))
  preWeight _ _ _ _ := fin 0
  allNan := f.missing

theorem carry_predict (f : Builder Θ e V Y Ω) (n : ℕ) (s : PCorr n 1 e V) (θ : Θ) (ω : Ω) :
    (carry f n).sisrPredict s (θ, ω)
      = (((f.model n θ).sisrPredict s ω).1, (θ, ((f.model n θ).sisrPredict s ω).2)) := by
  classical
  let _ : MeasurableSpace V := ⊤
  let _ : MeasurableSpace Ω := ⊤
  let _ : MeasurableSpace Θ := ⊤
  rw [sisrPredict_unfold (carry f n) s (θ, ω) _ rfl, sisrPredict_unfold (f.model n θ) s ω _ rfl]
  show (if _ then _ else _) = _
  split_ifs with h1 h2 h2
  · rfl
  · exact absurd h1 h2
  · exact absurd h2 h1
  · rfl

theorem carry_total (f : Builder Θ e V Y Ω) (n : ℕ) (θ : Θ) : ∀ (os : List (Option Y)) (p : PPred n 1 e V)
    (ω : Ω), (FilterKind.sisr.ops (carry f n)).totalP (fun k => k.ll 0) os p (θ, ω)
      = (FilterKind.sisr.ops (f.model n θ)).totalP (fun k => k.ll 0) os p ω
  | [], _, _ => rfl
  | o :: os, p, ω => by
    have h : (FilterKind.sisr.ops (carry f n)).applyO o p (θ, ω)
        = (((FilterKind.sisr.ops (f.model n θ)).applyO o p ω).1,
          (θ, ((FilterKind.sisr.ops (f.model n θ)).applyO o p ω).2)) := by
      cases o <;> rfl
    rw [FilterOps.totalP, FilterOps.totalP, h]
    dsimp only
    have h2 := carry_predict f n ((FilterKind.sisr.ops (f.model n θ)).applyO o p ω).1 θ
      ((FilterKind.sisr.ops (f.model n θ)).applyO o p ω).2
    have h3 : (FilterKind.sisr.ops (carry f n)).predict
        ((FilterKind.sisr.ops (f.model n θ)).applyO o p ω).1
        (θ, ((FilterKind.sisr.ops (f.model n θ)).applyO o p ω).2) = _ := h2
    rw [h3, carry_total f n θ os]
    rfl

variable [MeasurableSpace Θ] [MeasurableSpace V] [MeasurableSpace Ω]

/-- Drawing with the parameters carried along. -/
theorem draws_carry {α : Type} [MeasurableSpace α] {P : Measure Ω} [IsProbabilityMeasure P] {h : Θ → Ω → α × Ω}
    (hm : Measurable fun q : Θ × Ω => h q.1 q.2) {θ : Θ} {ν : Measure α} (hd : Draws P (h θ) ν) :
    Draws ((Measure.dirac θ).prod P) (fun z : Θ × Ω => ((h z.1 z.2).1, (z.1, (h z.1 z.2).2))) ν := by
  have hF : Measurable fun z : Θ × Ω => ((h z.1 z.2).1, (z.1, (h z.1 z.2).2)) :=
    (measurable_fst.comp hm).prodMk (measurable_fst.prodMk (measurable_snd.comp hm))
  have hp := hd.prob
  have hθ : Measurable (Prod.mk θ : Ω → Θ × Ω) := measurable_prodMk_left
  refine ⟨hF, hp, ?_⟩
  rw [Measure.dirac_prod, Measure.map_map hF hθ]
  have e1 : (fun z : Θ × Ω => ((h z.1 z.2).1, (z.1, (h z.1 z.2).2))) ∘ Prod.mk θ
      = Prod.map id (Prod.mk θ) ∘ h θ := rfl
  rw [e1, ← Measure.map_map (measurable_id.prodMap hθ) hd.measurable, hd.law,
    ← Measure.map_prod_map ν P measurable_id hθ, Measure.map_id]

/-- The likelihood estimate of SISR: a measurable function of parameters and generator state whose
exponential has the likelihood as expectation. -/
theorem sisr_estimate {P : Measure Ω} [IsProbabilityMeasure P] [Nonempty Θ] {f : Builder Θ e V Y Ω} {n : ℕ}
    (hkind : f.kind = .sisr) (hprop : f.proposal.increment = 1) (hn : 0 < n)
    (hk : 0 < f.opt.observeEveryStep) (hfuel : f.opt.observeEveryStep - 1 ≤ f.fuel)
    (hr : UnbiasedResampler P (f.resampler n))
    {μ : Θ → Measure (Fin e → V)} {K : Θ → ℕ → Kernel (Fin e → V) (Fin e → V)}
    {logg : Θ → Y → ℕ → (Fin e → V) → ℝ} (hf : FiltersModels P f n μ K logg) (ys : List Y) :
    ∃ R : Θ × Ω → ℝ, Measurable R ∧
      (∀ θ ω, ∃ r, (f.kind.ops (f.model n θ)).filterAll f.opt f.fuel ys (initializeFilter f.lo (f.init n θ ω).1)
        (f.init n θ ω).2 = some r ∧ (r.2.1.map fun k => k.ll 0).sum = fin (R (θ, ω))) ∧
      ∀ θ, ∫⁻ ω, ENNReal.ofReal (Real.exp (R (θ, ω))) ∂P
        = likelihood f.opt.observeEveryStep f.missing μ K logg ys θ := by
  have hr' : ∀ θ, UnbiasedResampler ((Measure.dirac θ).prod P) (carry f n).resampler := by
    intro θ
    refine ⟨fun b => ?_, fun b p hp => ?_⟩
    · have h1 : Measurable fun q : (Fin n → Fin b → ℝ) × Θ × Ω =>
          f.resampler n (fun i j => fin (q.1 i j)) true q.2.2 :=
        (hr.measurable b).comp (measurable_fst.prodMk (measurable_snd.comp measurable_snd))
      exact (measurable_fst.comp h1).prodMk
        ((measurable_fst.comp measurable_snd).prodMk (measurable_snd.comp h1))
    · obtain ⟨ν, hν, hc⟩ := hr.draws b p hp
      exact ⟨ν, draws_carry (h := fun _ => f.resampler n (fun i j => fin (p i j)) true)
        (hν.measurable.comp measurable_snd) hν, hc⟩
  have hK' : ∀ θ, DrawsTransitions ((Measure.dirac θ).prod P) (carry f n).propagateValues fun _ => K θ := by
    intro θ
    refine ⟨fun t => ?_, fun x => ?_⟩
    · have h1 : Measurable fun q : (Fin n → Fin 1 → Fin e → V) × Θ × Ω => f.hidden n q.2.1 ⟨q.1, t⟩ q.2.2 :=
        (hf.measurable_hidden t).comp ((measurable_fst.comp measurable_snd).prodMk
          (measurable_fst.prodMk (measurable_snd.comp measurable_snd)))
      exact (measurable_fst.comp h1).prodMk
        ((measurable_fst.comp measurable_snd).prodMk (measurable_snd.comp h1))
    · obtain ⟨ν, hν, hm⟩ := (hf.draws_hidden θ).draws x
      refine ⟨ν, draws_carry (h := fun θ => f.hidden n θ x) ?_ hν, hm⟩
      exact (hf.measurable_hidden x.time).comp
        (measurable_fst.prodMk (measurable_const.prodMk measurable_snd))
  have hS' : ∀ θ, ProperProposal ((Measure.dirac θ).prod P) (carry f n).sampleValues (fun _ => K θ)
      fun _ => logg θ := by
    intro θ
    refine ⟨fun y t => ?_⟩
    obtain ⟨S, hSm, hSe, hSν⟩ := hf.proper y t
    have h1 : Measurable fun q : (Fin n → Fin 1 → Fin e → V) × Θ × Ω => S (q.2.1, q.1, q.2.2) :=
      hSm.comp ((measurable_fst.comp measurable_snd).prodMk
        (measurable_fst.prodMk (measurable_snd.comp measurable_snd)))
    refine ⟨fun q => ((S (q.2.1, q.1, q.2.2)).1, (q.2.1, (S (q.2.1, q.1, q.2.2)).2)),
      (measurable_fst.comp h1).prodMk
        ((measurable_fst.comp measurable_snd).prodMk (measurable_snd.comp h1)), fun p z ht => ?_, fun x => ?_⟩
    · have h2 := hSe z.1 p z.2 ht
      show ((f.sample n z.1 y p z.2).1, (z.1, (f.sample n z.1 y p z.2).2)) = _
      rw [h2]
    · obtain ⟨ν, hν, hm⟩ := hSν θ x
      exact ⟨ν, draws_carry (h := fun θ ω => S (θ, x, ω))
        (hSm.comp (measurable_fst.prodMk (measurable_const.prodMk measurable_snd))) hν, hm⟩
  have hi' : ∀ θ, DrawsInitial ((Measure.dirac θ).prod P)
      (fun z => ((f.init n z.1 z.2).1, (z.1, (f.init n z.1 z.2).2))) fun _ => μ θ := by
    intro θ
    obtain ⟨ν, hν, hm⟩ := hf.draws_init θ
    exact ⟨ν, draws_carry hf.measurable_init hν, hm⟩
  let os := slots f.opt.observeEveryStep f.missing ys
  let tot : PCorr n 1 e V → Θ × Ω → XF := fun k z =>
    (FilterKind.sisr.ops (carry f n)).totalP (fun k => k.ll 0) os
      ((FilterKind.sisr.ops (carry f n)).predict k z).1 ((FilterKind.sisr.ops (carry f n)).predict k z).2
  have hest : ∀ θ, Est ((Measure.dirac θ).prod P) (0 : Fin 1) 0 tot
      (lik (K θ) (fun y t x => ENNReal.ofReal (Real.exp (logg θ y t x))) os 0) := fun θ =>
    est_sisrPredict ((Measure.dirac θ).prod P) hn (hr' θ)
      (Props.sisr_totalP ((Measure.dirac θ).prod P) hn (carry f n) hprop (hr' θ) (hK' θ)
        (fun _ => hf.measurable_logg θ) (hS' θ) 0 os 0)
  have hlik : ∀ θ, Measurable (lik (K θ) (fun y t x => ENNReal.ofReal (Real.exp (logg θ y t x))) os 0) :=
    fun θ => measurable_lik _ _ (fun y t => (Real.measurable_exp.comp (hf.measurable_logg θ y t)).ennreal_ofReal) _ 0
  obtain ⟨R, hR, hR1, _⟩ := hest (Classical.arbitrary Θ)
  have hst : Measurable fun z : Θ × Ω => (((f.init n z.1 z.2).1,
      (fun _ _ => 0 : Fin n → Fin 1 → ℝ)), (z.1, (f.init n z.1 z.2).2)) :=
    ((measurable_fst.comp hf.measurable_init).prodMk measurable_const).prodMk
      (measurable_fst.prodMk (measurable_snd.comp hf.measurable_init))
  have hval : ∀ θ ω, tot (initializeFilter f.lo (f.init n θ ω).1) (θ, (f.init n θ ω).2)
      = fin (R (((f.init n θ ω).1, fun _ _ => 0), (θ, (f.init n θ ω).2))) := fun θ ω =>
    hR1 (f.init n θ ω).1 (fun _ _ => 0) _ _ (θ, (f.init n θ ω).2)
  refine ⟨fun z => R (((f.init n z.1 z.2).1, fun _ _ => 0), (z.1, (f.init n z.1 z.2).2)), hR.comp hst, ?_, ?_⟩
  · intro θ ω
    obtain ⟨r, h1, h2⟩ := FilterOps.filterAll_total (ticks f.kind (f.model n θ) hprop) (fun k => k.ll 0)
      (fun _ _ => rfl) f.opt hk f.fuel hfuel ys 0 (initializeFilter f.lo (f.init n θ ω).1) (f.init n θ ω).2 rfl
    refine ⟨r, h1, ?_⟩
    rw [h2, FilterOps.slotsFrom_zero, hkind, ← hval θ ω]
    have h3 : (FilterKind.sisr.ops (carry f n)).predict (initializeFilter f.lo (f.init n θ ω).1)
        (θ, (f.init n θ ω).2) = _ := carry_predict f n _ θ _
    show _ = (FilterKind.sisr.ops (carry f n)).totalP _ _ _ _
    rw [h3, carry_total]
    rfl
  · intro θ
    have h1 := (est_initial ((Measure.dirac θ).prod P) hn (hi' θ) (hlik θ) (hest θ) f.lo).2
    have h2 : ∀ z : Θ × Ω, expOf (tot (initializeFilter f.lo (f.init n z.1 z.2).1) (z.1, (f.init n z.1 z.2).2))
        = Real.exp (R (((f.init n z.1 z.2).1, fun _ _ => 0), (z.1, (f.init n z.1 z.2).2))) := by
      intro z
      rw [hval z.1 z.2]
      rfl
    simp only [h2] at h1
    have hG : Measurable fun z : Θ × Ω => ENNReal.ofReal (Real.exp
        (R (((f.init n z.1 z.2).1, fun _ _ => 0), (z.1, (f.init n z.1 z.2).2)))) :=
      (Real.measurable_exp.comp (hR.comp hst)).ennreal_ofReal
    rw [Measure.dirac_prod, lintegral_map hG measurable_prodMk_left] at h1
    exact h1

/-! ### The auxiliary particle filter -/

/-- `F`, run from a prediction at time `t` with finite weights, is finite and a measurable function of the
parameters, the prediction and the generator state. -/
def Joint (n : ℕ) (t : ℕ) (F : Θ → PPred n 1 e V → Ω → XF) : Prop :=
  ∃ R : Θ × ((Fin n → Fin 1 → Fin e → V) × (Fin n → Fin 1 → ℝ)) × Ω → ℝ, Measurable R ∧
    ∀ θ x w idx ω, F θ ⟨⟨x, t⟩, fun i b => fin (w i b), fun i b => fin (sm w b i), idx⟩ ω
      = fin (R (θ, (x, w), ω))

theorem joint_createState {f : Builder Θ e V Y Ω} {n t : ℕ}
    (hh : ∀ t, Measurable fun q : Θ × (Fin n → Fin 1 → Fin e → V) × Ω => f.hidden n q.1 ⟨q.2.1, t⟩ q.2.2)
    {F : Θ → PPred n 1 e V → Ω → XF} (hF : Joint n (t + 1) F) :
    Joint n t fun θ p ω => ((f.model n θ).createState p ω).1.ll 0 +
      F θ ((f.model n θ).apfPredict ((f.model n θ).createState p ω).1 ((f.model n θ).createState p ω).2).1
        ((f.model n θ).apfPredict ((f.model n θ).createState p ω).1 ((f.model n θ).createState p ω).2).2 := by
  obtain ⟨R, hR, h1⟩ := hF
  have hA : Measurable fun z : Θ × ((Fin n → Fin 1 → Fin e → V) × (Fin n → Fin 1 → ℝ)) × Ω =>
      (z.1, ((f.hidden n z.1 ⟨z.2.1.1, t⟩ z.2.2).1, z.2.1.2), (f.hidden n z.1 ⟨z.2.1.1, t⟩ z.2.2).2) := by
    have h3 : Measurable fun z : Θ × ((Fin n → Fin 1 → Fin e → V) × (Fin n → Fin 1 → ℝ)) × Ω =>
        f.hidden n z.1 ⟨z.2.1.1, t⟩ z.2.2 :=
      (hh t).comp (measurable_fst.prodMk ((measurable_fst.comp (measurable_fst.comp measurable_snd)).prodMk
        (measurable_snd.comp measurable_snd)))
    exact measurable_fst.prodMk (((measurable_fst.comp h3).prodMk
      (measurable_snd.comp (measurable_fst.comp measurable_snd))).prodMk (measurable_snd.comp h3))
  refine ⟨_, hR.comp hA, fun θ x w idx ω => ?_⟩
  have h2 : (f.model n θ).apfPredict ((f.model n θ).createState
        ⟨⟨x, t⟩, fun i b => fin (w i b), fun i b => fin (sm w b i), idx⟩ ω).1
        ((f.model n θ).createState ⟨⟨x, t⟩, fun i b => fin (w i b), fun i b => fin (sm w b i), idx⟩ ω).2
      = (⟨⟨(f.hidden n θ ⟨x, t⟩ ω).1, t + 1⟩, fun i b => fin (w i b), fun i b => fin (sm w b i), fun i _ => i⟩,
        (f.hidden n θ ⟨x, t⟩ ω).2) := by
    show (f.model n θ).apfPredict ⟨⟨(f.hidden n θ ⟨x, t⟩ ω).1, t + 1⟩, fun i b => fin (w i b), _, _⟩ _ = _
    unfold ParticleModel.apfPredict
    simp only [normalize2_fin]
    rfl
  beta_reduce
  rw [h2, h1]
  show fin 0 + _ = _
  rw [fin_add, zero_add]
  rfl

theorem joint_apfCorrect {f : Builder Θ e V Y Ω} {n t : ℕ} (hn : 0 < n) (hprop : f.proposal.increment = 1)
    {P : Measure Ω} (hr : UnbiasedLogResampler P (f.resampler n)) (y : Y)
    {S : Θ × (Fin n → Fin 1 → Fin e → V) × Ω → ((Fin n → Fin 1 → Fin e → V) × (Fin n → Fin 1 → ℝ)) × Ω}
    (hSm : Measurable S)
    (hSe : ∀ θ p ω, p.prevX.time = t → f.sample n θ y p ω = (((S (θ, p.prevX.value, ω)).1.1,
      fun i b => XF.fin ((S (θ, p.prevX.value, ω)).1.2 i b)), (S (θ, p.prevX.value, ω)).2))
    {pre : Θ × (Fin n → Fin 1 → Fin e → V) → Fin n → Fin 1 → ℝ} (hpre : Measurable pre)
    (hpe : ∀ θ x i b, f.preWeight n θ y ⟨x, t⟩ i b = fin (pre (θ, x) i b))
    {F : Θ → PPred n 1 e V → Ω → XF} (hF : Joint n (t + 1) F) :
    Joint n t fun θ p ω => ((f.model n θ).apfCorrect y p ω).1.ll 0 +
      F θ ((f.model n θ).apfPredict ((f.model n θ).apfCorrect y p ω).1 ((f.model n θ).apfCorrect y p ω).2).1
        ((f.model n θ).apfPredict ((f.model n θ).apfCorrect y p ω).1 ((f.model n θ).apfCorrect y p ω).2).2 := by
  obtain ⟨R, hR, h1⟩ := hF
  -- the estimate for given ancestors
  let G : Θ × (((Fin n → Fin 1 → Fin e → V) × (Fin n → Fin 1 → ℝ)) × (Fin n → Fin 1 → Fin n)) × Ω → ℝ :=
    fun z => Real.log (uavg 0 fun i b => (S (z.1, pickX z.2.1.1.1 z.2.1.2, z.2.2)).1.2 i b
        - pickW (pre (z.1, z.2.1.1.1)) z.2.1.2 i b) +
      Real.log (wavg 0 z.2.1.1.2 (pre (z.1, z.2.1.1.1))) +
      R (z.1, ((S (z.1, pickX z.2.1.1.1 z.2.1.2, z.2.2)).1.1,
        fun i b => (S (z.1, pickX z.2.1.1.1 z.2.1.2, z.2.2)).1.2 i b
          - pickW (pre (z.1, z.2.1.1.1)) z.2.1.2 i b), (S (z.1, pickX z.2.1.1.1 z.2.1.2, z.2.2)).2)
  have hG : Measurable G := by
    have hx : Measurable fun z : Θ × (((Fin n → Fin 1 → Fin e → V) × (Fin n → Fin 1 → ℝ)) ×
        (Fin n → Fin 1 → Fin n)) × Ω => z.2.1.1.1 :=
      measurable_fst.comp (measurable_fst.comp (measurable_fst.comp measurable_snd))
    have hw : Measurable fun z : Θ × (((Fin n → Fin 1 → Fin e → V) × (Fin n → Fin 1 → ℝ)) ×
        (Fin n → Fin 1 → Fin n)) × Ω => z.2.1.1.2 :=
      measurable_snd.comp (measurable_fst.comp (measurable_fst.comp measurable_snd))
    have ha : Measurable fun z : Θ × (((Fin n → Fin 1 → Fin e → V) × (Fin n → Fin 1 → ℝ)) ×
        (Fin n → Fin 1 → Fin n)) × Ω => z.2.1.2 := measurable_snd.comp (measurable_fst.comp measurable_snd)
    have hp : Measurable fun z : Θ × (((Fin n → Fin 1 → Fin e → V) × (Fin n → Fin 1 → ℝ)) ×
        (Fin n → Fin 1 → Fin n)) × Ω => pre (z.1, z.2.1.1.1) := hpre.comp (measurable_fst.prodMk hx)
    have hS2 : Measurable fun z : Θ × (((Fin n → Fin 1 → Fin e → V) × (Fin n → Fin 1 → ℝ)) ×
        (Fin n → Fin 1 → Fin n)) × Ω => S (z.1, pickX z.2.1.1.1 z.2.1.2, z.2.2) :=
      hSm.comp (measurable_fst.prodMk ((measurable_pickX.comp (hx.prodMk ha)).prodMk
        (measurable_snd.comp measurable_snd)))
    have hd : Measurable fun z : Θ × (((Fin n → Fin 1 → Fin e → V) × (Fin n → Fin 1 → ℝ)) ×
        (Fin n → Fin 1 → Fin n)) × Ω => (fun i b => (S (z.1, pickX z.2.1.1.1 z.2.1.2, z.2.2)).1.2 i b
          - pickW (pre (z.1, z.2.1.1.1)) z.2.1.2 i b : Fin n → Fin 1 → ℝ) :=
      measurable_subtract.comp ((measurable_snd.comp (measurable_fst.comp hS2)).prodMk
        (measurable_pickW.comp (hp.prodMk ha)))
    refine ((Real.measurable_log.comp ((measurable_uavg 0).comp hd)).add
      (Real.measurable_log.comp ((measurable_wavg 0).comp (hw.prodMk hp)))).add (hR.comp ?_)
    exact measurable_fst.prodMk (((measurable_fst.comp (measurable_fst.comp hS2)).prodMk hd).prodMk
      (measurable_snd.comp hS2))
  have hsel : Measurable fun z : Θ × ((Fin n → Fin 1 → Fin e → V) × (Fin n → Fin 1 → ℝ)) × Ω =>
      f.resampler n (fun i b => fin (pre (z.1, z.2.1.1) i b + z.2.1.2 i b)) false z.2.2 := by
    have h4 : Measurable fun q : (Fin n → Fin 1 → ℝ) × (Fin n → Fin 1 → ℝ) =>
      (fun i b => q.1 i b + q.2 i b : Fin n → Fin 1 → ℝ) := by fun_prop
    have h3 : Measurable fun z : Θ × ((Fin n → Fin 1 → Fin e → V) × (Fin n → Fin 1 → ℝ)) × Ω =>
        ((fun i b => pre (z.1, z.2.1.1) i b + z.2.1.2 i b : Fin n → Fin 1 → ℝ), z.2.2) :=
      (h4.comp ((hpre.comp (measurable_fst.prodMk (measurable_fst.comp (measurable_fst.comp
        measurable_snd)))).prodMk (measurable_snd.comp (measurable_fst.comp measurable_snd)))).prodMk
        (measurable_snd.comp measurable_snd)
    exact (hr.measurable 1).comp h3
  refine ⟨fun z => G (z.1, (z.2.1, (f.resampler n (fun i b => fin (pre (z.1, z.2.1.1) i b + z.2.1.2 i b))
      false z.2.2).1), (f.resampler n (fun i b => fin (pre (z.1, z.2.1.1) i b + z.2.1.2 i b)) false z.2.2).2),
    hG.comp (measurable_fst.prodMk (((measurable_fst.comp measurable_snd).prodMk
      (measurable_fst.comp hsel)).prodMk (measurable_snd.comp hsel))), fun θ x w idx ω => ?_⟩
  obtain ⟨a, ω1, ha⟩ : ∃ a ω1, f.resampler n (fun i b => fin (pre (θ, x) i b + w i b)) false ω = (a, ω1) :=
    ⟨_, _, rfl⟩
  have hc := apfCorrect_unfold (f.model n θ) y
    ⟨⟨x, t⟩, fun i b => fin (w i b), fun i b => fin (sm w b i), idx⟩ ω a ω1 (S (θ, pickX x a, ω1)).2
    (S (θ, pickX x a, ω1)).1.1 (fun i b => fin ((S (θ, pickX x a, ω1)).1.2 i b))
    (by
      rw [← ha]
      show f.resampler n (fun i b => f.preWeight n θ y ⟨x, t⟩ i b + fin (w i b)) false ω = _
      simp only [hpe, fin_add])
    (hSe θ ⟨⟨pickX x a, t⟩, fun _ _ => fin 0, fun _ _ => fin (1 / (n : ℝ)), a⟩ ω1 rfl)
  have hinc : (f.model n θ).kind.increment = 1 := hprop
  rw [hinc] at hc
  have hpe' : ∀ i b, (f.model n θ).preWeight y ⟨x, t⟩ i b = fin (pre (θ, x) i b) := fun i b => hpe θ x i b
  simp only [hpe', fin_sub] at hc
  have hll : logLikelihood (fun i b => fin ((S (θ, pickX x a, ω1)).1.2 i b - pre (θ, x) (a i b) b)) none 0
          + XF.log (∑ i, fin (sm w 0 i) * XF.exp (fin (pre (θ, x) i 0)))
      = fin (Real.log (uavg 0 fun i b => (S (θ, pickX x a, ω1)).1.2 i b - pickW (pre (θ, x)) a i b)
          + Real.log (wavg 0 w (pre (θ, x)))) := by
    have hN' : (0 : ℝ) < 1 / (n : ℝ) := by positivity
    rw [logLikelihood_none, logLikelihood_weighted _ _ 0 (fun _ => 1 / (n : ℝ)) (fun _ => rfl)
      (fun _ => hN'.le) (fun i => Or.inr ⟨_, rfl⟩) ⟨⟨0, hn⟩, _, rfl⟩]
    simp only [exp_fin, fin_mul, sum_fin]
    have h5 := log_fin (wavg_pos hn 0 w (pre (θ, x)))
    have h6 := (uavg_pos hn 0 fun i b => (S (θ, pickX x a, ω1)).1.2 i b - pickW (pre (θ, x)) a i b).ne'
    refine (congrArg₂ (· + ·) (if_neg h6) h5).trans ?_
    exact fin_add _ _
  have hpr : ∀ (ll : Fin 1 → XF) (prev : Fin n → Fin 1 → Fin n) (ω2 : Ω),
      (f.model n θ).apfPredict ⟨⟨(S (θ, pickX x a, ω1)).1.1, t + 1⟩,
        fun i b => fin ((S (θ, pickX x a, ω1)).1.2 i b - pickW (pre (θ, x)) a i b), ll, prev⟩ ω2
      = (⟨⟨(S (θ, pickX x a, ω1)).1.1, t + 1⟩,
          fun i b => fin ((S (θ, pickX x a, ω1)).1.2 i b - pickW (pre (θ, x)) a i b),
          fun i b => fin (sm (fun i b => (S (θ, pickX x a, ω1)).1.2 i b - pickW (pre (θ, x)) a i b) b i),
          fun i _ => i⟩, ω2) := by
    intro ll prev ω2
    unfold ParticleModel.apfPredict
    simp only [normalize2_fin]
  beta_reduce
  rw [hc, ha]
  have hF2 : ∀ (ll : Fin 1 → XF) (prev : Fin n → Fin 1 → Fin n) (ω2 : Ω),
      F θ ((f.model n θ).apfPredict ⟨⟨(S (θ, pickX x a, ω1)).1.1, t + 1⟩,
        fun i b => fin ((S (θ, pickX x a, ω1)).1.2 i b - pickW (pre (θ, x)) a i b), ll, prev⟩ ω2).1
      ((f.model n θ).apfPredict ⟨⟨(S (θ, pickX x a, ω1)).1.1, t + 1⟩,
        fun i b => fin ((S (θ, pickX x a, ω1)).1.2 i b - pickW (pre (θ, x)) a i b), ll, prev⟩ ω2).2
      = fin (R (θ, ((S (θ, pickX x a, ω1)).1.1,
        fun i b => (S (θ, pickX x a, ω1)).1.2 i b - pickW (pre (θ, x)) a i b), ω2)) := by
    intro ll prev ω2
    rw [hpr]
    exact h1 θ _ _ _ _
  exact (congrArg₂ (· + ·) hll (hF2 _ _ _)).trans (fin_add _ _)

theorem joint_apf {P : Measure Ω} {f : Builder Θ e V Y Ω} {n : ℕ} (hn : 0 < n)
    (hprop : f.proposal.increment = 1) (hr : UnbiasedLogResampler P (f.resampler n))
    {μ : Θ → Measure (Fin e → V)} {K : Θ → ℕ → Kernel (Fin e → V) (Fin e → V)}
    {logg : Θ → Y → ℕ → (Fin e → V) → ℝ} (hf : FiltersModels P f n μ K logg) (hpre : FinitePreWeights f n) :
    ∀ (os : List (Option Y)) (t : ℕ),
      Joint n t fun θ => (FilterKind.apf.ops (f.model n θ)).totalP (fun k => k.ll 0) os
  | [], _ => ⟨fun _ => 0, measurable_const, fun _ _ _ _ _ => rfl⟩
  | none :: os, t => joint_createState hf.measurable_hidden (joint_apf hn hprop hr hf hpre os (t + 1))
  | some y :: os, t => by
    obtain ⟨S, hSm, hSe, -⟩ := hf.proper y t
    obtain ⟨pre, hm, hpe⟩ := hpre y t
    exact joint_apfCorrect hn hprop hr y hSm hSe hm hpe (joint_apf hn hprop hr hf hpre os (t + 1))

/-- The likelihood estimate of the APF: a measurable function of parameters and generator state whose
exponential has the likelihood as expectation. -/
theorem apf_estimate {P : Measure Ω} [IsProbabilityMeasure P] {f : Builder Θ e V Y Ω} {n : ℕ}
    (hkind : f.kind = .apf) (hprop : f.proposal.increment = 1) (hn : 0 < n)
    (hk : 0 < f.opt.observeEveryStep) (hfuel : f.opt.observeEveryStep - 1 ≤ f.fuel)
    (hr : UnbiasedLogResampler P (f.resampler n))
    {μ : Θ → Measure (Fin e → V)} {K : Θ → ℕ → Kernel (Fin e → V) (Fin e → V)}
    {logg : Θ → Y → ℕ → (Fin e → V) → ℝ} (hf : FiltersModels P f n μ K logg) (hpre : FinitePreWeights f n)
    (ys : List Y) :
    ∃ R : Θ × Ω → ℝ, Measurable R ∧
      (∀ θ ω, ∃ r, (f.kind.ops (f.model n θ)).filterAll f.opt f.fuel ys (initializeFilter f.lo (f.init n θ ω).1)
        (f.init n θ ω).2 = some r ∧ (r.2.1.map fun k => k.ll 0).sum = fin (R (θ, ω))) ∧
      ∀ θ, ∫⁻ ω, ENNReal.ofReal (Real.exp (R (θ, ω))) ∂P
        = likelihood f.opt.observeEveryStep f.missing μ K logg ys θ := by
  obtain ⟨R, hR, h1⟩ := joint_apf hn hprop hr hf hpre (slots f.opt.observeEveryStep f.missing ys) 0
  have hst : Measurable fun z : Θ × Ω => (z.1, ((f.init n z.1 z.2).1,
      (fun _ _ => 0 : Fin n → Fin 1 → ℝ)), (f.init n z.1 z.2).2) :=
    measurable_fst.prodMk (((measurable_fst.comp hf.measurable_init).prodMk measurable_const).prodMk
      (measurable_snd.comp hf.measurable_init))
  have hval : ∀ θ x ω, (FilterKind.apf.ops (f.model n θ)).totalP (fun k => k.ll 0)
        (slots f.opt.observeEveryStep f.missing ys)
        ((f.model n θ).apfPredict (initializeFilter f.lo x) ω).1
        ((f.model n θ).apfPredict (initializeFilter f.lo x) ω).2
      = fin (R (θ, (x, fun _ _ => 0), ω)) := by
    intro θ x ω
    have h2 : (f.model n θ).apfPredict (initializeFilter f.lo x) ω
        = (⟨⟨x, 0⟩, fun i b => fin ((fun _ _ => 0 : Fin n → Fin 1 → ℝ) i b),
          fun i b => fin (sm (fun _ _ => 0 : Fin n → Fin 1 → ℝ) b i), fun i _ => i⟩, ω) := by
      show (f.model n θ).apfPredict ⟨⟨x, 0⟩, fun i b => fin ((fun _ _ => 0 : Fin n → Fin 1 → ℝ) i b), _, _⟩ ω = _
      unfold ParticleModel.apfPredict
      simp only [normalize2_fin]
    rw [h2]
    exact h1 θ x (fun _ _ => 0) _ ω
  refine ⟨fun z => R (z.1, ((f.init n z.1 z.2).1, fun _ _ => 0), (f.init n z.1 z.2).2), hR.comp hst, ?_, ?_⟩
  · intro θ ω
    obtain ⟨r, h1, h2⟩ := FilterOps.filterAll_total (ticks f.kind (f.model n θ) hprop) (fun k => k.ll 0)
      (fun _ _ => rfl) f.opt hk f.fuel hfuel ys 0 (initializeFilter f.lo (f.init n θ ω).1) (f.init n θ ω).2 rfl
    refine ⟨r, h1, ?_⟩
    rw [h2, FilterOps.slotsFrom_zero, hkind, ← hval]
    rfl
  · intro θ
    choose pre hm hpe using hpre
    have hS : ProperProposal P (f.model n θ).sampleValues (fun _ => K θ) fun _ => logg θ := by
      refine ⟨fun y t => ?_⟩
      obtain ⟨S, hSm, hSe, hSν⟩ := hf.proper y t
      exact ⟨fun q => S (θ, q.1, q.2), hSm.comp measurable_prodMk_left, fun p ω ht => hSe θ p ω ht,
        fun x => hSν θ x⟩
    have hest := est_apfPredict P (M := f.model n θ) (Props.apf_totalP P hn (f.model n θ) hprop hr
      (hf.draws_hidden θ) (fun _ => hf.measurable_logg θ) hS (fun y t x => pre y t (θ, x))
      (fun y t => (hm y t).comp measurable_prodMk_left) (fun y x i b => hpe y x.time θ x.value i b) 0
      (slots f.opt.observeEveryStep f.missing ys) 0)
    have hlik : Measurable (lik (K θ) (fun y t x => ENNReal.ofReal (Real.exp (logg θ y t x)))
        (slots f.opt.observeEveryStep f.missing ys) 0) :=
      measurable_lik _ _ (fun y t => (Real.measurable_exp.comp (hf.measurable_logg θ y t)).ennreal_ofReal) _ 0
    have h3 := (est_initial P hn (hf.draws_init θ) hlik hest f.lo).2
    simp only [hval, expOf] at h3
    exact h3

/-- The bootstrap proposal is proper for every family of models it is given. -/
theorem bootstrap_family {P : Measure Ω} [IsProbabilityMeasure P] {f : Builder Θ e V Y Ω} {n : ℕ}
    {μ : Θ → Measure (Fin e → V)} {K : Θ → ℕ → Kernel (Fin e → V) (Fin e → V)}
    {logg : Θ → Y → ℕ → (Fin e → V) → ℝ}
    (hi : Measurable fun q : Θ × Ω => f.init n q.1 q.2) (hdi : ∀ θ, DrawsInitial P (f.init n θ) fun _ => μ θ)
    (hh : ∀ t, Measurable fun q : Θ × (Fin n → Fin 1 → Fin e → V) × Ω => f.hidden n q.1 ⟨q.2.1, t⟩ q.2.2)
    (hdh : ∀ θ, DrawsTransitions P (f.hidden n θ) fun _ => K θ)
    (hl : ∀ y t, Measurable fun q : Θ × (Fin e → V) => logg q.1 y t q.2)
    (hs : ∀ θ, f.sample n θ = bootstrapSample (f.hidden n θ) fun y x i b => fin (logg θ y x.time (x.value i b))) :
    FiltersModels P f n μ K logg where
  measurable_init := hi
  draws_init := hdi
  measurable_hidden := hh
  draws_hidden := hdh
  measurable_logg θ y t := (hl y t).comp measurable_prodMk_left
  proper y t := by
    have hl' : ∀ θ, Measurable (logg θ y (t + 1)) := fun θ => (hl y (t + 1)).comp measurable_prodMk_left
    refine ⟨fun z => (((f.hidden n z.1 ⟨z.2.1, t⟩ z.2.2).1,
      fun i b => logg z.1 y (t + 1) ((f.hidden n z.1 ⟨z.2.1, t⟩ z.2.2).1 i b)),
      (f.hidden n z.1 ⟨z.2.1, t⟩ z.2.2).2), ?_, ?_, ?_⟩
    · have h1 := hh t
      have h2 : Measurable fun q : Θ × (Fin n → Fin 1 → Fin e → V) =>
          (q.2, (fun i b => logg q.1 y (t + 1) (q.2 i b) : Fin n → Fin 1 → ℝ)) := by
        refine measurable_snd.prodMk ?_
        rw [measurable_pi_iff]; intro i
        rw [measurable_pi_iff]; intro b
        have h3 : Measurable fun q : Θ × (Fin n → Fin 1 → Fin e → V) => (q.1, q.2 i b) :=
          measurable_fst.prodMk (by fun_prop)
        exact (hl y (t + 1)).comp h3
      exact (h2.comp (measurable_fst.prodMk (measurable_fst.comp h1))).prodMk (measurable_snd.comp h1)
    · intro θ p ω ht
      subst ht
      rw [hs θ]
      rfl
    · intro θ x
      obtain ⟨ν, hν, hm⟩ := (hdh θ).draws ⟨x, t⟩
      have h2 : Measurable fun v : Fin n → Fin 1 → Fin e → V =>
          (v, (fun i b => logg θ y (t + 1) (v i b) : Fin n → Fin 1 → ℝ)) := by
        refine measurable_id.prodMk ?_
        rw [measurable_pi_iff]; intro i
        rw [measurable_pi_iff]; intro b
        exact (hl' θ).comp (by fun_prop)
      have := hν.prob
      refine ⟨ν.map fun v => (v, fun i b => logg θ y (t + 1) (v i b)), ⟨?_, ?_, ?_⟩, ?_⟩
      · exact (h2.comp (measurable_fst.comp hν.measurable)).prodMk (measurable_snd.comp hν.measurable)
      · exact Measure.isProbabilityMeasure_map h2.aemeasurable
      · have h3 : (ν.map fun v => (v, (fun i b => logg θ y (t + 1) (v i b) : Fin n → Fin 1 → ℝ))).prod
            (P.map id) = _ := Measure.map_prod_map ν P h2 measurable_id
        rw [Measure.map_id] at h3
        rw [h3, ← hν.law, Measure.map_map (h2.prodMap measurable_id) hν.measurable]
        rfl
      · intro i b φ hφ
        have h4 : Measurable fun q : (Fin n → Fin 1 → Fin e → V) × (Fin n → Fin 1 → ℝ) =>
            ENNReal.ofReal (Real.exp (q.2 i b)) * φ (q.1 i b) := by
          have : Measurable fun q : (Fin n → Fin 1 → Fin e → V) × (Fin n → Fin 1 → ℝ) => q.1 i b := by fun_prop
          exact Measurable.mul (by fun_prop) (hφ.comp this)
        have h5 : Measurable fun x' : Fin e → V => ENNReal.ofReal (Real.exp (logg θ y (t + 1) x')) * φ x' :=
          (Real.measurable_exp.comp (hl' θ)).ennreal_ofReal.mul hφ
        rw [lintegral_map h4 h2, ← hm i b, lintegral_map h5 (by fun_prop)]

end

end Verif.PmmhFilter
