import Verif.Model.Smoothing
import Verif.Spec.Smoothing
import Verif.Lemmas.Unbiased
import Verif.Lemmas.Stream
import Verif.Lemmas.Categorical
import Verif.Props.Filter

/-!
# Properties C80 and C81: the law of the paths of backward simulation, the times they run through
-/

namespace Verif.Props

open Verif Verif.Spec Verif.Unbiased XF MeasureTheory ProbabilityTheory
open scoped ENNReal

variable {N B d : ℕ} {V Y Ω : Type} [MeasurableSpace Ω]

/-- State and finite weights of a recorded state. -/
def Recorded (s : PCorr N B d V) (r : TS N B d V × (Fin N → Fin B → ℝ)) : Prop :=
  s.x = r.1 ∧ ∀ i b, s.w i b = fin (r.2 i b)

/-- The loop of backward simulation from given values. -/
theorem ffbsLoop_law (P : Measure Ω) [IsProbabilityMeasure P] (K : Backward N B d V Ω)
    (logf : TS N B d V → Fin N → Fin B → (Fin d → V) → ℝ)
    (hf : ∀ s j b x, K.logDensity s j b x = fin (logf s j b x)) (hcat : DrawsCategorical P K.categorical)
    (i : Fin N) (b : Fin B) : ∀ (states : List (PCorr N B d V)) (rs : List (TS N B d V × (Fin N → Fin B → ℝ))),
    List.Forall₂ Recorded states rs → ∀ (next : Vals N B d V) (Φ : List (Fin d → V) → ℝ≥0∞),
    Measurable (fun ω => Φ ((ffbsLoop K next states ω).1.map fun v => v i b)) ∧
    ∫⁻ ω, Φ ((ffbsLoop K next states ω).1.map fun v => v i b) ∂P = backward logf b rs (next i b) Φ
  | [], [], _, next, Φ => by
    simp [ffbsLoop, backward]
  | s :: states, (x, w) :: rs, .cons hs hrest, next, Φ => by
    obtain ⟨hx, hw⟩ := hs
    simp only at hx hw
    have hlog : K.logits s next = fun i b k => fin (w k b + logf x k b (next i b)) := by
      funext i b k
      rw [Backward.logits, hw, hf, hx]
      rfl
    obtain ⟨ν, hν, hprob⟩ := hcat fun i b k => w k b + logf x k b (next i b)
    rw [← hlog] at hν
    have IH := fun a : Fin N → Fin B → Fin N => ffbsLoop_law P K logf hf hcat i b states rs hrest
      (gatherVals x.value a) fun path => Φ (x.value (a i b) b :: path)
    have hG : Measurable fun q : (Fin N → Fin B → Fin N) × Ω =>
        Φ (x.value (q.1 i b) b :: (ffbsLoop K (gatherVals x.value q.1) states q.2).1.map fun v => v i b) :=
      measurable_from_prod_countable_right fun a => (IH a).1
    have hfun : (fun ω => Φ ((ffbsLoop K next (s :: states) ω).1.map fun v => v i b)) = fun ω =>
        (fun q : (Fin N → Fin B → Fin N) × Ω =>
          Φ (x.value (q.1 i b) b :: (ffbsLoop K (gatherVals x.value q.1) states q.2).1.map fun v => v i b))
        (K.categorical (K.logits s next) ω) := by
      funext ω
      simp only [ffbsLoop, List.map_cons, hx]
      rfl
    refine ⟨hfun ▸ hG.comp hν.measurable, ?_⟩
    rw [hfun, draws_lintegral hν hG]
    simp only [(IH _).2]
    have : ∀ a : Fin N → Fin B → Fin N, gatherVals x.value a i b = x.value (a i b) b := fun _ => rfl
    simp only [this]
    rw [lintegral_index ν i b fun k => backward logf b rs (x.value k b) fun path => Φ (x.value k b :: path),
      backward]
    refine Finset.sum_congr rfl fun k _ => ?_
    rw [hprob, mul_comm]
    simp only [Real.exp_add]

/-- C80: the paths returned by backward simulation, taken together, are distributed as they should be: the
average over the paths of any function of a path has as expectation the average over the final particles by
weight, continued backwards with probabilities proportional to weight times transition density. For every
unbiased resampler, every list of recorded states with finite weights and every positive transition
density. -/
theorem C80_path_law (P : Measure Ω) [IsProbabilityMeasure P] (hN : 0 < N) (M : ParticleModel N B d V Y Ω)
    (hr : UnbiasedLogResampler P M.resampler) (K : Backward N B d V Ω)
    (logf : TS N B d V → Fin N → Fin B → (Fin d → V) → ℝ)
    (hf : ∀ s j b x, K.logDensity s j b x = fin (logf s j b x)) (hcat : DrawsCategorical P K.categorical)
    (latest : PCorr N B d V) (earlier : List (PCorr N B d V)) (x : TS N B d V) (w : Fin N → Fin B → ℝ)
    (rs : List (TS N B d V × (Fin N → Fin B → ℝ))) (hl : Recorded latest (x, w))
    (he : List.Forall₂ Recorded earlier rs) (b : Fin B) (Φ : List (Fin d → V) → ℝ≥0∞) :
    ∃ out : Ω → List (Vals N B d V),
      (∀ ω, (smoothFfbs M K (earlier.reverse ++ [latest]) ω).map Prod.fst = .ok (out ω)) ∧
      ∫⁻ ω, ∑ i, (N : ℝ≥0∞)⁻¹ * Φ ((out ω).reverse.map fun v => v i b) ∂P
        = ∑ j, ENNReal.ofReal (Real.exp (w j b) / ∑ k, Real.exp (w k b)) *
            backward logf b rs (x.value j b) fun path => Φ (x.value j b :: path) := by
  obtain ⟨hx, hw⟩ := hl
  simp only at hx hw
  have hw' : latest.w = fun i b => fin (w i b) := by funext i b; exact hw i b
  obtain ⟨ν, hν, hprob⟩ := hr.draws B w
  rw [← hw'] at hν
  refine ⟨fun ω => (gatherVals x.value (M.resampler latest.w false ω).1 ::
      (ffbsLoop K (gatherVals x.value (M.resampler latest.w false ω).1) earlier
        (M.resampler latest.w false ω).2).1).reverse, fun ω => ?_, ?_⟩
  · simp only [smoothFfbs, List.reverse_append, List.reverse_cons, List.reverse_nil, List.nil_append,
      List.reverse_reverse, List.cons_append, hx]
    rfl
  · have IH := fun (i : Fin N) (a : Fin N → Fin B → Fin N) => ffbsLoop_law P K logf hf hcat i b earlier rs he
      (gatherVals x.value a) fun path => Φ (x.value (a i b) b :: path)
    have hG : ∀ i, Measurable fun q : (Fin N → Fin B → Fin N) × Ω =>
        Φ (x.value (q.1 i b) b :: (ffbsLoop K (gatherVals x.value q.1) earlier q.2).1.map fun v => v i b) :=
      fun i => measurable_from_prod_countable_right fun a => (IH i a).1
    simp only [List.reverse_reverse, List.map_cons]
    have hm : ∀ i, Measurable fun ω => Φ (gatherVals x.value (M.resampler latest.w false ω).1 i b ::
        (ffbsLoop K (gatherVals x.value (M.resampler latest.w false ω).1) earlier
        (M.resampler latest.w false ω).2).1.map fun v => v i b) := fun i => (hG i).comp hν.measurable
    have hi : ∀ i, ∫⁻ ω, Φ (gatherVals x.value (M.resampler latest.w false ω).1 i b ::
        (ffbsLoop K (gatherVals x.value (M.resampler latest.w false ω).1) earlier
        (M.resampler latest.w false ω).2).1.map fun v => v i b) ∂P =
        ∫⁻ a, backward logf b rs (x.value (a i b) b) (fun path => Φ (x.value (a i b) b :: path)) ∂ν := by
      intro i
      have := draws_lintegral hν (hG i)
      simp only [(IH i _).2] at this
      exact this
    rw [lintegral_finsetSum _ fun i _ => (hm i).const_mul _]
    have hc : ∀ i, ∫⁻ ω, (N : ℝ≥0∞)⁻¹ * Φ (gatherVals x.value (M.resampler latest.w false ω).1 i b ::
        (ffbsLoop K (gatherVals x.value (M.resampler latest.w false ω).1) earlier
        (M.resampler latest.w false ω).2).1.map fun v => v i b) ∂P = (N : ℝ≥0∞)⁻¹ *
        ∫⁻ a, backward logf b rs (x.value (a i b) b) (fun path => Φ (x.value (a i b) b :: path)) ∂ν := by
      intro i
      rw [lintegral_const_mul _ (hm i), hi]
    simp only [hc]
    rw [← Finset.mul_sum, ← lintegral_finsetSum _ fun i _ => measurable_of_finite _,
      lintegral_selected ν b _ (hprob b) fun k => backward logf b rs (x.value k b)
        fun path => Φ (x.value k b :: path), ← mul_assoc, ENNReal.inv_mul_cancel (by simpa using hN.ne') (by simp),
      one_mul]

/-- One entry of the generator of the case: uniforms for the resampler and for the categorical draws. -/
noncomputable def backwardEntryLaw : Measure ((ℕ → ℝ) × (ℕ × ℕ → ℝ)) := unifs.prod unifs2

instance : IsProbabilityMeasure backwardEntryLaw := by unfold backwardEntryLaw; infer_instance

theorem backward_rand : Draws (streamLaw backwardEntryLaw) (fun ω => ((next ω).1.1, (next ω).2)) unifs := by
  have := draws_map (next_draws backwardEntryLaw) measurable_fst
  have h : backwardEntryLaw.map Prod.fst = unifs := by
    rw [backwardEntryLaw, Measure.map_fst_prod]; simp
  rwa [h] at this

theorem backward_rand2 : Draws (streamLaw backwardEntryLaw) (fun ω => ((next ω).1.2, (next ω).2)) unifs2 := by
  have := draws_map (next_draws backwardEntryLaw) measurable_snd
  have h : backwardEntryLaw.map Prod.snd = unifs2 := by
    rw [backwardEntryLaw, Measure.map_snd_prod]; simp
  rwa [h] at this

/-- A case for C80: systematic resampling, categorical draws by inversion, a random walk with normal
increments; three recorded states of two particles with unequal weights. -/
example : UnbiasedLogResampler (N := 2) (streamLaw backwardEntryLaw)
      (systematicResampler (-1000) fun ω => ((next ω).1.1, (next ω).2)) ∧
    DrawsCategorical (N := 2) (B := 1) (streamLaw backwardEntryLaw)
      (categoricalBy fun ω => ((next ω).1.2, (next ω).2)) ∧
    List.Forall₂ (Recorded (N := 2) (B := 1) (d := 1) (V := ℝ))
      [⟨⟨fun i _ _ => i.1, 1⟩, fun i _ => fin i.1, fun _ => fin 0, fun i _ => i⟩,
        ⟨⟨fun i _ _ => 2 * i.1, 0⟩, fun i _ => fin (-i.1), fun _ => fin 0, fun i _ => i⟩]
      [(⟨fun i _ _ => i.1, 1⟩, fun i _ => i.1), (⟨fun i _ _ => 2 * i.1, 0⟩, fun i _ => -i.1)] ∧
    ∀ (s : TS 2 1 1 ℝ) j b (x : Fin 1 → ℝ), (fun (s : TS 2 1 1 ℝ) j b (x : Fin 1 → ℝ) =>
      fin (-(x 0 - s.value j b 0) ^ 2 / 2)) s j b x = fin (-(x 0 - s.value j b 0) ^ 2 / 2) :=
  ⟨(systematic_unbiased _ backward_rand).2, categorical_draws backward_rand2,
    .cons ⟨rfl, fun _ _ => rfl⟩ (.cons ⟨rfl, fun _ _ => rfl⟩ .nil), fun _ _ _ _ => rfl⟩

/-! ## C81 -/

/-- Consecutive states of the list are one step of the model apart. -/
def OneStepApart (l : List (PCorr N B d V)) : Prop :=
  ∀ n c c', l[n]? = some c → l[n + 1]? = some c' → c'.x.time = c.x.time + 1

/-- C81 in full: the states recorded by a run, which backward simulation joins by the one-step transition
density of the model, are one step apart. -/
def C81_claim : Prop :=
  ∀ (N B d : ℕ) (V Y Ω : Type) (fk : FilterKind) (Mod : ParticleModel N B d V Y Ω), Mod.kind.increment = 1 →
    ∀ (opt : FilterOptions), 0 < opt.observeEveryStep → ∀ (fuel : ℕ) (ys : List Y) (init : PCorr N B d V)
      (ω : Ω) (r), init.x.time = 0 → (fk.ops Mod).filterAll opt fuel ys init ω = some r →
      OneStepApart (init :: r.2.1)

omit [MeasurableSpace Ω] in
/-- C81 where it holds: intermediary states are recorded, or every state is observed. Missing: recording
only the observed states when there are several steps between observations. -/
theorem C81_recorded_steps_partial (fk : FilterKind) (Mod : ParticleModel N B d V Y Ω)
    (hkind : Mod.kind.increment = 1) (opt : FilterOptions) (hk : 0 < opt.observeEveryStep) (fuel : ℕ)
    (hfuel : opt.observeEveryStep - 1 ≤ fuel)
    (hopt : opt.recordIntermediary = true ∨ opt.observeEveryStep = 1) (ys : List Y) (init : PCorr N B d V)
    (ω : Ω) (h0 : init.x.time = 0) :
    ∃ r, (fk.ops Mod).filterAll opt fuel ys init ω = some r ∧ OneStepApart (init :: r.2.1) := by
  have key : ∀ (l : List (PCorr N B d V)) m, l.map (fun c => c.x.time) = List.range' 1 m →
      OneStepApart (init :: l) := by
    intro l m h n c c' hc hc'
    have ht : ∀ j (e : PCorr N B d V), (init :: l)[j]? = some e → e.x.time = j := by
      intro j e he
      rcases j with _ | j
      · simp at he
        rw [← he, h0]
      · have h1 : (l.map fun c => c.x.time)[j]? = some e.x.time := by
          rw [List.getElem?_map]
          simp only [List.getElem?_cons_succ] at he
          rw [he]
          rfl
        rw [h, List.getElem?_eq_some_iff] at h1
        obtain ⟨h2, h3⟩ := h1
        rw [List.getElem_range'] at h3
        omega
    rw [ht _ _ hc, ht _ _ hc']
  obtain ⟨k, rec, nan⟩ := opt
  simp only at hk hfuel hopt
  rcases ys with _ | ⟨y, ys⟩
  · exact ⟨_, rfl, key [] 0 rfl⟩
  obtain ⟨r, hr, ht⟩ := C24_recorded_times fk Mod hkind hk fuel hfuel nan y ys init h0 ω
  rcases hopt with rfl | rfl
  · exact ⟨r, hr, key _ _ ht⟩
  · obtain ⟨es, ω', hl, hes, hall⟩ := C24_every_kth_step fk Mod hkind hk fuel hfuel (y :: ys) init h0 ω
    have hrec : recorded true es = recorded rec es := by
      have : ∀ e ∈ es, e.1 = [] := by
        intro e he
        obtain ⟨n, hn, rfl⟩ := List.mem_iff_getElem.1 he
        have hy : (y :: ys)[n]? = some ((y :: ys)[n]'(hl ▸ hn)) := List.getElem?_eq_getElem _
        have := (hes n _ _ hy (List.getElem?_eq_getElem hn)).count
        apply List.length_eq_zero_iff.1
        rw [this]
        simp
      unfold recorded
      refine List.flatMap_congr fun e he => ?_
      rw [this e he]
      simp
    have h1 := hall true nan
    rw [hr] at h1
    cases h1
    refine ⟨_, hall rec nan, ?_⟩
    rw [← hrec]
    exact key _ _ ht

example : (walk .bootstrap).kind.increment = 1 ∧ (⟨3, true, .skip⟩ : FilterOptions).observeEveryStep - 1 ≤ 2 ∧
    (⟨3, true, .skip⟩ : FilterOptions).recordIntermediary = true ∧ walkInit.x.time = 0 :=
  ⟨rfl, by norm_num, rfl, rfl⟩

omit [MeasurableSpace Ω] in
/-- How C81 fails: without recording of intermediary states all states but the first two are
`observe_every_step` steps apart, while backward simulation uses the density of one step. -/
theorem C81_unrecorded_gaps (fk : FilterKind) (Mod : ParticleModel N B d V Y Ω)
    (hkind : Mod.kind.increment = 1) {k : ℕ} (hk : 0 < k) (nan : NanStrategy) (fuel : ℕ)
    (hfuel : k - 1 ≤ fuel) (ys : List Y) (init : PCorr N B d V) (ω : Ω) (h0 : init.x.time = 0) :
    ∃ r, (fk.ops Mod).filterAll ⟨k, false, nan⟩ fuel ys init ω = some r ∧ r.2.1.length = ys.length ∧
      ∀ n c c', r.2.1[n]? = some c → r.2.1[n + 1]? = some c' → c'.x.time = c.x.time + k := by
  obtain ⟨es, ω', hl, hes, hall⟩ := C24_every_kth_step fk Mod hkind hk fuel hfuel ys init h0 ω
  have hrec : recorded false es = es.map Prod.snd := by
    unfold recorded
    simp [List.map_eq_flatMap]
  refine ⟨_, hall false nan, ?_, ?_⟩
  · show (recorded false es).length = _
    rw [hrec, List.length_map, hl]
  · intro n c c' hc hc'
    have ht : ∀ j e, (recorded false es)[j]? = some e → e.x.time = j * k + 1 := by
      intro j e he
      rw [hrec, List.getElem?_map, Option.map_eq_some_iff] at he
      obtain ⟨q, hq, rfl⟩ := he
      have hj := (List.getElem?_eq_some_iff.1 hq).1
      exact (hes j _ q (List.getElem?_eq_getElem (hl ▸ hj)) hq).time
    rw [ht _ _ hc, ht _ _ hc']
    ring

/-- C81 is false. -/
theorem C81_negation : ¬ C81_claim := by
  intro h
  obtain ⟨r, hr, hlen, hgap⟩ := C81_unrecorded_gaps .sisr (walk .bootstrap) rfl (k := 2) (by norm_num) .skip 1
    le_rfl [some 1, some 2] walkInit 0 rfl
  simp only [List.length_cons, List.length_nil] at hlen
  have h0 : 0 < r.2.1.length := by omega
  have h1 : 1 < r.2.1.length := by omega
  have := h _ _ _ _ _ _ _ _ rfl _ (by norm_num) _ _ _ _ _ rfl hr 1 r.2.1[0] r.2.1[1]
    (by simp) (by simp)
  have := hgap 0 r.2.1[0] r.2.1[1] (by simp) (by simp)
  omega

end Verif.Props
