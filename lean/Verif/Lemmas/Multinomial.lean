import Verif.Lemmas.Stream
import Verif.Lemmas.Nested
import Verif.Spec.Multinomial
import Mathlib.MeasureTheory.Function.Floor

/-!
# Multinomial and residual resampling are unbiased
-/

namespace Verif.Unbiased

open Verif Verif.Spec XF MeasureTheory ProbabilityTheory
open scoped ENNReal

variable {N : ℕ} {Ω : Type} [MeasurableSpace Ω]

theorem measurable_sms {b : ℕ} :
    Measurable fun w : Fin N → Fin b → ℝ => (fun i j => sm w j i : Fin N → Fin b → ℝ) :=
  measurable_pi_lambda _ fun i => measurable_pi_lambda _ fun j => measurable_sm j i

/-! ## Multinomial resampling -/

/-- Turning rows into columns. -/
def transposed {b : ℕ} (a : Fin b → ℕ → Fin N) : Fin N → Fin b → Fin N := fun i c => a c i

theorem measurable_transposed {b : ℕ} : Measurable (transposed : (Fin b → ℕ → Fin N) → _) :=
  measurable_pi_lambda _ fun i => measurable_pi_lambda _ fun c =>
    (measurable_pi_apply (i : ℕ)).comp (measurable_pi_apply c)

theorem multinomial_true (lo : ℝ) (mult : TorchMultinomial N Ω) {b : ℕ} (p : Fin N → Fin b → ℝ) (ω : Ω) :
    multinomial2 lo mult (fun i j => fin (p i j)) true ω
      = (transposed (mult N (fun c i => fin (p i c)) ω).1, (mult N (fun c i => fin (p i c)) ω).2) := rfl

theorem multinomial_false (lo : ℝ) (mult : TorchMultinomial N Ω) {b : ℕ} (w : Fin N → Fin b → ℝ) (ω : Ω) :
    multinomial2 lo mult (fun i j => fin (w i j)) false ω
      = multinomial2 lo mult (fun i j => fin (sm w j i)) true ω := by
  unfold multinomial2
  simp only [Bool.false_eq_true, if_false, if_true, normalize2_fin]

theorem multinomial_measurable {P : Measure Ω} (lo : ℝ) {mult : TorchMultinomial N Ω} (h : DrawsMultinomial P mult)
    (b : ℕ) : Measurable fun q : (Fin N → Fin b → ℝ) × Ω =>
      multinomial2 lo mult (fun i j => fin (q.1 i j)) true q.2 := by
  simp only [multinomial_true]
  have ht : Measurable fun q : (Fin N → Fin b → ℝ) × Ω => ((fun c i => q.1 i c : Fin b → Fin N → ℝ), q.2) := by
    fun_prop
  have hm := (h.measurable b N).comp ht
  exact (measurable_transposed.comp (measurable_fst.comp hm)).prodMk (measurable_snd.comp hm)

theorem multinomial_law {P : Measure Ω} [SFinite P] (lo : ℝ) {mult : TorchMultinomial N Ω}
    (h : DrawsMultinomial P mult) {b : ℕ} {p : Fin N → Fin b → ℝ} (hp : ∀ j, IsProb fun i => p i j) :
    ∃ ν, Draws P (multinomial2 lo mult (fun i j => fin (p i j)) true) ν ∧
      ∀ i j k, ν {a | a i j = k} = ENNReal.ofReal (p k j) := by
  obtain ⟨ν, h1, h2⟩ := h.draws b N (fun c i => p i c) fun j => ⟨(hp j).1, (hp j).2 ▸ one_pos⟩
  refine ⟨ν.map transposed, draws_map h1 measurable_transposed, fun i j k => ?_⟩
  rw [Measure.map_apply measurable_transposed (Set.toFinite _).measurableSet]
  have := h2 j i i.2 k
  rw [(hp j).2, div_one] at this
  exact this

/-- Multinomial resampling is unbiased. -/
theorem multinomial_unbiased {P : Measure Ω} [SFinite P] (lo : ℝ) (hN : 0 < N) {mult : TorchMultinomial N Ω}
    (h : DrawsMultinomial P mult) :
    UnbiasedResampler P (N := N) (multinomial2 lo mult) ∧ UnbiasedLogResampler P (N := N) (multinomial2 lo mult) := by
  refine ⟨⟨multinomial_measurable lo h, fun b p hp => ?_⟩, ⟨fun b => ?_, fun b w => ?_⟩⟩
  · obtain ⟨ν, h1, h2⟩ := multinomial_law lo h hp
    exact ⟨ν, h1, fun j k => by simp [h2]⟩
  · simp only [multinomial_false]
    exact (multinomial_measurable lo h b).comp ((measurable_sms.comp measurable_fst).prodMk measurable_snd)
  · obtain ⟨ν, h1, h2⟩ := multinomial_law lo h (p := fun i j => sm w j i) fun j => sm_isProb w j hN
    refine ⟨ν, ?_, fun j k => by simp only [h2, Finset.sum_const, Finset.card_univ, Fintype.card_fin, nsmul_eq_mul]; rfl⟩
    rwa [show multinomial2 lo mult (fun i j => fin (w i j)) false
      = multinomial2 lo mult (fun i j => fin (sm w j i)) true from funext fun ω => multinomial_false lo mult w ω]

/-! ## Residual resampling -/

/-- Integer parts of the expected counts. -/
noncomputable def floors (p : Fin N → ℝ) : Fin N → ℤ := fun i => ⌊(N : ℝ) * p i⌋

/-- The part of the result that is not random. -/
def fixedPart (f : Fin N → ℤ) : List (Fin N) := (List.finRange N).flatMap fun i => List.replicate (f i).toNat i

theorem count_fixedPart (f : Fin N → ℤ) (i : Fin N) : (fixedPart f).count i = (f i).toNat := by
  unfold fixedPart
  rw [List.count_flatMap]
  have : (List.map (List.count i ∘ fun j => List.replicate (f j).toNat j) (List.finRange N)).sum =
      ∑ j, if j = i then (f j).toNat else 0 := by
    rw [Fin.sum_univ_def]
    congr 1
    apply List.map_congr_left
    intro j _
    simp [List.count_replicate]
  rw [this]
  simp

theorem length_fixedPart {f : Fin N → ℤ} (hf : ∀ i, 0 ≤ f i) : ((fixedPart f).length : ℤ) = ∑ i, f i := by
  unfold fixedPart
  rw [List.length_flatMap]
  have : (List.map (fun i => (List.replicate (f i).toNat i).length) (List.finRange N)).sum = ∑ i, (f i).toNat := by
    rw [Fin.sum_univ_def]; simp
  rw [this]
  push_cast
  exact Finset.sum_congr rfl fun i _ => Int.toNat_of_nonneg (hf i)

/-- The result for given integer parts and given draws. -/
def filled (f : Fin N → ℤ) (a : ℕ → Fin N) : Fin N → Fin 1 → Fin N := fun i _ =>
  if ∑ i, f i = 0 then i else
    (fixedPart f ++ (List.range (N - (∑ j, f j).toNat)).map a).getD i i

theorem measurable_filled : Measurable fun q : (Fin N → ℤ) × (ℕ → Fin N) => filled q.1 q.2 := by
  refine measurable_from_prod_countable_right fun f => ?_
  refine measurable_pi_lambda _ fun i => measurable_pi_lambda _ fun _ => ?_
  unfold filled
  simp only
  split_ifs
  · exact measurable_const
  · by_cases h : (i : ℕ) < (fixedPart f).length
    · simp only [List.getD_append _ _ _ _ h]
      exact measurable_const
    · have : ∀ a : ℕ → Fin N, (fixedPart f ++ (List.range (N - (∑ j, f j).toNat)).map a).getD i i
          = if (i : ℕ) - (fixedPart f).length < N - (∑ j, f j).toNat then a (i - (fixedPart f).length) else i := by
        intro a
        rw [List.getD_append_right _ _ _ _ (not_lt.1 h)]
        split_ifs with h2
        · rw [List.getD_eq_getElem _ _ (by simpa using h2)]
          simp
        · rw [List.getD_eq_default _ _ (by simpa using h2)]
      simp only [this]
      split_ifs
      · exact measurable_pi_apply _
      · exact measurable_const

/-- The result if nothing is random. -/
def fixedFn (f : Fin N → ℤ) : Fin N → Fin 1 → Fin N := fun i _ => (fixedPart f).getD i i

theorem measurable_floors : Measurable (floors : (Fin N → ℝ) → _) :=
  measurable_pi_lambda _ fun i => Int.measurable_floor (R := ℝ) |>.comp (by fun_prop)

theorem residualDraws_eq (p : Fin N → ℝ) : residualDraws p = N - (∑ i, floors p i).toNat := rfl

/-- What residual resampling gets from `torch.multinomial`. -/
noncomputable def residualMult (mult : TorchMultinomial N Ω) (p : Fin N → ℝ) (ω : Ω) : (Fin 1 → ℕ → Fin N) × Ω :=
  mult (residualDraws p) (fun _ : Fin 1 => fun i => fin (residualProbs p i)) ω

open Classical in
theorem residual_true (lo : ℝ) (mult : TorchMultinomial N Ω) (p : Fin N → Fin 1 → ℝ) (ω : Ω) :
    residualResampler lo mult (fun i j => fin (p i j)) true ω =
      if ∑ i, floors (fun i => p i 0) i = N then
        (fixedFn (floors fun i => p i 0), ω)
      else (filled (floors fun i => p i 0) ((residualMult mult (fun i => p i 0) ω).1 0),
          (residualMult mult (fun i => p i 0) ω).2) := by
  unfold residualResampler residualCall1
  rw [dif_pos rfl]
  have e : ∀ h : 1 = 1, (h ▸ (0 : Fin 1)) = (0 : Fin 1) := fun _ => Subsingleton.elim _ _
  simp only [if_true, XF.toReal]
  by_cases h1 : ∑ i, ⌊(N : ℝ) * p i 0⌋ = N
  · have h1' : ∑ i, floors (fun i => p i 0) i = N := h1
    rw [if_pos h1, if_pos h1']
    simp only [residual1, h1, if_true]
    rfl
  · have h1' : ¬ ∑ i, floors (fun i => p i 0) i = N := h1
    rw [if_neg h1, if_neg h1']
    by_cases h0 : ∑ i, ⌊(N : ℝ) * p i 0⌋ = 0
    · have h0' : ∑ i, floors (fun i => p i 0) i = 0 := h0
      simp only [residual1, if_neg h1, if_pos h0]
      refine Prod.ext (funext fun i => funext fun _ => ?_) rfl
      exact (if_pos h0').symm
    · have h0' : ¬ ∑ i, floors (fun i => p i 0) i = 0 := h0
      simp only [residual1, if_neg h1, if_neg h0]
      refine Prod.ext (funext fun i => funext fun _ => ?_) rfl
      exact (if_neg h0').symm

omit [MeasurableSpace Ω] in
theorem residual_false (lo : ℝ) (mult : TorchMultinomial N Ω) (w : Fin N → Fin 1 → ℝ) (ω : Ω) :
    residualResampler lo mult (fun i j => fin (w i j)) false ω
      = residualResampler lo mult (fun i j => fin (sm w j i)) true ω := by
  have h : ∀ i, (normalize1 lo fun i => fin (w i 0)).2 i = fin (sm w 0 i) := by
    intro i
    rw [← normalize2_col lo (fun i j => fin (w i j)) i 0, normalize2_fin]
  unfold residualResampler residualCall1
  simp only [dif_pos, Bool.false_eq_true, if_false, if_true, h]

theorem measurable_sumFloors : Measurable fun p : Fin N → ℝ => ∑ i, floors p i :=
  (Measurable.of_discrete (f := fun f : Fin N → ℤ => ∑ i, f i)).comp measurable_floors

theorem measurable_residualMult {P : Measure Ω} {mult : TorchMultinomial N Ω} (h : DrawsMultinomial P mult) :
    Measurable fun q : (Fin N → ℝ) × Ω => residualMult mult q.1 q.2 := by
  have h1 : Measurable fun z : ℕ × (Fin 1 → Fin N → ℝ) × Ω => mult z.1 (fun j i => fin (z.2.1 j i)) z.2.2 :=
    measurable_from_prod_countable_right fun k => h.measurable 1 k
  have h2 : Measurable (residualDraws : (Fin N → ℝ) → ℕ) :=
    (Measurable.of_discrete (f := fun z : ℤ => N - z.toNat)).comp measurable_sumFloors
  have hfl : ∀ i, Measurable fun p : Fin N → ℝ => (⌊(N : ℝ) * p i⌋ : ℝ) := fun i =>
    (Measurable.of_discrete (f := fun z : ℤ => (z : ℝ))).comp
      ((measurable_pi_apply i).comp measurable_floors)
  have hs : Measurable fun p : Fin N → ℝ => ((∑ j, ⌊(N : ℝ) * p j⌋ : ℤ) : ℝ) :=
    (Measurable.of_discrete (f := fun z : ℤ => (z : ℝ))).comp measurable_sumFloors
  have h3 : ∀ i, Measurable fun p : Fin N → ℝ => residualProbs p i := fun i =>
    (((measurable_pi_apply i).const_mul _).sub (hfl i)).div hs
  have h4 : Measurable fun q : (Fin N → ℝ) × Ω =>
      (residualDraws q.1, (fun (_ : Fin 1) i => residualProbs q.1 i), q.2) :=
    (h2.comp measurable_fst).prodMk ((measurable_pi_lambda _ fun _ => measurable_pi_lambda _ fun i =>
      (h3 i).comp measurable_fst).prodMk measurable_snd)
  exact h1.comp h4

theorem residual_measurable {P : Measure Ω} (lo : ℝ) {mult : TorchMultinomial N Ω} (h : DrawsMultinomial P mult) :
    Measurable fun q : (Fin N → Fin 1 → ℝ) × Ω => residualResampler lo mult (fun i j => fin (q.1 i j)) true q.2 := by
  classical
  simp only [residual_true]
  have hp : Measurable fun q : (Fin N → Fin 1 → ℝ) × Ω => (fun i => q.1 i 0 : Fin N → ℝ) := by fun_prop
  have hm := (measurable_residualMult h).comp (hp.prodMk measurable_snd)
  refine Measurable.ite ?_ (Measurable.prodMk ?_ measurable_snd) (Measurable.prodMk ?_ (measurable_snd.comp hm))
  · exact (measurable_sumFloors.comp hp) (MeasurableSet.singleton (N : ℤ))
  · exact (Measurable.of_discrete (f := fixedFn (N := N))).comp (measurable_floors.comp hp)
  · exact measurable_filled.comp ((measurable_floors.comp hp).prodMk
      ((measurable_pi_apply 0).comp (measurable_fst.comp hm)))

theorem count_eq_sum {α : Type} [DecidableEq α] (l : List α) (d : ℕ → α) (k : α) :
    ∑ i ∈ Finset.range l.length, (if l.getD i (d i) = k then (1 : ℝ≥0∞) else 0) = (l.count k : ℝ≥0∞) := by
  induction l generalizing d with
  | nil => simp
  | cons a l ih =>
    rw [List.length_cons, Finset.sum_range_succ', List.count_cons]
    have := ih fun i => d (i + 1)
    simp only [List.getD_cons_succ, List.getD_cons_zero]
    rw [this]
    by_cases h : a = k <;> simp [h]

section law
variable {p : Fin N → ℝ}

theorem floors_nonneg (hp : IsProb p) (i : Fin N) : 0 ≤ floors p i :=
  Int.floor_nonneg.2 (mul_nonneg (Nat.cast_nonneg _) (hp.1 i))

theorem sum_floors_le (hp : IsProb p) : ∑ i, floors p i ≤ N := by
  have : ((∑ i, floors p i : ℤ) : ℝ) ≤ N := by
    push_cast
    calc ∑ i, (floors p i : ℝ) ≤ ∑ i, N * p i := Finset.sum_le_sum fun i _ => Int.floor_le _
      _ = N := by rw [← Finset.mul_sum, hp.2, mul_one]
  exact_mod_cast this

theorem sum_floors_pos (hN : 0 < N) (hp : IsProb p) : 0 < ∑ i, floors p i := by
  by_contra hle
  have h0 : ∑ i, floors p i = 0 := le_antisymm (not_lt.1 hle) (Finset.sum_nonneg fun i _ => floors_nonneg hp i)
  have hz := (Finset.sum_eq_zero_iff_of_nonneg fun i _ => floors_nonneg hp i).1 h0
  have hlt : ∀ i, (N : ℝ) * p i < 1 := by
    intro i
    have := Int.lt_floor_add_one ((N : ℝ) * p i)
    rw [show ⌊(N : ℝ) * p i⌋ = 0 from hz i (Finset.mem_univ i)] at this
    simpa using this
  have : ∑ i, (N : ℝ) * p i < ∑ _i : Fin N, (1 : ℝ) :=
    Finset.sum_lt_sum_of_nonempty ⟨⟨0, hN⟩, Finset.mem_univ _⟩ fun i _ => hlt i
  rw [← Finset.mul_sum, hp.2] at this
  simp at this

theorem residual_law {P : Measure Ω} [SFinite P] (lo : ℝ) (hN : 0 < N) {mult : TorchMultinomial N Ω}
    (h : DrawsMultinomial P mult) {p : Fin N → Fin 1 → ℝ} (hp : IsProb fun i => p i 0) :
    ∃ ν, Draws P (residualResampler lo mult (fun i j => fin (p i j)) true) ν ∧
      ∀ j k, ∑ i, ν {a | a i j = k} = N * ENNReal.ofReal (p k j) := by
  classical
  set q : Fin N → ℝ := fun i => p i 0 with hq
  have hR := sum_floors_le hp
  have hR0 := sum_floors_pos hN hp
  have hf := floors_nonneg hp
  have hlen := length_fixedPart hf
  have hN' : (0 : ℝ) < N := by exact_mod_cast hN
  have hsumq : ∑ i, ((N : ℝ) * q i - floors q i) = N - ((∑ i, floors q i : ℤ) : ℝ) := by
    rw [Finset.sum_sub_distrib, ← Finset.mul_sum, hp.2, mul_one]
    push_cast
    rfl
  by_cases hfull : ∑ i, floors q i = N
  · have he : residualResampler lo mult (fun i j => fin (p i j)) true
        = fun ω => (fixedFn (floors q), ω) := by
      funext ω
      rw [residual_true, if_pos hfull]
    rw [he]
    refine ⟨Measure.dirac (fixedFn (floors q)), ⟨by fun_prop, inferInstance, ?_⟩, ?_⟩
    · rw [Measure.dirac_prod]
    · intro j k
      obtain rfl : j = 0 := Subsingleton.elim _ _
      have h1 : ∀ i : Fin N, Measure.dirac (fixedFn (floors q))
          {a | a i 0 = k} = (fun n : ℕ => if (fixedPart (floors q)).getD n (if h : n < N then ⟨n, h⟩ else k) = k
            then (1 : ℝ≥0∞) else 0) i := by
        intro i
        rw [Measure.dirac_apply' _ (Set.toFinite _).measurableSet]
        simp [Set.indicator_apply, fixedFn]
      rw [Finset.sum_congr rfl fun i _ => h1 i, Fin.sum_univ_eq_sum_range (fun n : ℕ =>
        if (fixedPart (floors q)).getD n (if h : n < N then ⟨n, h⟩ else k) = k then (1 : ℝ≥0∞) else 0) N]
      have hl : (fixedPart (floors q)).length = N := by
        have := hlen.trans hfull
        exact_mod_cast this
      rw [show Finset.range N = Finset.range (fixedPart (floors q)).length by rw [hl]]
      rw [count_eq_sum, count_fixedPart]
      have hz : ∀ i, (N : ℝ) * q i - floors q i = 0 := by
        have hs : ∑ i, ((N : ℝ) * q i - floors q i) = 0 := by rw [hsumq, hfull]; simp
        exact fun i => (Finset.sum_eq_zero_iff_of_nonneg fun i _ => sub_nonneg.2 (Int.floor_le _)).1 hs i
          (Finset.mem_univ i)
      have : (N : ℝ) * p k 0 = ((floors q k).toNat : ℝ) := by
        have h3 := hz k
        have h4 : (((floors q k).toNat : ℤ) : ℝ) = floors q k := by rw [Int.toNat_of_nonneg (hf k)]
        have h5 : ((floors q k).toNat : ℝ) = floors q k := by exact_mod_cast h4
        rw [h5]
        show (N : ℝ) * q k = _
        linarith
      rw [← ENNReal.ofReal_natCast N, ← ENNReal.ofReal_mul hN'.le, this, ENNReal.ofReal_natCast]
  · have hlt : ∑ i, floors q i < N := lt_of_le_of_ne hR hfull
    have hS : (0 : ℝ) < N - ((∑ i, floors q i : ℤ) : ℝ) := by
      have : ((∑ i, floors q i : ℤ) : ℝ) < N := by exact_mod_cast hlt
      linarith
    have hR0' : (0 : ℝ) < ((∑ i, floors q i : ℤ) : ℝ) := by exact_mod_cast hR0
    have hsump : ∑ i, residualProbs q i = (N - ((∑ i, floors q i : ℤ) : ℝ)) / ((∑ i, floors q i : ℤ) : ℝ) := by
      unfold residualProbs
      rw [← Finset.sum_div]
      exact congrArg (· / _) hsumq
    obtain ⟨ν, h1, h2⟩ := h.draws 1 (residualDraws q) (fun _ i => residualProbs q i) fun _ =>
      ⟨fun i => div_nonneg (sub_nonneg.2 (Int.floor_le _)) hR0'.le, by rw [hsump]; exact div_pos hS hR0'⟩
    have he : residualResampler lo mult (fun i j => fin (p i j)) true
        = fun ω => (filled (floors q) ((residualMult mult q ω).1 0), (residualMult mult q ω).2) := by
      funext ω
      rw [residual_true, if_neg hfull]
    have hg : Measurable fun a : Fin 1 → ℕ → Fin N => filled (floors q) (a 0) :=
      measurable_filled.comp (measurable_const.prodMk (measurable_pi_apply 0))
    rw [he]
    have := h1.prob
    refine ⟨ν.map fun a : Fin 1 → ℕ → Fin N => filled (floors q) (a 0), draws_map h1 hg, fun j k => ?_⟩
    obtain rfl : j = 0 := Subsingleton.elim _ _
    obtain ⟨r, hr⟩ : ∃ r : ℕ, ∑ i, floors q i = r := ⟨_, (Int.toNat_of_nonneg hR0.le).symm⟩
    have hl : (fixedPart (floors q)).length = r := by
      have := hlen.trans hr
      exact_mod_cast this
    obtain ⟨m, hm⟩ : ∃ m : ℕ, N = r + m := ⟨N - r, by omega⟩
    have hdraws : N - (∑ j, floors q j).toNat = m := by rw [hr]; simp; omega
    set c := ENNReal.ofReal (residualProbs q k / ∑ i, residualProbs q i) with hc
    have h3 : ∀ i : Fin N, (ν.map fun a => filled (floors q) (a 0)) {a | a i 0 = k}
        = (fun n : ℕ => if n < r then (if (fixedPart (floors q)).getD n (if h : n < N then ⟨n, h⟩ else k) = k
            then (1 : ℝ≥0∞) else 0) else c) i := by
      intro i
      rw [Measure.map_apply hg (Set.toFinite _).measurableSet]
      simp only [Set.preimage_ofPred_eq, filled, hR0.ne', if_false]
      by_cases hi : (i : ℕ) < r
      · simp only [List.getD_append _ _ _ _ (hl.symm ▸ hi), hi, if_true, i.2, dite_true, Fin.eta]
        split_ifs with hk
        · simp only [hk]; simp
        · simp only [hk]; simp
      · have hi2 : (i : ℕ) - r < m := by have := i.2; omega
        have : ∀ a : Fin 1 → ℕ → Fin N, (fixedPart (floors q) ++ (List.range (N - (∑ j, floors q j).toNat)).map (a 0)).getD i i
            = a 0 (i - r) := by
          intro a
          rw [List.getD_append_right _ _ _ _ (by omega), hl, hdraws, List.getD_eq_getElem _ _ (by simpa using hi2)]
          simp
        simp only [this, hi, if_false]
        exact h2 0 _ (by rw [residualDraws_eq, hdraws]; exact hi2) k
    rw [Finset.sum_congr rfl fun i _ => h3 i, Fin.sum_univ_eq_sum_range (fun n : ℕ =>
      if n < r then (if (fixedPart (floors q)).getD n (if h : n < N then ⟨n, h⟩ else k) = k
            then (1 : ℝ≥0∞) else 0) else c) N]
    have hsplit : ∀ G : ℕ → ℝ≥0∞, ∑ n ∈ Finset.range N, G n
        = ∑ n ∈ Finset.range r, G n + ∑ n ∈ Finset.range m, G (r + n) := by
      intro G
      rw [hm, Finset.sum_range_add]
    rw [hsplit]
    have h4 : ∑ n ∈ Finset.range r, (if n < r then (if (fixedPart (floors q)).getD n
        (if h : n < N then ⟨n, h⟩ else k) = k then (1 : ℝ≥0∞) else 0) else c) = ((floors q k).toNat : ℝ≥0∞) := by
      rw [← count_fixedPart, ← count_eq_sum _ (fun n => if h : n < N then ⟨n, h⟩ else k), hl]
      exact Finset.sum_congr rfl fun n hn => if_pos (Finset.mem_range.1 hn)
    have h5 : ∑ n ∈ Finset.range m, (if r + n < r then (if (fixedPart (floors q)).getD (r + n)
        (if h : r + n < N then ⟨r + n, h⟩ else k) = k then (1 : ℝ≥0∞) else 0) else c) = m * c := by
      simp
    rw [h4, h5, hc, hsump, residualProbs]
    have hmr : (m : ℝ) = N - ((∑ i, floors q i : ℤ) : ℝ) := by
      rw [hr, hm]
      push_cast
      ring
    have e1 : (N * q k - (⌊(N : ℝ) * q k⌋ : ℝ)) / ((∑ j, ⌊(N : ℝ) * q j⌋ : ℤ) : ℝ) /
        ((N - ((∑ i, floors q i : ℤ) : ℝ)) / ((∑ i, floors q i : ℤ) : ℝ)) = (N * q k - floors q k) / m := by
      rw [hmr]
      exact div_div_div_cancel_right₀ hR0'.ne' _ _
    have hm0 : (0 : ℝ) < m := hmr ▸ hS
    rw [e1, ← ENNReal.ofReal_natCast m, ← ENNReal.ofReal_mul hm0.le, mul_div_cancel₀ _ hm0.ne',
      ← ENNReal.ofReal_natCast N, ← ENNReal.ofReal_mul hN'.le, ← ENNReal.ofReal_natCast (floors q k).toNat,
      ← ENNReal.ofReal_add (Nat.cast_nonneg _)
        (show (0 : ℝ) ≤ N * q k - floors q k from sub_nonneg.2 (Int.floor_le _))]
    congr 1
    have h6 : ((floors q k).toNat : ℝ) = floors q k := by
      have : (((floors q k).toNat : ℤ) : ℝ) = floors q k := by rw [Int.toNat_of_nonneg (hf k)]
      exact_mod_cast this
    rw [h6]
    show _ = (N : ℝ) * q k
    ring

end law

/-- Residual resampling for a single filter, multinomial resampling otherwise. -/
noncomputable def residualOr (lo : ℝ) (mult : TorchMultinomial N Ω) {b : ℕ} (w : Fin N → Fin b → XF)
    (normalized : Bool) (ω : Ω) : (Fin N → Fin b → Fin N) × Ω :=
  if b = 1 then residualResampler lo mult w normalized ω else multinomial2 lo mult w normalized ω

theorem residualOr_unbiased {P : Measure Ω} [SFinite P] (lo : ℝ) (hN : 0 < N) {mult : TorchMultinomial N Ω}
    (h : DrawsMultinomial P mult) : UnbiasedLogResampler P (N := N) (residualOr lo mult) := by
  have hm := (multinomial_unbiased lo hN h).2
  refine ⟨fun b => ?_, fun b w => ?_⟩
  · by_cases hb : b = 1
    · subst hb
      simp only [residualOr, if_true, residual_false]
      exact ((residual_measurable lo h).comp ((measurable_sms.comp measurable_fst).prodMk measurable_snd) :)
    · simp only [residualOr, if_neg hb]
      exact hm.measurable b
  · by_cases hb : b = 1
    · subst hb
      obtain ⟨ν, h1, h2⟩ := residual_law lo hN h (p := fun i j => sm w j i) (sm_isProb w 0 hN)
      refine ⟨ν, ?_, h2⟩
      rwa [show residualOr lo mult (fun i j => fin (w i j)) false
        = residualResampler lo mult (fun i j => fin (sm w j i)) true from funext fun ω => by
          simp only [residualOr, if_true, residual_false]]
    · obtain ⟨ν, h1, h2⟩ := hm.draws b w
      refine ⟨ν, ?_, h2⟩
      rwa [show residualOr lo mult (fun i j => fin (w i j)) false
        = multinomial2 lo mult (fun i j => fin (w i j)) false from funext fun ω => by
          simp only [residualOr, if_neg hb]]

/-! ## A generator with such draws -/

/-- `torch.multinomial` by inversion. -/
noncomputable def multinomialBy (hN : 0 < N) (rand : Ω → (ℕ × ℕ → ℝ) × Ω) {b : ℕ} (_k : ℕ)
    (p : Fin b → Fin N → XF) (ω : Ω) : (Fin b → ℕ → Fin N) × Ω :=
  (fun j l => invCdf (fun i => (p j i).toReal / ∑ i, (p j i).toReal) ((rand ω).1 (j, l)) ⟨0, hN⟩, (rand ω).2)

theorem multinomialBy_draws {P : Measure Ω} [SFinite P] (hN : 0 < N) {rand : Ω → (ℕ × ℕ → ℝ) × Ω}
    (hrand : Draws P rand unifs2) : DrawsMultinomial P (multinomialBy hN rand) := by
  have hm : ∀ b : ℕ, Measurable fun q : (Fin b → Fin N → ℝ) × (ℕ × ℕ → ℝ) => (fun (j : Fin b) (l : ℕ) =>
      invCdf (fun i => q.1 j i / ∑ i, q.1 j i) (q.2 (j, l)) ⟨0, hN⟩) := by
    intro b
    refine measurable_pi_lambda _ fun j => measurable_pi_lambda _ fun l => ?_
    have : Measurable fun q : (Fin b → Fin N → ℝ) × (ℕ × ℕ → ℝ) =>
        ((fun i => q.1 j i / ∑ i, q.1 j i : Fin N → ℝ), q.2 ((j : ℕ), l)) := by fun_prop
    exact (measurable_invCdf_joint (⟨0, hN⟩ : Fin N)).comp this
  refine ⟨fun b k => ?_, fun b k p hp => ?_⟩
  · exact ((hm b).comp (measurable_fst.prodMk (measurable_fst.comp (hrand.measurable.comp measurable_snd)))).prodMk
      (measurable_snd.comp (hrand.measurable.comp measurable_snd))
  · have hmp := (hm b).comp (measurable_const (a := p) |>.prodMk measurable_id)
    refine ⟨_, draws_map hrand hmp, fun j l _ i => ?_⟩
    have hs : MeasurableSet {a : Fin b → ℕ → Fin N | a j l = i} :=
      measurableSet_eq_fun ((measurable_pi_apply l).comp (measurable_pi_apply j)) measurable_const
    set pj : Fin N → ℝ := fun i => p j i / ∑ i, p j i with hpj
    have hprob : IsProb pj := ⟨fun i => div_nonneg ((hp j).1 i) (hp j).2.le, by
      rw [hpj, ← Finset.sum_div, div_self (hp j).2.ne']⟩
    have hu : MeasurableSet {u : ℝ | invCdf pj u ⟨0, hN⟩ = i} :=
      measurable_invCdf _ _ (measurableSet_singleton i)
    rw [Measure.map_apply hmp hs]
    have he : unifs2.map (fun u : ℕ × ℕ → ℝ => u ((j : ℕ), l)) = unif :=
      Measure.infinitePi_map_eval (fun _ => unif) _
    have hev : Measurable fun u : ℕ × ℕ → ℝ => u ((j : ℕ), l) := measurable_pi_apply _
    have := unif_invCdf hprob ⟨0, hN⟩ i
    rw [← he, Measure.map_apply hev hu] at this
    exact this

end Verif.Unbiased
