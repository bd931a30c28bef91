import Verif.Lemmas.Stream
import Verif.Spec.Smoothing

/-!
# Categorical draws by inversion

Shows that generators with categorical draws exist.
-/

namespace Verif.Unbiased

open Verif Verif.Spec MeasureTheory ProbabilityTheory
open scoped ENNReal

variable {N B : ℕ} {Ω : Type} [MeasurableSpace Ω]

/-- Cumulative probabilities. -/
noncomputable def cum (p : Fin N → ℝ) (k : ℕ) : ℝ := ∑ j : Fin N, if (j : ℕ) < k then p j else 0

theorem cum_zero (p : Fin N → ℝ) : cum p 0 = 0 := by simp [cum]

theorem cum_succ (p : Fin N → ℝ) (k : Fin N) : cum p (k + 1) = cum p k + p k := by
  unfold cum
  rw [← Finset.sum_add_sum_compl {k}, ← Finset.sum_add_sum_compl ({k} : Finset (Fin N)) fun j =>
    if (j : ℕ) < k then p j else 0]
  have : ∀ j ∈ ({k} : Finset (Fin N))ᶜ, (if (j : ℕ) < k + 1 then p j else 0) = if (j : ℕ) < k then p j else 0 := by
    intro j hj
    have : (j : ℕ) ≠ k := fun h => by simp [Fin.ext_iff, h] at hj
    have : (j : ℕ) < k + 1 ↔ (j : ℕ) < k := by omega
    simp [this]
  rw [Finset.sum_congr rfl this]
  simp
  ring

theorem cum_mono {p : Fin N → ℝ} (hp : ∀ i, 0 ≤ p i) : Monotone (cum p) := by
  intro a b hab
  unfold cum
  refine Finset.sum_le_sum fun j _ => ?_
  split_ifs with h1 h2
  · exact le_rfl
  · omega
  · exact hp j
  · exact le_rfl

theorem cum_top {p : Fin N → ℝ} (hp : IsProb p) : cum p N = 1 := by
  unfold cum
  rw [← hp.2]
  exact Finset.sum_congr rfl fun j _ => by simp

open Classical in
/-- The outcome belonging to the uniform `u`. -/
noncomputable def invCdf (p : Fin N → ℝ) (u : ℝ) (default : Fin N) : Fin N :=
  if h : ∃ k : ℕ, k < N ∧ u < cum p (k + 1) then ⟨Nat.find h, (Nat.find_spec h).1⟩ else default

theorem invCdf_eq {p : Fin N → ℝ} (hp : IsProb p) {u : ℝ} (hu : u ∈ Set.Ico (0 : ℝ) 1) (i k : Fin N) :
    invCdf p u i = k ↔ u ∈ Set.Ico (cum p k) (cum p (k + 1)) := by
  classical
  have hN : 0 < N := i.pos
  have h : ∃ k : ℕ, k < N ∧ u < cum p (k + 1) := ⟨N - 1, by omega, by
    rw [Nat.sub_add_cancel hN, cum_top hp]; exact hu.2⟩
  unfold invCdf
  rw [dif_pos h, Fin.ext_iff]
  simp only
  rw [Nat.find_eq_iff h]
  constructor
  · rintro ⟨⟨_, h1⟩, h2⟩
    refine ⟨?_, h1⟩
    rcases Nat.eq_zero_or_pos (k : ℕ) with hk | hk
    · rw [hk, cum_zero]; exact hu.1
    · have := h2 (k - 1) (by omega)
      simp only [not_and, not_lt] at this
      have := this (by omega)
      rwa [Nat.sub_add_cancel hk] at this
  · rintro ⟨h1, h2⟩
    refine ⟨⟨k.2, h2⟩, fun m hm => ?_⟩
    simp only [not_and, not_lt]
    intro _
    exact (cum_mono hp.1 hm).trans h1

theorem unif_invCdf {p : Fin N → ℝ} (hp : IsProb p) (i k : Fin N) :
    unif {u | invCdf p u i = k} = ENNReal.ofReal (p k) := by
  have h0 : 0 ≤ cum p k := (cum_zero p).symm.le.trans (cum_mono hp.1 (Nat.zero_le _))
  have h1 : cum p (k + 1) ≤ 1 := (cum_mono hp.1 k.2).trans (cum_top hp).le
  have hset : {u | invCdf p u i = k} ∩ Set.Ico 0 1 = Set.Ico (cum p k) (cum p (k + 1)) := by
    ext u
    constructor
    · rintro ⟨h, hu⟩
      exact (invCdf_eq hp hu i k).1 h
    · intro h
      have hu : u ∈ Set.Ico (0 : ℝ) 1 := ⟨h0.trans h.1, h.2.trans_le h1⟩
      exact ⟨(invCdf_eq hp hu i k).2 h, hu⟩
  rw [unif, Measure.restrict_apply' measurableSet_Ico, hset, Real.volume_Ico, cum_succ]
  congr 1
  ring

theorem measurable_invCdf (p : Fin N → ℝ) (i : Fin N) : Measurable fun u => invCdf p u i := by
  classical
  have hset : ∀ k : ℕ, MeasurableSet {u : ℝ | k < N ∧ u < cum p (k + 1)} := fun k => by
    by_cases hk : k < N
    · simp only [hk, true_and]
      exact measurableSet_Iio
    · simp [hk]
  refine measurable_to_countable' fun k => ?_
  have : (fun u => invCdf p u i) ⁻¹' {k} =
      ({u | k.1 < N ∧ u < cum p (k.1 + 1)} ∩ ⋂ m ∈ Finset.range k.1, {u | m < N ∧ u < cum p (m + 1)}ᶜ) ∪
      ((⋂ m, {u | m < N ∧ u < cum p (m + 1)}ᶜ) ∩ {_u | i = k}) := by
    ext u
    simp only [Set.mem_preimage, Set.mem_singleton_iff, Set.mem_union, Set.mem_inter_iff, Set.mem_setOf_eq,
      Set.mem_iInter, Set.mem_compl_iff, Finset.mem_range]
    unfold invCdf
    split_ifs with h
    · rw [Fin.ext_iff]
      simp only
      rw [Nat.find_eq_iff h]
      constructor
      · rintro ⟨h1, h2⟩
        exact .inl ⟨h1, h2⟩
      · rintro (⟨h1, h2⟩ | ⟨h1, _⟩)
        · exact ⟨h1, h2⟩
        · obtain ⟨m, hm⟩ := h
          exact absurd hm (h1 m)
    · constructor
      · exact fun hi => .inr ⟨fun m hm => h ⟨m, hm⟩, hi⟩
      · rintro (⟨h1, _⟩ | ⟨_, hi⟩)
        · exact absurd ⟨k.1, h1⟩ h
        · exact hi
  rw [this]
  refine MeasurableSet.union ((hset k).inter ?_) (MeasurableSet.inter (.iInter fun m => (hset m).compl) ?_)
  · exact Finset.measurableSet_biInter _ fun m _ => (hset m).compl
  · exact MeasurableSet.const _

/-- Probabilities of logits; `-inf` and invalid logits do not occur where this is used. -/
noncomputable def logitProb (l : Fin N → XF) (k : Fin N) : ℝ := expOf (l k) / ∑ j, expOf (l j)

/-- `Categorical(logits=l).sample()` by inversion, with independent uniforms for all entries. -/
noncomputable def categoricalBy (rand : Ω → (ℕ × ℕ → ℝ) × Ω) (l : Fin N → Fin B → Fin N → XF) (ω : Ω) :
    (Fin N → Fin B → Fin N) × Ω :=
  (fun i b => invCdf (logitProb (l i b)) ((rand ω).1 (i, b)) i, (rand ω).2)

/-- Independent uniforms indexed by pairs. -/
noncomputable def unifs2 : Measure (ℕ × ℕ → ℝ) := Measure.infinitePi fun _ => unif

instance : IsProbabilityMeasure unifs2 := by unfold unifs2; infer_instance

theorem softmax_isProb {N : ℕ} (hN : 0 < N) (l : Fin N → ℝ) :
    IsProb fun k => Real.exp (l k) / ∑ j, Real.exp (l j) := by
  have : 0 < ∑ j, Real.exp (l j) :=
    Finset.sum_pos (fun j _ => Real.exp_pos _) ⟨⟨0, hN⟩, Finset.mem_univ _⟩
  refine ⟨fun k => (div_pos (Real.exp_pos _) this).le, ?_⟩
  rw [← Finset.sum_div, div_self this.ne']

theorem categorical_draws {P : Measure Ω} [SFinite P] {rand : Ω → (ℕ × ℕ → ℝ) × Ω}
    (hrand : Draws P rand unifs2) : DrawsCategorical (N := N) (B := B) P (categoricalBy rand) := by
  intro l
  have hm : Measurable fun u : ℕ × ℕ → ℝ => (fun (i : Fin N) (b : Fin B) =>
      invCdf (logitProb fun k => XF.fin (l i b k)) (u (i, b)) i) :=
    measurable_pi_lambda _ fun i => measurable_pi_lambda _ fun b =>
      (measurable_invCdf _ i).comp (measurable_pi_apply _)
  refine ⟨_, draws_map hrand hm, fun i b k => ?_⟩
  have hs : MeasurableSet {a : Fin N → Fin B → Fin N | a i b = k} := MeasurableSet.of_discrete
  have hu : MeasurableSet {u : ℝ | invCdf (logitProb fun k => XF.fin (l i b k)) u i = k} :=
    measurable_invCdf _ i (measurableSet_singleton k)
  rw [Measure.map_apply hm hs]
  have he : unifs2.map (fun u : ℕ × ℕ → ℝ => u ((i : ℕ), (b : ℕ))) = unif :=
    Measure.infinitePi_map_eval (fun _ => unif) _
  have hp : logitProb (fun k => XF.fin (l i b k)) = fun k => Real.exp (l i b k) / ∑ j, Real.exp (l i b j) := rfl
  have hev : Measurable fun u : ℕ × ℕ → ℝ => u ((i : ℕ), (b : ℕ)) := measurable_pi_apply _
  have := unif_invCdf (softmax_isProb i.pos (l i b)) i k
  rw [← hp, ← he, Measure.map_apply hev hu, hp] at this
  exact this

end Verif.Unbiased
