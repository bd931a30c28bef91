import Verif.Lemmas.PmmhFilter

/-!
# Likelihood estimates of SISR are bounded by the densities
-/

namespace Verif.PmmhFilter

open Verif Verif.Spec Verif.Unbiased XF

variable {N d : ℕ} {V Y Ω : Type}

/-- Finite weights that are normalised properly. -/
structure Regular (p : PPred N 1 d V) : Prop where
  weights : ∀ i, ∃ r, p.w i 0 = fin r
  normalized : ∃ q : Fin N → ℝ, IsProb q ∧ ∀ i, p.nw i 0 = fin (q i)

theorem regular_predict (hN : 0 < N) (M : ParticleModel N 1 d V Y Ω) (s : PCorr N 1 d V) (hs : ∀ i, ∃ r, s.w i 0 = fin r)
    (ω : Ω) : Regular (M.sisrPredict s ω).1 := by
  have hne : ∃ i : Fin N, Usable (s.w i 0) := ⟨⟨0, hN⟩, by obtain ⟨r, hr⟩ := hs ⟨0, hN⟩; rw [hr]; trivial⟩
  have hw : ∀ i, ∃ r, (normalize2 M.lo s.w).1 i 0 = fin r := by
    intro i
    obtain ⟨r, hr⟩ := hs i
    refine ⟨r, ?_⟩
    show nanToNum M.lo (s.w i 0) = _
    rw [hr]
    rfl
  have hq : ∃ q : Fin N → ℝ, IsProb q ∧ ∀ i, (normalize2 M.lo s.w).2 i 0 = fin (q i) :=
    ⟨_, isProb_mass M.lo (fun i => s.w i 0) hne, fun i => by
      rw [normalize2_col]
      exact normalize1_usable M.lo (fun i => s.w i 0) hne i⟩
  have hu : IsProb fun _ : Fin N => 1 / (N : ℝ) := by
    refine ⟨fun _ => by positivity, ?_⟩
    rw [Finset.sum_const, Finset.card_univ, Fintype.card_fin, nsmul_eq_mul]
    field_simp
  unfold ParticleModel.sisrPredict
  simp only
  split_ifs with h
  · exact ⟨hw, hq⟩
  · constructor
    · intro i
      dsimp only
      split_ifs
      · exact ⟨0, rfl⟩
      · exact hw i
    · dsimp only
      split_ifs
      · exact ⟨_, hu, fun _ => rfl⟩
      · exact hq

theorem totalP_nonpos (hN : 0 < N) (M : ParticleModel N 1 d V Y Ω)
    (hM : ∀ y p ω i, ∃ r ≤ 0, (M.sampleValues y p ω).1.2 i 0 = fin r) :
    ∀ (os : List (Option Y)) (p : PPred N 1 d V) (ω : Ω), Regular p →
      ∃ r ≤ 0, (FilterKind.sisr.ops M).totalP (fun k => k.ll 0) os p ω = fin r
  | [], _, _, _ => ⟨0, le_refl _, rfl⟩
  | none :: os, p, ω, hp => by
    have h1 : ∀ i, ∃ r, (M.createState p ω).1.w i 0 = fin r := by
      intro i
      obtain ⟨r, hr⟩ := hp.weights i
      exact ⟨r, by show nanToNum M.lo (p.w i 0) = _; rw [hr]; rfl⟩
    obtain ⟨r, hr, ht⟩ := totalP_nonpos hN M hM os _ (M.sisrPredict (M.createState p ω).1 (M.createState p ω).2).2
      (regular_predict hN M _ h1 (M.createState p ω).2)
    refine ⟨r, hr, ?_⟩
    show fin 0 + (FilterKind.sisr.ops M).totalP (fun k => k.ll 0) os (M.sisrPredict (M.createState p ω).1 (M.createState p ω).2).1
      (M.sisrPredict (M.createState p ω).1 (M.createState p ω).2).2 = _
    rw [ht, fin_add, zero_add]
  | some y :: os, p, ω, hp => by
    obtain ⟨q, hq, hqe⟩ := hp.normalized
    choose v hv0 hv using hM y p ω
    have h1 : ∀ i, ∃ r, (M.sisrCorrect y p ω).1.w i 0 = fin r := by
      intro i
      obtain ⟨r, hr⟩ := hp.weights i
      refine ⟨v i + r, ?_⟩
      show nanToNum M.lo ((M.sampleValues y p ω).1.2 i 0 + p.w i 0) = _
      rw [hr, hv]
      rfl
    obtain ⟨r, hr, ht⟩ := totalP_nonpos hN M hM os _ (M.sisrPredict (M.sisrCorrect y p ω).1 (M.sisrCorrect y p ω).2).2
      (regular_predict hN M _ h1 (M.sisrCorrect y p ω).2)
    have hsum : ∑ i, q i * expOf ((M.sampleValues y p ω).1.2 i 0) ≠ 0 := by
      simp only [hv, expOf]
      refine (Finset.sum_pos' (fun i _ => mul_nonneg (hq.1 i) (Real.exp_pos _).le) ?_).ne'
      by_contra hall
      push Not at hall
      have h0 : ∀ i, q i = 0 := by
        intro i
        by_contra hi
        have := hall i (Finset.mem_univ i)
        have := mul_pos (lt_of_le_of_ne (hq.1 i) (Ne.symm hi)) (Real.exp_pos (v i))
        linarith
      have := hq.2
      simp only [h0, Finset.sum_const_zero] at this
      exact zero_ne_one this
    have hll : (M.sisrCorrect y p ω).1.ll 0 = fin (Real.log (∑ i, q i * expOf ((M.sampleValues y p ω).1.2 i 0))) := by
      show logLikelihood (M.sampleValues y p ω).1.2 (some p.nw) 0 = _
      rw [logLikelihood_weighted _ _ _ q hqe hq.1 (fun i => Or.inr ⟨_, hv i⟩) ⟨⟨0, hN⟩, _, hv _⟩, if_neg hsum]
    have hle : Real.log (∑ i, q i * expOf ((M.sampleValues y p ω).1.2 i 0)) ≤ 0 := by
      refine Real.log_nonpos (Finset.sum_nonneg fun i _ => mul_nonneg (hq.1 i) (expOf_nonneg _)) ?_
      rw [← hq.2]
      refine Finset.sum_le_sum fun i _ => mul_le_of_le_one_right (hq.1 i) ?_
      rw [hv]
      exact Real.exp_le_one_iff.2 (hv0 i)
    refine ⟨_, add_nonpos hle hr, ?_⟩
    show (M.sisrCorrect y p ω).1.ll 0 + (FilterKind.sisr.ops M).totalP (fun k => k.ll 0) os
      (M.sisrPredict (M.sisrCorrect y p ω).1 (M.sisrCorrect y p ω).2).1
      (M.sisrPredict (M.sisrCorrect y p ω).1 (M.sisrCorrect y p ω).2).2 = _
    rw [ht, hll, fin_add]

end Verif.PmmhFilter
