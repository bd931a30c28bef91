import Verif.Spec.TensorGpf
import Verif.Lemmas.TensorRun
import Verif.Props.TensorGaussian

/-!
# Lemmas about the Gaussian particle filter on tensors
-/

namespace Verif.Torch

open Matrix

theorem PartG.batch {N B : ℕ} {t : Tensor} {ev : List ℕ} {F : Fin N → List ℕ → Fin (dim ev) → ℝ} (h : PartG t ev [B] F) :
    Particles t ev fun (n : Fin N) (b : Fin B) => F n [b.val] :=
  ⟨h.1, fun n b j => h.2 n [b.val] (inShape_one.2 ⟨b, rfl, b.2⟩) j⟩

theorem PartG.single {N : ℕ} {t : Tensor} {ev : List ℕ} {F : Fin N → List ℕ → Fin (dim ev) → ℝ} (h : PartG t ev [] F) :
    Particles1 t ev fun n : Fin N => F n [] :=
  ⟨h.1, fun n j => h.2 n [] List.Forall₂.nil j⟩

theorem WeightG.batch {N B : ℕ} {t : Tensor} {W : Fin N → List ℕ → ℝ} (h : WeightG t [B] W) :
    Weights t fun (n : Fin N) (b : Fin B) => W n [b.val] :=
  ⟨h.1, fun n b => h.2 n [b.val] (inShape_one.2 ⟨b, rfl, b.2⟩)⟩

theorem WeightG.single {N : ℕ} {t : Tensor} {W : Fin N → List ℕ → ℝ} (h : WeightG t [] W) : Weights1 t fun n : Fin N => W n [] :=
  ⟨h.1, fun n => h.2 n [] List.Forall₂.nil⟩

/-- The values drawn by the Gaussian proposal, for a batch or a single filter. -/
theorem gaussianValues_ok (chol : ∀ n, Matrix (Fin n) (Fin n) ℝ → Matrix (Fin n) (Fin n) ℝ) {N : ℕ} {ev bs : List ℕ} (hev : ev.length ≤ 1)
    (h1 : ev ≠ [1]) (hb1 : bs.length ≤ 1) {x w : Tensor} {G : Fin N → List ℕ → Fin (dim ev) → ℝ} {U : Fin N → List ℕ → ℝ}
    (noise : List ℕ → ℝ) (hx : PartG x ev bs G) (hw : WeightG w bs U) :
    ∃ z, gaussianValues chol ev x w (bs ++ [N]) noise = .ok z ∧ PartG z ev bs fun (n : Fin N) b =>
      fittedDraw chol ev (fun k => G k b) (fun k => U k b) fun j => noise (compIx ev j.val ++ (b ++ [n.val])) := by
  rcases bs with _ | ⟨B, _ | ⟨_, _⟩⟩
  · obtain ⟨-, z, e1, e2, e3⟩ := Props.C141_single_filter chol N ev hev h1 x w _ _ noise hx.single hw.single
    refine ⟨z, e1, e2, fun n b hb j => ?_⟩
    cases hb
    exact e3 n j
  · obtain ⟨-, z, e1, e2, e3⟩ := Props.C141_draws_partial chol N B ev hev h1 x w _ _ noise hx.batch hw.batch
    refine ⟨z, e1, e2, fun n b hb j => ?_⟩
    obtain ⟨k, rfl, hk⟩ := inShape_one.1 hb
    exact e3 n ⟨k, hk⟩ j
  · simp at hb1

theorem GpfStep.stepG {N : ℕ} (hN : 0 < N) {ev bs : List ℕ} {s : StepT} {R : List ℕ → OneMove N (dim ev)} (h : GpfStep N ev bs s R) :
    StepG N ev bs s R := by
  intro c F W Q hc
  obtain ⟨v, v1, v2⟩ := normalizeT_ok hN hc.2.1
  have hp : gpfPredict c.x c.w c.indices = .ok ⟨c.x, c.w, v, c.indices⟩ := by
    unfold gpfPredict
    rw [v1]
    rfl
  cases h with
  | @seen f S V hf =>
    obtain ⟨z, w, e1, e2, e3⟩ := hf _ _ _ _ hc.1 v2
    have hpos (b : List ℕ) (_ : InShape bs b) :
        0 < ∑ n : Fin N, 1 / (N : ℝ) * Real.exp (V n b (fun k => F k b) fun k => softmaxOf (fun k => W k b) k) := by
      have : Nonempty (Fin N) := ⟨⟨0, hN⟩⟩
      have : (0 : ℝ) < N := by exact_mod_cast hN
      exact Finset.sum_pos (fun n _ => by positivity) Finset.univ_nonempty
    obtain ⟨l, l1, l2, l3⟩ := logLikelihoodT_ok e3 none (U := fun _ _ => (1 / N : ℝ)) (.inl ⟨rfl, fun _ _ => rfl⟩) hpos
    refine ⟨⟨z, w, l, c.indices⟩, _, _, Q, ?_, ⟨e2, e3, hc.2.2⟩, l2, fun b hb => ⟨rfl, fun n => rfl, fun n => rfl, ?_⟩⟩
    · unfold StepT.move gpfCorrect
      simp only [hp, e1, l1, ok_bind]
      rfl
    · rw [l3 b hb, ← Finset.mul_sum, one_div_mul_eq_div]
      rfl
  | @missing f T hf =>
    obtain ⟨d, d1, d2, d3, d4, d5, d6⟩ := createState_ok (p := ⟨c.x, c.w, v, c.indices⟩) hf hc.1 v2
    refine ⟨d, _, W, Q, ?_, ⟨d2, d3 ▸ hc.2.1, d4 ▸ hc.2.2⟩, d5, fun b hb => ⟨rfl, fun n => rfl, fun n => rfl, d6 b⟩⟩
    unfold StepT.move
    simp only [hp, ok_bind, d1]

theorem gpfMove_functional {N d : ℕ} (o : OneObs N d) {s t1 t2 : OneFilter N d} {l1 l2 : ℝ} (h1 : gpfMove o s t1 l1) (h2 : gpfMove o s t2 l2) :
    t1 = t2 ∧ l1 = l2 := by
  cases o <;>
  · obtain ⟨a1, a2, a3, a4⟩ := h1
    obtain ⟨b1, b2, b3, b4⟩ := h2
    exact ⟨OneFilter.ext' (fun n => by rw [a2, b2]) (fun n => by rw [a3, b3]) fun n => by rw [a1, b1], by rw [a4, b4]⟩

theorem GpfStep.functional {N : ℕ} {ev bs : List ℕ} {s : StepT} {R : List ℕ → OneMove N (dim ev)} (h : GpfStep N ev bs s R) {b : List ℕ}
    {t t1 t2 : OneFilter N (dim ev)} {l1 l2 : ℝ} (h1 : R b t t1 l1) (h2 : R b t t2 l2) : t1 = t2 ∧ l1 = l2 := by
  cases h <;> exact gpfMove_functional _ h1 h2

theorem OneRun.functional_gpf {N : ℕ} {ev bs : List ℕ} {steps : List StepT} {Rs : List (List ℕ → OneMove N (dim ev))}
    (hs : List.Forall₂ (GpfStep N ev bs) steps Rs) {b : List ℕ} : ∀ {s s1 s2 : OneFilter N (dim ev)} {L1 L2 : ℝ},
    OneRun (Rs.map fun R => R b) s s1 L1 → OneRun (Rs.map fun R => R b) s s2 L2 → s1 = s2 ∧ L1 = L2 := by
  induction hs with
  | nil =>
    intro s s1 s2 L1 L2 h1 h2
    cases h1
    cases h2
    exact ⟨rfl, rfl⟩
  | cons hr _ ih =>
    intro s s1 s2 L1 L2 h1 h2
    rw [List.map_cons] at h1 h2
    cases h1 with
    | cons a1 t1 =>
      cases h2 with
      | cons a2 t2 =>
        obtain ⟨rfl, rfl⟩ := GpfStep.functional hr a1 a2
        obtain ⟨r1, r2⟩ := ih t1 t2
        exact ⟨r1, by rw [r2]⟩

end Verif.Torch
