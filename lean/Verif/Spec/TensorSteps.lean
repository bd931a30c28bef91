import Verif.Model.TensorRun
import Verif.Spec.TensorRun

/-!
# Steps of the filters for batches, and what they are to do to each filter
-/

namespace Verif.Torch

/-- The tensors of a state hold the given filters. -/
def CorrG {N : ℕ} (c : CorrectionT) (ev bs : List ℕ) (F : Fin N → List ℕ → Fin (dim ev) → ℝ) (W : Fin N → List ℕ → ℝ)
    (Q : Fin N → List ℕ → Fin N) : Prop :=
  PartG c.x ev bs F ∧ WeightG c.w bs W ∧ IndexG c.indices bs Q

/-- Steps of `SISR` for a batch of `B` filters, and what they do to filter `b`. -/
inductive SisrStep (N : ℕ) (ev : List ℕ) (B : ℕ) (threshold : ℝ) : StepT → (List ℕ → OneMove N (dim ev)) → Prop
  | seen {res A f S V} : ColumnG N res A → PropG N ev [B] f S V →
    SisrStep N ev B threshold ⟨sisrPredict ev threshold res, .seen (sisrCorrect f)⟩
      fun b s s' l => ∃ k ≤ b.headD 0, sisrMove threshold (A k) (.seen (fun n => S n b) fun n => V n b) s s' l
  | missing {res A f T} : ColumnG N res A → PropagateG N ev [B] f T →
    SisrStep N ev B threshold ⟨sisrPredict ev threshold res, .missing f⟩
      fun b s s' l => ∃ k ≤ b.headD 0, sisrMove threshold (A k) (.missing fun n => T n b) s s' l

/-- Steps of `SISR` for a single filter, and what they do to it. -/
inductive SisrStep1 (N : ℕ) (ev : List ℕ) (threshold : ℝ) : StepT → OneMove N (dim ev) → Prop
  | seen {res A f S V} : ColumnG N res A → PropG N ev [] f S V →
    SisrStep1 N ev threshold ⟨sisrPredict ev threshold res, .seen (sisrCorrect f)⟩
      (sisrMove threshold (A 0) (.seen (fun n => S n []) fun n => V n []))
  | missing {res A f T} : ColumnG N res A → PropagateG N ev [] f T →
    SisrStep1 N ev threshold ⟨sisrPredict ev threshold res, .missing f⟩ (sisrMove threshold (A 0) (.missing fun n => T n []))

/-- A step of `SISR` for a batch, and steps for filter `b` alone with the same proposal or process: number `k` resamples the filter with
the random numbers that the step for the batch gives to the `k`-th filter that it resamples. -/
inductive SisrAlone (N : ℕ) (ev : List ℕ) (B : ℕ) (threshold : ℝ) (b : ℕ) : StepT → (ℕ → StepT) → Prop
  | seen {res A f S V} {res' : ℕ → Tensor → Except PyErr Index} {f' S' V'} : ColumnG N res A → (∀ k, ∃ A', ColumnG N (res' k) A' ∧ A' 0 = A k) →
    PropG N ev [B] f S V → PropG N ev [] f' S' V' → (∀ n, S n [b] = S' n []) → (∀ n, V n [b] = V' n []) →
    SisrAlone N ev B threshold b ⟨sisrPredict ev threshold res, .seen (sisrCorrect f)⟩
      fun k => ⟨sisrPredict ev threshold (res' k), .seen (sisrCorrect f')⟩
  | missing {res A f T} {res' : ℕ → Tensor → Except PyErr Index} {f' T'} : ColumnG N res A → (∀ k, ∃ A', ColumnG N (res' k) A' ∧ A' 0 = A k) →
    PropagateG N ev [B] f T → PropagateG N ev [] f' T' → (∀ n, T n [b] = T' n []) →
    SisrAlone N ev B threshold b ⟨sisrPredict ev threshold res, .missing f⟩ fun k => ⟨sisrPredict ev threshold (res' k), .missing f'⟩

/-- Steps of the `APF`, and what they do to filter `b`. -/
inductive ApfStep (N : ℕ) (ev bs : List ℕ) : StepT → (List ℕ → OneMove N (dim ev)) → Prop
  | seen {res A pre P f S V} : SchemeG N bs res A → PreG N ev bs pre P → PropG N ev bs f S V →
    ApfStep N ev bs ⟨fun x w _ => apfPredict bs N x w, .seen (apfCorrect res pre f)⟩
      fun b => apfMove (A b) (fun n => P n b) (.seen (fun n => S n b) fun n => V n b)
  | missing {f T} : PropagateG N ev bs f T →
    ApfStep N ev bs ⟨fun x w _ => apfPredict bs N x w, .missing f⟩ fun b => apfMove (fun _ n => n) (fun _ _ => 0) (.missing fun n => T n b)

end Verif.Torch
