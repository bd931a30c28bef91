import Verif.Spec.Residuals
import Mathlib.MeasureTheory.Measure.Map
import Mathlib.MeasureTheory.Constructions.BorelSpace.Basic
import Mathlib.MeasureTheory.Function.SpecialFunctions.Basic
import Mathlib.Probability.Distributions.Gaussian.Real
import Mathlib.Tactic.FieldSimp

/-!
# Property C158: the residuals of `Standardizer` are the noise of the observations
-/

namespace Verif.Props

open Verif Verif.Residual MeasureTheory

variable {α : Type}

/-- Standardising an observation gives back the noise it was made of. -/
theorem C158_recovers (ts : List (Transform α)) (h : ∀ t ∈ ts, Function.LeftInverse t.inv t.fwd) (ε : α) :
    standardizeObs (.transformed ts) (observe ts ε) = .ok ε := by
  unfold standardizeObs
  dsimp only
  induction ts generalizing ε with
  | nil => rfl
  | cons t rest ih =>
    have := ih (fun s hs => h s (List.mem_cons_of_mem _ hs)) (t.fwd ε)
    injection this with this
    rw [List.reverse_cons, List.foldl_append, observe, this]
    exact congrArg Except.ok (h t List.mem_cons_self ε)

/-- Case: three transforms, the last two of which do not commute with the first. -/
example (ε : ℝ) : standardizeObs (.transformed [affine 1 2, expTransform, affine (-3) 5]) (-3 + 5 * Real.exp (1 + 2 * ε)) = .ok ε :=
  C158_recovers [affine 1 2, expTransform, affine (-3) 5] (by
    intro t ht
    simp only [List.mem_cons, List.not_mem_nil, or_false] at ht
    rcases ht with rfl | rfl | rfl <;> intro x <;> simp [affine, expTransform]) ε

/-- The observation is made of the residual, and of nothing else. -/
theorem C158_unique (ts : List (Transform α)) (hl : ∀ t ∈ ts, Function.LeftInverse t.inv t.fwd)
    (hr : ∀ t ∈ ts, Function.RightInverse t.inv t.fwd) (y r : α) :
    standardizeObs (.transformed ts) y = .ok r ↔ observe ts r = y := by
  constructor
  · intro h
    unfold standardizeObs at h
    injection h with h
    subst h
    clear hl
    induction ts generalizing y with
    | nil => rfl
    | cons t rest ih =>
      rw [List.reverse_cons, List.foldl_append, observe]
      show observe rest (t.fwd (t.inv _)) = y
      rw [hr t List.mem_cons_self]
      exact ih (fun s hs => hr s (List.mem_cons_of_mem _ hs)) y
  · rintro rfl
    exact C158_recovers ts hl r

/-- Case: two affine transforms. -/
example (y r : ℝ) : standardizeObs (.transformed [affine 1 2, affine (-3) 5]) y = .ok r ↔ -3 + 5 * (1 + 2 * r) = y :=
  C158_unique [affine 1 2, affine (-3) 5] (by
    intro t ht
    simp only [List.mem_cons, List.not_mem_nil, or_false] at ht
    rcases ht with rfl | rfl <;> intro x <;> simp [affine]) (by
    intro t ht
    simp only [List.mem_cons, List.not_mem_nil, or_false] at ht
    rcases ht with rfl | rfl <;> intro x <;> simp [affine, mul_div_cancel₀]) y r

/-- For observations with normal noise the residual is the z-score, for log-normal ones that of the logarithm. -/
theorem C158_scores (loc scale y : ℝ) :
    standardizeObs (.transformed [affine loc scale]) y = .ok ((y - loc) / scale) ∧
    standardizeObs (.transformed [affine loc scale, expTransform]) y = .ok ((Real.log y - loc) / scale) := ⟨rfl, rfl⟩

/-- Case. -/
example : standardizeObs (.transformed [affine 1 2]) 7 = .ok 3 := by
  rw [(C158_scores 1 2 7).1]
  norm_num

/-- If the observation has the law that its density at a state stands for, the residual at that state has the law of the noise. -/
theorem C158_law [MeasurableSpace α] (μ : Measure α) (ts : List (Transform α)) (h : ∀ t ∈ ts, Function.LeftInverse t.inv t.fwd)
    (hf : ∀ t ∈ ts, Measurable t.fwd) (hi : ∀ t ∈ ts, Measurable t.inv) :
    ∃ res : α → α, (∀ y, standardizeObs (.transformed ts) y = .ok (res y)) ∧ (μ.map (observe ts)).map res = μ := by
  refine ⟨fun y => ts.reverse.foldl (fun yStd t => t.inv yStd) y, fun _ => rfl, ?_⟩
  have m1 : Measurable (observe ts) := by
    clear h hi
    induction ts with
    | nil => exact measurable_id
    | cons t rest ih => exact (ih fun s hs => hf s (List.mem_cons_of_mem _ hs)).comp (hf t List.mem_cons_self)
  have m2 : Measurable fun y => ts.reverse.foldl (fun yStd t => t.inv yStd) y := by
    clear h hf m1
    induction ts with
    | nil => exact measurable_id
    | cons t rest ih =>
      simp only [List.reverse_cons, List.foldl_append]
      exact (hi t List.mem_cons_self).comp (ih fun s hs => hi s (List.mem_cons_of_mem _ hs))
  rw [Measure.map_map m2 m1]
  have e : (fun y => ts.reverse.foldl (fun yStd t => t.inv yStd) y) ∘ observe ts = id := by
    funext ε
    have := C158_recovers ts h ε
    unfold standardizeObs at this
    injection this
  rw [e, Measure.map_id]

/-- Case: log-normal observations have standard normal residuals. -/
example : ∃ res : ℝ → ℝ, (∀ y, standardizeObs (.transformed [affine 1 2, expTransform]) y = .ok (res y)) ∧
    ((ProbabilityTheory.gaussianReal 0 1).map fun ε => Real.exp (1 + 2 * ε)).map res = ProbabilityTheory.gaussianReal 0 1 :=
  C158_law (ProbabilityTheory.gaussianReal 0 1) [affine 1 2, expTransform] (by
    intro t ht
    simp only [List.mem_cons, List.not_mem_nil, or_false] at ht
    rcases ht with rfl | rfl <;> intro x <;> simp [affine, expTransform]) (by
    intro t ht
    simp only [List.mem_cons, List.not_mem_nil, or_false] at ht
    rcases ht with rfl | rfl
    · exact (measurable_const_mul 2).const_add 1
    · exact Real.measurable_exp) (by
    intro t ht
    simp only [List.mem_cons, List.not_mem_nil, or_false] at ht
    rcases ht with rfl | rfl
    · exact (measurable_id.sub_const 1).div_const 2
    · exact Real.measurable_log)

/-- Standardising fails for densities of other classes only, with NotImplementedError, whatever the observation is. -/
theorem C158_refused (d : Density α) (y : α) :
    standardizeObs d y = .error .notImplementedError ∧ (∀ ts, d ≠ .transformed ts) ∨ (∃ ts r, d = .transformed ts ∧ standardizeObs d y = .ok r) := by
  cases d with
  | other => exact .inl ⟨rfl, fun _ h => nomatch h⟩
  | transformed ts => exact .inr ⟨ts, _, rfl, rfl⟩

/-- Case: a density of another class. -/
example : standardizeObs .other (2 : ℝ) = .error .notImplementedError :=
  (C158_refused .other (2 : ℝ)).elim (fun h => h.1) fun ⟨_, _, h, _⟩ => nomatch h

end Verif.Props
