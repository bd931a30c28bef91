import Verif.Model.Qmc
import Mathlib.Tactic.Linarith
import Mathlib.Tactic.NormNum

/-!
# C76: quasi-random points
-/

namespace Verif.Props

open Verif.Qmc

/-- Points of the engine: the half-open unit cube. -/
def InCube {d : ℕ} (p : Fin d → ℝ) : Prop := ∀ j, 0 ≤ p j ∧ p j < 1

theorem safe_strict (eps p : ℝ) (h0 : 0 < eps) (h1 : eps < 1) (hp : 0 ≤ p ∧ p < 1) :
    0 < safe eps p ∧ safe eps p < 1 ∧ |safe eps p - p| ≤ eps / 2 := by
  unfold safe
  refine ⟨by nlinarith, by nlinarith, ?_⟩
  rw [abs_le]
  constructor <;> nlinarith

/-- In every sequence of draws all points lie strictly inside of the unit cube. -/
theorem C76_inside {d : ℕ} (eps : ℝ) (h0 : 0 < eps) (h1 : eps < 1) (e : Engine d)
    (calls : List (List (Fin d → ℝ) × (Fin d → ℝ))) (hp : ∀ c ∈ calls, ∀ p ∈ c.1, InCube p) :
    ∀ out ∈ (e.run eps calls).2, ∀ q ∈ out, ∀ j, 0 < q j ∧ q j < 1 := by
  induction calls generalizing e with
  | nil => intro out ho; simp [Engine.run] at ho
  | cons c cs ih =>
    intro out ho q hq j
    simp only [Engine.run, List.mem_cons] at ho
    rcases ho with rfl | ho
    · unfold Engine.sample at hq
      split_ifs at hq
      · simp only [List.mem_map] at hq
        obtain ⟨p, -, rfl⟩ := hq
        have := safe_strict eps (Int.fract (p j + (match e.rotation with | some r => r | none => c.2) j)) h0 h1
          ⟨Int.fract_nonneg _, Int.fract_lt_one _⟩
        exact ⟨this.1, this.2.1⟩
      · simp only [List.mem_map] at hq
        obtain ⟨p, hp', rfl⟩ := hq
        have := safe_strict eps (p j) h0 h1 (hp c (by simp) p hp' j)
        exact ⟨this.1, this.2.1⟩
    · exact ih _ (fun c hc => hp c (by simp [hc])) out ho q hq j

/-- A randomised engine uses one rotation for all draws: up to the final squeeze of at most `eps / 2`
each point is the drawn point rotated by that one vector. -/
theorem C76_one_rotation {d : ℕ} (eps : ℝ) (e : Engine d) (he : e.randomize = true)
    (calls : List (List (Fin d → ℝ) × (Fin d → ℝ))) (hne : calls ≠ []) :
    ∃ rot : Fin d → ℝ, (e.run eps calls).1.rotation = some rot ∧
      (∀ r, e.rotation = some r → rot = r) ∧
      (e.rotation = none → some rot = calls.head?.map Prod.snd) ∧
      (e.run eps calls).2 = calls.map fun c => c.1.map fun p j => safe eps (Int.fract (p j + rot j)) := by
  have key : ∀ (calls : List (List (Fin d → ℝ) × (Fin d → ℝ))) (e : Engine d) (r : Fin d → ℝ),
      e.randomize = true → e.rotation = some r →
      (e.run eps calls).1.rotation = some r ∧
        (e.run eps calls).2 = calls.map fun c => c.1.map fun p j => safe eps (Int.fract (p j + r j)) := by
    intro calls
    induction calls with
    | nil => intro e r _ hr; exact ⟨hr, rfl⟩
    | cons c cs ih =>
      intro e r hrand hr
      have hs : e.sample eps c.1 c.2 = ({ e with rotation := some r },
          c.1.map fun p j => safe eps (Int.fract (p j + r j))) := by
        unfold Engine.sample
        rw [if_pos hrand, hr]
      obtain ⟨h1, h2⟩ := ih { e with rotation := some r } r hrand rfl
      simp only [Engine.run, hs, List.map_cons]
      exact ⟨h1, by rw [h2]⟩
  cases calls with
  | nil => exact absurd rfl hne
  | cons c cs =>
    cases hr : e.rotation with
    | some r =>
      obtain ⟨h1, h2⟩ := key (c :: cs) e r he hr
      exact ⟨r, h1, fun r' h => Option.some.inj h, fun h => (nomatch h), h2⟩
    | none =>
      have hs : e.sample eps c.1 c.2 = ({ e with rotation := some c.2 },
          c.1.map fun p j => safe eps (Int.fract (p j + c.2 j))) := by
        unfold Engine.sample
        rw [if_pos he, hr]
      obtain ⟨h1, h2⟩ := key cs { e with rotation := some c.2 } c.2 he rfl
      refine ⟨c.2, ?_, fun r' h => (nomatch h), fun _ => rfl, ?_⟩
      · simp only [Engine.run, hs]; exact h1
      · simp only [Engine.run, hs, List.map_cons]; rw [h2]

/-- Without randomisation the points are the drawn ones, moved by at most `eps / 2`. -/
theorem C76_plain {d : ℕ} (eps : ℝ) (h0 : 0 < eps) (h1 : eps < 1) (e : Engine d) (he : e.randomize = false)
    (points : List (Fin d → ℝ)) (hp : ∀ p ∈ points, InCube p) (fresh : Fin d → ℝ) :
    (e.sample eps points fresh).1 = e ∧
      List.Forall₂ (fun p q => ∀ j, |q j - p j| ≤ eps / 2) points (e.sample eps points fresh).2 := by
  unfold Engine.sample
  rw [he]
  refine ⟨rfl, ?_⟩
  simp only [Bool.false_eq_true, if_false, List.forall₂_map_right_iff]
  rw [List.forall₂_same]
  intro p hm j
  exact (safe_strict eps (p j) h0 h1 (hp p hm j)).2.2

/-- Two draws of a randomised engine, the points at corners of the cube. -/
example : ∀ out ∈ ((⟨true, none⟩ : Engine 2).run (1 / 4)
    [([fun _ => 0, fun _ => 1 / 2], fun _ => 1 / 2), ([fun _ => 0], fun _ => 1 / 3)]).2,
    ∀ q ∈ out, ∀ j, 0 < q j ∧ q j < 1 :=
  C76_inside (1 / 4) (by norm_num) (by norm_num) ⟨true, none⟩ _ (by
    intro c hc p hp j
    simp only [List.mem_cons, List.not_mem_nil, or_false] at hc
    rcases hc with rfl | rfl <;> simp only [List.mem_cons, List.not_mem_nil, or_false] at hp
    · rcases hp with rfl | rfl <;> norm_num
    · subst hp; norm_num)

/-- The second draw of the same engine is rotated by the vector of the first. -/
example : ((⟨true, none⟩ : Engine 1).run (1 / 4)
    [([fun _ => 0], fun _ => 1 / 2), ([fun _ => 0], fun _ => 1 / 3)]).1.rotation = some fun _ => 1 / 2 := by
  obtain ⟨rot, h1, -, h3, -⟩ := C76_one_rotation (1 / 4) (⟨true, none⟩ : Engine 1) rfl
    [([fun _ => 0], fun _ => 1 / 2), ([fun _ => 0], fun _ => 1 / 3)] (by simp)
  rw [h1]; exact h3 rfl

end Verif.Props
