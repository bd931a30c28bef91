import Verif.Lemmas.Context

/-! # Concrete contexts used to show that hypotheses can be met -/

namespace Verif.Props.Demo

open Verif.Ctx Verif.Spec

/-- A vector prior of two entries that sum to one, described by one unconstrained entry. -/
def simplex : Prior ℤ where
  dist := .simple "Dirichlet".toList [("concentration".toList, [.fin 1, .fin 1])]
  batchShape := []
  eventShape := [2]
  uEventShape := some [1]
  support r := decide (r.sum = 1)
  toC r := [r.headD 0, 1 - r.headD 0]
  toU r := [r.headD 0]
  icdf r := r.map (3 * ·)

/-- A scalar prior on positive numbers. -/
def positive : Prior ℤ where
  dist := .simple "Exponential".toList [("rate".toList, [.fin 1])]
  batchShape := []
  eventShape := []
  uEventShape := some []
  support r := r.all fun x => decide (0 < x)
  toC r := r.map (· + 10)
  toU r := r.map (· - 10)
  icdf r := r.map (3 * ·)

def nameA : List Char := ['a']
def nameB : List Char := ['b']

/-- Samples of `simplex`: rows `0, 1`, `2, -1`, `4, -3`. -/
def drawA (i : ℕ) : ℤ := if i % 2 = 0 then i else 2 - i

/-- Samples of `positive`: `1, 2, 3`. -/
def drawB (i : ℕ) : ℤ := i + 1

/-- Nothing in use. -/
def w₀ : World ℤ := ⟨fun _ => ⟨[], []⟩, fun _ => 0, 0, 0⟩

/-- A context for three members with both parameters, registered in world `w`. -/
def build (w : World ℤ) : World ℤ × Context ℤ :=
  let r := Context.named w { batch := some [3] } nameA simplex drawA
  let s := Context.named r.1 r.2.1 nameB positive drawB
  (s.1, s.2.1)

def entries (w : World ℤ) : List (Entry ℤ) :=
  [⟨nameA, simplex, [1], w.no⟩, ⟨nameB, positive, [], w.no + 1⟩]

theorem build_holds (w : World ℤ) :
    Holds (build w).1 (build w).2 [3] (entries w) ∧ (build w).1.no = w.no + 2 ∧ (build w).1.nc = w.nc + 2 ∧
      (∀ q < w.no, (build w).1.obj q = w.obj q) ∧ (∀ a < w.nc, (build w).1.cell a = w.cell a) ∧
      (build w).1.obj w.no = w.nc ∧ (build w).1.obj (w.no + 1) = w.nc + 1 := by
  obtain ⟨w1, c1, h1, h2, -, h4, h5, h6, h7, h8, -⟩ :=
    (holds_empty w [3]).named (n := nameA) (p := simplex) (u := [1]) (by simp) rfl rfl drawA
  obtain ⟨w2, c2, g1, g2, -, g4, g5, g6, g7, g8, -⟩ :=
    h2.named (n := nameB) (p := positive) (u := []) (by simp [nameA, nameB]) rfl rfl drawB
  have hb : build w = (w2, c2) := by
    unfold build
    rw [h1]
    simp only [g1]
  rw [hb]
  dsimp only
  refine ⟨?_, by omega, by omega, ?_, ?_, ?_, ?_⟩
  · rw [h4] at g2; exact g2
  · intro q hq; exact (g6 q (by omega)).trans (h6 q hq)
  · intro a ha; exact (g7 a (by omega)).trans (h7 a ha)
  · exact (g6 _ (by omega)).trans h8
  · rw [← h4, g8, h5]

/-- The first context. -/
def w₁ : World ℤ := (build w₀).1
def c₁ : Context ℤ := (build w₀).2
def es₁ : List (Entry ℤ) := entries w₀

/-- A second context with the same priors, in the same world. -/
def w₂ : World ℤ := (build w₁).1
def c₂ : Context ℤ := (build w₁).2
def es₂ : List (Entry ℤ) := entries w₁

theorem holds₁ : Holds w₁ c₁ [3] es₁ := (build_holds w₀).1

theorem holds₂ : Holds w₂ c₂ [3] es₂ := (build_holds w₁).1

theorem holds₁₂ : Holds w₂ c₁ [3] es₁ := by
  obtain ⟨-, h2, h3, h4, h5, -⟩ := build_holds w₁
  exact holds₁.mono h4 h5 (by show w₁.nc ≤ (build w₁).1.nc; omega) (by show w₁.no ≤ (build w₁).1.no; omega)

end Verif.Props.Demo
