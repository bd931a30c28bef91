import Verif.Model.Plot
import Mathlib.Tactic.Ring

/-!
# C102: the plot of the posterior
-/

namespace Verif.Props

open Verif.Plot

variable {B : Type}

/-- Whether the user asked for constrained values of a parameter: what they said, and yes if they said nothing. -/
def asked (s : Setting) (name : String) : Bool :=
  match s with
  | .all b => b
  | .dict d => (d.lookup name).getD true

/-- The panels that the plot should have, in order: one per component of every parameter. -/
def panels (params : List (Param B)) (s : Setting) : List (String × (B → ℝ)) :=
  params.flatMap fun p => (List.range (p.numel (asked s p.name))).map fun i =>
    (if p.numel (asked s p.name) ≤ 1 then p.name else p.name ++ "_" ++ toString i,
      fun b => p.value (asked s p.name) b i)

/-- Panel `k` is drawn into axis `k` with the weights of the parameter particles. -/
def drawnAs (w : B → XF) (ps : List (String × (B → ℝ))) : List (Drawn B) :=
  ps.zipIdx.map fun p => ⟨p.2, p.1.1, p.1.2, w⟩

theorem entry_append (d : List (String × Bool)) (k n : String) (h : d.lookup k = none) :
    entry (d ++ [(k, true)]) n = entry d n := by
  unfold entry
  rw [List.lookup_append]
  by_cases hn : n = k
  · subst hn
    rw [h]
    simp [List.lookup]
  · cases d.lookup n with
    | none => simp [List.lookup, beq_false_of_ne hn]
    | some b => rfl

theorem entry_fold (ps : List (Param B)) (d : List (String × Bool)) (n : String) :
    entry (ps.foldl (fun d p => if d.lookup p.name = none then d ++ [(p.name, true)] else d) d) n = entry d n := by
  induction ps generalizing d with
  | nil => rfl
  | cons p ps ih =>
    rw [List.foldl_cons, ih]
    split
    · rename_i h
      exact entry_append d p.name n h
    · rfl

theorem lookup_const (ps : List (Param B)) (b : Bool) (p : Param B) (hp : p ∈ ps) :
    (ps.map fun p => (p.name, b)).lookup p.name = some b := by
  induction ps with
  | nil => exact absurd hp List.not_mem_nil
  | cons q ps ih =>
    rw [List.map_cons, List.lookup_cons]
    split
    · rfl
    · rename_i h
      rcases List.mem_cons.1 hp with rfl | hp
      · simp at h
      · exact ih hp

theorem entry_resolve (params : List (Param B)) (s : Setting) (p : Param B) (hp : p ∈ params) :
    entry (resolve params s) p.name = asked s p.name := by
  unfold resolve
  simp only
  rw [entry_fold]
  cases s with
  | all b => rw [entry, lookup_const params b p hp]; rfl
  | dict d => rfl

theorem components_eq (axes : ℕ) (w : B → XF) (name : String) (numel : ℕ) (v : B → ℕ → ℝ) (n fig : ℕ)
    (done : List (Drawn B)) (hn : n ≤ numel) :
    components axes w name numel v n fig done =
      if fig + n ≤ axes ∨ n = 0 then
        .ok (fig + n, done ++ (List.range' (numel - n) n).map fun i =>
          ⟨fig + (i - (numel - n)), title name numel i, fun b => v b i, w⟩)
      else .error .index := by
  induction n generalizing fig done with
  | zero => simp [components]
  | succ n ih =>
    rw [components]
    split
    · rename_i hlt
      simp only
      rw [ih (fig + 1) _ (by omega)]
      by_cases h : fig + (n + 1) ≤ axes
      · rw [if_pos (Or.inl (by omega)), if_pos (Or.inl h)]
        congr 2
        · omega
        · rw [List.append_assoc, List.range'_succ, List.map_cons, List.singleton_append, Nat.sub_self, Nat.add_zero,
            show numel - n = numel - (n + 1) + 1 by omega]
          congr 2
          refine List.map_congr_left fun i hi => ?_
          have := (List.mem_range'_1.1 hi).1
          congr 1
          omega
      · have hn0 : n ≠ 0 := by omega
        rw [if_neg (by omega), if_neg (by omega)]
    · rename_i hlt
      rw [if_neg (by omega)]

theorem panels_cons (p : Param B) (ps : List (Param B)) (s : Setting) :
    panels (p :: ps) s = (List.range (p.numel (asked s p.name))).map (fun i =>
      (if p.numel (asked s p.name) ≤ 1 then p.name else p.name ++ "_" ++ toString i,
        fun b => p.value (asked s p.name) b i)) ++ panels ps s := rfl

theorem zipIdx_map_range {α : Type} (f : ℕ → α) (n k : ℕ) :
    ((List.range n).map f).zipIdx k = (List.range n).map fun i => (f i, k + i) := by
  refine List.ext_getElem (by simp) fun i h1 h2 => ?_
  simp

theorem parameters_eq (axes : ℕ) (w : B → XF) (d : List (String × Bool)) (s : Setting) (params : List (Param B))
    (hd : ∀ p ∈ params, entry d p.name = asked s p.name) (fig : ℕ) (done : List (Drawn B)) :
    parameters axes w d params fig done =
      if fig + (panels params s).length ≤ axes ∨ (panels params s).length = 0 then
        .ok (done ++ ((panels params s).zipIdx fig).map fun p => ⟨p.2, p.1.1, p.1.2, w⟩)
      else .error .index := by
  induction params generalizing fig done with
  | nil => simp [parameters, panels]
  | cons p ps ih =>
    rw [parameters]
    simp only [hd p (List.mem_cons_self ..)]
    rw [components_eq _ _ _ _ _ _ _ _ le_rfl, Nat.sub_self, panels_cons]
    generalize hm : p.numel (asked s p.name) = m
    rw [List.length_append, List.length_map, List.length_range]
    have ih := fun fig done => ih (fun q hq => hd q (List.mem_cons_of_mem _ hq)) fig done
    by_cases h : fig + m ≤ axes ∨ m = 0
    · rw [if_pos h]
      simp only [bind, Except.bind]
      rw [ih]
      by_cases h2 : fig + m + (panels ps s).length ≤ axes ∨ (panels ps s).length = 0
      · rw [if_pos h2, if_pos (by omega)]
        congr 1
        rw [List.append_assoc, List.zipIdx_append, List.map_append, zipIdx_map_range, List.length_map,
          List.length_range, List.map_map]
        congr 2
        · rw [← List.range_eq_range']
          refine List.map_congr_left fun i _ => ?_
          simp only [Function.comp, Nat.sub_zero, Drawn.mk.injEq, true_and, and_true, title]
          by_cases h1 : m ≤ 1
          · rw [if_neg (by omega), if_pos h1]
          · rw [if_pos (by omega), if_neg h1]
      · rw [if_neg h2, if_neg (by omega)]
    · rw [if_neg h, if_neg (by omega)]
      rfl

theorem sum_numel (params : List (Param B)) (s : Setting) :
    (params.map fun p => p.numel (entry (resolve params s) p.name)).sum = (panels params s).length := by
  rw [panels, List.length_flatMap]
  congr 1
  refine List.map_congr_left fun p hp => ?_
  rw [entry_resolve params s p hp, List.length_map, List.length_range]

theorem axes_drawn (w : B → XF) (ps : List (String × (B → ℝ))) :
    (drawnAs w ps).map Drawn.axis = List.range ps.length := by
  unfold drawnAs
  rw [List.map_map]
  refine List.ext_getElem (by simp) fun i h1 h2 => ?_
  simp

theorem mimic_array (params : List (Param B)) (w : B → XF) (s : Setting) (n : ℕ) :
    (do
      let drawn ← parameters n w (resolve params s) params 0 []
      return (drawn, (List.range n).filter fun a => a ∉ drawn.map Drawn.axis) : Except Err _) =
    if (panels params s).length ≤ n then
      .ok (drawnAs w (panels params s), (List.range n).filter fun a => (panels params s).length ≤ a)
    else .error .index := by
  rw [parameters_eq n w _ s params (fun p hp => entry_resolve params s p hp)]
  by_cases h : (panels params s).length ≤ n
  · rw [if_pos (by omega), if_pos h]
    show Except.ok _ = _
    rw [List.nil_append]
    congr 2
    refine List.filter_congr fun a _ => ?_
    rw [show ((panels params s).zipIdx 0).map (fun p => (⟨p.2, p.1.1, p.1.2, w⟩ : Drawn B))
      = drawnAs w (panels params s) from rfl, axes_drawn]
    simp
  · rw [if_neg (by omega), if_neg h]
    rfl

/-- The claim: without given axes, the panels are drawn. -/
def C102_claim : Prop :=
  ∀ (B : Type) (params : List (Param B)) (w : B → XF) (cols : ℕ) (s : Setting), 0 < cols →
    0 < (panels params s).length →
    ∃ off, mimic params w cols none s = .ok (drawnAs w (panels params s), off)

/-- **C102** (given axes). With enough axes the panels are drawn in order, each into its own axis, and exactly the
others are switched off; with too few `IndexError` is raised. -/
theorem C102_given (params : List (Param B)) (w : B → XF) (cols n : ℕ) (s : Setting) :
    mimic params w cols (some (.array n)) s =
      if (panels params s).length ≤ n then
        .ok (drawnAs w (panels params s), (List.range n).filter fun a => (panels params s).length ≤ a)
      else .error .index :=
  mimic_array params w s n

/-- **C102** (new figure). Unless there is a single panel in a single column, a figure with enough rows, and not
one row too many, is made and the panels are drawn as above. -/
theorem C102_figure_partial (params : List (Param B)) (w : B → XF) (cols : ℕ) (s : Setting) (hc : 0 < cols)
    (hp : 0 < (panels params s).length) (hn : ¬ (cols = 1 ∧ (panels params s).length = 1)) :
    ∃ rows, (panels params s).length ≤ rows * cols ∧ rows * cols < (panels params s).length + cols ∧
      mimic params w cols none s = .ok (drawnAs w (panels params s),
        (List.range (rows * cols)).filter fun a => (panels params s).length ≤ a) := by
  set t := (panels params s).length with ht
  have h1 := Nat.div_add_mod (t + (cols - 1)) cols
  have h2 := Nat.mod_lt (t + (cols - 1)) hc
  have h3 : rowsFor t cols * cols = cols * ((t + (cols - 1)) / cols) := Nat.mul_comm _ _
  have hr : rowsFor t cols ≠ 0 := by
    intro h
    rw [h] at h3
    omega
  refine ⟨rowsFor t cols, by omega, by omega, ?_⟩
  have hne : ¬ (rowsFor t cols = 1 ∧ cols = 1) := by
    rintro ⟨h, rfl⟩
    rw [h] at h3
    simp only [Nat.sub_self, Nat.add_zero, Nat.div_one] at h3
    omega
  unfold mimic
  simp only [sum_numel, ← ht]
  rw [if_neg hc.ne', subplots, if_neg (by omega), if_neg hne]
  have := mimic_array params w s (rowsFor t cols * cols)
  rw [← ht, if_pos (by omega)] at this
  exact this

/-- With one panel and one column `plt.subplots` returns an `Axes` instead of an array, and `ravel` raises
`AttributeError`. -/
theorem C102_single (params : List (Param B)) (w : B → XF) (s : Setting) (h : (panels params s).length = 1) :
    mimic params w 1 none s = .error .attribute := by
  unfold mimic
  simp only [sum_numel, h]
  rfl

/-- Without parameters there is nothing to plot: `subplots` refuses. -/
theorem C102_empty (params : List (Param B)) (w : B → XF) (cols : ℕ) (hc : 0 < cols) (s : Setting)
    (h : (panels params s).length = 0) : mimic params w cols none s = .error .value := by
  unfold mimic
  simp only [sum_numel, h]
  rw [if_neg hc.ne', subplots, if_pos (Or.inl ?_)]
  · rfl
  · rw [rowsFor, Nat.div_eq_of_lt (by omega)]

/-- A parameter "kappa" with one component and a parameter "sigma" with two, of which only one is needed
in unconstrained coordinates. -/
noncomputable def plotted : List (Param (Fin 2)) :=
  [⟨"kappa", fun _ => 1, fun c b _ => if c then (b : ℕ) else -(b : ℕ)⟩,
    ⟨"sigma", fun c => if c then 2 else 1, fun _ b i => (b : ℕ) + i⟩]

theorem C102_negation : ¬ C102_claim := by
  intro h
  obtain ⟨off, h⟩ := h (Fin 2) [⟨"kappa", fun _ => 1, fun _ _ _ => 0⟩] (fun _ => .fin (1 / 2)) 1 (.all true)
    one_pos (by simp [panels])
  rw [C102_single _ _ _ (by simp [panels])] at h
  exact nomatch h

/-- Three panels in the default three columns. -/
example (w : Fin 2 → XF) : mimic plotted w 3 none (.all true) =
    .ok ([⟨0, "kappa", fun b => (b : ℕ), w⟩, ⟨1, "sigma_0", fun b => (b : ℕ) + (0 : ℕ), w⟩,
      ⟨2, "sigma_1", fun b => (b : ℕ) + (1 : ℕ), w⟩], []) := by
  have hl : (panels plotted (.all true)).length = 3 := rfl
  obtain ⟨rows, h1, h2, h⟩ := C102_figure_partial plotted w 3 (.all true) (by decide) (by rw [hl]; decide) (by simp)
  rw [h]
  have : rows = 1 := by omega
  subst this
  rfl

/-- A dictionary that mentions one parameter: the other one is constrained. The last two of four axes are
switched off. -/
example (w : Fin 2 → XF) : mimic plotted w 2 (some (.array 4)) (.dict [("sigma", false)]) =
    .ok ([⟨0, "kappa", fun b => (b : ℕ), w⟩, ⟨1, "sigma", fun b => (b : ℕ) + (0 : ℕ), w⟩], [2, 3]) := by
  rw [C102_given]
  rfl

end Verif.Props
