import Mathlib.MeasureTheory.Constructions.Pi
import Mathlib.MeasureTheory.Measure.Prod
import Mathlib.MeasureTheory.Integral.Lebesgue.Countable
import Mathlib.MeasureTheory.Constructions.BorelSpace.Order

/-!
# Ancestors and backward simulation in an abstract particle system

One filter with resampling in every step. Given all positions, the ancestor of a particle is distributed as in backward
simulation, so the average over ancestral paths and the one over backward paths agree given all positions.
-/

namespace Verif.Trajectory

open MeasureTheory
open scoped ENNReal

variable {N : ℕ} {X : Type}

/-- Ancestors and positions of the particles of one filter at every time. -/
abbrev Traj (N : ℕ) (X : Type) := ℕ → (Fin N → Fin N) × (Fin N → X)

/-- The positions alone. -/
def pos (q : Traj N X) : ℕ → Fin N → X := fun n => (q n).2

/-- The path `p` at times after `t`, continued to earlier times along the ancestors of particle `i` at time `t`. -/
def gen : ℕ → Traj N X → Fin N → (ℕ → X) → ℕ → X
  | 0, q, i, p => Function.update p 0 ((q 0).2 i)
  | t + 1, q, i, p => gen t q ((q (t + 1)).1 i) (Function.update p (t + 1) ((q (t + 1)).2 i))

variable (f : ℕ → X → X → ℝ≥0∞) (W : ℕ → (Fin N → X) → Fin N → ℝ≥0∞)

/-- Probability of choosing particle `j` of the positions `x` at time `t` given the later value `y`. -/
noncomputable def bw (t : ℕ) (x : Fin N → X) (y : X) (j : Fin N) : ℝ≥0∞ :=
  W t x j * f t (x j) y / ∑ k, W t x k * f t (x k) y

/-- The average of `Φ` over the path continued by backward simulation instead. -/
noncomputable def back (Φ : (ℕ → X) → ℝ≥0∞) : ℕ → Traj N X → Fin N → (ℕ → X) → ℝ≥0∞
  | 0, q, i, p => Φ (Function.update p 0 ((q 0).2 i))
  | t + 1, q, i, p => ∑ j, bw f W t (q t).2 ((q (t + 1)).2 i) j *
      back Φ t q j (Function.update p (t + 1) ((q (t + 1)).2 i))

/-- Density of the ancestors `k` and the positions `x'` of the next time. -/
noncomputable def sw (t : ℕ) (x : Fin N → X) (k : Fin N → Fin N) (x' : Fin N → X) : ℝ≥0∞ :=
  ∏ i, W t x (k i) * f t (x (k i)) (x' i)

variable [MeasurableSpace X] (lam : Measure X)

/-- Average of `F` over `n` steps from time `t`. -/
noncomputable def trajAvg : ℕ → ℕ → (Traj N X → ℝ≥0∞) → Traj N X → ℝ≥0∞
  | 0, _, F, q => F q
  | n + 1, t, F, q => ∫⁻ x', ∑ k, sw f W t (q t).2 k x' * trajAvg n (t + 1) F (Function.update q (t + 1) (k, x'))
      ∂(Measure.pi fun _ => lam)

/-! ## Measurability -/

variable {f W} (hf : ∀ t, Measurable fun q : X × X => f t q.1 q.2) (hW : ∀ t k, Measurable fun x => W t x k)

include hf hW in
theorem measurable_term {Z : Type} [MeasurableSpace Z] (t : ℕ) (k : Fin N) {x : Z → Fin N → X} {y : Z → X} (hx : Measurable x)
    (hy : Measurable y) : Measurable fun z => W t (x z) k * f t (x z k) (y z) := by
  have h1 : Measurable fun z => W t (x z) k := (hW t k).comp hx
  have h2 : Measurable fun z => f t (x z k) (y z) := (hf t).comp (((measurable_pi_apply k).comp hx).prodMk hy)
  exact h1.mul h2

include hf hW in
theorem measurable_sw {Z : Type} [MeasurableSpace Z] (t : ℕ) (k : Fin N → Fin N) {x x' : Z → Fin N → X} (hx : Measurable x)
    (hx' : Measurable x') : Measurable fun z => sw f W t (x z) k (x' z) := by
  unfold sw
  exact Finset.measurable_prod _ fun i _ => measurable_term hf hW t (k i) hx ((measurable_pi_apply i).comp hx')

theorem measurable_updateAt {A Z : Type} [MeasurableSpace A] [MeasurableSpace Z] (n : ℕ) {g : Z → ℕ → A} {h : Z → A}
    (hg : Measurable g) (hh : Measurable h) : Measurable fun z => Function.update (g z) n (h z) := by
  rw [measurable_pi_iff]
  intro m
  by_cases e : m = n
  · subst e; simpa using hh
  · simp only [Function.update_of_ne e]
    exact (measurable_pi_apply m).comp hg

include hf hW in
theorem measurable_trajAvg [SigmaFinite lam] {Z : Type} [MeasurableSpace Z] {F : Z → Traj N X → ℝ≥0∞}
    (hF : Measurable fun z : Z × Traj N X => F z.1 z.2) : ∀ n t,
    Measurable fun z : Z × Traj N X => trajAvg f W lam n t (F z.1) z.2
  | 0, _ => hF
  | n + 1, t => by
    have ih := measurable_trajAvg hF n (t + 1)
    have h : ∀ k : Fin N → Fin N, Measurable fun z : (Z × Traj N X) × (Fin N → X) =>
        sw f W t (z.1.2 t).2 k z.2 * trajAvg f W lam n (t + 1) (F z.1.1) (Function.update z.1.2 (t + 1) (k, z.2)) := by
      intro k
      have hq : Measurable fun z : (Z × Traj N X) × (Fin N → X) => (z.1.2 t).2 :=
        measurable_snd.comp ((measurable_pi_apply t).comp (measurable_snd.comp measurable_fst))
      have hu : Measurable fun z : (Z × Traj N X) × (Fin N → X) => Function.update z.1.2 (t + 1) (k, z.2) :=
        measurable_updateAt _ (measurable_snd.comp measurable_fst) (measurable_const.prodMk measurable_snd)
      have h3 : Measurable fun z : (Z × Traj N X) × (Fin N → X) =>
          trajAvg f W lam n (t + 1) (F z.1.1) (Function.update z.1.2 (t + 1) (k, z.2)) :=
        ih.comp ((measurable_fst.comp measurable_fst).prodMk hu)
      exact (measurable_sw hf hW t k hq measurable_snd).mul h3
    have h2 : Measurable fun z : (Z × Traj N X) × (Fin N → X) => ∑ k : Fin N → Fin N,
        sw f W t (z.1.2 t).2 k z.2 * trajAvg f W lam n (t + 1) (F z.1.1) (Function.update z.1.2 (t + 1) (k, z.2)) :=
      Finset.measurable_sum _ fun k _ => h k
    exact h2.lintegral_prod_right'

theorem measurable_choice {Z A : Type} [MeasurableSpace Z] [MeasurableSpace A] {a : Z → Fin N} (ha : Measurable a)
    {g : Fin N → Z → A} (hg : ∀ j, Measurable (g j)) : Measurable fun z => g (a z) z := by
  have h : Measurable fun q : Fin N × Z => g q.1 q.2 := measurable_from_prod_countable_right fun j => hg j
  exact h.comp (ha.prodMk measurable_id)

theorem measurable_gen {Z : Type} [MeasurableSpace Z] : ∀ (t : ℕ) (i : Fin N) {q : Z → Traj N X} {p : Z → ℕ → X},
    Measurable q → Measurable p → Measurable fun z => gen t (q z) i (p z)
  | 0, i, q, p, hq, hp =>
    measurable_updateAt 0 hp ((measurable_pi_apply i).comp (measurable_snd.comp ((measurable_pi_apply 0).comp hq)))
  | t + 1, i, q, p, hq, hp => by
    have h1 : Measurable fun z => (q z (t + 1)).1 i :=
      (measurable_pi_apply i).comp (measurable_fst.comp ((measurable_pi_apply (t + 1)).comp hq))
    have h2 : Measurable fun z => (q z (t + 1)).2 i :=
      (measurable_pi_apply i).comp (measurable_snd.comp ((measurable_pi_apply (t + 1)).comp hq))
    exact measurable_choice h1 fun j => measurable_gen t j hq (measurable_updateAt (t + 1) hp h2)

include hf hW in
theorem measurable_bw {Z : Type} [MeasurableSpace Z] (t : ℕ) (j : Fin N) {x : Z → Fin N → X} {y : Z → X} (hx : Measurable x)
    (hy : Measurable y) : Measurable fun z => bw f W t (x z) (y z) j := by
  have h : ∀ k : Fin N, Measurable fun z => W t (x z) k * f t (x z k) (y z) := fun k => measurable_term hf hW t k hx hy
  unfold bw
  exact (h j).div (Finset.measurable_sum _ fun k _ => h k)

include hf hW in
theorem measurable_back {Φ : (ℕ → X) → ℝ≥0∞} (hΦ : Measurable Φ) {Z : Type} [MeasurableSpace Z] : ∀ (t : ℕ) (i : Fin N)
    {q : Z → Traj N X} {p : Z → ℕ → X}, Measurable q → Measurable p → Measurable fun z => back f W Φ t (q z) i (p z)
  | 0, i, q, p, hq, hp => hΦ.comp (measurable_updateAt 0 hp
      ((measurable_pi_apply i).comp (measurable_snd.comp ((measurable_pi_apply 0).comp hq))))
  | t + 1, i, q, p, hq, hp => by
    have h2 : Measurable fun z => (q z (t + 1)).2 i :=
      (measurable_pi_apply i).comp (measurable_snd.comp ((measurable_pi_apply (t + 1)).comp hq))
    have h3 : Measurable fun z => (q z t).2 := measurable_snd.comp ((measurable_pi_apply t).comp hq)
    unfold back
    exact Finset.measurable_sum _ fun j _ => (measurable_bw hf hW t j h3 h2).mul
      (measurable_back hΦ t j hq (measurable_updateAt (t + 1) hp h2))

/-! ## Later times do not matter -/

omit [MeasurableSpace X] in
theorem gen_update (n : ℕ) (v) : ∀ (t : ℕ), t < n → ∀ (q : Traj N X) (i : Fin N) (p : ℕ → X),
    gen t (Function.update q n v) i p = gen t q i p
  | 0, h, q, i, p => by
    simp only [gen, Function.update_of_ne h.ne]
  | t + 1, h, q, i, p => by
    simp only [gen, Function.update_of_ne h.ne]
    exact gen_update n v t (by omega) q _ _

omit [MeasurableSpace X] in
theorem back_update (Φ : (ℕ → X) → ℝ≥0∞) (n : ℕ) (v) : ∀ (t : ℕ), t < n → ∀ (q : Traj N X) (i : Fin N) (p : ℕ → X),
    back f W Φ t (Function.update q n v) i p = back f W Φ t q i p
  | 0, h, q, i, p => by
    simp only [back, Function.update_of_ne h.ne]
  | t + 1, h, q, i, p => by
    simp only [back, Function.update_of_ne h.ne, Function.update_of_ne (show t ≠ n by omega)]
    refine Finset.sum_congr rfl fun j _ => ?_
    rw [back_update Φ n v t (by omega)]

omit [MeasurableSpace X] in
theorem pos_update (q : Traj N X) (n : ℕ) (k : Fin N → Fin N) (x : Fin N → X) :
    pos (Function.update q n (k, x)) = Function.update (pos q) n x := by
  funext m
  unfold pos
  by_cases e : m = n
  · subst e; simp
  · simp [Function.update_of_ne e]

/-! ## Averages -/

/-- The last step first. -/
theorem trajAvg_last (F : Traj N X → ℝ≥0∞) : ∀ (n t : ℕ) (q : Traj N X),
    trajAvg f W lam (n + 1) t F q = trajAvg f W lam n t (fun q => trajAvg f W lam 1 (t + n) F q) q
  | 0, t, q => rfl
  | n + 1, t, q => by
    rw [trajAvg]
    simp only [trajAvg_last F n (t + 1)]
    rw [show t + 1 + n = t + (n + 1) by omega]
    rfl

include hf hW in
/-- Averages over an independent variable commute with the average over the steps. -/
theorem trajAvg_lintegral [SigmaFinite lam] {Z : Type} [MeasurableSpace Z] (ρ : Measure Z) [SFinite ρ]
    {F : Z → Traj N X → ℝ≥0∞} (hF : Measurable fun z : Z × Traj N X => F z.1 z.2) : ∀ (n t : ℕ) (q : Traj N X),
    trajAvg f W lam n t (fun q => ∫⁻ z, F z q ∂ρ) q = ∫⁻ z, trajAvg f W lam n t (F z) q ∂ρ
  | 0, t, q => rfl
  | n + 1, t, q => by
    have hm := measurable_trajAvg lam hf hW hF n (t + 1)
    simp only [trajAvg, trajAvg_lintegral ρ hF n (t + 1)]
    have h : ∀ k : Fin N → Fin N, Measurable fun z : Z × (Fin N → X) =>
        sw f W t (q t).2 k z.2 * trajAvg f W lam n (t + 1) (F z.1) (Function.update q (t + 1) (k, z.2)) := by
      intro k
      have hu : Measurable fun z : Z × (Fin N → X) => Function.update q (t + 1) (k, z.2) :=
        measurable_updateAt _ measurable_const (measurable_const.prodMk measurable_snd)
      have h3 : Measurable fun z : Z × (Fin N → X) =>
          trajAvg f W lam n (t + 1) (F z.1) (Function.update q (t + 1) (k, z.2)) :=
        hm.comp (measurable_fst.prodMk hu)
      exact (measurable_sw hf hW t k measurable_const measurable_snd).mul h3
    have h2 : Measurable fun z : Z × (Fin N → X) => ∑ k : Fin N → Fin N,
        sw f W t (q t).2 k z.2 * trajAvg f W lam n (t + 1) (F z.1) (Function.update q (t + 1) (k, z.2)) :=
      Finset.measurable_sum _ fun k _ => h k
    have h3 : ∀ (k : Fin N → Fin N) (x' : Fin N → X), Measurable fun z : Z =>
        trajAvg f W lam n (t + 1) (F z) (Function.update q (t + 1) (k, x')) :=
      fun k x' => hm.comp (measurable_id.prodMk measurable_const)
    rw [lintegral_lintegral_swap h2.aemeasurable]
    refine lintegral_congr fun x' => ?_
    rw [lintegral_finsetSum _ fun k _ => (h3 k x').const_mul _]
    refine Finset.sum_congr rfl fun k _ => ?_
    rw [lintegral_const_mul _ (h3 k x')]

include hf hW in
theorem trajAvg_sum [SigmaFinite lam] {ι : Type} [Fintype ι] {F : ι → Traj N X → ℝ≥0∞} (hF : ∀ j, Measurable (F j))
    (n t : ℕ) (q : Traj N X) :
    trajAvg f W lam n t (fun q => ∑ j, F j q) q = ∑ j, trajAvg f W lam n t (F j) q := by
  let _ : MeasurableSpace ι := ⊤
  have _ : MeasurableSingletonClass ι := ⟨fun _ => trivial⟩
  have h := trajAvg_lintegral lam hf hW (Z := ι) Measure.count (F := F)
    (measurable_from_prod_countable_right fun j => hF j) n t q
  simp only [lintegral_count, tsum_fintype] at h
  exact h

/-! ## One step -/

omit [MeasurableSpace X] in
/-- The weight of all ancestors in which particle `i` has ancestor `j`. -/
theorem sum_with_ancestor (u : Fin N → Fin N → ℝ≥0∞) (hu : ∀ i, ∑ k, u i k ≠ 0) (hu' : ∀ i, ∑ k, u i k ≠ ∞) (i j : Fin N) :
    ∑ κ : Fin N → Fin N, (if κ i = j then ∏ i', u i' (κ i') else 0)
      = (∑ κ : Fin N → Fin N, ∏ i', u i' (κ i')) * (u i j / ∑ k, u i k) := by
  classical
  have h1 : ∀ κ : Fin N → Fin N, (if κ i = j then ∏ i', u i' (κ i') else 0)
      = ∏ i', (Function.update u i fun k => if k = j then u i k else 0) i' (κ i') := by
    intro κ
    rw [← Finset.mul_prod_erase Finset.univ _ (Finset.mem_univ i), ← Finset.mul_prod_erase Finset.univ _ (Finset.mem_univ i)]
    rw [Finset.prod_congr (s₁ := Finset.univ.erase i)
      (f := fun i' => (Function.update u i fun k => if k = j then u i k else 0) i' (κ i')) (g := fun i' => u i' (κ i')) rfl
      fun i' hi' => by rw [Function.update_of_ne (Finset.ne_of_mem_erase hi')]]
    simp only [Function.update_self]
    split <;> simp
  have h2 : ∀ v : Fin N → Fin N → ℝ≥0∞, ∑ κ : Fin N → Fin N, ∏ i', v i' (κ i') = ∏ i', ∑ k, v i' k := by
    intro v
    rw [Finset.prod_univ_sum, Fintype.piFinset_univ]
  simp only [h1]
  rw [h2, h2, ← Finset.mul_prod_erase Finset.univ _ (Finset.mem_univ i),
    ← Finset.mul_prod_erase Finset.univ (fun i' => ∑ k, u i' k) (Finset.mem_univ i)]
  rw [Finset.prod_congr (s₁ := Finset.univ.erase i)
    (f := fun i' => ∑ k, (Function.update u i fun k => if k = j then u i k else 0) i' k) (g := fun i' => ∑ k, u i' k) rfl
    fun i' hi' => by rw [Function.update_of_ne (Finset.ne_of_mem_erase hi')]]
  simp only [Function.update_self, Finset.sum_ite_eq', Finset.mem_univ, if_true]
  rw [mul_right_comm, ENNReal.mul_div_cancel (hu i) (hu' i)]

/-- The weight of the ancestor `j` of particle `i` at time `T + 1`, given the new positions, times `Ψ`. -/
noncomputable def withAncestor (f : ℕ → X → X → ℝ≥0∞) (W : ℕ → (Fin N → X) → Fin N → ℝ≥0∞) (T : ℕ)
    (Ψ : (ℕ → Fin N → X) → ℝ≥0∞) (i j : Fin N) (x' : Fin N → X) (v : ℕ → Fin N → X) : ℝ≥0∞ :=
  (∑ κ : Fin N → Fin N, if κ i = j then sw f W T (v T) κ x' else 0) * Ψ (Function.update v (T + 1) x')

include hf hW in
theorem measurable_withAncestor (T : ℕ) {Ψ : (ℕ → Fin N → X) → ℝ≥0∞} (hΨ : Measurable Ψ) (i j : Fin N) {Z : Type}
    [MeasurableSpace Z] {x' : Z → Fin N → X} {v : Z → ℕ → Fin N → X} (hx : Measurable x') (hv : Measurable v) :
    Measurable fun z => withAncestor f W T Ψ i j (x' z) (v z) := by
  have h1 : Measurable fun z => ∑ κ : Fin N → Fin N, if κ i = j then sw f W T (v z T) κ (x' z) else 0 := by
    refine Finset.measurable_sum _ fun κ _ => ?_
    split
    · exact measurable_sw hf hW T κ ((measurable_pi_apply T).comp hv) hx
    · exact measurable_const
  have h2 : Measurable fun z => Ψ (Function.update (v z) (T + 1) (x' z)) := hΨ.comp (measurable_updateAt (T + 1) hv hx)
  exact h1.mul h2

theorem measurable_pos : Measurable (pos : Traj N X → ℕ → Fin N → X) := by
  unfold pos
  rw [measurable_pi_iff]
  exact fun n => measurable_snd.comp (measurable_pi_apply n)

/-- One step, for ancestral paths. -/
theorem step_gen (T : ℕ) (Ψ : (ℕ → Fin N → X) → ℝ≥0∞) (Φ : (ℕ → X) → ℝ≥0∞) (i : Fin N) (p : ℕ → X) (q : Traj N X) :
    trajAvg f W lam 1 T (fun q => Ψ (pos q) * Φ (gen (T + 1) q i p)) q
      = ∫⁻ x', ∑ j, withAncestor f W T Ψ i j x' (pos q) * Φ (gen T q j (Function.update p (T + 1) (x' i)))
          ∂(Measure.pi fun _ => lam) := by
  simp only [trajAvg]
  refine lintegral_congr fun x' => ?_
  simp only [pos_update, gen, Function.update_self, gen_update (T + 1) _ T (by omega), withAncestor, Finset.sum_mul]
  rw [Finset.sum_comm]
  refine Finset.sum_congr rfl fun κ _ => ?_
  rw [Finset.sum_eq_single (κ i)]
  · rw [if_pos rfl, mul_assoc]; rfl
  · intro j _ hj
    rw [if_neg (Ne.symm hj), zero_mul, zero_mul]
  · intro h
    exact absurd (Finset.mem_univ _) h

/-- One step, for backward paths. -/
theorem step_back (hU : ∀ t x y, ∑ k, W t x k * f t (x k) y ≠ 0) (hU' : ∀ t x y, ∑ k, W t x k * f t (x k) y ≠ ∞)
    (T : ℕ) (Ψ : (ℕ → Fin N → X) → ℝ≥0∞) (Φ : (ℕ → X) → ℝ≥0∞) (i : Fin N) (p : ℕ → X) (q : Traj N X) :
    trajAvg f W lam 1 T (fun q => Ψ (pos q) * back f W Φ (T + 1) q i p) q
      = ∫⁻ x', ∑ j, withAncestor f W T Ψ i j x' (pos q) * back f W Φ T q j (Function.update p (T + 1) (x' i))
          ∂(Measure.pi fun _ => lam) := by
  simp only [trajAvg]
  refine lintegral_congr fun x' => ?_
  have hne : T ≠ T + 1 := by omega
  simp only [pos_update, back, Function.update_self, Function.update_of_ne hne, back_update _ (T + 1) _ T (by omega),
    withAncestor]
  rw [← Finset.sum_mul, Finset.mul_sum, Finset.mul_sum]
  refine Finset.sum_congr rfl fun j _ => ?_
  have := sum_with_ancestor (fun i' k => W T (q T).2 k * f T ((q T).2 k) (x' i')) (fun i' => hU T _ _)
    (fun i' => hU' T _ _) i j
  have h3 : (∑ κ : Fin N → Fin N, if κ i = j then sw f W T (pos q T) κ x' else 0)
      = (∑ κ, sw f W T (q T).2 κ x') * bw f W T (q T).2 (x' i) j := this
  rw [h3]
  ring

include hf hW in
/-- Given all positions, the average over ancestral paths is the one over backward paths. -/
theorem trajAvg_gen [SigmaFinite lam] (hU : ∀ t x y, ∑ k, W t x k * f t (x k) y ≠ 0)
    (hU' : ∀ t x y, ∑ k, W t x k * f t (x k) y ≠ ∞) {Φ : (ℕ → X) → ℝ≥0∞} (hΦ : Measurable Φ) :
    ∀ (T : ℕ) (Ψ : (ℕ → Fin N → X) → ℝ≥0∞), Measurable Ψ → ∀ (i : Fin N) (p : ℕ → X) (q₀ : Traj N X),
      trajAvg f W lam T 0 (fun q => Ψ (pos q) * Φ (gen T q i p)) q₀
        = trajAvg f W lam T 0 (fun q => Ψ (pos q) * back f W Φ T q i p) q₀ := by
  intro T
  induction T with
  | zero => intro Ψ hΨ i p q₀; rfl
  | succ T ih =>
    intro Ψ hΨ i p q₀
    have hΨ' : ∀ j, Measurable fun z : (Fin N → X) × Traj N X => withAncestor f W T Ψ i j z.1 (pos z.2) :=
      fun j => measurable_withAncestor hf hW T hΨ i j measurable_fst (measurable_pos.comp measurable_snd)
    have hp' : Measurable fun z : (Fin N → X) × Traj N X => Function.update p (T + 1) (z.1 i) :=
      measurable_updateAt (T + 1) measurable_const ((measurable_pi_apply i).comp measurable_fst)
    have hgen : ∀ j, Measurable fun z : (Fin N → X) × Traj N X => Φ (gen T z.2 j (Function.update p (T + 1) (z.1 i))) :=
      fun j => hΦ.comp (measurable_gen T j measurable_snd hp')
    have hback : ∀ j, Measurable fun z : (Fin N → X) × Traj N X =>
        back f W Φ T z.2 j (Function.update p (T + 1) (z.1 i)) := fun j => measurable_back hf hW hΦ T j measurable_snd hp'
    have hG : ∀ j, Measurable fun z : (Fin N → X) × Traj N X =>
        withAncestor f W T Ψ i j z.1 (pos z.2) * Φ (gen T z.2 j (Function.update p (T + 1) (z.1 i))) :=
      fun j => (hΨ' j).mul (hgen j)
    have hB : ∀ j, Measurable fun z : (Fin N → X) × Traj N X =>
        withAncestor f W T Ψ i j z.1 (pos z.2) * back f W Φ T z.2 j (Function.update p (T + 1) (z.1 i)) :=
      fun j => (hΨ' j).mul (hback j)
    have hGs : Measurable fun z : (Fin N → X) × Traj N X => ∑ j,
        withAncestor f W T Ψ i j z.1 (pos z.2) * Φ (gen T z.2 j (Function.update p (T + 1) (z.1 i))) :=
      Finset.measurable_sum Finset.univ fun j _ => hG j
    have hBs : Measurable fun z : (Fin N → X) × Traj N X => ∑ j,
        withAncestor f W T Ψ i j z.1 (pos z.2) * back f W Φ T z.2 j (Function.update p (T + 1) (z.1 i)) :=
      Finset.measurable_sum Finset.univ fun j _ => hB j
    rw [trajAvg_last, trajAvg_last]
    simp only [Nat.zero_add, step_gen lam T Ψ Φ i p, step_back lam hU hU' T Ψ Φ i p]
    rw [trajAvg_lintegral lam hf hW _ hGs, trajAvg_lintegral lam hf hW _ hBs]
    refine lintegral_congr fun x' => ?_
    have hA : ∀ j, Measurable fun q : Traj N X => withAncestor f W T Ψ i j x' (pos q) := fun j =>
      measurable_withAncestor hf hW T hΨ i j measurable_const measurable_pos
    have hg : ∀ j, Measurable fun q : Traj N X => Φ (gen T q j (Function.update p (T + 1) (x' i))) := fun j =>
      hΦ.comp (measurable_gen T j measurable_id measurable_const)
    have hb : ∀ j, Measurable fun q : Traj N X => back f W Φ T q j (Function.update p (T + 1) (x' i)) := fun j =>
      measurable_back hf hW hΦ T j measurable_id measurable_const
    have hGj : ∀ j, Measurable fun q : Traj N X =>
        withAncestor f W T Ψ i j x' (pos q) * Φ (gen T q j (Function.update p (T + 1) (x' i))) := fun j => (hA j).mul (hg j)
    have hBj : ∀ j, Measurable fun q : Traj N X =>
        withAncestor f W T Ψ i j x' (pos q) * back f W Φ T q j (Function.update p (T + 1) (x' i)) := fun j => (hA j).mul (hb j)
    rw [trajAvg_sum lam hf hW hGj, trajAvg_sum lam hf hW hBj]
    refine Finset.sum_congr rfl fun j _ => ?_
    exact ih (withAncestor f W T Ψ i j x')
      (measurable_withAncestor hf hW T hΨ i j measurable_const measurable_id) j _ q₀

end Verif.Trajectory
