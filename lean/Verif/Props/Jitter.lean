import Verif.Model.Jitter
import Mathlib.Algebra.BigOperators.Field
import Mathlib.Tactic.Linarith
import Mathlib.Tactic.FieldSimp
import Mathlib.Tactic.Ring

/-!
# C69, C74, C75: jittering kernels and online updates
-/

namespace Verif.Props

open Verif.Jitter

variable {n d : ℕ} [NeZero n]

/-! ### Specification -/

/-- Weighted mean of a column. -/
noncomputable def meanOf (w y : Fin n → ℝ) : ℝ := ∑ i, w i * y i

/-- Weighted variance of a column. -/
noncomputable def varOf (w y : Fin n → ℝ) : ℝ := ∑ i, w i * (y i - meanOf w y) ^ 2

/-- Random index vectors with finitely many outcomes in which every row is chosen as often as its weight
says, in expectation. -/
def Unbiased {Ω : Type} [Fintype Ω] (P : Ω → ℝ) (ind : Ω → Fin n → Fin n) (w : Fin n → ℝ) : Prop :=
  ∀ k, ∑ ω, P ω * ((Finset.univ.filter fun i => ind ω i = k).card : ℝ) = n * w k

omit [NeZero n] in
/-- Expected sum over the chosen rows. -/
theorem Unbiased.sum {Ω : Type} [Fintype Ω] {P : Ω → ℝ} {ind : Ω → Fin n → Fin n} {w : Fin n → ℝ}
    (h : Unbiased P ind w) (g : Fin n → ℝ) :
    ∑ ω, P ω * ∑ i, g (ind ω i) = n * ∑ k, w k * g k := by
  have h1 : ∀ ω, ∑ i, g (ind ω i) = ∑ k, ((Finset.univ.filter fun i => ind ω i = k).card : ℝ) * g k := by
    intro ω
    rw [← Finset.sum_fiberwise Finset.univ (ind ω) fun i => g (ind ω i)]
    apply Finset.sum_congr rfl
    intro k _
    rw [Finset.sum_congr rfl (g := fun _ => g k)]
    · simp
    · intro i hi
      rw [(Finset.mem_filter.1 hi).2]
  simp only [h1, Finset.mul_sum]
  rw [Finset.sum_comm]
  apply Finset.sum_congr rfl
  intro k _
  have := h k
  simp only [← mul_assoc]
  rw [← Finset.sum_mul, this]

omit [NeZero n] in
theorem affine_mean (w y : Fin n → ℝ) (hw : ∑ i, w i = 1) (b : ℝ) :
    meanOf w (fun i => meanOf w y + b * (y i - meanOf w y)) = meanOf w y := by
  set m := meanOf w y with hm
  unfold meanOf
  have : ∑ i, w i * (m + b * (y i - m)) = (∑ i, w i) * m + b * (∑ i, w i * y i - (∑ i, w i) * m) := by
    rw [Finset.sum_mul, ← Finset.sum_sub_distrib, Finset.mul_sum, ← Finset.sum_add_distrib]
    apply Finset.sum_congr rfl
    intro i _; ring
  rw [this, hw, one_mul]
  have : ∑ i, w i * y i = m := rfl
  rw [this]; ring

omit [NeZero n] in
theorem affine_var (w y : Fin n → ℝ) (hw : ∑ i, w i = 1) (b : ℝ) :
    varOf w (fun i => meanOf w y + b * (y i - meanOf w y)) = b ^ 2 * varOf w y := by
  unfold varOf
  rw [affine_mean w y hw b, Finset.mul_sum]
  apply Finset.sum_congr rfl
  intro i _; ring

/-! ### C75 -/

/-- The robust variance is non-negative and not above the weighted variance around the mean that is used;
it is the smaller one of that and the squared scaled interquartile range. -/
theorem C75_robust (x : Fin n → Fin d → ℝ) (w : Fin n → ℝ) (hw : ∀ i, 0 ≤ w i) (j : Fin d) :
    (∀ m, 0 ≤ robustVar x w m j) ∧
      robustVar x w none j ≤ varOf w (fun i => x i j) ∧
      (∀ m : Fin d → ℝ, robustVar x w (some m) j ≤ ∑ i, w i * (x i j - m j) ^ 2) ∧
      robustVar x w none j = min (iqr2 x w j) (varOf w fun i => x i j) := by
  have hv : ∀ m : ℝ, 0 ≤ ∑ i, w i * (x i j - m) ^ 2 := fun m =>
    Finset.sum_nonneg fun i _ => mul_nonneg (hw i) (sq_nonneg _)
  have hi : 0 ≤ iqr2 x w j := sq_nonneg _
  refine ⟨?_, ?_, ?_, ?_⟩
  · intro m
    unfold robustVar
    dsimp only
    split_ifs
    · exact hi
    · exact hv _
  · unfold robustVar
    dsimp only
    split_ifs with h
    · exact h
    · exact le_refl _
  · intro m
    unfold robustVar
    dsimp only
    split_ifs with h
    · exact h
    · exact le_refl _
  · unfold robustVar
    dsimp only
    split_ifs with h
    · exact (min_eq_left h).symm
    · exact (min_eq_right (not_le.1 h).le).symm

/-- The claim about the standard deviation, as stated: every kernel jitters with a standard deviation
that is not below the minimum. -/
def C75_claim : Prop :=
  ∀ (n d : ℕ) (_ : NeZero n) (eps minStd : ℝ) (k : Kernel d) (x : Fin n → Fin d → ℝ) (w : Fin n → ℝ)
    (indices : Fin n → Fin n),
    ∃ std : Fin d → ℝ, (∀ j, minStd ≤ std j) ∧ ∀ noise : Fin n → Fin d → ℝ,
      k.jitter eps minStd x w indices noise =
        .ok fun i j => (k.fit eps x w indices).1 i j + std j * noise i j

/-- Proved part: all kernels with tensor scales. Missing: the constant kernel with a Python float. -/
theorem C75_min_std_partial (eps minStd : ℝ) (k : Kernel d) (x : Fin n → Fin d → ℝ) (w : Fin n → ℝ)
    (indices : Fin n → Fin n) (hk : ∀ s, k ≠ .constant (.float s)) :
    ∃ std : Fin d → ℝ, (∀ j, minStd ≤ std j) ∧
      (∀ s, (k.fit eps x w indices).2 = .tensor s → ∀ j, minStd ≤ s j → std j = s j) ∧
      ∀ noise : Fin n → Fin d → ℝ, k.jitter eps minStd x w indices noise =
        .ok fun i j => (k.fit eps x w indices).1 i j + std j * noise i j := by
  obtain ⟨s, hs⟩ : ∃ s, (k.fit eps x w indices).2 = .tensor s := by
    cases k with
    | shrinking => exact ⟨_, rfl⟩
    | nonShrinking => exact ⟨_, rfl⟩
    | liuWest a bw => exact ⟨_, rfl⟩
    | constant s =>
      cases s with
      | float s => exact absurd rfl (hk s)
      | tensor s => exact ⟨_, rfl⟩
  refine ⟨fun j => max (s j) minStd, fun j => le_max_right _ _, ?_, ?_⟩
  · intro s' hs' j hj
    rw [hs] at hs'
    cases hs'
    exact max_eq_left hj
  · intro noise
    unfold Kernel.jitter
    rw [if_neg (by simp), hs]
    rfl

/-- What fails: the constant kernel with a Python float, as its signature allows, always raises. -/
theorem C75_float (eps minStd s : ℝ) (x : Fin n → Fin d → ℝ) (w : Fin n → ℝ) (indices : Fin n → Fin n)
    (noise : Fin n → Fin d → ℝ) :
    (Kernel.constant (.float s)).jitter eps minStd x w indices noise = .error .attribute := by
  unfold Kernel.jitter
  rw [if_neg (by simp)]
  rfl

theorem C75_negation : ¬ C75_claim := by
  intro h
  obtain ⟨std, -, h2⟩ := h 1 1 inferInstance 0 0 (.constant (.float 1)) (fun _ _ => 0) (fun _ => 1) id
  have := h2 fun _ _ => 0
  rw [C75_float] at this
  cases this

example (x : Fin 3 → Fin 2 → ℝ) : 0 ≤ robustVar x (fun _ => 1 / 3) none 1 :=
  (C75_robust x (fun _ => 1 / 3) (fun _ => by norm_num) 1).1 none

example (x : Fin 3 → Fin 2 → ℝ) (ind : Fin 3 → Fin 3) :
    ∃ std : Fin 2 → ℝ, (∀ j, 1 / 1000 ≤ std j) ∧ ∀ noise, Kernel.shrinking.jitter (1 / 1000) (1 / 1000) x
      (fun _ => 1 / 3) ind noise =
        .ok fun i j => (Kernel.shrinking.fit (1 / 1000) x (fun _ => 1 / 3) ind).1 i j + std j * noise i j := by
  obtain ⟨std, h1, -, h3⟩ := C75_min_std_partial (1 / 1000) (1 / 1000) Kernel.shrinking x (fun _ => 1 / 3) ind
    (by simp)
  exact ⟨std, h1, h3⟩

/-! ### C74 -/

/-- The shrinkage factor of the two kernels. -/
noncomputable def factor (eps : ℝ) (w : Fin n → ℝ) : Kernel d → ℝ
  | .shrinking => Real.sqrt (1 - bwFac eps w ^ 2)
  | .liuWest a _ => a
  | _ => 1

/-- The two kernels, the second one as its constructor makes it. -/
def Shrinks (k : Kernel d) : Prop := k = .shrinking ∨ ∃ a, a ^ 2 ≤ 1 ∧ Kernel.mkLiuWest a = .ok k

omit [NeZero n] in
theorem bwFac_sq (eps : ℝ) (h0 : 0 < eps) (h1 : eps < 1 / 2) (w : Fin n → ℝ) :
    0 < bwFac eps w ∧ bwFac eps w < 1 := by
  unfold bwFac
  constructor
  · rw [lt_min_iff]
    exact ⟨lt_max_of_lt_right h0, by linarith⟩
  · exact min_lt_of_right_lt (by linarith)

/-- What the two kernels do to a row, with the scale they return. -/
theorem fit_shrinks (eps : ℝ) (h0 : 0 < eps) (h1 : eps < 1 / 2) (k : Kernel d) (hk : Shrinks k)
    (x : Fin n → Fin d → ℝ) (w : Fin n → ℝ) {m : ℕ} (indices : Fin m → Fin n) :
    (k.fit eps x w indices).1 = (fun i j => meanOf w (fun i => x i j) +
      factor eps w k * (x (indices i) j - meanOf w fun i => x i j)) ∧
    ∃ s, (k.fit eps x w indices).2 = .tensor s ∧
      ∀ j, 0 ≤ robustVar x w none j →
        s j ^ 2 = (1 - factor eps w k ^ 2) * robustVar x w none j := by
  have hrv : robustVar x w (some (wmean x w)) = robustVar x w none := rfl
  rcases hk with rfl | ⟨a, ha, hka⟩
  · refine ⟨rfl, _, rfl, ?_⟩
    intro j hj
    obtain ⟨hb0, hb1⟩ := bwFac_sq eps h0 h1 w
    have hf : factor eps w (Kernel.shrinking : Kernel d) ^ 2 = 1 - bwFac eps w ^ 2 := by
      unfold factor
      rw [Real.sq_sqrt]
      nlinarith
    rw [hf, hrv, mul_pow, Real.sq_sqrt hj]
    ring
  · unfold Kernel.mkLiuWest at hka
    rw [if_neg (by linarith)] at hka
    cases hka
    refine ⟨?_, _, rfl, ?_⟩
    · funext i j
      show x (indices i) j * a + (1 - a) * wmean x w j = _
      show _ = wmean x w j + a * (x (indices i) j - wmean x w j)
      ring
    · intro j hj
      rw [hrv, mul_pow, Real.sq_sqrt hj, Real.sq_sqrt (by linarith)]
      rfl

/-- The weighted mean is unchanged, and with an unbiased resampler so is the expected mean of the chosen
rows. -/
theorem C74_mean (eps : ℝ) (h0 : 0 < eps) (h1 : eps < 1 / 2) (k : Kernel d) (hk : Shrinks k)
    (x : Fin n → Fin d → ℝ) (w : Fin n → ℝ) (hw : ∑ i, w i = 1) (j : Fin d) :
    meanOf w (fun i => (k.fit eps x w id).1 i j) = meanOf w (fun i => x i j) ∧
      ∀ {Ω : Type} [Fintype Ω] (P : Ω → ℝ) (ind : Ω → Fin n → Fin n), Unbiased P ind w →
        ∑ ω, P ω * ((∑ i, (k.fit eps x w (ind ω)).1 i j) / n) = meanOf w fun i => x i j := by
  have hm : meanOf w (fun i => (k.fit eps x w id).1 i j) = meanOf w (fun i => x i j) := by
    rw [(fit_shrinks eps h0 h1 k hk x w id).1]
    exact affine_mean w (fun i => x i j) hw _
  refine ⟨hm, ?_⟩
  intro Ω _ P ind hu
  have hn : (n : ℝ) ≠ 0 := by exact_mod_cast NeZero.ne n
  have : ∀ ω, ∑ i, (k.fit eps x w (ind ω)).1 i j = ∑ i, (k.fit eps x w id).1 (ind ω i) j := by
    intro ω
    apply Finset.sum_congr rfl
    intro i _
    rw [(fit_shrinks eps h0 h1 k hk x w (ind ω)).1, (fit_shrinks eps h0 h1 k hk x w id).1]
    rfl
  simp only [this, mul_div_assoc']
  rw [← Finset.sum_div, hu.sum fun k' => (k.fit eps x w id).1 k' j, mul_div_cancel_left₀ _ hn]
  exact hm

/-- The part of the claim about variances, as stated: weighted variance of the shrunken parameters plus
noise variance is the variance that the kernel was fitted to. -/
def C74_claim : Prop :=
  ∀ (n d : ℕ) (_ : NeZero n) (eps : ℝ) (k : Kernel d) (x : Fin n → Fin d → ℝ) (w : Fin n → ℝ) (j : Fin d)
    (s : Fin d → ℝ), 0 < eps → eps < 1 / 2 → Shrinks k → (∀ i, 0 ≤ w i) → ∑ i, w i = 1 →
    (k.fit eps x w id).2 = .tensor s →
    varOf w (fun i => (k.fit eps x w id).1 i j) + s j ^ 2 = robustVar x w none j

/-- Proved part: the factors always add up (first statement), so that the claim holds when the robust
variance is the weighted variance; in general the total lies between the two. Missing: the claim when the
interquartile range was used. -/
theorem C74_variance_partial (eps : ℝ) (h0 : 0 < eps) (h1 : eps < 1 / 2) (k : Kernel d) (hk : Shrinks k)
    (x : Fin n → Fin d → ℝ) (w : Fin n → ℝ) (hw0 : ∀ i, 0 ≤ w i) (hw : ∑ i, w i = 1) (j : Fin d)
    (s : Fin d → ℝ) (hs : (k.fit eps x w id).2 = .tensor s) :
    let total := varOf w (fun i => (k.fit eps x w id).1 i j) + s j ^ 2
    factor eps w k ^ 2 * robustVar x w none j + s j ^ 2 = robustVar x w none j ∧
      (robustVar x w none j = varOf w (fun i => x i j) → total = robustVar x w none j) ∧
      robustVar x w none j ≤ total ∧ total ≤ varOf w (fun i => x i j) := by
  intro total
  obtain ⟨f1, s', f2, f3⟩ := fit_shrinks eps h0 h1 k hk x w id
  rw [hs] at f2
  cases f2
  have hr := C75_robust x w hw0 j
  have hsq := f3 j (hr.1 none)
  have hvar : varOf w (fun i => (k.fit eps x w id).1 i j) = factor eps w k ^ 2 * varOf w (fun i => x i j) := by
    rw [f1]; exact affine_var w (fun i => x i j) hw _
  have ht : total = factor eps w k ^ 2 * varOf w (fun i => x i j) +
      (1 - factor eps w k ^ 2) * robustVar x w none j := by
    show varOf w (fun i => (k.fit eps x w id).1 i j) + s j ^ 2 = _
    rw [hvar, hsq]
  have h2 := hr.2.1
  have hf0 := sq_nonneg (factor eps w k)
  have hf1 : factor eps w k ^ 2 ≤ 1 := by
    rcases hk with rfl | ⟨a, ha, hka⟩
    · obtain ⟨hb0, hb1⟩ := bwFac_sq eps h0 h1 w
      unfold factor
      rw [Real.sq_sqrt (by nlinarith)]
      nlinarith
    · unfold Kernel.mkLiuWest at hka
      rw [if_neg (by linarith)] at hka
      cases hka
      exact ha
  refine ⟨by rw [hsq]; ring, ?_, ?_, ?_⟩
  · intro he
    rw [ht, ← he]; ring
  · rw [ht]; nlinarith
  · rw [ht]; nlinarith

/-- Two parameters `0` and `1` with weights `9/10` and `1/10`: both quartiles fall on the first one, the
robust variance is zero. -/
theorem C74_robust_zero :
    robustVar (fun (i : Fin 2) (_ : Fin 1) => (i : ℝ)) ![0.9, 0.1] none 0 = 0 := by
  have hsort : Tuple.sort (fun i : Fin 2 => (i : ℝ)) = Equiv.refl _ := by
    rw [Tuple.sort_eq_refl_iff_monotone]
    intro a b hab
    have : (a : ℕ) ≤ b := hab
    show (a : ℝ) ≤ (b : ℝ)
    exact_mod_cast this
  have hc0 : cumWeights (fun (i : Fin 2) (_ : Fin 1) => (i : ℝ)) ![0.9, 0.1] 0 0 = 0.9 := by
    unfold cumWeights
    rw [hsort]
    have : Finset.Iic (0 : Fin 2) = {0} := by decide
    rw [this]; simp
  have hc1 : cumWeights (fun (i : Fin 2) (_ : Fin 1) => (i : ℝ)) ![0.9, 0.1] 0 1 = 1 := by
    unfold cumWeights
    rw [hsort]
    have : Finset.Iic (1 : Fin 2) = {0, 1} := by decide
    rw [this, Finset.sum_pair (by decide)]; norm_num
  have harg : ∀ q : ℝ, q ≤ 0.75 →
      argmin (fun i => |cumWeights (fun (i : Fin 2) (_ : Fin 1) => (i : ℝ)) ![0.9, 0.1] 0 i - q|) = 0 := by
    intro q hq
    have hmin := (Finite.exists_min fun i =>
      |cumWeights (fun (i : Fin 2) (_ : Fin 1) => (i : ℝ)) ![0.9, 0.1] 0 i - q|).choose_spec 0
    change |cumWeights (fun (i : Fin 2) (_ : Fin 1) => (i : ℝ)) ![0.9, 0.1] 0 (argmin fun i =>
      |cumWeights (fun (i : Fin 2) (_ : Fin 1) => (i : ℝ)) ![0.9, 0.1] 0 i - q|) - q| ≤ _ at hmin
    generalize argmin (fun i => |cumWeights (fun (i : Fin 2) (_ : Fin 1) => (i : ℝ)) ![0.9, 0.1] 0 i - q|) = a
      at hmin
    fin_cases a
    · rfl
    · exfalso
      simp only [Fin.mk_one] at hmin
      rw [hc0, hc1, abs_of_nonneg (by linarith), abs_of_nonneg (by linarith)] at hmin
      linarith
  have hiqr : iqr2 (fun (i : Fin 2) (_ : Fin 1) => (i : ℝ)) ![0.9, 0.1] 0 = 0 := by
    unfold iqr2
    dsimp only
    rw [harg 0.25 (by norm_num), harg 0.75 (by norm_num)]
    simp
  have := (C75_robust (fun (i : Fin 2) (_ : Fin 1) => (i : ℝ)) ![0.9, 0.1]
    (by intro i; fin_cases i <;> norm_num) 0)
  rw [this.2.2.2, hiqr]
  apply min_eq_left
  exact Finset.sum_nonneg fun i _ => mul_nonneg (by fin_cases i <;> norm_num) (sq_nonneg _)

theorem C74_negation : ¬ C74_claim := by
  intro h
  have hk : Shrinks (.liuWest (0.6) (Real.sqrt (1 - 0.6 ^ 2)) : Kernel 1) := by
    refine .inr ⟨0.6, by norm_num, ?_⟩
    unfold Kernel.mkLiuWest
    rw [if_neg (by norm_num)]
  have hw0 : ∀ i, (0 : ℝ) ≤ (![0.9, 0.1] : Fin 2 → ℝ) i := by intro i; fin_cases i <;> norm_num
  have hw1 : ∑ i, (![0.9, 0.1] : Fin 2 → ℝ) i = 1 := by rw [Fin.sum_univ_two]; norm_num
  obtain ⟨f1, s, f2, f3⟩ := fit_shrinks 0.1 (by norm_num) (by norm_num) _ hk
    (fun (i : Fin 2) (_ : Fin 1) => (i : ℝ)) ![0.9, 0.1] id
  have := h 2 1 inferInstance 0.1 _ (fun (i : Fin 2) (_ : Fin 1) => (i : ℝ)) ![0.9, 0.1] 0 s (by norm_num)
    (by norm_num) hk hw0 hw1 f2
  have hs := f3 0 (by rw [C74_robust_zero])
  rw [hs, C74_robust_zero, f1] at this
  have hv := affine_var ![0.9, 0.1] (fun i : Fin 2 => (i : ℝ)) hw1
    (factor 0.1 ![0.9, 0.1] (.liuWest (0.6) (Real.sqrt (1 - 0.6 ^ 2)) : Kernel 1))
  simp only [id] at this
  rw [hv] at this
  simp [factor, varOf, meanOf] at this
  norm_num at this

example (x : Fin 3 → Fin 2 → ℝ) :
    meanOf (fun _ => 1 / 3) (fun i => (Kernel.shrinking.fit 0.001 x (fun _ => 1 / 3) id).1 i 1) =
      meanOf (fun _ => 1 / 3) fun i => x i 1 :=
  (C74_mean 0.001 (by norm_num) (by norm_num) .shrinking (.inl rfl) x (fun _ => 1 / 3)
    (by rw [Fin.sum_univ_three]; norm_num) 1).1

/-- An unbiased choice: either keep all rows or exchange two of them. -/
example : Unbiased (fun _ : Bool => 1 / 2)
    (fun b i => if b then i else if i = 0 then (1 : Fin 2) else 0) (fun _ : Fin 2 => 1 / 2) := by
  intro k
  have h1 : (Finset.univ.filter fun i : Fin 2 => i = k).card = 1 := by fin_cases k <;> decide
  have h2 : (Finset.univ.filter fun i : Fin 2 => (if i = 0 then (1 : Fin 2) else 0) = k).card = 1 := by
    fin_cases k <;> decide
  simp [h1, h2]
  norm_num

/-! ### C69 -/

/-- After an online update the parameters of a slot come from the ancestor whose filter result the slot
has: a fixed function of the ancestor's parameters plus noise, or with discrete jittering exactly the
ancestor's parameters. The model is rebuilt from them and the log-weights are zero. `move` is the same for
all slots and all random outcomes, and the identity for the kernels that do not shrink. -/
theorem C69_same_ancestor {R : Type} (eps minStd : ℝ) (k : Kernel d) (hk : ∀ s, k ≠ .constant (.float s))
    (s : Online n d R) (normalized : Fin n → ℝ) :
    ∃ (move : (Fin d → ℝ) → Fin d → ℝ) (std : Fin d → ℝ),
      (∀ j, minStd ≤ std j) ∧
      (k = .nonShrinking ∨ (∃ c, k = .constant c) → move = id) ∧
      (Shrinks k → 0 < eps → eps < 1 / 2 → ∀ θ j, move θ j =
        meanOf normalized (fun i => s.params i j) +
          factor eps normalized k * (θ j - meanOf normalized fun i => s.params i j)) ∧
      ∀ (discrete : Bool) (indices : Fin n → Fin n) (noise : Fin n → Fin d → ℝ) (coins : Fin n → Bool),
        ∃ t, s.update eps minStd k discrete normalized indices noise coins = .ok t ∧
          (∀ i, t.res i = s.res (indices i)) ∧
          (∀ i, (discrete = false ∨ coins i = true) →
            t.params i = fun j => move (s.params (indices i)) j + std j * noise i j) ∧
          (∀ i, discrete = true → coins i = false → t.params i = s.params (indices i)) ∧
          t.built = t.params ∧ ∀ i, t.w i = 0 := by
  obtain ⟨std, h1, hst⟩ : ∃ std : Fin d → ℝ, (∀ j, minStd ≤ std j) ∧
      ∀ indices noise, k.jitter eps minStd s.params normalized indices noise =
        .ok fun i j => (k.fit eps s.params normalized indices).1 i j + std j * noise i j := by
    obtain ⟨std, a1, -, a3⟩ := C75_min_std_partial eps minStd k s.params normalized id hk
    refine ⟨std, a1, fun indices noise => ?_⟩
    have := a3 noise
    unfold Kernel.jitter at this ⊢
    rw [if_neg (by simp)] at this ⊢
    have hsc : (k.fit eps s.params normalized indices).2 = (k.fit eps s.params normalized id).2 := by
      cases k <;> rfl
    rw [hsc]
    cases hc : (k.fit eps s.params normalized id).2 with
    | float v =>
      rw [hc] at this
      cases this
    | tensor v =>
      show Except.ok _ = Except.ok _
      have hv : ∀ j, max (v j) minStd = std j := by
        intro j
        obtain ⟨std', b1, b2, b3⟩ := C75_min_std_partial eps minStd k s.params normalized id hk
        have e1 := a3 fun _ _ => 1
        unfold Kernel.jitter at e1
        rw [if_neg (by simp), hc] at e1
        have e2 := congrFun (congrFun (Except.ok.inj e1) 0) j
        simpa using e2
      congr 1
      funext i j
      show _ + max (v j) minStd * _ = _
      rw [hv]
  obtain ⟨move, hmove, hid, hshr⟩ : ∃ move : (Fin d → ℝ) → Fin d → ℝ,
      (∀ (indices : Fin n → Fin n) i, (k.fit eps s.params normalized indices).1 i =
        move (s.params (indices i))) ∧
      (k = .nonShrinking ∨ (∃ c, k = .constant c) → move = id) ∧
      (Shrinks k → 0 < eps → eps < 1 / 2 → ∀ θ j, move θ j =
        meanOf normalized (fun i => s.params i j) +
          factor eps normalized k * (θ j - meanOf normalized fun i => s.params i j)) := by
    cases k with
    | shrinking =>
      refine ⟨fun θ j => wmean s.params normalized j + Real.sqrt (1 - bwFac eps normalized ^ 2) *
        (θ j - wmean s.params normalized j), fun _ _ => rfl, ?_, fun _ _ _ _ _ => rfl⟩
      rintro (h | ⟨c, h⟩) <;> cases h
    | nonShrinking =>
      refine ⟨id, fun _ _ => rfl, fun _ => rfl, ?_⟩
      rintro (h | ⟨a, ha, h⟩)
      · cases h
      · unfold Kernel.mkLiuWest at h
        rw [if_neg (by linarith)] at h
        cases h
    | liuWest a bw =>
      refine ⟨fun θ j => θ j * a + (1 - a) * wmean s.params normalized j, fun _ _ => rfl, ?_, ?_⟩
      · rintro (h | ⟨c, h⟩) <;> cases h
      · intro _ _ _ θ j
        show _ = wmean s.params normalized j + a * (θ j - wmean s.params normalized j)
        ring
    | constant c =>
      refine ⟨id, fun _ _ => rfl, fun _ => rfl, ?_⟩
      rintro (h | ⟨a, ha, h⟩)
      · cases h
      · unfold Kernel.mkLiuWest at h
        rw [if_neg (by linarith)] at h
        cases h
  refine ⟨move, std, h1, hid, hshr, ?_⟩
  intro discrete indices noise coins
  unfold Online.update
  dsimp only
  rw [hst indices noise]
  refine ⟨_, rfl, fun i => rfl, ?_, ?_, rfl, fun i => rfl⟩
  · intro i hi
    cases discrete with
    | false =>
      funext j
      show (k.fit eps s.params normalized indices).1 i j + _ = _
      rw [hmove]
    | true =>
      have hc : coins i = true := by
        rcases hi with h | h
        · cases h
        · exact h
      funext j
      simp only [if_true, hc, sub_self, zero_mul, zero_add, one_mul]
      rw [hmove]
  · intro i hd hc
    subst hd
    funext j
    simp [hc]

/-- Slot 0 takes ancestor 1, slot 1 keeps itself; with coins only slot 1 is jittered. -/
example (s : Online 2 1 ℕ) (noise : Fin 2 → Fin 1 → ℝ) :
    ∃ t, s.update 0.001 0.001 .nonShrinking true (fun _ => 1 / 2) (fun _ => 1) noise (fun i => i = 1) = .ok t ∧
      t.res 0 = s.res 1 ∧ t.params 0 = s.params 1 := by
  obtain ⟨move, std, -, -, -, h⟩ := C69_same_ancestor 0.001 0.001 .nonShrinking (by simp) s fun _ => 1 / 2
  obtain ⟨t, h1, h2, -, h4, -⟩ := h true (fun _ => 1) noise fun i => i = 1
  exact ⟨t, h1, h2 0, h4 0 rfl (by decide)⟩

end Verif.Props
