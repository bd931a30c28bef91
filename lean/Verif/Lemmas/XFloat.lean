import Verif.Model.XFloat
import Mathlib.Tactic.Linarith
import Mathlib.Tactic.FieldSimp
import Mathlib.Tactic.Ring

namespace Verif.XF

@[simp] theorem fin_add (a b : ℝ) : fin a + fin b = fin (a + b) := rfl
@[simp] theorem nan_add (a : XF) : nan + a = nan := by cases a <;> rfl
@[simp] theorem add_nan (a : XF) : a + nan = nan := by cases a <;> rfl
@[simp] theorem ninf_add_fin (b : ℝ) : ninf + fin b = ninf := rfl
@[simp] theorem fin_add_ninf (b : ℝ) : fin b + ninf = ninf := rfl
@[simp] theorem ninf_add_ninf : ninf + ninf = ninf := rfl
@[simp] theorem pinf_add_fin (b : ℝ) : pinf + fin b = pinf := rfl
@[simp] theorem fin_add_pinf (b : ℝ) : fin b + pinf = pinf := rfl
@[simp] theorem ninf_add_pinf : ninf + pinf = nan := rfl
@[simp] theorem pinf_add_ninf : pinf + ninf = nan := rfl
@[simp] theorem pinf_add_pinf : pinf + pinf = pinf := rfl
@[simp] theorem neg_fin (a : ℝ) : -(fin a) = fin (-a) := rfl
@[simp] theorem neg_ninf : -ninf = pinf := rfl
@[simp] theorem neg_pinf : -pinf = ninf := rfl
@[simp] theorem neg_nan : -nan = nan := rfl
@[simp] theorem fin_sub (a b : ℝ) : fin a - fin b = fin (a - b) := by
  simp [sub_def, _root_.sub_eq_add_neg]
@[simp] theorem ninf_sub_fin (b : ℝ) : ninf - fin b = ninf := rfl
@[simp] theorem ninf_sub_ninf : ninf - ninf = nan := rfl
@[simp] theorem nan_sub (a : XF) : nan - a = nan := by rw [sub_def]; simp
@[simp] theorem fin_mul (a b : ℝ) : fin a * fin b = fin (a * b) := rfl
@[simp] theorem nan_mul (a : XF) : nan * a = nan := by cases a <;> rfl
@[simp] theorem mul_nan (a : XF) : a * nan = nan := by cases a <;> rfl
@[simp] theorem nan_div (a : XF) : nan / a = nan := by cases a <;> rfl
@[simp] theorem div_nan (a : XF) : a / nan = nan := by cases a <;> rfl
theorem fin_div {a b : ℝ} (h : b ≠ 0) : fin a / fin b = fin (a / b) := by
  show div _ _ = _
  simp [div, h]
@[simp] theorem exp_fin (a : ℝ) : exp (fin a) = fin (Real.exp a) := rfl
@[simp] theorem exp_ninf : exp ninf = fin 0 := rfl
@[simp] theorem exp_nan : exp nan = nan := rfl
theorem log_fin {a : ℝ} (h : 0 < a) : log (fin a) = fin (Real.log a) := by simp [log, h]
@[simp] theorem log_nan : log nan = nan := rfl
@[simp] theorem log_zero : log (fin 0) = ninf := by simp [log]

theorem sum_fin {ι : Type*} (s : Finset ι) (f : ι → ℝ) : ∑ i ∈ s, fin (f i) = fin (∑ i ∈ s, f i) := by
  classical
  induction s using Finset.induction_on with
  | empty => rfl
  | insert a s ha ih => rw [Finset.sum_insert ha, Finset.sum_insert ha, ih, fin_add]

theorem sum_nan {ι : Type*} (s : Finset ι) (f : ι → XF) {i : ι} (hi : i ∈ s) (h : f i = nan) :
    ∑ i ∈ s, f i = nan := by
  classical
  rw [← Finset.add_sum_erase s f hi, h, nan_add]

theorem foldl_xmax_fin (l : List XF) (hl : ∀ x ∈ l, x = ninf ∨ ∃ r, x = fin r) (m : ℝ) :
    ∃ m', l.foldl xmax (fin m) = fin m' ∧ m ≤ m' ∧ (∀ r, fin r ∈ l → r ≤ m') ∧
      (m' = m ∨ fin m' ∈ l) := by
  induction l generalizing m with
  | nil => exact ⟨m, rfl, le_rfl, by simp, Or.inl rfl⟩
  | cons a l ih =>
    have hl' : ∀ x ∈ l, x = ninf ∨ ∃ r, x = fin r := fun x hx => hl x (by simp [hx])
    rcases hl a (by simp) with h | ⟨r, h⟩
    · subst h
      obtain ⟨m', h1, h2, h3, h4⟩ := ih hl' m
      refine ⟨m', by simpa [xmax] using h1, h2, ?_, ?_⟩
      · intro r hr; simp at hr; exact h3 r hr
      · rcases h4 with h4 | h4
        · exact Or.inl h4
        · exact Or.inr (by simp [h4])
    · subst h
      obtain ⟨m', h1, h2, h3, h4⟩ := ih hl' (max m r)
      refine ⟨m', by simpa [xmax] using h1, le_trans (le_max_left _ _) h2, ?_, ?_⟩
      · intro r' hr'
        simp at hr'
        rcases hr' with hr' | hr'
        · rw [hr']; exact le_trans (le_max_right _ _) h2
        · exact h3 r' hr'
      · rcases h4 with h4 | h4
        · rcases le_total m r with hmr | hmr
          · right; rw [h4, max_eq_right hmr]; simp
          · left; rw [h4, max_eq_left hmr]
        · right; simp [h4]

theorem foldl_xmax_ninf (l : List XF) (hl : ∀ x ∈ l, x = ninf ∨ ∃ r, x = fin r) :
    (∃ m, l.foldl xmax ninf = fin m ∧ fin m ∈ l ∧ ∀ r, fin r ∈ l → r ≤ m) ∨
      (l.foldl xmax ninf = ninf ∧ ∀ x ∈ l, x = ninf) := by
  induction l with
  | nil => right; simp
  | cons a l ih =>
    have hl' : ∀ x ∈ l, x = ninf ∨ ∃ r, x = fin r := fun x hx => hl x (by simp [hx])
    rcases hl a (by simp) with h | ⟨r, h⟩
    · subst h
      rcases ih hl' with ⟨m, h1, h2, h3⟩ | ⟨h1, h2⟩
      · left
        refine ⟨m, by simpa [xmax] using h1, by simp [h2], ?_⟩
        intro r hr; simp at hr; exact h3 r hr
      · right
        refine ⟨by simpa [xmax] using h1, ?_⟩
        intro x hx; simp at hx; rcases hx with hx | hx
        · exact hx
        · exact h2 x hx
    · subst h
      obtain ⟨m, h1, h2, h3, h4⟩ := foldl_xmax_fin l hl' r
      left
      refine ⟨m, by simpa [xmax] using h1, ?_, ?_⟩
      · rcases h4 with h4 | h4
        · simp [h4]
        · simp [h4]
      · intro r' hr'
        simp at hr'
        rcases hr' with hr' | hr'
        · rw [hr']; exact h2
        · exact h3 r' hr'

/-- Value of the maximum of a vector without NaN and `+inf`. -/
theorem vmax_cases {n : ℕ} (x : Fin n → XF) (hx : ∀ i, x i = ninf ∨ ∃ r, x i = fin r) :
    (∃ m, vmax x = fin m ∧ (∃ i, x i = fin m) ∧ ∀ i r, x i = fin r → r ≤ m) ∨
      (vmax x = ninf ∧ ∀ i, x i = ninf) := by
  have hl : ∀ y ∈ List.ofFn x, y = ninf ∨ ∃ r, y = fin r := by
    intro y hy
    obtain ⟨i, rfl⟩ := (List.mem_ofFn' x y).1 hy
    exact hx i
  rcases foldl_xmax_ninf _ hl with ⟨m, h1, h2, h3⟩ | ⟨h1, h2⟩
  · left
    refine ⟨m, h1, ?_, ?_⟩
    · obtain ⟨i, hi⟩ := (List.mem_ofFn' x _).1 h2; exact ⟨i, hi⟩
    · intro i r hi
      exact h3 r ((List.mem_ofFn' x _).2 ⟨i, hi⟩)
  · right
    exact ⟨h1, fun i => h2 _ ((List.mem_ofFn' x _).2 ⟨i, rfl⟩)⟩

end Verif.XF
