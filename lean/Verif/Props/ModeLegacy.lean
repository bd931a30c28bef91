import Verif.Model.ModeLegacy
import Verif.Lemmas.XFloat
import Mathlib.Analysis.Calculus.Deriv.Pow
import Mathlib.Analysis.Calculus.Deriv.Add
import Mathlib.Analysis.Calculus.Deriv.Mul
import Mathlib.Data.Fin.VecNotation
import Mathlib.Tactic.FinCases
import Mathlib.Tactic.FieldSimp
import Mathlib.Tactic.Linarith

/-!
# C107, C108: the legacy mode finder
-/

namespace Verif.Props

open Verif.ModeLegacy XF

variable {N B d : ℕ}

/-- A finite number. -/
def Fin' (x : XF) : Prop := ∃ r, x = fin r

/-- An infinite number. -/
def Infinite' (x : XF) : Prop := x = pinf ∨ x = ninf

/-- What the finder may be given: finite initial means, positive finite scales, one component if the state is scalar, and a
log-density with curvatures that are infinite at most where the component is infinite or NaN itself. -/
structure Suitable (F : Finder N B d) (mean std : T N B d) : Prop where
  scalar : F.hiddenScalar = true → d = 1
  mean : ∀ i b e, Fin' (mean i b e)
  std : ∀ i b e, ∃ r, std i b e = fin r ∧ 0 < r
  curv : ∀ i b x e, Fin' (x e) → ¬ Infinite' (∑ k, F.hess i b x k e)

theorem xmax_ninf {a b : XF} (h : xmax a b = ninf) : a = ninf ∧ b = ninf := by
  cases a <;> cases b <;> simp_all [xmax]

theorem foldl_ninf (l : List XF) (a : XF) (h : l.foldl xmax a = ninf) : a = ninf ∧ ∀ x ∈ l, x = ninf := by
  induction l generalizing a with
  | nil => exact ⟨h, by simp⟩
  | cons y l ih =>
    obtain ⟨h1, h2⟩ := ih _ h
    obtain ⟨h3, h4⟩ := xmax_ninf h1
    refine ⟨h3, fun x hx => ?_⟩
    rcases List.mem_cons.1 hx with rfl | hx
    · exact h4
    · exact h2 x hx

/-- The minimum is not above any entry. -/
theorem vmin_ne_pinf {n : ℕ} (x : Fin n → XF) (i : Fin n) (hi : x i ≠ pinf) : vmin x ≠ pinf := by
  intro h
  unfold vmin at h
  have h1 : vmax (fun i => -x i) = ninf := by
    cases e : vmax fun i => -x i <;> rw [e] at h <;> simp_all [neg_def, neg]
  have h2 := (foldl_ninf _ _ h1).2 (-x i) (List.mem_ofFn.2 ⟨i, rfl⟩)
  apply hi
  cases e : x i <;> rw [e] at h2 <;> simp_all [neg_def, neg]

theorem v_ne_pinf (F : Finder N B d) (diag : T N B d) (i : Fin N) (b : Fin B) (e : Fin d) (h : diag i b e ≠ pinf) :
    F.v diag i b e ≠ pinf := by
  unfold Finder.v
  split_ifs
  · exact vmin_ne_pinf _ b h
  · exact vmin_ne_pinf _ e h
  · exact h

/-- If the curvature is not infinite, a finite scale is positive. -/
theorem scale_pos (h v : XF) (hh : ¬ Infinite' h) (hv : v ≠ pinf) (r : ℝ)
    (e : xsqrt (.fin 1 / (-h + xmax (.fin 2 * v) (.fin 0))) = fin r) : 0 < r := by
  have key : ∀ a : ℝ, xsqrt (.fin 1 / fin a) = fin r → 0 < r := by
    intro a ea
    rw [div_def, div] at ea
    by_cases h0 : a = 0
    · rw [if_pos h0, if_neg one_ne_zero, if_pos one_pos] at ea
      simp [xsqrt] at ea
    · rw [if_neg h0] at ea
      simp only [xsqrt] at ea
      split_ifs at ea with h3
      cases ea
      apply Real.sqrt_pos.2
      rcases h3.lt_or_eq with h4 | h4
      · exact h4
      · exfalso
        rw [eq_comm, one_div, inv_eq_zero] at h4
        exact h0 h4
  cases h with
  | nan => simp [neg_def, neg, add_def, add, div_def, div, xsqrt] at e
  | ninf => exact absurd (Or.inr rfl) hh
  | pinf => exact absurd (Or.inl rfl) hh
  | fin a =>
    cases v with
    | nan => simp [mul_def, mul, xmax, neg_def, neg, add_def, add, div_def, div, xsqrt] at e
    | ninf =>
      have : xmax (.fin 2 * ninf) (.fin 0) = fin 0 := by
        simp [mul_def, mul, xmax]
      rw [this] at e
      exact key _ e
    | pinf => exact absurd rfl hv
    | fin c => exact key _ e

theorem add_fin {a b : XF} (h : Fin' (a + b)) : Fin' a := by
  obtain ⟨r, h⟩ := h
  cases a <;> cases b <;> simp_all [add_def, add, Fin']

theorem isFinite_iff (x : XF) : x.IsFinite ↔ Fin' x := by
  cases x <;> simp [IsFinite, Fin']

/-- In the loop every finite scale of a finite mean is positive. -/
theorem turn_scale (F : Finder N B d) (mean std : T N B d) (hF : Suitable F mean std) (n : ℕ) (i : Fin N) (b : Fin B)
    (e : Fin d) (hm : Fin' ((F.turn^[n] (mean, std)).1 i b e)) (r : ℝ) (hr : (F.turn^[n] (mean, std)).2 i b e = fin r) :
    0 < r := by
  induction n generalizing r with
  | zero =>
    obtain ⟨r', h1, h2⟩ := hF.std i b e
    rw [show (F.turn^[0] (mean, std)).2 i b e = std i b e from rfl, h1] at hr
    cases hr
    exact h2
  | succ n ih =>
    rw [Function.iterate_succ_apply'] at hm hr
    set s := F.turn^[n] (mean, std) with hs
    have hm' : Fin' (s.1 i b e) := add_fin hm
    unfold Finder.turn at hr
    simp only at hr
    split_ifs at hr with hu
    · simp only [Finder.step, hu, if_true] at hr
      refine scale_pos _ _ (hF.curv i b (s.1 i b) e hm') (v_ne_pinf F _ i b e fun h => ?_) r hr
      exact hF.curv i b (s.1 i b) e hm' (Or.inl h)
    · exact ih hm' r hr

theorem fill_of (mean std : T N B d) (s : T N B d × T N B d) (i : Fin N) (b : Fin B) (e : Fin d) :
    (Fin' (s.1 i b e) ∧ Fin' (s.2 i b e) ∧ (Finder.fill mean std s).1 i b e = s.1 i b e ∧
      (Finder.fill mean std s).2 i b e = s.2 i b e) ∨
    (¬ (Fin' (s.1 i b e) ∧ Fin' (s.2 i b e)) ∧ (Finder.fill mean std s).1 i b e = mean i b e ∧
      (Finder.fill mean std s).2 i b e = std i b e) := by
  unfold Finder.fill
  simp only [← isFinite_iff]
  by_cases h : (s.1 i b e).IsFinite ∧ (s.2 i b e).IsFinite
  · exact Or.inl ⟨h.1, h.2, if_pos h, if_pos h⟩
  · exact Or.inr ⟨h, if_neg h, if_neg h⟩

theorem filled_valid (F : Finder N B d) (mean std : T N B d) (hF : Suitable F mean std) (i : Fin N) (b : Fin B) (e : Fin d) :
    Fin' ((Finder.fill mean std (F.turn^[F.numSteps] (mean, std))).1 i b e) ∧
    ∃ r, (Finder.fill mean std (F.turn^[F.numSteps] (mean, std))).2 i b e = fin r ∧ 0 < r := by
  rcases fill_of mean std (F.turn^[F.numSteps] (mean, std)) i b e with ⟨h1, ⟨r, h2⟩, h3, h4⟩ | ⟨-, h3, h4⟩
  · exact ⟨h3 ▸ h1, r, h4.trans h2, turn_scale F mean std hF _ i b e h1 r h2⟩
  · rw [h3, h4]
    exact ⟨hF.mean i b e, hF.std i b e⟩

theorem find_ok (F : Finder N B d) (mean std : T N B d) (hF : Suitable F mean std) :
    F.find mean std = .ok (Finder.fill mean std (F.turn^[F.numSteps] (mean, std))) := by
  unfold Finder.find
  simp only
  rw [if_pos]
  intro i b e
  obtain ⟨⟨a, h1⟩, r, h2, h3⟩ := filled_valid F mean std hF i b e
  rw [h1, h2]
  exact ⟨by simp, h3⟩

/-- **C107** (valid kernels). The finder never raises: all means are finite and all scales finite and positive, whatever the
gradients, the number of steps and the signs of the curvatures. -/
theorem C107_valid (F : Finder N B d) (mean std : T N B d) (hF : Suitable F mean std) :
    ∃ s, F.find mean std = .ok s ∧ ∀ i b e, Fin' (s.1 i b e) ∧ ∃ r, s.2 i b e = fin r ∧ 0 < r :=
  ⟨_, find_ok F mean std hF, fun i b e => filled_valid F mean std hF i b e⟩

/-- The finder for one particle of one filter. -/
def alone (F : Finder N B d) (i : Fin N) (b : Fin B) : Finder 1 1 d where
  obsVector := F.obsVector
  hiddenScalar := F.hiddenScalar
  useHessian := F.useHessian
  alpha := F.alpha
  numSteps := F.numSteps
  grad _ _ := F.grad i b
  hess _ _ := F.hess i b

/-- The claim: the kernel of each particle is the one that the finder returns for this particle alone. -/
def C107_claim : Prop :=
  ∀ (N B d : ℕ) (F : Finder N B d) (mean std : T N B d), Suitable F mean std → ∀ i b, ∃ s s',
    F.find mean std = .ok s ∧ (alone F i b).find (fun _ _ => mean i b) (fun _ _ => std i b) = .ok s' ∧
      s.1 i b = s'.1 0 0 ∧ s.2 i b = s'.2 0 0

theorem suitable_alone (F : Finder N B d) (mean std : T N B d) (hF : Suitable F mean std) (i : Fin N) (b : Fin B) :
    Suitable (alone F i b) (fun _ _ => mean i b) (fun _ _ => std i b) :=
  ⟨hF.scalar, fun _ _ => hF.mean i b, fun _ _ => hF.std i b, fun _ _ => hF.curv i b⟩

theorem vmin_one (x : Fin 1 → XF) : vmin x = x 0 := by
  unfold vmin vmax
  cases e : x 0 <;> simp [List.ofFn_succ, e, neg_def, neg, xmax]

/-- **C107** (one particle at a time). If the state is a vector, the observation a scalar, or second order information is not
used, the kernel of each particle is the one returned for this particle alone. Missing for the full claim: a scalar state with
a vector observation. -/
theorem C107_alone_partial (F : Finder N B d) (mean std : T N B d) (hF : Suitable F mean std)
    (hk : F.hiddenScalar = false ∨ F.obsVector = false ∨ F.useHessian = false) (i : Fin N) (b : Fin B) :
    ∃ s s', F.find mean std = .ok s ∧ (alone F i b).find (fun _ _ => mean i b) (fun _ _ => std i b) = .ok s' ∧
      s.1 i b = s'.1 0 0 ∧ s.2 i b = s'.2 0 0 := by
  refine ⟨_, _, find_ok F mean std hF, find_ok _ _ _ (suitable_alone F mean std hF i b), ?_⟩
  have hstep : ∀ (m : T N B d) (m' : T 1 1 d), m i b = m' 0 0 → F.step m i b = (alone F i b).step m' 0 0 := by
    intro m m' hm
    funext e
    unfold Finder.step
    show (if F.useHessian then _ else _) = (if F.useHessian then _ else _)
    split_ifs with hu
    · have hd : F.diagHess m i b = (alone F i b).diagHess m' 0 0 := by
        funext e
        show ∑ k, F.hess i b (m i b) k e = ∑ k, F.hess i b (m' 0 0) k e
        rw [hm]
      have hv : F.v (F.diagHess m) i b e = (alone F i b).v ((alone F i b).diagHess m') 0 0 e := by
        unfold Finder.v
        show (if F.obsVector then if F.hiddenScalar then _ else _ else _) =
          (if F.obsVector then if F.hiddenScalar then _ else _ else _)
        rw [hd]
        rcases hk with hk | hk | hk
        · simp [hk]
        · simp [hk]
        · simp [hk] at hu
      simp only
      rw [hv, hd]
    · rfl
  have hloop : ∀ n, (F.turn^[n] (mean, std)).1 i b =
        ((alone F i b).turn^[n] (fun _ _ => mean i b, fun _ _ => std i b)).1 0 0 ∧
      (F.turn^[n] (mean, std)).2 i b =
        ((alone F i b).turn^[n] (fun _ _ => mean i b, fun _ _ => std i b)).2 0 0 := by
    intro n
    induction n with
    | zero => exact ⟨rfl, rfl⟩
    | succ n ih =>
      rw [Function.iterate_succ_apply', Function.iterate_succ_apply']
      generalize F.turn^[n] (mean, std) = s at ih ⊢
      generalize (alone F i b).turn^[n] (fun _ _ => mean i b, fun _ _ => std i b) = s' at ih ⊢
      have hs := hstep s.1 s'.1 ih.1
      constructor
      · funext e
        show s.1 i b e + F.step s.1 i b e * F.grad i b (s.1 i b) e =
          s'.1 0 0 e + (alone F i b).step s'.1 0 0 e * F.grad i b (s'.1 0 0) e
        rw [hs, ih.1]
      · funext e
        show (if F.useHessian then fun (i : Fin N) (b : Fin B) e => xsqrt (F.step s.1 i b e) else s.2) i b e =
          (if F.useHessian then fun (j c : Fin 1) e => xsqrt ((alone F i b).step s'.1 j c e) else s'.2) 0 0 e
        split_ifs
        · simp only [hs]
        · rw [ih.2]
  obtain ⟨h1, h2⟩ := hloop F.numSteps
  have hfill : ∀ e, (Finder.fill mean std (F.turn^[F.numSteps] (mean, std))).1 i b e =
      (Finder.fill (fun _ _ => mean i b) (fun _ _ => std i b)
        ((alone F i b).turn^[F.numSteps] (fun _ _ => mean i b, fun _ _ => std i b))).1 0 0 e ∧
      (Finder.fill mean std (F.turn^[F.numSteps] (mean, std))).2 i b e =
      (Finder.fill (fun _ _ => mean i b) (fun _ _ => std i b)
        ((alone F i b).turn^[F.numSteps] (fun _ _ => mean i b, fun _ _ => std i b))).2 0 0 e := by
    intro e
    rcases fill_of mean std (F.turn^[F.numSteps] (mean, std)) i b e with ⟨a1, a2, a3, a4⟩ | ⟨a2, a3, a4⟩ <;>
    rcases fill_of (fun _ _ => mean i b) (fun _ _ => std i b)
      ((alone F i b).turn^[F.numSteps] (fun _ _ => mean i b, fun _ _ => std i b)) 0 0 e with
      ⟨b1, b2, b3, b4⟩ | ⟨b2, b3, b4⟩
    · rw [a3, a4, b3, b4, h1, h2]
      exact ⟨rfl, rfl⟩
    · rw [h1] at a1
      rw [h2] at a2
      exact absurd ⟨a1, a2⟩ b2
    · rw [h1, h2] at a2
      exact absurd ⟨b1, b2⟩ a2
    · rw [a3, a4, b3, b4]
      exact ⟨rfl, rfl⟩
  exact ⟨funext fun e => (hfill e).1, funext fun e => (hfill e).2⟩

/-- A step of the finder where the curvatures it looks at are finite: the number `v` is the curvature itself, or the smallest
of those in the last dimension. -/
theorem step_fin (F : Finder N B d) (hu : F.useHessian = true) (mean : T N B d) (i : Fin N) (b : Fin B) (e : Fin d) (h v : ℝ)
    (hh : F.diagHess mean i b e = fin h) (hv : F.v (F.diagHess mean) i b e = fin v) :
    F.step mean i b e = fin 1 / fin (-h + max (2 * v) 0) := by
  unfold Finder.step
  simp only [hu, if_true]
  rw [hh, hv]
  rfl

theorem xsqrt_neg (a : ℝ) (ha : a < 0) : xsqrt (fin 1 / fin a) = nan := by
  rw [div_def, div, if_neg ha.ne]
  simp only [xsqrt]
  rw [if_neg]
  rw [not_le]
  exact div_neg_of_pos_of_neg one_pos ha

theorem xsqrt_pos (a : ℝ) (ha : 0 < a) : xsqrt (fin 1 / fin a) = fin (Real.sqrt (1 / a)) := by
  rw [div_def, div, if_neg ha.ne']
  simp only [xsqrt]
  rw [if_pos (by positivity)]

/-- One step with a positive denominator: the centre moves by the gradient over the denominator. -/
theorem find_pos (F : Finder N B d) (mean std : T N B d) (hF : Suitable F mean std) (hu : F.useHessian = true)
    (h1 : F.numSteps = 1) (i : Fin N) (b : Fin B) (e : Fin d) (x g h v : ℝ) (hx : mean i b e = fin x)
    (hg : F.grad i b (mean i b) e = fin g) (hh : F.diagHess mean i b e = fin h)
    (hv : F.v (F.diagHess mean) i b e = fin v) (hpos : 0 < -h + max (2 * v) 0) :
    ∃ s, F.find mean std = .ok s ∧ s.1 i b e = fin (x + g / (-h + max (2 * v) 0)) ∧
      s.2 i b e = fin (Real.sqrt (1 / (-h + max (2 * v) 0))) := by
  refine ⟨_, find_ok F mean std hF, ?_⟩
  have hs := step_fin F hu mean i b e h v hh hv
  have e1 : (F.turn^[F.numSteps] (mean, std)).1 i b e = fin (x + g / (-h + max (2 * v) 0)) := by
    rw [h1]
    show mean i b e + F.step mean i b e * F.grad i b (mean i b) e = _
    rw [hs, hx, hg, div_def, div, if_neg hpos.ne']
    show fin _ = fin _
    congr 1
    ring
  have e2 : (F.turn^[F.numSteps] (mean, std)).2 i b e = fin (Real.sqrt (1 / (-h + max (2 * v) 0))) := by
    rw [h1]
    show (if F.useHessian then fun (i : Fin N) (b : Fin B) e => xsqrt (F.step mean i b e) else std) i b e = _
    rw [hu, if_pos rfl, hs, xsqrt_pos _ hpos]
  rcases fill_of mean std (F.turn^[F.numSteps] (mean, std)) i b e with ⟨-, -, a3, a4⟩ | ⟨a2, -⟩
  · exact ⟨a3.trans e1, a4.trans e2⟩
  · exact absurd ⟨⟨_, e1⟩, ⟨_, e2⟩⟩ a2

/-- One step with a negative denominator: the kernel is the initial one. -/
theorem find_neg (F : Finder N B d) (mean std : T N B d) (hF : Suitable F mean std) (hu : F.useHessian = true)
    (h1 : F.numSteps = 1) (i : Fin N) (b : Fin B) (e : Fin d) (h v : ℝ) (hh : F.diagHess mean i b e = fin h)
    (hv : F.v (F.diagHess mean) i b e = fin v) (hneg : -h + max (2 * v) 0 < 0) :
    ∃ s, F.find mean std = .ok s ∧ s.1 i b e = mean i b e ∧ s.2 i b e = std i b e := by
  refine ⟨_, find_ok F mean std hF, ?_⟩
  have hs := step_fin F hu mean i b e h v hh hv
  have e2 : (F.turn^[F.numSteps] (mean, std)).2 i b e = nan := by
    rw [h1]
    show (if F.useHessian then fun (i : Fin N) (b : Fin B) e => xsqrt (F.step mean i b e) else std) i b e = _
    rw [hu, if_pos rfl, hs, xsqrt_neg _ hneg]
  rcases fill_of mean std (F.turn^[F.numSteps] (mean, std)) i b e with ⟨-, a2, -⟩ | ⟨-, a3, a4⟩
  · rw [e2] at a2
    exact nomatch a2
  · exact ⟨a3, a4⟩

/-- **C107** (scalar state, one step). Alone, a particle of a scalar state with curvature `h ≠ 0` moves uphill by the gradient
over `|h|` and gets the variance `1 / |h|`. -/
theorem C107_newton (F : Finder 1 1 1) (mean std : T 1 1 1) (hF : Suitable F mean std) (hu : F.useHessian = true)
    (h1 : F.numSteps = 1) (x g h : ℝ) (hx : mean 0 0 0 = fin x) (hg : F.grad 0 0 (mean 0 0) 0 = fin g)
    (hh : F.hess 0 0 (mean 0 0) 0 0 = fin h) (h0 : h ≠ 0) :
    ∃ s, F.find mean std = .ok s ∧ s.1 0 0 0 = fin (x + g / |h|) ∧ s.2 0 0 0 = fin (Real.sqrt (1 / |h|)) := by
  have hd : F.diagHess mean 0 0 0 = fin h := by
    unfold Finder.diagHess
    rw [Fin.sum_univ_one, hh]
  have hv : F.v (F.diagHess mean) 0 0 0 = fin h := by
    unfold Finder.v
    split_ifs
    · rw [vmin_one, hd]
    · rw [vmin_one, hd]
    · exact hd
  have habs : -h + max (2 * h) 0 = |h| := by
    rcases lt_or_gt_of_ne h0 with hl | hl
    · rw [abs_of_neg hl, max_eq_right (by linarith)]
      ring
    · rw [abs_of_pos hl, max_eq_left (by linarith)]
      ring
  have := find_pos F mean std hF hu h1 0 0 0 x g h h hx hg hd hv (habs ▸ abs_pos.2 h0)
  rwa [habs] at this

/-- The smallest of finite numbers. -/
theorem vmin_fin {n : ℕ} (x : Fin n → XF) (a : Fin n → ℝ) (hx : ∀ i, x i = fin (a i)) (i : Fin n) :
    ∃ m, vmin x = fin m ∧ (∀ j, m ≤ a j) ∧ ∃ j, m = a j := by
  have h1 : ∀ i, -x i = fin (-a i) := fun i => by rw [hx]; rfl
  rcases vmax_cases (fun i => -x i) (fun i => Or.inr ⟨_, h1 i⟩) with ⟨m, hm, ⟨j, hj⟩, hall⟩ | ⟨-, hall⟩
  · refine ⟨-m, ?_, fun j => ?_, j, ?_⟩
    · unfold vmin
      rw [hm]
      rfl
    · have := hall j _ (h1 j)
      linarith
    · simp only [h1] at hj
      cases hj
      ring
  · have := hall i
    simp only [h1] at this
    exact nomatch this

/-- **C107** (coupling). A scalar state with a vector observation: if filter `b` has positive curvature and some filter of the
same row has not, then filter `b` keeps its initial kernel, whereas alone it would move. -/
theorem C107_coupled (F : Finder N B 1) (mean std : T N B 1) (hF : Suitable F mean std) (hu : F.useHessian = true)
    (h1 : F.numSteps = 1) (hs : F.hiddenScalar = true) (ho : F.obsVector = true) (i : Fin N) (h : Fin B → ℝ)
    (hh : ∀ b, F.hess i b (mean i b) 0 0 = fin (h b)) (b b' : Fin B) (hb : 0 < h b) (hb' : h b' ≤ 0) :
    ∃ s, F.find mean std = .ok s ∧ s.1 i b 0 = mean i b 0 ∧ s.2 i b 0 = std i b 0 := by
  have hd : ∀ b, F.diagHess mean i b 0 = fin (h b) := fun b => by
    unfold Finder.diagHess
    rw [Fin.sum_univ_one, hh]
  obtain ⟨m, hm, hle, -⟩ := vmin_fin (fun b => F.diagHess mean i b 0) h hd b
  have hv : F.v (F.diagHess mean) i b 0 = fin m := by
    unfold Finder.v
    rw [ho, hs, if_pos rfl, if_pos rfl, hm]
  refine find_neg F mean std hF hu h1 i b 0 (h b) m (hd b) hv ?_
  have := hle b'
  rw [max_eq_right (by linarith)]
  linarith

/-- Two parallel filters with curvatures 1 and -1 and gradient 1, started at 0 with scale 1. -/
def twoFilters : Finder 1 2 1 where
  obsVector := true
  hiddenScalar := true
  useHessian := true
  alpha := 0
  numSteps := 1
  grad _ _ _ _ := fin 1
  hess _ b _ _ _ := fin (![1, -1] b)

theorem twoFilters_suitable : Suitable twoFilters (fun _ _ _ => fin 0) (fun _ _ _ => fin 1) where
  scalar _ := rfl
  mean _ _ _ := ⟨0, rfl⟩
  std _ _ _ := ⟨1, rfl, one_pos⟩
  curv i b x e _ := by
    rw [Fin.sum_univ_one]
    rintro (h | h) <;> exact nomatch h

theorem C107_negation : ¬ C107_claim := by
  intro h
  obtain ⟨s, s', h1, h2, h3, -⟩ := h 1 2 1 twoFilters _ _ twoFilters_suitable 0 0
  obtain ⟨t, t1, t2, -⟩ := C107_coupled twoFilters _ _ twoFilters_suitable rfl rfl rfl rfl 0 ![1, -1] (fun _ => rfl) 0 1
    (by simp) (by simp)
  obtain ⟨t', t1', t2', -⟩ := C107_newton (alone twoFilters 0 0) _ _ (suitable_alone _ _ _ twoFilters_suitable 0 0) rfl rfl
    0 1 1 rfl rfl rfl one_ne_zero
  rw [h1] at t1
  cases t1
  rw [h2] at t1'
  cases t1'
  have := congrFun h3 0
  rw [t2, t2'] at this
  injection this with this
  norm_num at this

/-- With a scalar observation the same two filters each take their own step, up to 1. -/
example : ∃ s, ({ twoFilters with obsVector := false } : Finder 1 2 1).find (fun _ _ _ => fin 0) (fun _ _ _ => fin 1) = .ok s ∧
    s.1 0 0 0 = fin 1 ∧ s.1 0 1 0 = fin 1 := by
  have hF : Suitable ({ twoFilters with obsVector := false } : Finder 1 2 1) (fun _ _ _ => fin 0) (fun _ _ _ => fin 1) :=
    ⟨twoFilters_suitable.scalar, twoFilters_suitable.mean, twoFilters_suitable.std, twoFilters_suitable.curv⟩
  have key : ∀ b : Fin 2, ∃ s, ({ twoFilters with obsVector := false } : Finder 1 2 1).find (fun _ _ _ => fin 0)
      (fun _ _ _ => fin 1) = .ok s ∧ s.1 0 b 0 = fin 1 := by
    intro b
    obtain ⟨s, s', h1, h2, h3, -⟩ := C107_alone_partial _ _ _ hF (Or.inr (Or.inl rfl)) 0 b
    obtain ⟨t, t1, t2, -⟩ := C107_newton (alone { twoFilters with obsVector := false } 0 b) _ _
      (suitable_alone _ _ _ hF 0 b) rfl rfl 0 1 (![1, -1] b) rfl rfl rfl (by fin_cases b <;> simp)
    rw [h2] at t1
    cases t1
    refine ⟨s, h1, ?_⟩
    rw [h3, t2]
    fin_cases b <;> simp
  obtain ⟨s, h1, h2⟩ := key 0
  obtain ⟨s', h1', h2'⟩ := key 1
  rw [h1] at h1'
  cases h1'
  exact ⟨s, h1, h2, h2'⟩

/-- The finder is given the first and second partial derivatives of the log-densities `q i b` of the particles. -/
structure Derivatives (F : Finder N B d) (q : Fin N → Fin B → (Fin d → ℝ) → ℝ) : Prop where
  exist : ∀ i b, ∃ (g : (Fin d → ℝ) → Fin d → ℝ) (h : (Fin d → ℝ) → Fin d → Fin d → ℝ),
    (∀ x e, F.grad i b (fun k => fin (x k)) e = fin (g x e) ∧
      HasDerivAt (fun t => q i b (Function.update x e t)) (g x e) (x e)) ∧
    ∀ x k e, F.hess i b (fun k => fin (x k)) k e = fin (h x k e) ∧
      HasDerivAt (fun t => g (Function.update x e t) k) (h x k e) (x e)

theorem fin_sum' {n : ℕ} (f : Fin n → ℝ) : ∑ k, fin (f k) = fin (∑ k, f k) := by
  induction n with
  | zero => rfl
  | succ n ih =>
    rw [Fin.sum_univ_succ, Fin.sum_univ_succ, ih]
    rfl

/-- The derivative of a quadratic function. -/
theorem deriv_quadratic (f : ℝ → ℝ) (a b c x y : ℝ) (hf : ∀ t, f t = a * t ^ 2 + b * t + c) (hy : y = 2 * a * x + b) :
    HasDerivAt f y x := by
  have h : HasDerivAt (fun t => a * t ^ 2 + b * t + c) (a * (((2 : ℕ) : ℝ) * x ^ (2 - 1)) + b * 1) x :=
    (((hasDerivAt_pow 2 x).const_mul a).add ((hasDerivAt_id x).const_mul b)).add_const c
  rw [funext hf, hy]
  refine h.congr_deriv ?_
  norm_num
  ring

/-- The partial derivative of one squared distance. -/
theorem deriv_square (m v : ℝ) (x : ℝ) : HasDerivAt (fun t => (t - m) ^ 2 / (2 * v)) ((x - m) / v) x := by
  by_cases hv : v = 0
  · simpa [hv] using hasDerivAt_const x (0 : ℝ)
  · refine deriv_quadratic _ (1 / (2 * v)) (-m / v) (m ^ 2 / (2 * v)) _ _ (fun t => ?_) ?_ <;> field_simp <;> ring

/-- The derivatives of a normal log-density with independent components. -/
theorem gauss_derivatives (F : Finder N B d) (q : Fin N → Fin B → (Fin d → ℝ) → ℝ) (c : Fin N → Fin B → ℝ)
    (m v : Fin N → Fin B → Fin d → ℝ) (hq : ∀ i b x, q i b x = c i b - ∑ e, (x e - m i b e) ^ 2 / (2 * v i b e))
    (hF : Derivatives F q) (i : Fin N) (b : Fin B) (x : Fin d → ℝ) (e : Fin d) :
    F.grad i b (fun k => fin (x k)) e = fin (-((x e - m i b e) / v i b e)) ∧
      ∑ k, F.hess i b (fun k => fin (x k)) k e = fin (-(1 / v i b e)) := by
  obtain ⟨g, h, hg, hh⟩ := hF.exist i b
  have g1 : ∀ x e, g x e = -((x e - m i b e) / v i b e) := by
    intro x e
    refine (hg x e).2.unique ?_
    simp only [hq]
    have key : ∀ k ∈ Finset.univ, HasDerivAt (fun t => (Function.update x e t k - m i b k) ^ 2 / (2 * v i b k))
        (if k = e then (x e - m i b e) / v i b e else 0) (x e) := by
      intro k _
      split_ifs with hk
      · subst hk
        simp only [Function.update_self]
        exact deriv_square _ _ _
      · simp only [Function.update_of_ne hk]
        exact hasDerivAt_const _ _
    have := (HasDerivAt.fun_sum key).const_sub (c i b)
    rwa [Finset.sum_ite_eq' Finset.univ e, if_pos (Finset.mem_univ e)] at this
  refine ⟨by rw [(hg x e).1, g1], ?_⟩
  have h1 : ∀ k, h x k e = if k = e then -(1 / v i b e) else 0 := by
    intro k
    refine (hh x k e).2.unique ?_
    simp only [g1]
    split_ifs with hk
    · subst hk
      simp only [Function.update_self]
      exact (((hasDerivAt_id (x k)).sub_const (m i b k)).div_const (v i b k)).neg
    · simp only [Function.update_of_ne hk]
      exact hasDerivAt_const _ _
  simp only [(hh x _ e).1]
  rw [fin_sum']
  simp only [h1]
  rw [Finset.sum_ite_eq' Finset.univ e, if_pos (Finset.mem_univ e)]

/-- One turn finds mode and scale of a normal target with independent components. -/
theorem gauss_turn (F : Finder N B d) (q : Fin N → Fin B → (Fin d → ℝ) → ℝ) (c : Fin N → Fin B → ℝ)
    (m v : Fin N → Fin B → Fin d → ℝ) (hv : ∀ i b e, 0 < v i b e)
    (hq : ∀ i b x, q i b x = c i b - ∑ e, (x e - m i b e) ^ 2 / (2 * v i b e)) (hF : Derivatives F q)
    (hu : F.useHessian = true) (s : T N B d × T N B d) (x : Fin N → Fin B → Fin d → ℝ)
    (hs : ∀ i b e, s.1 i b e = fin (x i b e)) (i : Fin N) (b : Fin B) (e : Fin d) :
    (F.turn s).1 i b e = fin (m i b e) ∧ (F.turn s).2 i b e = fin (Real.sqrt (v i b e)) := by
  have hs' : ∀ i b, s.1 i b = fun k => fin (x i b k) := fun i b => funext (hs i b)
  have hd : ∀ i b e, F.diagHess s.1 i b e = fin (-(1 / v i b e)) := by
    intro i b e
    unfold Finder.diagHess
    rw [hs']
    exact (gauss_derivatives F q c m v hq hF i b (x i b) e).2
  have hn : ∀ i b e, -(1 / v i b e) < 0 := fun i b e => neg_lt_zero.2 (one_div_pos.2 (hv i b e))
  obtain ⟨w, hw, hw0⟩ : ∃ w, F.v (F.diagHess s.1) i b e = fin w ∧ w ≤ 0 := by
    unfold Finder.v
    split_ifs
    · obtain ⟨w, h1, h2, -⟩ := vmin_fin (fun b' => F.diagHess s.1 i b' e) _ (fun b' => hd i b' e) b
      exact ⟨w, h1, (h2 b).trans (hn i b e).le⟩
    · obtain ⟨w, h1, h2, -⟩ := vmin_fin (fun e' => F.diagHess s.1 i b e') _ (fun e' => hd i b e') e
      exact ⟨w, h1, (h2 e).trans (hn i b e).le⟩
    · exact ⟨_, hd i b e, (hn i b e).le⟩
  have hstep : F.step s.1 i b e = fin 1 / fin (1 / v i b e) := by
    rw [step_fin F hu s.1 i b e _ w (hd i b e) hw, max_eq_right (by linarith), add_zero, neg_neg]
  have hp : 0 < 1 / v i b e := one_div_pos.2 (hv i b e)
  constructor
  · show s.1 i b e + F.step s.1 i b e * F.grad i b (s.1 i b) e = _
    rw [hstep, hs, hs', (gauss_derivatives F q c m v hq hF i b (x i b) e).1, div_def, div, if_neg hp.ne']
    show fin _ = fin _
    congr 1
    have := (hv i b e).ne'
    field_simp
    ring
  · show (if F.useHessian then fun (i : Fin N) (b : Fin B) e => xsqrt (F.step s.1 i b e) else s.2) i b e = _
    rw [hu, if_pos rfl, hstep, xsqrt_pos _ hp, one_div_one_div]

/-- **C108** The legacy finder with second order information finds the mode of every normal density, with however many steps. -/
def C108_claim : Prop :=
  ∀ (d : ℕ) (F : Finder 1 1 d) (mean std : T 1 1 d) (c : ℝ) (m : Fin d → ℝ) (P : Fin d → Fin d → ℝ),
    Suitable F mean std → F.useHessian = true → 0 < F.numSteps → (∀ k e, P k e = P e k) →
    (∀ x : Fin d → ℝ, x ≠ 0 → 0 < ∑ k, ∑ e, x k * P k e * x e) →
    Derivatives F (fun _ _ x => c - (∑ k, ∑ e, (x k - m k) * P k e * (x e - m e)) / 2) →
    ∃ s, F.find mean std = .ok s ∧ ∀ e, s.1 0 0 e = fin (m e)

/-- **C108** (independent components). For normal targets with independent components, a target of its own for every particle
of every filter, the kernels are the targets: mean `m` and variance `v`, from any finite start, with scalar or vector state and
observation and with any positive number of steps.

Missing: components that are correlated under the target (refuted by `C108_negation`). -/
theorem C108_independent_partial (F : Finder N B d) (mean std : T N B d) (hF : Suitable F mean std)
    (hu : F.useHessian = true) (hn : 0 < F.numSteps) (q : Fin N → Fin B → (Fin d → ℝ) → ℝ) (c : Fin N → Fin B → ℝ)
    (m v : Fin N → Fin B → Fin d → ℝ) (hv : ∀ i b e, 0 < v i b e)
    (hq : ∀ i b x, q i b x = c i b - ∑ e, (x e - m i b e) ^ 2 / (2 * v i b e)) (hD : Derivatives F q) :
    F.find mean std = .ok (fun i b e => fin (m i b e), fun i b e => fin (Real.sqrt (v i b e))) := by
  have hfin : ∀ n, ∃ x : Fin N → Fin B → Fin d → ℝ, ∀ i b e, (F.turn^[n] (mean, std)).1 i b e = fin (x i b e) := by
    intro n
    induction n with
    | zero =>
      choose x hx using hF.mean
      exact ⟨x, hx⟩
    | succ n ih =>
      obtain ⟨x, hx⟩ := ih
      refine ⟨m, fun i b e => ?_⟩
      rw [Function.iterate_succ_apply']
      exact (gauss_turn F q c m v hv hq hD hu _ x hx i b e).1
  obtain ⟨n, hn⟩ := Nat.exists_eq_succ_of_ne_zero hn.ne'
  obtain ⟨x, hx⟩ := hfin n
  have hend : ∀ i b e, (F.turn^[F.numSteps] (mean, std)).1 i b e = fin (m i b e) ∧
      (F.turn^[F.numSteps] (mean, std)).2 i b e = fin (Real.sqrt (v i b e)) := by
    intro i b e
    rw [hn, Function.iterate_succ_apply']
    exact gauss_turn F q c m v hv hq hD hu _ x hx i b e
  rw [find_ok F mean std hF]
  have hfill : ∀ i b e, (Finder.fill mean std (F.turn^[F.numSteps] (mean, std))).1 i b e = fin (m i b e) ∧
      (Finder.fill mean std (F.turn^[F.numSteps] (mean, std))).2 i b e = fin (Real.sqrt (v i b e)) := by
    intro i b e
    rcases fill_of mean std (F.turn^[F.numSteps] (mean, std)) i b e with ⟨-, -, a3, a4⟩ | ⟨a2, -⟩
    · exact ⟨a3.trans (hend i b e).1, a4.trans (hend i b e).2⟩
    · exact absurd ⟨⟨_, (hend i b e).1⟩, ⟨_, (hend i b e).2⟩⟩ a2
  congr 1
  exact Prod.ext (funext fun i => funext fun b => funext fun e => (hfill i b e).1)
    (funext fun i => funext fun b => funext fun e => (hfill i b e).2)

/-- The real number in a finite float, 0 otherwise. -/
def real : XF → ℝ
  | fin r => r
  | _ => 0

/-- The normal density with mode 0 and precision matrix `[[2, 1], [1, 2]]`, and a vector observation. -/
def correlated : Finder 1 1 2 where
  obsVector := true
  hiddenScalar := false
  useHessian := true
  alpha := 0
  numSteps := 1
  grad _ _ x e := fin (-(real (x 0) + real (x 1) + real (x e)))
  hess _ _ _ k e := fin (if k = e then -2 else -1)

theorem correlated_suitable : Suitable correlated (fun _ _ e => fin (![1, 0] e)) (fun _ _ _ => fin 1) where
  scalar h := nomatch h
  mean _ _ _ := ⟨_, rfl⟩
  std _ _ _ := ⟨1, rfl, one_pos⟩
  curv i b x e _ := by
    have : ∑ k, correlated.hess i b x k e = fin (∑ k, if k = e then -2 else -1) := fin_sum' _
    rw [this]
    rintro (h | h) <;> exact nomatch h

theorem correlated_derivatives : Derivatives correlated
    (fun _ _ x => 0 - (∑ k, ∑ e, (x k - 0) * (if k = e then 2 else 1) * (x e - 0)) / 2) := by
  refine ⟨fun i b => ⟨fun x e => -(x 0 + x 1 + x e), fun x k e => if k = e then -2 else -1, fun x e => ⟨rfl, ?_⟩,
    fun x k e => ⟨rfl, ?_⟩⟩⟩
  · fin_cases e
    · refine deriv_quadratic _ (-1) (-x 1) (-x 1 ^ 2) _ _ (fun t => ?_) ?_
      · simp [Fin.sum_univ_two, Function.update_apply]
        ring
      · show -(x 0 + x 1 + x 0) = 2 * -1 * x 0 + -x 1
        ring
    · refine deriv_quadratic _ (-1) (-x 0) (-x 0 ^ 2) _ _ (fun t => ?_) ?_
      · simp [Fin.sum_univ_two, Function.update_apply]
        ring
      · show -(x 0 + x 1 + x 1) = 2 * -1 * x 1 + -x 0
        ring
  · fin_cases e <;> fin_cases k
    · refine deriv_quadratic _ 0 (-2) (-x 1) _ _ (fun t => ?_) (by simp)
      simp [Function.update_apply]
      ring
    · refine deriv_quadratic _ 0 (-1) (-x 1 - x 1) _ _ (fun t => ?_) (by simp)
      simp [Function.update_apply]
      ring
    · refine deriv_quadratic _ 0 (-1) (-x 0 - x 0) _ _ (fun t => ?_) (by simp)
      simp [Function.update_apply]
      ring
    · refine deriv_quadratic _ 0 (-2) (-x 0) _ _ (fun t => ?_) (by simp)
      simp [Function.update_apply]
      ring

/-- **C108** (correlated components). From (1, 0) the step goes to (1/3, -1/3), not to the mode 0: the column sums of the Hessian
stand in for its diagonal, and neither for its inverse. -/
theorem C108_correlated : ∃ s, correlated.find (fun _ _ e => fin (![1, 0] e)) (fun _ _ _ => fin 1) = .ok s ∧
    s.1 0 0 0 = fin (1 / 3) ∧ s.1 0 0 1 = fin (-1 / 3) := by
  have hd : ∀ e, correlated.diagHess (fun _ _ e => fin (![1, 0] e)) 0 0 e = fin (-3) := by
    intro e
    have : correlated.diagHess (fun _ _ e => fin (![1, 0] e)) 0 0 e = fin (∑ k, if k = e then -2 else -1) := fin_sum' _
    rw [this, Fin.sum_univ_two]
    fin_cases e <;> norm_num
  have hv : ∀ e, correlated.v (correlated.diagHess fun _ _ e => fin (![1, 0] e)) 0 0 e = fin (-3) := by
    intro e
    obtain ⟨m, h1, -, j, h3⟩ := vmin_fin (fun e => correlated.diagHess (fun _ _ e => fin (![1, 0] e)) 0 0 e) _ hd e
    rw [h3] at h1
    exact h1
  obtain ⟨s, h1, h2, -⟩ := find_pos correlated _ _ correlated_suitable rfl rfl 0 0 0 1 (-2) _ _ rfl
    (by show fin _ = fin _; congr 1; norm_num [real]) (hd 0) (hv 0) (by norm_num)
  obtain ⟨s', h1', h2', -⟩ := find_pos correlated _ _ correlated_suitable rfl rfl 0 0 1 0 (-1) _ _ rfl
    (by show fin _ = fin _; congr 1; norm_num [real]) (hd 1) (hv 1) (by norm_num)
  rw [h1] at h1'
  cases h1'
  refine ⟨s, h1, ?_, ?_⟩
  · rw [h2]
    norm_num
  · rw [h2']
    norm_num

theorem C108_negation : ¬ C108_claim := by
  intro h
  obtain ⟨s, h1, h2⟩ := h 2 correlated _ _ 0 (fun _ => 0) (fun k e => if k = e then 2 else 1) correlated_suitable rfl
    one_pos (fun k e => by simp only [eq_comm]) (fun x hx => by
      have : x 0 ≠ 0 ∨ x 1 ≠ 0 := by
        by_contra hc
        push Not at hc
        exact hx (funext fun e => by fin_cases e <;> [exact hc.1; exact hc.2])
      simp only [Fin.sum_univ_two]
      norm_num
      rcases this with h | h
      · have := mul_self_pos.2 h
        nlinarith [mul_self_nonneg (x 0 + x 1), mul_self_nonneg (x 1)]
      · have := mul_self_pos.2 h
        nlinarith [mul_self_nonneg (x 0 + x 1), mul_self_nonneg (x 0)]) correlated_derivatives
  obtain ⟨t, t1, t2, -⟩ := C108_correlated
  rw [h1] at t1
  cases t1
  have := (h2 0).symm.trans t2
  injection this with this
  norm_num at this

/-- A scalar normal target with mode 3 and variance 4, looked for in two steps. -/
noncomputable def scalarTarget : Finder 1 1 1 where
  obsVector := true
  hiddenScalar := true
  useHessian := true
  alpha := 0
  numSteps := 2
  grad _ _ x e := fin (-((real (x e) - 3) / 4))
  hess _ _ _ _ _ := fin (-(1 / 4))

/-- It is found from 0. -/
example : scalarTarget.find (fun _ _ _ => fin 0) (fun _ _ _ => fin 1) = .ok (fun _ _ _ => fin 3, fun _ _ _ => fin (Real.sqrt 4)) := by
  refine C108_independent_partial _ _ _ ⟨fun _ => rfl, fun _ _ _ => ⟨_, rfl⟩, fun _ _ _ => ⟨1, rfl, one_pos⟩, ?_⟩ rfl
    two_pos (fun _ _ x => 0 - ∑ e, (x e - 3) ^ 2 / (2 * 4)) (fun _ _ => 0) (fun _ _ _ => 3) (fun _ _ _ => 4)
    (fun _ _ _ => four_pos) (fun _ _ _ => rfl) ⟨fun i b => ⟨fun x e => -((x e - 3) / 4), fun _ _ _ => -(1 / 4), ?_, ?_⟩⟩
  · intro i b x e _
    rw [Fin.sum_univ_one]
    rintro (h | h) <;> exact nomatch h
  · intro x e
    refine ⟨rfl, ?_⟩
    fin_cases e
    refine deriv_quadratic _ (-1 / 8) (3 / 4) (-9 / 8) _ _ (fun t => ?_) ?_
    · simp [Function.update_apply]
      ring
    · show -((x 0 - 3) / 4) = _
      simp
      ring
  · intro x k e
    refine ⟨rfl, ?_⟩
    fin_cases e
    fin_cases k
    refine deriv_quadratic _ 0 (-1 / 4) (3 / 4) _ _ (fun t => ?_) (by norm_num)
    simp [Function.update_apply]
    ring

end Verif.Props
