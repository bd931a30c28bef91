import Verif.Model.PmmhRun
import Verif.Lemmas.PmmhChain
import Verif.Spec.Pmmh

/-!
# One slot of `PMMH.fit` follows the chain of `Verif.Lemmas.PmmhChain`
-/

namespace Verif.Mcmc

open Verif.Spec Verif.Ergodic XF

variable {P d : ℕ} {Y Ω Name V : Type}

/-- Slot `i` is at parameters `x.1` with log-likelihood estimate `x.2`. -/
structure At (env : Env d Y Ω) (scale : Row d) (n : ℕ) (i : Fin P) (c : Chain P d Y Ω (Gauss P d))
    (x : Row d × ℝ) : Prop where
  params : c.params i = x.1
  loglik : env.loglik (c.res i) = fin x.2
  loc : c.kernel.loc i = x.1
  scale : c.kernel.scale i = scale
  particles : c.particles = n
  mass : expMass (env.logPrior x.1) ≠ 0

/-- Acceptance in numbers. -/
theorem lt_iff {a a' q q' l l' u : ℝ} :
    lt (XF.log (fin u)) ((fin q' - fin q) + (fin a' - fin a) + (fin l' - fin l)) ↔
      0 ≤ u ∧ u * (Real.exp l * Real.exp a * Real.exp q) < Real.exp l' * Real.exp a' * Real.exp q' := by
  have e1 : (fin q' - fin q : XF) + (fin a' - fin a) + (fin l' - fin l)
      = fin ((q' + -q) + (a' + -a) + (l' + -l)) := rfl
  rw [e1]
  have e2 : XF.log (fin u) = if 0 < u then fin (Real.log u) else if u = 0 then ninf else nan := rfl
  rw [e2]
  split_ifs with h0 h1
  · show Real.log u < _ ↔ _
    rw [Real.log_lt_iff_lt_exp h0, ← Real.exp_add, ← Real.exp_add, ← Real.exp_add, ← Real.exp_add,
      ← lt_div_iff₀ (Real.exp_pos _), ← Real.exp_sub]
    have : q' + -q + (a' + -a) + (l' + -l) = l' + a' + q' - (l + a + q) := by ring
    rw [this]
    exact ⟨fun h => ⟨h0.le, h⟩, fun h => h.2⟩
  · subst h1
    refine ⟨fun _ => ⟨le_refl _, ?_⟩, fun _ => trivial⟩
    rw [zero_mul]
    positivity
  · refine ⟨False.elim, fun h => h1 ?_⟩
    exact le_antisymm (not_lt.1 h0) h.1

theorem accepted_iff {env : Env d Y Ω} {scale : Row d} {n : ℕ} {i : Fin P} {c : Chain P d Y Ω (Gauss P d)}
    {x : Row d × ℝ} (hx : At env scale n i c x) {ys : List Y} {R : Row d × (ℕ → Ω) → ℝ}
    (hR : ∀ u noise, env.loglik (batchFilter n ⟨u, u⟩ ys noise) = fin (R (u, noise)))
    (hpr : ∀ θ, env.logPrior θ ≠ .nan ∧ env.logPrior θ ≠ .pinf) (rep : Fin P → XF) (r : Draws P d Ω) :
    let y : Row d × ℝ := (r.rvs i, R (r.rvs i, r.noise i))
    let p := fun θ => expMass (env.logPrior θ)
    accepted env (randomWalk scale) c ys r rep i = true ↔
      slotT p x ≠ 0 ∧ 0 ≤ r.u i ∧
        r.u i * (slotT p x * walkQ scale x.1 y.1) < slotT p y * walkQ scale y.1 x.1 := by
  intro y p
  have hT : slotT p x ≠ 0 := mul_ne_zero (Real.exp_pos _).ne' hx.mass
  obtain ⟨a, ha⟩ : ∃ a, env.logPrior x.1 = fin a := by
    have h1 := hx.mass
    have h2 := hpr x.1
    cases h : env.logPrior x.1 with
    | nan => exact absurd h h2.1
    | pinf => exact absurd h h2.2
    | ninf => rw [h] at h1; exact absurd rfl h1
    | fin a => exact ⟨a, rfl⟩
  have hlog : logAcc env (randomWalk scale) c ys r rep i
      = (fin (∑ j, logNormal (y.1 j) (scale j) (x.1 j)) - fin (∑ j, logNormal (x.1 j) (scale j) (y.1 j)))
        + (env.logPrior y.1 - fin a) + (fin y.2 - fin x.2) := by
    unfold logAcc candidates
    simp only [randomWalk, Gauss.logProb, hx.particles, hR, hx.loglik, hx.params, hx.loc, hx.scale, ha, y]
  unfold accepted
  simp only [decide_eq_true_eq]
  rw [hlog, and_iff_right hT]
  have hpx : p x.1 = Real.exp a := by simp only [p, ha, expMass]
  have h2 := hpr y.1
  cases h : env.logPrior y.1 with
  | nan => exact absurd h h2.1
  | pinf => exact absurd h h2.2
  | ninf =>
    have hy : slotT p y = 0 := by simp only [slotT, p, h, expMass, mul_zero]
    rw [hy, zero_mul]
    have hpos : 0 < slotT p x * walkQ scale x.1 y.1 := by
      unfold slotT
      rw [hpx]
      exact mul_pos (mul_pos (Real.exp_pos _) (Real.exp_pos _)) (walkQ_pos _ _)
    refine ⟨fun hl => ?_, fun hl => absurd hl.2 (not_lt.2 (mul_nonneg hl.1 hpos.le))⟩
    exfalso
    have e1 : (fin (∑ j, logNormal (y.1 j) (scale j) (x.1 j)) - fin (∑ j, logNormal (x.1 j) (scale j) (y.1 j)) : XF)
        + (ninf - fin a) + (fin y.2 - fin x.2) = ninf := rfl
    rw [e1] at hl
    cases hu : XF.log (fin (r.u i)) <;> rw [hu] at hl <;> exact hl
  | fin a' =>
    have hpy : p y.1 = Real.exp a' := by simp only [p, h, expMass]
    rw [lt_iff]
    unfold slotT walkQ
    rw [hpx, hpy]

/-- One iteration moves the slot like `slotMove`. -/
theorem At.step {env : Env d Y Ω} {scale : Row d} {n : ℕ} {i : Fin P} {c : Chain P d Y Ω (Gauss P d)}
    {x : Row d × ℝ} (hx : At env scale n i c x) {ys : List Y} {R : Row d × (ℕ → Ω) → ℝ}
    (hR : ∀ u noise, env.loglik (batchFilter n ⟨u, u⟩ ys noise) = fin (R (u, noise)))
    (hpr : ∀ θ, env.logPrior θ ≠ .nan ∧ env.logPrior θ ≠ .pinf) (rep : Fin P → XF) (e : Source P d Ω) :
    At env scale n i (runPmmh env (randomWalk scale) true rep c ys (walkDraws c.kernel e)).1
      (slotMove (fun θ => expMass (env.logPrior θ)) R scale (x, e i)) := by
  have hrv : (walkDraws c.kernel e).rvs i = fun j => x.1 j + (e i).1 j * scale j := by
    funext j
    simp only [walkDraws, hx.loc, hx.scale]
  have hacc := accepted_iff hx hR hpr rep (walkDraws c.kernel e)
  simp only [hrv, show (walkDraws c.kernel e).u i = (e i).2.2 from rfl,
    show (walkDraws c.kernel e).noise i = (e i).2.1 from rfl] at hacc
  set r := walkDraws c.kernel e with hr
  set acc := accepted env (randomWalk scale) c ys r rep with hdef
  have e1 : (runPmmh env (randomWalk scale) true rep c ys r).1.params i
      = if acc i then r.rvs i else c.params i := rfl
  have e2 : (runPmmh env (randomWalk scale) true rep c ys r).1.res i
      = if acc i then batchFilter c.particles ⟨r.rvs i, r.rvs i⟩ ys (r.noise i) else c.res i := rfl
  have e3 : (runPmmh env (randomWalk scale) true rep c ys r).1.kernel.loc i
      = if acc i then r.rvs i else c.kernel.loc i := rfl
  have e4 : (runPmmh env (randomWalk scale) true rep c ys r).1.kernel.scale i
      = if acc i then scale else c.kernel.scale i := rfl
  unfold slotMove
  dsimp only
  by_cases h : acc i = true
  · have h' := hacc.1 h
    rw [if_pos h']
    rw [if_pos h] at e1 e2 e3 e4
    refine ⟨e1.trans hrv, ?_, e3.trans hrv, e4, hx.particles, ?_⟩
    · rw [e2, hx.particles, hR, hrv]
      rfl
    · intro h0
      have h2 := h'.2.2
      have h3 : ∀ l : ℝ, slotT (fun θ => expMass (env.logPrior θ)) (fun j => x.1 j + (e i).1 j * scale j, l) = 0 :=
        fun l => by simp only [slotT, h0, mul_zero]
      rw [h3, zero_mul] at h2
      refine absurd h2 (not_lt.2 (mul_nonneg h'.2.1 (mul_nonneg ?_ (walkQ_pos _ _).le)))
      refine mul_nonneg (Real.exp_pos _).le ?_
      show 0 ≤ expMass (env.logPrior x.1)
      cases env.logPrior x.1 <;> simp [expMass, Real.exp_nonneg]
  · rw [if_neg fun hc => h (hacc.2 hc)]
    rw [if_neg h] at e1 e2 e3 e4
    exact ⟨e1.trans hx.params, (congrArg env.loglik e2).trans hx.loglik, e3.trans hx.loc, e4.trans hx.scale,
      hx.particles, hx.mass⟩

theorem fitRun_concat (env : Env d Y Ω) (scale : Row d) (get : Name → Row d → V) (ys : List Y)
    (f : Fit P d Y Ω (Gauss P d) Name V) (es : List (Source P d Ω)) (e : Source P d Ω) :
    fitRun env scale get ys f (es ++ [e]) = fitStep env (randomWalk scale) get ys (fitRun env scale get ys f es)
      (walkDraws (fitRun env scale get ys f es).chain.kernel e) := by
  simp only [fitRun, List.foldl_append, List.foldl_cons, List.foldl_nil]

/-- The whole run. -/
theorem At.run {env : Env d Y Ω} {scale : Row d} {n : ℕ} {i : Fin P} {f : Fit P d Y Ω (Gauss P d) Name V}
    {x : Row d × ℝ} (hx : At env scale n i f.chain x) {ys : List Y} {R : Row d × (ℕ → Ω) → ℝ}
    (hR : ∀ u noise, env.loglik (batchFilter n ⟨u, u⟩ ys noise) = fin (R (u, noise)))
    (hpr : ∀ θ, env.logPrior θ ≠ .nan ∧ env.logPrior θ ≠ .pinf) (get : Name → Row d → V)
    (ξ : ℕ → Source P d Ω) (k : ℕ) :
    At env scale n i (fitRun env scale get ys f ((List.range k).map ξ)).chain
      (path (fun q : (Row d × ℝ) × Source P d Ω =>
        slotMove (fun θ => expMass (env.logPrior θ)) R scale (q.1, q.2 i)) k x ξ) := by
  induction k with
  | zero => exact hx
  | succ k ih =>
    rw [List.range_succ, List.map_append, List.map_cons, List.map_nil, fitRun_concat, path_succ]
    exact ih.step hR hpr (fun _ => 0) (ξ k)

/-- The draws of `fitRun`, iteration after iteration. -/
noncomputable def drawsOf (env : Env d Y Ω) (scale : Row d) (get : Name → Row d → V) (ys : List Y) :
    Fit P d Y Ω (Gauss P d) Name V → List (Source P d Ω) → List (Draws P d Ω)
  | _, [] => []
  | f, e :: es => walkDraws f.chain.kernel e ::
      drawsOf env scale get ys (fitStep env (randomWalk scale) get ys f (walkDraws f.chain.kernel e)) es

theorem fitRun_eq (env : Env d Y Ω) (scale : Row d) (get : Name → Row d → V) (ys : List Y)
    (es : List (Source P d Ω)) : ∀ f : Fit P d Y Ω (Gauss P d) Name V,
    fitRun env scale get ys f es = fitLoop env (randomWalk scale) get ys f (drawsOf env scale get ys f es) := by
  induction es with
  | nil => intro f; rfl
  | cons e es ih => intro f; exact ih _

theorem drawsOf_take (env : Env d Y Ω) (scale : Row d) (get : Name → Row d → V) (ys : List Y)
    (es : List (Source P d Ω)) : ∀ (f : Fit P d Y Ω (Gauss P d) Name V) (k : ℕ),
    (drawsOf env scale get ys f es).take k = drawsOf env scale get ys f (es.take k) := by
  induction es with
  | nil => intro f k; simp [drawsOf]
  | cons e es ih =>
    intro f k
    cases k with
    | zero => rfl
    | succ k => simp only [drawsOf, List.take_succ_cons, ih]

theorem drawsOf_length (env : Env d Y Ω) (scale : Row d) (get : Name → Row d → V) (ys : List Y)
    (es : List (Source P d Ω)) : ∀ f : Fit P d Y Ω (Gauss P d) Name V,
    (drawsOf env scale get ys f es).length = es.length := by
  induction es with
  | nil => intro f; rfl
  | cons e es ih => intro f; simp only [drawsOf, List.length_cons, ih]

end Verif.Mcmc
