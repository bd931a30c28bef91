import Verif.Lemmas.Filter
import Verif.Spec.Likelihood

/-!
# A filtering run as a sequence of elementary steps, and its total log-likelihood
-/

namespace Verif.FilterOps

open Verif.Spec

variable {S P Y Ω : Type}

/-- One elementary step: pure prediction or correction. -/
def applyO (F : FilterOps S P Y Ω) : Option Y → P → Ω → S × Ω
  | none, p, ω => F.propagate p ω
  | some y, p, ω => F.correct y p ω

/-- Total log-likelihood of elementary steps from a prediction. -/
def totalP (F : FilterOps S P Y Ω) (ll : S → XF) : List (Option Y) → P → Ω → XF
  | [], _, _ => XF.fin 0
  | o :: os, p, ω =>
    ll (F.applyO o p ω).1 +
      F.totalP ll os (F.predict (F.applyO o p ω).1 (F.applyO o p ω).2).1
        (F.predict (F.applyO o p ω).1 (F.applyO o p ω).2).2

/-- What observation `y` amounts to. -/
def obsOf (F : FilterOps S P Y Ω) (y : Y) : Option Y := if F.allNan y then none else some y

theorem applyO_obsOf (F : FilterOps S P Y Ω) (y : Y) (p : P) (ω : Ω) :
    F.applyO (F.obsOf y) p ω = if F.allNan y then F.propagate p ω else F.correct y p ω := by
  unfold obsOf
  by_cases h : F.allNan y = true <;> simp [h, applyO]

variable {F : FilterOps S P Y Ω} {time : S → ℕ} {Z : S → Prop}

/-- The loop, seen as elementary steps. -/
theorem loop_total (hF : Ticks F time Z) (ll : S → XF) (hz : ∀ p ω, ll (F.propagate p ω).1 = XF.fin 0)
    (k q : ℕ) : ∀ (r : ℕ), r < k → ∀ (fuel : ℕ), r ≤ fuel →
    ∀ (p : P) (ω : Ω), F.time p + r = q * k →
    ∃ p' cs ω', F.loop k fuel p ω = some (p', cs, ω') ∧ F.time p' = q * k ∧
      (∀ c ∈ cs, ll c = XF.fin 0) ∧
      ∀ o os, F.totalP ll (List.replicate r none ++ o :: os) p ω = F.totalP ll (o :: os) p' ω' := by
  intro r
  induction r with
  | zero =>
    intro _ fuel _ p ω h
    refine ⟨p, [], ω, loop_stop F k fuel p ω ?_, by omega, by simp, fun o os => rfl⟩
    rw [Nat.add_zero] at h
    rw [h, Nat.mul_mod_left]
  | succ r ih =>
    intro hr fuel hf p ω h
    obtain ⟨fuel, rfl⟩ : ∃ f, fuel = f + 1 := ⟨fuel - 1, by omega⟩
    have hne : F.time p % k ≠ 0 := by
      intro h0
      obtain ⟨m, hm⟩ := Nat.dvd_of_mod_eq_zero h0
      have h1 : k ∣ (r + 1) := by
        have h2 : k ∣ F.time p + (r + 1) := ⟨q, by rw [h, Nat.mul_comm]⟩
        exact (Nat.dvd_add_right ⟨m, hm⟩).1 h2
      have := Nat.le_of_dvd (by omega) h1
      omega
    have ht : F.time (F.predict (F.propagate p ω).1 (F.propagate p ω).2).1 = F.time p + 1 := by
      rw [hF.predict, hF.propagate]
    obtain ⟨p', cs, ω', h1, h2, h3, h4⟩ := ih (by omega) fuel (by omega)
      (F.predict (F.propagate p ω).1 (F.propagate p ω).2).1
      (F.predict (F.propagate p ω).1 (F.propagate p ω).2).2 (by rw [ht]; omega)
    refine ⟨p', (F.propagate p ω).1 :: cs, ω', ?_, h2, ?_, fun o os => ?_⟩
    · rw [loop_step F k fuel p ω hne, h1]; rfl
    · intro c hc
      rcases List.mem_cons.1 hc with rfl | hc
      · exact hz p ω
      · exact h3 c hc
    · rw [← h4 o os]
      show ll (F.propagate p ω).1 + _ = _
      rw [hz]
      exact zero_add _

/-- Elementary steps for the observations from number `n` on. -/
def slotsFrom (F : FilterOps S P Y Ω) (k : ℕ) : ℕ → List Y → List (Option Y)
  | _, [] => []
  | n, y :: ys => List.replicate (if n = 0 then 0 else k - 1) none ++ F.obsOf y :: F.slotsFrom k (n + 1) ys

theorem slotsFrom_succ (F : FilterOps S P Y Ω) (k : ℕ) : ∀ (ys : List Y) (n : ℕ),
    F.slotsFrom k (n + 1) ys = ys.flatMap fun y => List.replicate (k - 1) none ++ [F.obsOf y]
  | [], n => rfl
  | y :: ys, n => by
    rw [slotsFrom, slotsFrom_succ F k ys (n + 1)]
    simp

theorem slotsFrom_zero (F : FilterOps S P Y Ω) (k : ℕ) (ys : List Y) :
    F.slotsFrom k 0 ys = slots k F.allNan ys := by
  cases ys with
  | nil => rfl
  | cons y ys =>
    rw [slotsFrom, slotsFrom_succ]
    rfl

theorem sum_zero_list (ll : S → XF) (cs : List S) (h : ∀ c ∈ cs, ll c = XF.fin 0) :
    (cs.map ll).sum = XF.fin 0 := by
  induction cs with
  | nil => rfl
  | cons c cs ih =>
    rw [List.map_cons, List.sum_cons, h c (by simp), ih fun c hc => h c (by simp [hc])]
    exact zero_add (0 : XF)

/-- The whole run: its appended states have the total log-likelihood of the elementary steps. -/
theorem filterAll_total (hF : Ticks F time Z) (ll : S → XF) (hz : ∀ p ω, ll (F.propagate p ω).1 = XF.fin 0)
    (opt : FilterOptions) (hk : 0 < opt.observeEveryStep) (fuel : ℕ)
    (hfuel : opt.observeEveryStep - 1 ≤ fuel) : ∀ (ys : List Y) (n : ℕ) (c : S) (ω : Ω),
    time c = startTime opt.observeEveryStep n →
    ∃ r, F.filterAll opt fuel ys c ω = some r ∧
      (r.2.1.map ll).sum = F.totalP ll (F.slotsFrom opt.observeEveryStep n ys) (F.predict c ω).1
        (F.predict c ω).2
  | [], n, c, ω, _ => ⟨_, rfl, rfl⟩
  | y :: ys, n, c, ω, hc => by
    obtain ⟨k, hk'⟩ : ∃ k, k = opt.observeEveryStep := ⟨_, rfl⟩
    rw [← hk'] at hk hfuel hc
    have ht : F.time (F.predict c ω).1 = startTime k n := by rw [hF.predict, hc]
    obtain ⟨r, hr, hrk, hsum⟩ : ∃ r, r = (if n = 0 then 0 else k - 1) ∧ r < k ∧ startTime k n + r = n * k := by
      refine ⟨_, rfl, ?_, ?_⟩
      · split <;> omega
      · cases n with
        | zero => simp [startTime]
        | succ n => simp [startTime, Nat.succ_mul]; omega
    obtain ⟨p, cs, ω', h1, h2, h3, h4⟩ := loop_total hF ll hz k n r hrk fuel (by split at hr <;> omega) _
      (F.predict c ω).2 (by rw [ht, hsum])
    have hfilt := filter_eq F opt fuel y c ω (p := p) (cs := cs) (ω' := ω') (by rw [← hk']; exact h1)
    rw [← applyO_obsOf] at hfilt
    have hs : time (F.applyO (F.obsOf y) p ω').1 = startTime k (n + 1) := by
      rw [applyO_obsOf]
      split
      · rw [hF.propagate, h2]; rfl
      · rw [hF.correct, h2]; rfl
    obtain ⟨r', h5, h6⟩ := filterAll_total hF ll hz opt (hk' ▸ hk) fuel (hk' ▸ hfuel) ys (n + 1)
      (F.applyO (F.obsOf y) p ω').1 (F.applyO (F.obsOf y) p ω').2 (hk' ▸ hs)
    refine ⟨_, by rw [filterAll, hfilt]; simp only [h5]; rfl, ?_⟩
    dsimp only
    rw [List.map_append, List.sum_append, List.map_append, List.sum_append, h6, ← hk']
    rw [slotsFrom, ← hr, h4]
    have h7 : ((if opt.recordIntermediary then cs else []).map ll).sum = XF.fin 0 := by
      split
      · exact sum_zero_list ll cs h3
      · rfl
    rw [h7]
    show (0 : XF) + (ll _ + 0) + _ = ll _ + _
    rw [zero_add, add_zero]

end Verif.FilterOps
