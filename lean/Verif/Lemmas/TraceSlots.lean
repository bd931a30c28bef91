import Verif.Lemmas.RunSlots
import Verif.Lemmas.LiftedRun

/-!
# All recorded states of a run, as elementary steps
-/

namespace Verif.FilterOps

open Verif.Spec

variable {S P Y Ω : Type}

/-- The states after every elementary step, and the generator afterwards. -/
def traceO (F : FilterOps S P Y Ω) : List (Option Y) → S → Ω → List S × Ω
  | [], _, ω => ([], ω)
  | o :: os, c, ω =>
    let p := F.predict c ω
    let c' := F.applyO o p.1 p.2
    let r := F.traceO os c'.1 c'.2
    (c'.1 :: r.1, r.2)

/-- The same from a prediction. -/
def traceP (F : FilterOps S P Y Ω) (o : Option Y) (os : List (Option Y)) (p : P) (ω : Ω) : List S × Ω :=
  let c' := F.applyO o p ω
  let r := F.traceO os c'.1 c'.2
  (c'.1 :: r.1, r.2)

/-- The steps of a list of slots from a prediction; `e` if there are none. -/
def traceL (F : FilterOps S P Y Ω) (e : List S × Ω) : List (Option Y) → P → Ω → List S × Ω
  | [], _, _ => e
  | o :: os, p, ω => F.traceP o os p ω

variable {F : FilterOps S P Y Ω} {time : S → ℕ} {Z : S → Prop}

theorem traceO_eq (e : List S × Ω) (c : S) (ω : Ω) (l : List (Option Y)) (hl : l ≠ []) :
    F.traceO l c ω = F.traceL e l (F.predict c ω).1 (F.predict c ω).2 := by
  cases l with
  | nil => exact absurd rfl hl
  | cons o os => rfl

/-- The loop, seen as elementary steps. -/
theorem loop_trace (hF : Ticks F time Z) (k q : ℕ) : ∀ (r : ℕ), r < k → ∀ (fuel : ℕ), r ≤ fuel →
    ∀ (p : P) (ω : Ω), F.time p + r = q * k →
    ∃ p' cs ω', F.loop k fuel p ω = some (p', cs, ω') ∧ F.time p' = q * k ∧
      ∀ e o os, F.traceL e (List.replicate r none ++ o :: os) p ω = (cs ++ (F.traceP o os p' ω').1, (F.traceP o os p' ω').2) := by
  intro r
  induction r with
  | zero =>
    intro _ fuel _ p ω h
    refine ⟨p, [], ω, loop_stop F k fuel p ω ?_, by omega, fun e o os => rfl⟩
    rw [Nat.add_zero] at h
    rw [h, Nat.mul_mod_left]
  | succ r ih =>
    intro hr fuel hf p ω h
    obtain ⟨fuel, rfl⟩ : ∃ f, fuel = f + 1 := ⟨fuel - 1, by omega⟩
    have hne : F.time p % k ≠ 0 := by
      intro h0
      obtain ⟨m, hm⟩ := Nat.dvd_of_mod_eq_zero h0
      have h1 : k ∣ (r + 1) := by
        have h2 : k ∣ F.time p + (r + 1) := ⟨q, by rw [h, Nat.mul_comm]⟩
        exact (Nat.dvd_add_right ⟨m, hm⟩).1 h2
      have := Nat.le_of_dvd (by omega) h1
      omega
    have ht : F.time (F.predict (F.propagate p ω).1 (F.propagate p ω).2).1 = F.time p + 1 := by
      rw [hF.predict, hF.propagate]
    obtain ⟨p', cs, ω', h1, h2, h4⟩ := ih (by omega) fuel (by omega)
      (F.predict (F.propagate p ω).1 (F.propagate p ω).2).1
      (F.predict (F.propagate p ω).1 (F.propagate p ω).2).2 (by rw [ht]; omega)
    refine ⟨p', (F.propagate p ω).1 :: cs, ω', ?_, h2, fun e o os => ?_⟩
    · rw [loop_step F k fuel p ω hne, h1]; rfl
    · show ((F.propagate p ω).1 :: (F.traceO (List.replicate r none ++ o :: os) (F.propagate p ω).1
        (F.propagate p ω).2).1, (F.traceO (List.replicate r none ++ o :: os) (F.propagate p ω).1
        (F.propagate p ω).2).2) = _
      rw [traceO_eq e _ _ _ (by simp), h4 e o os]
      rfl

/-- The whole run with all states recorded. -/
theorem filterAll_trace (hF : Ticks F time Z) (nan : NanStrategy) (k : ℕ) (hk : 0 < k) (fuel : ℕ)
    (hfuel : k - 1 ≤ fuel) : ∀ (ys : List Y) (n : ℕ) (c : S) (ω : Ω), time c = startTime k n →
    ∃ r, F.filterAll ⟨k, true, nan⟩ fuel ys c ω = some r ∧ r.2 = F.traceO (F.slotsFrom k n ys) c ω
  | [], n, c, ω, _ => ⟨_, rfl, rfl⟩
  | y :: ys, n, c, ω, hc => by
    have ht : F.time (F.predict c ω).1 = startTime k n := by rw [hF.predict, hc]
    obtain ⟨r, hr, hrk, hsum⟩ : ∃ r, r = (if n = 0 then 0 else k - 1) ∧ r < k ∧ startTime k n + r = n * k := by
      refine ⟨_, rfl, ?_, ?_⟩
      · split <;> omega
      · cases n with
        | zero => simp [startTime]
        | succ n => simp [startTime, Nat.succ_mul]; omega
    obtain ⟨p, cs, ω', h1, h2, h4⟩ := loop_trace hF k n r hrk fuel (by split at hr <;> omega) _
      (F.predict c ω).2 (by rw [ht, hsum])
    have hfilt := filter_eq F ⟨k, true, nan⟩ fuel y c ω (p := p) (cs := cs) (ω' := ω') h1
    rw [← applyO_obsOf] at hfilt
    have hs : time (F.applyO (F.obsOf y) p ω').1 = startTime k (n + 1) := by
      rw [applyO_obsOf]
      split
      · rw [hF.propagate, h2]; rfl
      · rw [hF.correct, h2]; rfl
    obtain ⟨r', h5, h6⟩ := filterAll_trace hF nan k hk fuel hfuel ys (n + 1)
      (F.applyO (F.obsOf y) p ω').1 (F.applyO (F.obsOf y) p ω').2 hs
    refine ⟨_, by rw [filterAll, hfilt]; simp only [h5]; rfl, ?_⟩
    dsimp only
    rw [slotsFrom, ← hr, traceO_eq ([], ω) _ _ _ (by simp), h4]
    show _ = (cs ++ (F.applyO (F.obsOf y) p ω').1 :: (F.traceO _ (F.applyO (F.obsOf y) p ω').1
      (F.applyO (F.obsOf y) p ω').2).1, (F.traceO _ (F.applyO (F.obsOf y) p ω').1 (F.applyO (F.obsOf y) p ω').2).2)
    rw [← h6]
    refine Prod.ext ?_ rfl
    simp

end Verif.FilterOps
