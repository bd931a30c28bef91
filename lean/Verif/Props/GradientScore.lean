import Verif.Lemmas.GradientScore
import Verif.Props.Filter
import Verif.Props.Smoothing

/-!
# Property C127: what the gradient proposal differentiates
-/

namespace Verif.Props

open Verif Verif.Spec Verif.GradientScore XF

variable {N B d : ℕ} {V Y Ω : Type}

/-- The smoothed values of the recorded states, and what `target` does with them. -/
theorem target_eq (M : ParticleModel N B d V Y Ω) (K : Backward N B d V Ω) (D : Fin B → Densities (Fin d → V) Y)
    (prior : Fin B → XF) (s : PCorr N B d V) (rest : List (PCorr N B d V)) (ys : List Y) (ω : Ω) :
    ∃ r : List (Vals N B d V), r.length = rest.length + 1 ∧
      (∀ (t : ℕ) v, r[t]? = some v → ∃ c, (s :: rest)[t]? = some c ∧ ∀ i b, ∃ j, v i b = c.x.value j b) ∧
      target M K D prior (s :: rest) ys ω = .ok fun b => modelLikelihood (D b) (prior b) s.x.time
        ((s :: rest).map fun c => c.x.time) (r.map fun v i => v i b) ys := by
  obtain ⟨r, ω', h1, h2, h3⟩ := (C38_paths_of_particles M K (s :: rest) (by simp) ω).2
  refine ⟨r, by simpa using h2, h3, ?_⟩
  have hs : smooth M K (s :: rest) ['f', 'f', 'b', 's'] ω = .ok (r, ω') := by
    rw [← h1]
    rfl
  unfold target
  rw [hs]
  rfl

/-- What is claimed: after batch filtering, whatever is recorded, the function that is differentiated is the mean, over
paths through the particles, of the log-density of the path and the observations, plus the log-prior. -/
def C127_claim : Prop :=
  ∀ (N B d : ℕ) (V Y Ω : Type) (fk : FilterKind) (M : ParticleModel N B d V Y Ω) (k : ℕ) (intermediary : Bool)
    (nan : NanStrategy) (ks km : Option ℕ) (fuel : ℕ) (ys : List Y) (init : PCorr N B d V) (ω : Ω)
    (r : PCorr N B d V × FilterOps.Recorded (PCorr N B d V) Unit × Ω) (K : Backward N B d V Ω)
    (D : Fin B → Densities (Fin d → V) Y) (prior : Fin B → XF), 0 < N → M.kind.increment = 1 → init.x.time = 0 →
    (fk.ops M).batchFilter ⟨k, intermediary, nan⟩ ks km (fun _ => ()) fuel ys init ω = some r →
    ∃ (f : Fin B → Except PyErr XF) (paths : Fin N → Fin B → ℕ → Fin d → V),
      target M K D prior r.2.1.states.items ys r.2.2 = .ok f ∧
      ∀ b, f b = .ok (average (fun i => completeLog (D b) (paths i b) fun n : Fin ys.length => ys[n]) + prior b)

/-- Batch filtering, whatever is recorded. -/
theorem batch_items (fk : FilterKind) (M : ParticleModel N B d V Y Ω) (hkind : M.kind.increment = 1) {k : ℕ}
    (hk : 0 < k) (fuel : ℕ) (hfuel : k - 1 ≤ fuel) (ys : List Y) (init : PCorr N B d V) (h0 : init.x.time = 0) (ω : Ω) :
    ∃ (es : List (List (PCorr N B d V) × PCorr N B d V)), es.length = ys.length ∧
      (∀ n y e, ys[n]? = some y → es[n]? = some e →
        MoveOk (fk.ops M) (fun c => c.x.time) (fun c => ∀ b, c.ll b = XF.fin 0) k n y e) ∧
      ∀ intermediary nan ks km, ∃ r, (fk.ops M).batchFilter ⟨k, intermediary, nan⟩ ks km (fun _ => ()) fuel ys init ω
        = some r ∧ r.2.1.states.items = lastN ks (init :: recorded intermediary es) := by
  obtain ⟨es, ω', hl, hes, hall⟩ := C24_every_kth_step fk M hkind hk fuel hfuel ys init h0 ω
  refine ⟨es, hl, hes, fun intermediary nan ks km => ⟨(((es.map Prod.snd).getLast?).getD init,
    (init :: recorded intermediary es).foldl (FilterOps.Recorded.append fun _ => ()) ⟨⟨ks, []⟩, ⟨km, []⟩⟩, ω'), ?_, ?_⟩⟩
  · unfold FilterOps.batchFilter
    rw [hall intermediary nan]
    rfl
  · dsimp only
    rw [FilterOps.foldl_append]
    exact FilterOps.foldl_append_lastN ks _

theorem recorded_observed {S : Type} (es : List (List S × S)) : recorded false es = es.map Prod.snd := by
  unfold recorded
  induction es with
  | nil => rfl
  | cons a l _ => simp [List.map_eq_flatMap]

theorem lastN_all {α : Type} (ks : Option ℕ) (xs : List α) (h : ∀ m, ks = some m → xs.length ≤ m) : lastN ks xs = xs := by
  cases ks with
  | none => rfl
  | some m =>
    show (List.take m _).reverse = _
    rw [List.take_of_length_le (by simpa using h m rfl), List.reverse_reverse]

/-- The path of a smoothed particle, for all times. -/
theorem paths_exist (r : List (Vals N B d V)) (v0 : Vals N B d V) :
    ∃ paths : Fin N → Fin B → ℕ → Fin d → V, ∀ n v, r[n]? = some v → ∀ i b, paths i b n = v i b :=
  ⟨fun i b n => (r[n]?.getD v0) i b, fun n v h i b => by simp [h]⟩

/-- The times of the observed states. -/
theorem observed_times (fk : FilterKind) (M : ParticleModel N B d V Y Ω) {k : ℕ} (ys : List Y) (init : PCorr N B d V)
    (h0 : init.x.time = 0) (es : List (List (PCorr N B d V) × PCorr N B d V)) (hl : es.length = ys.length)
    (hes : ∀ n y e, ys[n]? = some y → es[n]? = some e →
      MoveOk (fk.ops M) (fun c => c.x.time) (fun c => ∀ b, c.ll b = XF.fin 0) k n y e) :
    (init :: es.map Prod.snd).map (fun c => c.x.time)
      = (List.range (ys.length + 1)).map fun n => if n = 0 then 0 else (n - 1) * k + 1 := by
  apply List.ext_getElem
  · simp [hl]
  · intro n h1 h2
    cases n with
    | zero => simp [h0]
    | succ n =>
      have hn : n < es.length := by simpa using h1
      have hn' : n < ys.length := hl ▸ hn
      have := (hes n ys[n] es[n] (List.getElem?_eq_getElem hn') (List.getElem?_eq_getElem hn)).time
      simpa using this

/-- C127 holds if all states are recorded (`record_states=True`, or a window that is long enough) and every step of the
latent process is observed: entry `n` of each path is a particle of the state at time `n`, and observation `n` is
evaluated at the state that it produced. Missing: shorter windows (`C127_short_window`, `C127_two_states`) and
observations at every `k`-th step only (`C127_intermediary`, `C127_skipping`). -/
theorem C127_complete_partial (fk : FilterKind) (M : ParticleModel N B d V Y Ω) (hkind : M.kind.increment = 1)
    (hN : 0 < N) (intermediary : Bool) (nan : NanStrategy) (ks km : Option ℕ) (fuel : ℕ) (ys : List Y)
    (hks : ∀ m, ks = some m → ys.length + 1 ≤ m) (init : PCorr N B d V) (h0 : init.x.time = 0) (ω : Ω)
    (K : Backward N B d V Ω) (D : Fin B → Densities (Fin d → V) Y) (prior : Fin B → XF) :
    ∃ r, (fk.ops M).batchFilter ⟨1, intermediary, nan⟩ ks km (fun _ => ()) fuel ys init ω = some r ∧
    ∃ (f : Fin B → Except PyErr XF) (paths : Fin N → Fin B → ℕ → Fin d → V),
      target M K D prior r.2.1.states.items ys r.2.2 = .ok f ∧
      (∀ i b n, n ≤ ys.length → ∃ c j, r.2.1.states.items[n]? = some c ∧ c.x.time = n ∧ paths i b n = c.x.value j b) ∧
      (∀ n y, ys[n]? = some y → ∃ c, r.2.1.states.items[n + 1]? = some c ∧ Observed (fk.ops M) n y c) ∧
      ∀ b, f b = .ok (average (fun i => completeLog (D b) (paths i b) fun n : Fin ys.length => ys[n]) + prior b) := by
  obtain ⟨es, hl, hes, hall⟩ := batch_items fk M hkind (k := 1) one_pos fuel (by omega) ys init h0 ω
  obtain ⟨r, hr, hitems⟩ := hall intermediary nan ks km
  have hrec : recorded intermediary es = es.map Prod.snd := by
    rw [← recorded_observed]
    unfold recorded
    refine List.flatMap_congr fun e he => ?_
    obtain ⟨n, hn, rfl⟩ := List.mem_iff_getElem.1 he
    have := (hes n ys[n] es[n] (List.getElem?_eq_getElem (hl ▸ hn)) (List.getElem?_eq_getElem hn)).count
    have h1 : es[n].1 = [] := by
      apply List.eq_nil_of_length_eq_zero
      rw [this]; simp
    rw [h1]; simp
  rw [hrec, lastN_all ks _ (by simpa [hl] using hks)] at hitems
  have htimes := observed_times fk M ys init h0 es hl hes
  obtain ⟨sm, g1, g2, g3⟩ := target_eq M K D prior init (es.map Prod.snd) ys r.2.2
  obtain ⟨v0, -⟩ : ∃ a, a ∈ sm := List.exists_mem_of_length_pos (by omega)
  obtain ⟨paths, hpaths⟩ := paths_exist sm v0
  have hlen : sm.length = ys.length + 1 := by rw [g1]; simp [hl]
  refine ⟨r, hr, _, paths, by rw [hitems]; exact g3, ?_, ?_, ?_⟩
  · intro i b n hn
    have hn' : n < sm.length := by omega
    obtain ⟨c, h1, h2⟩ := g2 n _ (List.getElem?_eq_getElem hn')
    obtain ⟨j, hj⟩ := h2 i b
    refine ⟨c, j, by rw [hitems]; exact h1, ?_, by rw [hpaths n _ (List.getElem?_eq_getElem hn'), hj]⟩
    have := congrArg (fun l => l[n]?) htimes
    simp only [List.getElem?_map] at this
    rw [h1, List.getElem?_range (by omega)] at this
    simp only [Option.map_some, Option.some.injEq] at this
    rw [this]
    split_ifs <;> omega
  · intro n y hy
    have hn : n < es.length := by rw [hl]; exact (List.getElem?_eq_some_iff.1 hy).1
    have := (hes n y es[n] hy (List.getElem?_eq_getElem hn)).observed
    rw [Nat.mul_one] at this
    exact ⟨es[n].2, by rw [hitems]; simp [List.getElem?_eq_getElem hn], this⟩
  · intro b
    have := modelLikelihood_times hN (D b) (prior b) (sm.map fun v i => v i b) ys (fun i => paths i b) 0
      (fun n => if n = 0 then 0 else (n - 1) * 1 + 1) (by simpa using hlen) (by
        intro n v hv i
        rw [List.getElem?_map, Option.map_eq_some_iff] at hv
        obtain ⟨w, hw, rfl⟩ := hv
        exact hpaths n w hw i b)
    rw [List.length_map, hlen, ← htimes] at this
    rw [h0, this]
    congr 3
    funext i
    unfold completeLog
    congr 1
    refine Finset.sum_congr rfl fun n _ => ?_
    have e1 : (0 + if (n : ℕ) = 0 then 0 else ((n : ℕ) - 1) * 1 + 1) = n := by split_ifs <;> omega
    have e2 : (0 + if (n : ℕ) + 1 = 0 then 0 else ((n : ℕ) + 1 - 1) * 1 + 1) = n + 1 := by simp
    rw [e1, e2]

/-- With a window shorter than the data (other than two), at least two observations and every step observed, taking the
gradient raises. This includes the default `record_states=False`, which keeps one state. -/
theorem C127_short_window (fk : FilterKind) (M : ParticleModel N B d V Y Ω) (hkind : M.kind.increment = 1)
    (nan : NanStrategy) (m : ℕ) (hm : 0 < m) (hm2 : m ≠ 2) (km : Option ℕ) (fuel : ℕ) (ys : List Y) (hy : 2 ≤ ys.length)
    (hmy : m ≤ ys.length) (init : PCorr N B d V) (h0 : init.x.time = 0) (ω : Ω)
    (K : Backward N B d V Ω) (D : Fin B → Densities (Fin d → V) Y) (prior : Fin B → XF) :
    ∃ r f, (fk.ops M).batchFilter ⟨1, false, nan⟩ (some m) km (fun _ => ()) fuel ys init ω = some r ∧
      target M K D prior r.2.1.states.items ys r.2.2 = .ok f ∧ ∀ b, f b = .error .runtimeError := by
  obtain ⟨es, hl, hes, hall⟩ := batch_items fk M hkind (k := 1) one_pos fuel (by omega) ys init h0 ω
  obtain ⟨r, hr, hitems⟩ := hall false nan (some m) km
  have hlen : r.2.1.states.items.length = m := by
    rw [hitems, recorded_observed]
    simp [lastN, hl]
    omega
  obtain ⟨s, rest, hs⟩ : ∃ a l, r.2.1.states.items = a :: l := by
    cases h : r.2.1.states.items with
    | nil => rw [h] at hlen; simp at hlen; omega
    | cons a l => exact ⟨a, l, rfl⟩
  obtain ⟨sm, g1, g2, g3⟩ := target_eq M K D prior s rest ys r.2.2
  rw [hs, List.length_cons] at hlen
  refine ⟨r, _, hr, by rw [hs]; exact g3, fun b => ?_⟩
  apply modelLikelihood_error
  · intro h
    have := congrArg List.length h
    simp [g1] at this
  · simp [g1]
  · simp [g1]; omega
  · omega
  · simp [g1]; omega

/-- With intermediary states recorded, it raises as soon as there are two observations. -/
theorem C127_intermediary (fk : FilterKind) (M : ParticleModel N B d V Y Ω) (hkind : M.kind.increment = 1)
    {k : ℕ} (hk : 2 ≤ k) (nan : NanStrategy) (km : Option ℕ) (fuel : ℕ) (hfuel : k - 1 ≤ fuel) (ys : List Y)
    (hy : 2 ≤ ys.length) (init : PCorr N B d V) (h0 : init.x.time = 0) (ω : Ω)
    (K : Backward N B d V Ω) (D : Fin B → Densities (Fin d → V) Y) (prior : Fin B → XF) :
    ∃ r f, (fk.ops M).batchFilter ⟨k, true, nan⟩ none km (fun _ => ()) fuel ys init ω = some r ∧
      target M K D prior r.2.1.states.items ys r.2.2 = .ok f ∧ ∀ b, f b = .error .runtimeError := by
  obtain ⟨y, ys, rfl⟩ : ∃ a l, ys = a :: l := by
    cases ys with
    | nil => simp at hy
    | cons a l => exact ⟨a, l, rfl⟩
  obtain ⟨q, hq, hq2⟩ := C24_recorded_times fk M hkind (by omega) fuel hfuel nan y ys init h0 ω
  have hb : (fk.ops M).batchFilter ⟨k, true, nan⟩ none km (fun _ => ()) fuel (y :: ys) init ω
      = some (q.1, (init :: q.2.1).foldl (FilterOps.Recorded.append fun _ => ()) ⟨⟨none, []⟩, ⟨km, []⟩⟩, q.2.2) := by
    unfold FilterOps.batchFilter
    rw [hq]
    rfl
  have hitems : ((init :: q.2.1).foldl (FilterOps.Recorded.append fun _ => ())
      ⟨⟨none, []⟩, ⟨km, []⟩⟩).states.items = init :: q.2.1 := by
    rw [FilterOps.foldl_append]
    exact FilterOps.foldl_append_lastN none _
  have hlen : q.2.1.length = ys.length * k + 1 := by
    have := congrArg List.length hq2
    simpa using this
  obtain ⟨sm, g1, g2, g3⟩ := target_eq M K D prior init q.2.1 (y :: ys) q.2.2
  refine ⟨_, _, hb, by rw [hitems]; exact g3, fun b => ?_⟩
  have hy' : 1 ≤ ys.length := by simpa using hy
  have : ys.length * 2 ≤ ys.length * k := Nat.mul_le_mul_left _ hk
  apply modelLikelihood_error
  · intro h
    have := congrArg List.length h
    simp [g1] at this
  · simp [g1]
  · rw [List.length_map, g1, hlen]; omega
  · rw [List.length_cons]; omega
  · rw [List.length_map, g1, hlen, List.length_cons]; omega

/-- Without the intermediary states no error is raised, but the density of one step of the latent process is evaluated
between states that are `k` steps apart: entry `n` of a path is a particle of the state at time `(n - 1) k + 1`, entry `n + 1`
one of the state at time `n k + 1`. -/
theorem C127_skipping (fk : FilterKind) (M : ParticleModel N B d V Y Ω) (hkind : M.kind.increment = 1)
    (hN : 0 < N) {k : ℕ} (hk : 0 < k) (nan : NanStrategy) (km : Option ℕ) (fuel : ℕ) (hfuel : k - 1 ≤ fuel) (ys : List Y)
    (init : PCorr N B d V) (h0 : init.x.time = 0) (ω : Ω)
    (K : Backward N B d V Ω) (D : Fin B → Densities (Fin d → V) Y) (prior : Fin B → XF) :
    let τ := fun n : ℕ => if n = 0 then 0 else (n - 1) * k + 1
    ∃ r, (fk.ops M).batchFilter ⟨k, false, nan⟩ none km (fun _ => ()) fuel ys init ω = some r ∧
    ∃ (f : Fin B → Except PyErr XF) (paths : Fin N → Fin B → ℕ → Fin d → V),
      target M K D prior r.2.1.states.items ys r.2.2 = .ok f ∧
      (∀ i b n, n ≤ ys.length → ∃ c j, r.2.1.states.items[n]? = some c ∧ c.x.time = τ n ∧ paths i b n = c.x.value j b) ∧
      ∀ b, f b = .ok (average (fun i => (D b).init (paths i b 0) + ∑ n : Fin ys.length,
        ((D b).hidden (τ n) (paths i b n) (paths i b (n + 1)) + (D b).obs (τ (n + 1)) (paths i b (n + 1)) ys[n])) + prior b) := by
  intro τ
  obtain ⟨es, hl, hes, hall⟩ := batch_items fk M hkind hk fuel hfuel ys init h0 ω
  obtain ⟨r, hr, hitems⟩ := hall false nan none km
  rw [recorded_observed, lastN_all none _ (by simp)] at hitems
  have htimes := observed_times fk M ys init h0 es hl hes
  obtain ⟨sm, g1, g2, g3⟩ := target_eq M K D prior init (es.map Prod.snd) ys r.2.2
  obtain ⟨v0, -⟩ : ∃ a, a ∈ sm := List.exists_mem_of_length_pos (by omega)
  obtain ⟨paths, hpaths⟩ := paths_exist sm v0
  have hlen : sm.length = ys.length + 1 := by rw [g1]; simp [hl]
  refine ⟨r, hr, _, paths, by rw [hitems]; exact g3, ?_, ?_⟩
  · intro i b n hn
    have hn' : n < sm.length := by omega
    obtain ⟨c, h1, h2⟩ := g2 n _ (List.getElem?_eq_getElem hn')
    obtain ⟨j, hj⟩ := h2 i b
    refine ⟨c, j, by rw [hitems]; exact h1, ?_, by rw [hpaths n _ (List.getElem?_eq_getElem hn'), hj]⟩
    have := congrArg (fun l => l[n]?) htimes
    simp only [List.getElem?_map] at this
    rw [h1, List.getElem?_range (by omega)] at this
    simpa using this
  · intro b
    have := modelLikelihood_times hN (D b) (prior b) (sm.map fun v i => v i b) ys (fun i => paths i b) 0
      τ (by simpa using hlen) (by
        intro n v hv i
        rw [List.getElem?_map, Option.map_eq_some_iff] at hv
        obtain ⟨w, hw, rfl⟩ := hv
        exact hpaths n w hw i b)
    rw [List.length_map, hlen, ← htimes] at this
    rw [h0, this]
    simp only [Nat.zero_add]

/-- With a window of two states, whatever the number of observations, no error is raised: all observations are evaluated
at the last state, the last transition is counted once for every observation, the density of the initial state is
evaluated at the state before the last, and the times are shifted by the time of that state. -/
theorem C127_two_states (M : ParticleModel N B d V Y Ω) (hN : 0 < N) (s₁ s₂ : PCorr N B d V) (ys : List Y) (ω : Ω)
    (K : Backward N B d V Ω) (D : Fin B → Densities (Fin d → V) Y) (prior : Fin B → XF) :
    ∃ (f : Fin B → Except PyErr XF) (x₁ x₂ : Fin N → Fin B → Fin d → V), target M K D prior [s₁, s₂] ys ω = .ok f ∧
      (∀ i b, (∃ j, x₁ i b = s₁.x.value j b) ∧ ∃ j, x₂ i b = s₂.x.value j b) ∧
      ∀ b, f b = .ok (average (fun i => (D b).init (x₁ i b) + ∑ n : Fin ys.length,
        ((D b).hidden (s₁.x.time + s₁.x.time) (x₁ i b) (x₂ i b) + (D b).obs (s₁.x.time + s₂.x.time) (x₂ i b) ys[n]))
        + prior b) := by
  obtain ⟨sm, g1, g2, g3⟩ := target_eq M K D prior s₁ [s₂] ys ω
  obtain ⟨x₁, x₂, rfl⟩ : ∃ a b, sm = [a, b] := List.length_eq_two.1 g1
  refine ⟨_, x₁, x₂, g3, fun i b => ⟨?_, ?_⟩, fun b => modelLikelihood_two hN _ _ _ _ _ _ _ _⟩
  · obtain ⟨c, h1, h2⟩ := g2 0 x₁ rfl
    simp only [List.getElem?_cons_zero, Option.some.injEq] at h1
    exact h1 ▸ h2 i b
  · obtain ⟨c, h1, h2⟩ := g2 1 x₂ rfl
    simp only [List.getElem?_cons_succ, List.getElem?_cons_zero, Option.some.injEq] at h1
    exact h1 ▸ h2 i b

/-- Densities of a Gaussian walk observed with noise (up to constants), for the filter `walk`. -/
noncomputable def walkDensities : Densities (Fin 1 → ℝ) (Option ℝ) where
  init x := fin (-(x 0) ^ 2)
  hidden _ x x' := fin (-(x' 0 - x 0) ^ 2)
  obs _ x y := match y with
    | some v => fin (-(v - x 0) ^ 2)
    | none => nan

/-- Backward sampling that always takes the first particle. -/
noncomputable def walkBackward : Backward 1 2 1 ℝ ℕ where
  logDensity _ _ _ _ := fin 0
  categorical _ ω := (fun i _ => i, ω)

/-- Two observations and the default settings of a filter are enough. -/
theorem C127_negation : ¬ C127_claim := by
  intro h
  obtain ⟨r, f, h1, h2, h3⟩ := C127_short_window .sisr (walk .bootstrap) rfl .skip 1 one_pos (by norm_num) none 0
    [some 1, some 2] le_rfl (by simp) walkInit rfl 0 walkBackward (fun _ => walkDensities) fun _ => fin 0
  obtain ⟨g, paths, g1, g2⟩ := h 1 2 1 ℝ (Option ℝ) ℕ .sisr (walk .bootstrap) 1 false .skip (some 1) none 0
    [some 1, some 2] walkInit 0 r walkBackward (fun _ => walkDensities) (fun _ => fin 0) one_pos rfl rfl h1
  rw [h2] at g1
  cases g1
  have := g2 0
  rw [h3 0] at this
  cases this

/-- Cases of the hypotheses: all states recorded; a window of three states and four observations; every third step
observed. -/
example := C127_complete_partial .apf (walk .linearized) rfl one_pos false .skip none none 0 [some 1, some 3, some 2]
  (by simp) walkInit rfl 0 walkBackward (fun _ => walkDensities) fun _ => fin (-1)

example := C127_short_window .apf (walk .linearized) rfl .skip 3 (by norm_num) (by norm_num) none 0
  [some 1, some 3, some 2, some 5] (by simp) (by simp) walkInit rfl 0 walkBackward (fun _ => walkDensities) fun _ => fin (-1)

example := C127_intermediary .sisr (walk .bootstrap) rfl (k := 3) (by norm_num) .skip none 2 (by norm_num)
  [some 1, some 3] (by simp) walkInit rfl 0 walkBackward (fun _ => walkDensities) fun _ => fin (-1)

example := C127_skipping .sisr (walk .bootstrap) rfl one_pos (k := 3) (by norm_num) .skip none 2 (by norm_num)
  [some 1, some 3] walkInit rfl 0 walkBackward (fun _ => walkDensities) fun _ => fin (-1)

end Verif.Props
