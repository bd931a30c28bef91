import Verif.Lemmas.Filter
import Verif.Lemmas.XFloat

/-!
# Properties C23, C24, C26 and C34: filter moves and the clock
-/

namespace Verif.Props

open Verif Verif.Spec

variable {N B d : ℕ} {V Y Ω : Type}

/-- A small concrete filter model used in the cases below: one particle per filter, two parallel filters,
scalar state that grows by one per step, importance weight one, missing observations are `none`. -/
noncomputable def walk (kind : ProposalKind) : ParticleModel 1 2 1 ℝ (Option ℝ) ℕ where
  lo := -1000
  threshold := 1 / 2
  resampler _ _ ω := (fun i _ => i, ω + 1)
  propagateValues x ω := (fun i b e => x.value i b e + 1, ω + 1)
  kind := kind
  sampleValues _ p ω := ((fun i b e => p.prevX.value i b e + 1, fun _ _ => XF.fin 1), ω + 1)
  preWeight _ _ _ _ := XF.fin 0
  allNan y := y.isNone

/-- An initial state of `walk`. -/
noncomputable def walkInit : PCorr 1 2 1 ℝ := initializeFilter (-1000) fun _ _ _ => 0

/-! ## C23 -/

/-- C23: batch filtering `T` observations from a state at time 0, without intermediary recording, ends
normally; there are `T` new states, the `n`-th of which comes from the `n`-th observation; states and
moments are the windows of the initial state followed by them (so `1 + T` entries if the window allows),
position by position; the returned state is the last of them. For every particle filter with a proposal
that advances the clock (see C34), every `observe_every_step` and all windows. -/
theorem C23_one_entry_per_observation {M : Type} (fk : FilterKind) (Mod : ParticleModel N B d V Y Ω)
    (hkind : Mod.kind.increment = 1) {k : ℕ} (hk : 0 < k) (nan : NanStrategy) (ks km : Option ℕ)
    (mean : PCorr N B d V → M) (fuel : ℕ) (hfuel : k - 1 ≤ fuel) (ys : List Y) (init : PCorr N B d V)
    (h0 : init.x.time = 0) (ω : Ω) :
    ∃ (states : List (PCorr N B d V)) (ω' : Ω) (rec : FilterOps.Recorded (PCorr N B d V) M),
      (fk.ops Mod).batchFilter ⟨k, false, nan⟩ ks km mean fuel ys init ω =
        some (((init :: states).getLast (by simp)), rec, ω') ∧
      states.length = ys.length ∧
      (∀ n y c, ys[n]? = some y → states[n]? = some c → Observed (fk.ops Mod) (n * k) y c) ∧
      rec.states.items = lastN ks (init :: states) ∧
      rec.moments.items = lastN km ((init :: states).map mean) := by
  obtain ⟨es, ω', hl, hes, hall⟩ := FilterOps.filterAll_spec (ticks fk Mod hkind) hk fuel hfuel ys 0 init ω
    (by simpa [FilterOps.startTime] using h0)
  have hrec : recorded false es = es.map Prod.snd := by
    unfold recorded; induction es with
    | nil => rfl
    | cons a l _ => simp [List.map_eq_flatMap]
  refine ⟨es.map Prod.snd, ω', (init :: recorded false es).foldl (FilterOps.Recorded.append mean)
    ⟨⟨ks, []⟩, ⟨km, []⟩⟩, ?_, by simp [hl], ?_, ?_, ?_⟩
  · unfold FilterOps.batchFilter
    rw [hall false nan]
    simp only [Option.map_some]
    congr 2
    rw [List.getLast_eq_getLastD, List.getLastD_eq_getLast?] 
  · intro n y c hy hc
    rw [List.getElem?_map, Option.map_eq_some_iff] at hc
    obtain ⟨e, he, rfl⟩ := hc
    have := (hes n y e hy he).observed
    simpa using this
  · rw [hrec, FilterOps.foldl_append]
    exact FilterOps.foldl_append_lastN ks _
  · rw [hrec, FilterOps.foldl_append]
    exact FilterOps.foldl_append_lastN km _

example : (walk .bootstrap).kind.increment = 1 ∧ walkInit.x.time = 0 := ⟨rfl, rfl⟩

/-- Without a window there are `1 + T` moments. -/
theorem C23_moment_count {M : Type} (fk : FilterKind) (Mod : ParticleModel N B d V Y Ω)
    (hkind : Mod.kind.increment = 1) {k : ℕ} (hk : 0 < k) (nan : NanStrategy) (ks : Option ℕ)
    (mean : PCorr N B d V → M) (fuel : ℕ) (hfuel : k - 1 ≤ fuel) (ys : List Y) (init : PCorr N B d V)
    (h0 : init.x.time = 0) (ω : Ω) :
    ∃ r, (fk.ops Mod).batchFilter ⟨k, false, nan⟩ ks none mean fuel ys init ω = some r ∧
      r.2.1.moments.items.length = 1 + ys.length := by
  obtain ⟨states, ω', rec, h1, h2, -, -, h5⟩ :=
    C23_one_entry_per_observation fk Mod hkind hk nan ks none mean fuel hfuel ys init h0 ω
  refine ⟨_, h1, ?_⟩
  show rec.moments.items.length = _
  rw [h5]
  simp [lastN, h2]; omega

/-! ## C24 -/

/-- C24: with `observe_every_step = k` every run of a filter whose proposal advances the clock ends
normally, and there is one description of it, the same for both recording options, in which observation
number `n` (counting from 0) is preceded by exactly `k - 1` pure predictions with zero log-likelihood at
consecutive times (none before the first one) and used at latent time `nk`, giving a state at time
`nk + 1`. The pure predictions are recorded iff the option is on. -/
theorem C24_every_kth_step (fk : FilterKind) (Mod : ParticleModel N B d V Y Ω)
    (hkind : Mod.kind.increment = 1) {k : ℕ} (hk : 0 < k) (fuel : ℕ) (hfuel : k - 1 ≤ fuel) (ys : List Y)
    (init : PCorr N B d V) (h0 : init.x.time = 0) (ω : Ω) :
    ∃ (es : List (List (PCorr N B d V) × PCorr N B d V)) (ω' : Ω), es.length = ys.length ∧
      (∀ n y e, ys[n]? = some y → es[n]? = some e →
        MoveOk (fk.ops Mod) (fun c => c.x.time) (fun c => ∀ b, c.ll b = XF.fin 0) k n y e) ∧
      ∀ rec nan, (fk.ops Mod).filterAll ⟨k, rec, nan⟩ fuel ys init ω =
        some (((es.map Prod.snd).getLast?).getD init, recorded rec es, ω') := by
  obtain ⟨es, ω', hl, hes, hall⟩ := FilterOps.filterAll_spec (ticks fk Mod hkind) hk fuel hfuel ys 0 init ω
    (by simpa [FilterOps.startTime] using h0)
  refine ⟨es, ω', hl, fun n y e hy he => ?_, hall⟩
  have := hes n y e hy he
  rwa [Nat.zero_add] at this

example : (walk .linearized).kind.increment = 1 ∧ 0 < 3 ∧ 3 - 1 ≤ 2 ∧ walkInit.x.time = 0 :=
  ⟨rfl, by norm_num, by norm_num, rfl⟩

/-- With intermediary recording the recorded times are `1, 2, …` without gap, up to the time of the last
observation. -/
theorem C24_recorded_times (fk : FilterKind) (Mod : ParticleModel N B d V Y Ω)
    (hkind : Mod.kind.increment = 1) {k : ℕ} (hk : 0 < k) (fuel : ℕ) (hfuel : k - 1 ≤ fuel)
    (nan : NanStrategy) (y : Y) (ys : List Y)
    (init : PCorr N B d V) (h0 : init.x.time = 0) (ω : Ω) :
    ∃ r, (fk.ops Mod).filterAll ⟨k, true, nan⟩ fuel (y :: ys) init ω = some r ∧
      r.2.1.map (fun c => c.x.time) = List.range' 1 (ys.length * k + 1) := by
  obtain ⟨es, ω', hl, hes, hall⟩ :=
    C24_every_kth_step fk Mod hkind hk fuel hfuel (y :: ys) init h0 ω
  refine ⟨_, hall true nan, ?_⟩
  show (recorded true es).map (fun c => c.x.time) = _
  -- one move
  have hmove : ∀ n y e, MoveOk (fk.ops Mod) (fun c => c.x.time) (fun c => ∀ b, c.ll b = XF.fin 0) k n y e →
      (e.1 ++ [e.2]).map (fun c => c.x.time) =
        if n = 0 then [1] else List.range' ((n - 1) * k + 2) k := by
    intro n y e he
    have h1 : e.1.map (fun c => c.x.time) = List.range' ((n - 1) * k + 2) (if n = 0 then 0 else k - 1) := by
      apply List.ext_getElem?
      intro j
      rw [List.getElem?_map]
      by_cases hj : j < e.1.length
      · rw [List.getElem?_eq_getElem hj]
        have := (he.between j _ (List.getElem?_eq_getElem hj)).2.1
        simp only [Option.map_some]
        rw [he.count] at hj
        rw [List.getElem?_range' hj, this]
        simp
      · rw [List.getElem?_eq_none (by omega)]
        rw [he.count] at hj
        rw [List.getElem?_eq_none (by simp only [List.length_range']; omega)]
        rfl
    rw [List.map_append, h1]
    by_cases hn : n = 0
    · subst hn
      have := he.time
      simp at this
      simp [this]
    · have ht := he.time
      simp only [hn, if_false, List.map_cons, List.map_nil, ht]
      obtain ⟨m, rfl⟩ : ∃ m, n = m + 1 := ⟨n - 1, by omega⟩
      obtain ⟨j, rfl⟩ : ∃ j, k = j + 1 := ⟨k - 1, by omega⟩
      rw [List.range'_concat]
      simp [Nat.succ_mul]
      omega
  -- all moves, by induction on the number of them
  have key : ∀ m, m ≤ ys.length → (recorded true (es.take (m + 1))).map (fun c => c.x.time)
      = List.range' 1 (m * k + 1) := by
    intro m
    induction m with
    | zero =>
      intro _
      have h0' : 0 < es.length := by rw [hl]; simp
      have hm := hmove 0 y es[0] (hes 0 y es[0] (by simp) (List.getElem?_eq_getElem h0'))
      rw [List.take_add_one, List.getElem?_eq_getElem h0']
      simp only [recorded, if_true, List.take_zero, List.nil_append, Option.toList_some,
        List.flatMap_cons, List.flatMap_nil, List.append_nil]
      rw [hm]
      simp
    | succ m ih =>
      intro hm
      have hlt : m + 1 < es.length := by rw [hl]; simp; omega
      have hy : (y :: ys)[m + 1]? = some (ys[m]'(by omega)) := by simp
      have h2 := hmove (m + 1) _ es[m + 1] (hes (m + 1) _ _ hy (List.getElem?_eq_getElem hlt))
      rw [List.take_add_one, List.getElem?_eq_getElem hlt]
      have e1 : recorded true (es.take (m + 1) ++ (some es[m + 1]).toList)
          = recorded true (es.take (m + 1)) ++ (es[m + 1].1 ++ [es[m + 1].2]) := by
        simp only [recorded, if_true, List.flatMap_append, Option.toList_some, List.flatMap_cons,
          List.flatMap_nil, List.append_nil]
      rw [e1, List.map_append, ih (by omega), h2]
      simp only [Nat.succ_ne_zero, if_false, Nat.add_sub_cancel]
      rw [show m * k + 2 = 1 + 1 * (m * k + 1) by ring, List.range'_append]
      congr 1
      ring
  have := key ys.length le_rfl
  rwa [List.take_of_length_le (by rw [hl]; simp)] at this

/-! ## C26 -/

/-- C26 in full: with the strategy `impute` a missing observation is replaced by some value that is not
missing, and the returned state is the correction for that value. -/
def C26_claim : Prop :=
  ∀ (N B d : ℕ) (V Y Ω : Type) (fk : FilterKind) (Mod : ParticleModel N B d V Y Ω) (k : ℕ) (rec : Bool)
    (fuel : ℕ) (y : Y) (c : PCorr N B d V) (ω : Ω) (r), Mod.allNan y = true →
    (fk.ops Mod).filter ⟨k, rec, .impute⟩ fuel y c ω = some r →
    ∃ y' p ω', Mod.allNan y' = false ∧ r.1 = ((fk.ops Mod).correct y' p ω').1

/-- The part of C26 that holds, the strategy `skip`: a missing observation gives a pure prediction.
Missing: `impute`, which does the same, see `C26_strategies_agree`. -/
theorem C26_skip_partial (fk : FilterKind) (Mod : ParticleModel N B d V Y Ω) (k : ℕ) (rec : Bool)
    (fuel : ℕ) (y : Y) (c : PCorr N B d V) (ω : Ω) (r) (hy : Mod.allNan y = true)
    (h : (fk.ops Mod).filter ⟨k, rec, .skip⟩ fuel y c ω = some r) :
    ∃ p ω', r.1 = ((fk.ops Mod).propagate p ω').1 := by
  obtain ⟨q, -, h2⟩ := FilterOps.filter_inv _ _ _ _ _ _ _ h
  have : (fk.ops Mod).allNan y = true := hy
  rw [this] at h2
  exact ⟨q.1, q.2.2, h2⟩

/-- Case: a missing observation of `walk`. -/
example : (walk .bootstrap).allNan none = true := rfl

/-- The strategy makes no difference to any filter move, whatever the observation. -/
theorem C26_strategies_agree (fk : FilterKind) (Mod : ParticleModel N B d V Y Ω) (k : ℕ) (rec : Bool)
    (fuel : ℕ) (y : Y) (c : PCorr N B d V) (ω : Ω) :
    (fk.ops Mod).filter ⟨k, rec, .impute⟩ fuel y c ω = (fk.ops Mod).filter ⟨k, rec, .skip⟩ fuel y c ω := rfl

/-- C26 is false: in `walk` every correction has log-likelihood one, the state after a missing observation
has log-likelihood zero. -/
theorem C26_negation : ¬ C26_claim := by
  intro h
  have hstep : ∃ r, ((FilterKind.gpf).ops (walk .bootstrap)).filter ⟨1, false, .impute⟩ 0 none walkInit 0
      = some r ∧ r.1.ll 0 = XF.fin 0 := by
    refine ⟨_, FilterOps.filter_eq _ _ _ _ _ _ (FilterOps.loop_stop _ _ _ _ _ (Nat.mod_one _)), ?_⟩
    rfl
  obtain ⟨r, hr, h0⟩ := hstep
  obtain ⟨y', p, ω', -, hc⟩ := h 1 2 1 ℝ (Option ℝ) ℕ .gpf (walk .bootstrap) 1 false 0 none walkInit 0 r rfl hr
  have h1 : (((FilterKind.gpf).ops (walk .bootstrap)).correct y' p ω').1.ll 0
      = logLikelihood (fun (_ : Fin 1) (_ : Fin 2) => XF.fin 1) none 0 := rfl
  have h2 : logLikelihood (fun (_ : Fin 1) (_ : Fin 2) => XF.fin 1) none 0 = XF.fin 1 := by
    unfold logLikelihood
    have hv : XF.vmax (fun _ : Fin 1 => XF.fin 1) = XF.fin 1 := by simp [XF.vmax, XF.xmax]
    simp only [hv, Finset.univ_unique, Finset.sum_const, Finset.card_singleton, one_smul]
    have hl := XF.log_fin (a := 1) (by norm_num)
    simp [hl]
  rw [hc, h1, h2] at h0
  simp at h0

/-! ## C34 -/

/-- C34 in full: every completed move advances the clock. -/
def C34_claim : Prop :=
  ∀ (N B d : ℕ) (V Y Ω : Type) (fk : FilterKind) (Mod : ParticleModel N B d V Y Ω) (opt : FilterOptions)
    (fuel : ℕ) (y : Y) (c : PCorr N B d V) (ω : Ω) (r),
    (fk.ops Mod).filter opt fuel y c ω = some r → c.x.time < r.1.x.time

/-- C34 where it holds: every filter with a bootstrap, nested, linear, linearised or Gaussian-linear
proposal. Missing: the Gaussian and Gaussian-linearised proposals, for which it is false. -/
theorem C34_advances_partial (fk : FilterKind) (Mod : ParticleModel N B d V Y Ω)
    (hkind : Mod.kind = .bootstrap ∨ Mod.kind = .nested ∨ Mod.kind = .linear ∨ Mod.kind = .linearized ∨
      Mod.kind = .gaussianLinear) (opt : FilterOptions)
    (fuel : ℕ) (y : Y) (c : PCorr N B d V) (ω : Ω) (r)
    (h : (fk.ops Mod).filter opt fuel y c ω = some r) : c.x.time < r.1.x.time := by
  have hinc : Mod.kind.increment = 1 := by
    rcases hkind with h | h | h | h | h <;> rw [h] <;> rfl
  have hT := ticks fk Mod hinc
  obtain ⟨q, h1, h2⟩ := FilterOps.filter_inv _ _ _ _ _ _ _ h
  have h3 := FilterOps.loop_time_le (fk.ops Mod) (fun c => c.x.time) hT.predict hT.propagate _ _ _ _ _ h1
  rw [hT.predict] at h3
  rw [h2]
  split
  · have := hT.propagate q.1 q.2.2
    beta_reduce at this h3
    omega
  · have := hT.correct y q.1 q.2.2
    beta_reduce at this h3
    omega

example : (walk .gaussianLinear).kind = .bootstrap ∨ (walk .gaussianLinear).kind = .nested ∨
    (walk .gaussianLinear).kind = .linear ∨ (walk .gaussianLinear).kind = .linearized ∨
      (walk .gaussianLinear).kind = .gaussianLinear := by simp [walk]

/-- How C34 fails: with the Gaussian proposals (the default of the Gaussian particle filter) the clock
stays at zero for every sequence of observations that are not missing, of any length. -/
theorem C34_clock_stands_still (fk : FilterKind) (Mod : ParticleModel N B d V Y Ω)
    (hkind : Mod.kind = .gaussian ∨ Mod.kind = .gaussianLinearized) (opt : FilterOptions) (fuel : ℕ)
    (ys : List Y) (hys : ∀ y ∈ ys, Mod.allNan y = false) (c : PCorr N B d V) (h0 : c.x.time = 0) (ω : Ω) :
    ∃ r, (fk.ops Mod).filterAll opt fuel ys c ω = some r ∧ r.1.x.time = 0 := by
  have hinc : Mod.kind.increment = 0 := by
    rcases hkind with h | h <;> rw [h] <;> rfl
  induction ys generalizing c ω with
  | nil => exact ⟨(c, [], ω), rfl, h0⟩
  | cons y ys ih =>
    have hp : (fk.ops Mod).time ((fk.ops Mod).predict c ω).1 = 0 := by
      rw [← h0]
      cases fk
      · exact sisrPredict_time Mod c ω
      · rfl
      · rfl
    have hl := FilterOps.loop_stop (fk.ops Mod) opt.observeEveryStep fuel ((fk.ops Mod).predict c ω).1
      ((fk.ops Mod).predict c ω).2 (by rw [hp, Nat.zero_mod])
    have hf := FilterOps.filter_eq (fk.ops Mod) opt fuel y c ω hl
    have hn : (fk.ops Mod).allNan y = false := hys y (by simp)
    rw [hn] at hf
    simp only [Bool.false_eq_true, if_false] at hf
    have ht : ∀ p ω', p.prevX.time = 0 → ((fk.ops Mod).correct y p ω').1.x.time = 0 := by
      intro p ω' hp0
      cases fk
      · show p.prevX.time + Mod.kind.increment = 0
        rw [hp0, hinc]
      · show p.prevX.time + Mod.kind.increment = 0
        rw [hp0, hinc]
      · show p.prevX.time + Mod.kind.increment = 0
        rw [hp0, hinc]
    obtain ⟨r, h1, h2⟩ := ih (fun y' hy' => hys y' (by simp [hy'])) _
      (ht _ ((fk.ops Mod).predict c ω).2 hp)
      ((fk.ops Mod).correct y ((fk.ops Mod).predict c ω).1 ((fk.ops Mod).predict c ω).2).2
    rw [FilterOps.filterAll, hf]
    simp only [h1, Option.map_some]
    exact ⟨_, rfl, h2⟩

example : (walk .gaussian).kind = .gaussian ∧ walkInit.x.time = 0 ∧
    ∀ y ∈ [some (1 : ℝ), some 2], (walk .gaussian).allNan y = false := by
  refine ⟨rfl, rfl, ?_⟩
  intro y hy
  simp at hy
  rcases hy with rfl | rfl <;> rfl

/-- C34 is false. -/
theorem C34_negation : ¬ C34_claim := by
  intro h
  obtain ⟨r, h1, h2⟩ := C34_clock_stands_still .gpf (walk .gaussian) (Or.inl rfl) ⟨1, false, .skip⟩ 0 [some 1]
    (by intro y hy; simp at hy; subst hy; rfl) walkInit rfl 0
  rw [FilterOps.filterAll] at h1
  cases hf : ((FilterKind.gpf).ops (walk .gaussian)).filter ⟨1, false, .skip⟩ 0 (some 1) walkInit 0 with
  | none => rw [hf] at h1; cases h1
  | some q =>
    rw [hf] at h1
    have := h _ _ _ _ _ _ _ _ _ _ _ _ _ _ hf
    simp only [FilterOps.filterAll, Option.map_some] at h1
    cases h1
    simp only at h2
    omega

end Verif.Props
