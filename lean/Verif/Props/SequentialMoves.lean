import Verif.Props.Sequential
import Verif.Props.Pmmh

/-!
# Sequential algorithms: C66–C68
-/

namespace Verif.Props

open Mcmc Seq

variable {P d : ℕ} {Y Ω K V : Type}

/-! ### C66 -/

/-- A slot is the outcome of filtering `ys` with models that are in relation to `θ`. -/
def RanBy (R : Mdl d → Row d → Prop) (θ : Row d) (ys : List Y) (s : Slot d Y Ω) : Prop :=
  Spec.seenData s = ys ∧ ∀ m ∈ Spec.usedModels s, R m θ

theorem ranBy_batchFilter (R : Mdl d → Row d → Prop) (particles : ℕ) (θ : Row d) (m : Mdl d) (hR : R m θ)
    (ys : List Y) (noise : ℕ → Ω) : RanBy R θ ys (batchFilter particles m ys noise) := by
  have key : ∀ (l : List (Y × ℕ)) (s : Slot d Y Ω) (zs : List Y), RanBy R θ zs s →
      RanBy R θ (zs ++ l.map Prod.fst) (l.foldl (fun s y => .step s m y.1 (noise (y.2 + 1))) s) := by
    intro l
    induction l with
    | nil => intro s zs h; simpa using h
    | cons x l ih =>
      intro s zs h
      have := ih (.step s m x.1 (noise (x.2 + 1))) (zs ++ [x.1]) ⟨by
        rw [Spec.seenData, h.1], by
        intro m' hm'
        rw [Spec.usedModels, List.mem_cons] at hm'
        rcases hm' with rfl | hm'
        · exact hR
        · exact h.2 m' hm'⟩
      simpa using this
  have h0 : RanBy R θ ([] : List Y) (.start particles m (noise 0)) := ⟨rfl, by
    intro m' hm'
    rw [Spec.usedModels, List.mem_singleton] at hm'
    rw [hm']
    exact hR⟩
  have := key ys.zipIdx _ [] h0
  simpa [batchFilter] using this

theorem ranBy_runPmmh (R : Mdl d → Row d → Prop) (hR : ∀ θ, R ⟨θ, θ⟩ θ) (env : Env d Y Ω)
    (prop : Proposal P d Y Ω K) (mk : Bool) (rep : Fin P → XF) (c : Chain P d Y Ω K) (ys : List Y) (r : Draws P d Ω)
    (i : Fin P) (h : RanBy R (c.params i) ys (c.res i)) :
    RanBy R ((runPmmh env prop mk rep c ys r).1.params i) ys ((runPmmh env prop mk rep c ys r).1.res i) := by
  have e1 : (runPmmh env prop mk rep c ys r).1.params i =
      if accepted env prop c ys r rep i then r.rvs i else c.params i := rfl
  have e2 : (runPmmh env prop mk rep c ys r).1.res i =
      if accepted env prop c ys r rep i then candidates c.particles ys r i else c.res i := rfl
  rw [e1, e2]
  split_ifs
  · exact ranBy_batchFilter R _ _ _ (hR _) ys _
  · exact h

theorem ranBy_chainAt (R : Mdl d → Row d → Prop) (hR : ∀ θ, R ⟨θ, θ⟩ θ) (env : Env d Y Ω)
    (prop : Proposal P d Y Ω K) (ys : List Y) (draws : ℕ → Draws P d Ω) (c : Chain P d Y Ω K) (k : ℕ)
    (h : ∀ i, RanBy R (c.params i) ys (c.res i)) (i : Fin P) :
    RanBy R ((chainAt env prop ys draws c k).params i) ys ((chainAt env prop ys draws c k).res i) := by
  induction k with
  | zero => exact h i
  | succ k ih => exact ranBy_runPmmh R hR env prop false _ _ ys _ i ih

theorem ranBy_smcUpdate (R : Mdl d → Row d → Prop) (hR : ∀ θ, R ⟨θ, θ⟩ θ) (env : Env d Y Ω)
    (cfg : SmcCfg P d Y Ω K) (k : ℕ) (data : List Y) (sys : Sys P d) (obj : Obj P d Y Ω) (r : StepDraws P d Ω)
    (h : ∀ i, RanBy R (sys.params i) data (obj.res i)) (f : Option (Obj P d Y Ω))
    (hf : (smcUpdate env cfg k data sys obj r).2.2.2.1 = .ok f) (i : Fin P) :
    RanBy R ((smcUpdate env cfg k data sys obj r).2.1.params i) data
        ((f.getD (smcUpdate env cfg k data sys obj r).2.2.1).res i) ∧
      (smcUpdate env cfg k data sys obj r).2.1.built = (smcUpdate env cfg k data sys obj r).2.1.params := by
  obtain ⟨m, -, hp, hr, -⟩ := C65_rejuvenation env cfg k data sys obj r _ rfl
  have hran := ranBy_chainAt R hR env cfg.prop data r.pmmh
    ⟨fun i => sys.params (r.inds i), fun i => obj.res (r.inds i),
      cfg.prop.build sys.params obj.res (normalize1 env.lo obj.w).1, r.subDrawn, r.subDrawn, sys.particles⟩ m
    (fun i => h (r.inds i)) i
  rw [← hp, ← hr] at hran
  revert hf hran
  unfold smcUpdate
  simp only
  split_ifs
  · unfold increaseStates
    simp only
    split_ifs
    · intro hf
      exact nomatch hf
    · intro hf _
      cases hf
      exact ⟨ranBy_batchFilter R _ _ _ (hR _) data _, rfl⟩
  · intro hf hran
    cases hf
    exact ⟨hran, rfl⟩

theorem ranBy_smcStep (R : Mdl d → Row d → Prop) (hR : ∀ θ, R ⟨θ, θ⟩ θ) (env : Env d Y Ω)
    (cfg : SmcCfg P d Y Ω K) (k : ℕ) (sys : Sys P d) (tup : Tup Y V) (obj : Obj P d Y Ω) (y : Y)
    (r : StepDraws P d Ω) (h : ∀ i, RanBy R (sys.params i) tup.data (obj.res i))
    (hb : ∀ i, R ⟨sys.params i, sys.built i⟩ (sys.params i)) (f : Option (Obj P d Y Ω))
    (hf : (smcStep env cfg k sys tup obj y r).ret = .ok f) (i : Fin P) :
    RanBy R ((smcStep env cfg k sys tup obj y r).sys.params i) (tup.data ++ [y])
        ((f.getD (smcStep env cfg k sys tup obj y r).obj).res i) ∧
      R ⟨(smcStep env cfg k sys tup obj y r).sys.params i, (smcStep env cfg k sys tup obj y r).sys.built i⟩
        ((smcStep env cfg k sys tup obj y r).sys.params i) ∧
      ((smcStep env cfg k sys tup obj y r).event ≠ .kept →
        (smcStep env cfg k sys tup obj y r).sys.built = (smcStep env cfg k sys tup obj y r).sys.params) := by
  have hfil : ∀ i, RanBy R (sys.params i) (tup.data ++ [y])
      ((filterAppend env sys { tup with data := tup.data ++ [y] } obj y r.noise).2.res i) := by
    intro i
    refine ⟨?_, ?_⟩
    · show Spec.seenData (.step (obj.res i) _ y _) = _
      rw [Spec.seenData, (h i).1]
    · intro m hm
      replace hm : m ∈ Spec.usedModels (.step (obj.res i) ⟨sys.params i, sys.built i⟩ y (r.noise i)) := hm
      rw [Spec.usedModels, List.mem_cons] at hm
      rcases hm with rfl | hm
      · exact hb i
      · exact (h i).2 m hm
  revert hf
  unfold smcStep
  simp only
  split_ifs
  · intro hf
    have := ranBy_smcUpdate R hR env cfg k
      (filterAppend env sys { tup with data := tup.data ++ [y] } obj y r.noise).1.data sys _ r hfil f hf i
    refine ⟨this.1, ?_, fun _ => this.2⟩
    simp only
    rw [this.2]
    exact hR _
  · intro hf
    cases hf
    exact ⟨hfil i, hb i, fun h => (h rfl).elim⟩

theorem ranBy_run [NeZero P] (R : Mdl d → Row d → Prop) (hR : ∀ θ, R ⟨θ, θ⟩ θ) (env : Env d Y Ω)
    (cbs : List (Callback P d Y Ω V)) (hb : ∀ cb ∈ cbs, Benign cb) (cfg : SmcCfg P d Y Ω K) (particles : ℕ)
    (drawn : Fin P → Row d) (quasi : Option (Fin P → Row d)) (noise : Fin P → Ω)
    (h0 : ∀ i, R ⟨(quasi.getD drawn) i, drawn i⟩ ((quasi.getD drawn) i)) (xs : List (Y × StepDraws P d Ω))
    (h : (run env cbs (init env (.smc2 cfg 0) particles drawn quasi noise) xs).2.2.2 = none) :
    let s := (run env cbs (init env (.smc2 cfg 0) particles drawn quasi noise) xs).1
    ∀ i, RanBy R (s.sys.params i) (xs.map Prod.fst) (s.obj.res i) ∧ R ⟨s.sys.params i, s.sys.built i⟩ (s.sys.params i) := by
  intro s
  refine (run_induction env cbs (fun xs s => (∃ k, s.algo = .smc2 cfg k) ∧ s.tup.data = xs.map Prod.fst ∧
    ∀ i, RanBy R (s.sys.params i) (xs.map Prod.fst) (s.obj.res i) ∧ R ⟨s.sys.params i, s.sys.built i⟩ (s.sys.params i))
    _ ⟨⟨0, rfl⟩, rfl, fun i => ⟨⟨rfl, ?_⟩, h0 i⟩⟩ ?_ xs h).2.2
  · intro m hm
    replace hm : m ∈ Spec.usedModels (.start particles ⟨(quasi.getD drawn) i, drawn i⟩ (noise i) : Slot d Y Ω) := hm
    rw [Spec.usedModels, List.mem_singleton] at hm
    rw [hm]
    exact h0 i
  · intro xs s y r ⟨⟨k, hk⟩, hd, hq⟩ he
    have hdata : (step env cbs s y r).state.tup.data = (xs ++ [(y, r)]).map Prod.fst ∧
        ∀ i, RanBy R ((step env cbs s y r).state.sys.params i) ((xs ++ [(y, r)]).map Prod.fst)
            ((step env cbs s y r).state.obj.res i) ∧
          R ⟨(step env cbs s y r).state.sys.params i, (step env cbs s y r).state.sys.built i⟩
            ((step env cbs s y r).state.sys.params i) := by
      cases hret : (s.algo.step_ env s.sys s.tup s.obj y r).ret with
      | error e =>
        rw [step_of_error env cbs s y r e hret] at he
        exact nomatch he
      | ok f =>
        rw [step_of_ok env cbs s y r f hret]
        simp only
        have hc := runCallbacks_benign cbs hb (s.algo.step_ env s.sys s.tup s.obj y r).sys y
          (s.algo.step_ env s.sys s.tup s.obj y r).tup (s.algo.step_ env s.sys s.tup s.obj y r).obj
        have hst := ranBy_smcStep R hR env cfg k s.sys s.tup s.obj y r
          (by rw [hd]; exact fun i => (hq i).1) (fun i => (hq i).2) f
          (by rw [hk, Algo.step_] at hret; exact hret)
        refine ⟨?_, fun i => ?_⟩
        · rw [hc.2.1, hk, Algo.step_, smcStep_data, hd, List.map_append, List.map_cons, List.map_nil]
        · have e : (f.getD (runCallbacks (s.algo.step_ env s.sys s.tup s.obj y r).sys y cbs
              (s.algo.step_ env s.sys s.tup s.obj y r).tup (s.algo.step_ env s.sys s.tup s.obj y r).obj).2.2).res =
              (f.getD (s.algo.step_ env s.sys s.tup s.obj y r).obj).res := by
            cases f with
            | none => exact hc.2.2.2.2
            | some o => rfl
          rw [e, hk, Algo.step_, List.map_append, ← hd]
          exact ⟨(hst i).1, (hst i).2.1⟩
    exact ⟨smc_run_algo env cbs cfg s k hk y r, hdata⟩

/-- What is claimed, for any context: at every time each slot of the filter result belongs to the parameters in that
slot and to all observations so far, and the model is built from the current parameters. -/
def C66_claim : Prop :=
  (∀ (P d : ℕ) (_ : NeZero P) (Y Ω K V : Type) (env : Env d Y Ω) (cfg : SmcCfg P d Y Ω K) (particles : ℕ)
    (drawn : Fin P → Row d) (quasi : Option (Fin P → Row d)) (noise : Fin P → Ω) (xs : List (Y × StepDraws P d Ω)),
    let a := run env ([] : List (Callback P d Y Ω V)) (init env (.smc2 cfg 0) particles drawn quasi noise) xs
    a.2.2.2 = none → ∀ i, Spec.RanWith (a.1.sys.params i) (xs.map Prod.fst) (a.1.obj.res i) ∧
      a.1.sys.built i = a.1.sys.params i) ∧
  ∀ (P d : ℕ) (Y Ω K Name V : Type) (env : Env d Y Ω) (prop : Proposal P d Y Ω K) (get : Name → Row d → V)
    (particles : ℕ) (ys : List Y) (drawn : Fin P → Row d) (mean : Row d) (noise : Fin P → ℕ → Ω)
    (subDrawn : Fin P → Row d) (rs : List (Draws P d Ω)) (i : Fin P),
    let f := fitLoop env prop get ys (fitInit prop get particles ys drawn mean noise subDrawn) rs
    Spec.RanWith (f.chain.params i) ys (f.chain.res i)

/-- SMC2 with a context that is not quasi-random. -/
theorem C66_smc2_partial [NeZero P] (env : Env d Y Ω) (cbs : List (Callback P d Y Ω V)) (hb : ∀ cb ∈ cbs, Benign cb)
    (cfg : SmcCfg P d Y Ω K) (particles : ℕ) (drawn : Fin P → Row d) (noise : Fin P → Ω)
    (xs : List (Y × StepDraws P d Ω))
    (h : (run env cbs (init env (.smc2 cfg 0) particles drawn none noise) xs).2.2.2 = none) :
    let s := (run env cbs (init env (.smc2 cfg 0) particles drawn none noise) xs).1
    ∀ i, Spec.RanWith (s.sys.params i) (xs.map Prod.fst) (s.obj.res i) ∧ s.sys.built i = s.sys.params i := by
  intro s i
  have := ranBy_run (fun m θ => m = ⟨θ, θ⟩) (fun _ => rfl) env cbs hb cfg particles drawn none noise
    (fun _ => rfl) xs h i
  exact ⟨this.1, (Mdl.mk.injEq _ _ _ _ ▸ this.2).2⟩

/-- SMC2 with any context: the data and the live parameters always agree. -/
theorem C66_live_partial [NeZero P] (env : Env d Y Ω) (cbs : List (Callback P d Y Ω V)) (hb : ∀ cb ∈ cbs, Benign cb)
    (cfg : SmcCfg P d Y Ω K) (particles : ℕ) (drawn : Fin P → Row d) (quasi : Option (Fin P → Row d))
    (noise : Fin P → Ω) (xs : List (Y × StepDraws P d Ω))
    (h : (run env cbs (init env (.smc2 cfg 0) particles drawn quasi noise) xs).2.2.2 = none) :
    let s := (run env cbs (init env (.smc2 cfg 0) particles drawn quasi noise) xs).1
    ∀ i, Spec.RanLive (s.sys.params i) (xs.map Prod.fst) (s.obj.res i) := fun i =>
  (ranBy_run (fun m θ => m.live = θ) (fun _ => rfl) env cbs hb cfg particles drawn quasi noise
    (fun _ => rfl) xs h i).1

/-- PMMH: a slot is right as soon as it has accepted a candidate; until then it is in its initial state. -/
theorem C66_pmmh_partial {Name : Type} (env : Env d Y Ω) (prop : Proposal P d Y Ω K) (get : Name → Row d → V)
    (particles : ℕ) (ys : List Y) (drawn : Fin P → Row d) (mean : Row d) (noise : Fin P → ℕ → Ω)
    (subDrawn : Fin P → Row d) (rs : List (Draws P d Ω)) (i : Fin P) :
    let f := fitLoop env prop get ys (fitInit prop get particles ys drawn mean noise subDrawn) rs
    Spec.RanWith (f.chain.params i) ys (f.chain.res i) ∨
      (f.chain.params i = mean ∧ f.chain.res i = batchFilter particles ⟨mean, drawn i⟩ ys (noise i)) := by
  intro f
  induction rs using List.reverseRecOn with
  | nil => exact Or.inr ⟨rfl, rfl⟩
  | append_singleton rs r ih =>
    have hf : f.chain = (runPmmh env prop true (fun _ => 0) (fitLoop env prop get ys
      (fitInit prop get particles ys drawn mean noise subDrawn) rs).chain ys r).1 := by
      simp only [f, fitLoop_concat]
      rfl
    rw [hf]
    simp only at ih
    generalize (fitLoop env prop get ys
      (fitInit prop get particles ys drawn mean noise subDrawn) rs).chain = c at ih
    rcases ih with h | h
    · exact Or.inl (ranBy_runPmmh (fun m θ => m = ⟨θ, θ⟩) (fun _ => rfl) env prop true _ c ys r i h)
    · have e1 : (runPmmh env prop true (fun _ => 0) c ys r).1.params i =
          if accepted env prop c ys r (fun _ => 0) i then r.rvs i else c.params i := rfl
      have e2 : (runPmmh env prop true (fun _ => 0) c ys r).1.res i =
          if accepted env prop c ys r (fun _ => 0) i then candidates c.particles ys r i else c.res i := rfl
      rw [e1, e2]
      split_ifs
      · exact Or.inl (ranBy_batchFilter (fun m θ => m = ⟨θ, θ⟩) _ _ _ rfl ys _)
      · exact Or.inr h

/-- PMMH with one observation and no iterations: the filter has been run with a model built from the parameters
that were drawn first, not from their means. -/
theorem C66_pmmh_initial :
    ¬ Spec.RanWith (fun _ : Fin 1 => (0 : ℝ)) [3]
      ((fitLoop oneEnv ⟨fun _ _ _ => (), fun _ _ _ => .fin 0, fun _ _ _ => ()⟩ (fun (_ : Unit) θ => θ 0) [3]
        (fitInit ⟨fun _ _ _ => (), fun _ _ _ => .fin 0, fun _ _ _ => ()⟩ (fun (_ : Unit) θ => θ 0) 10 [3]
          (fun _ _ => 4) (fun _ => 0) (fun _ _ => ()) fun _ _ => 0 : Fit 1 1 ℕ Unit Unit Unit ℝ) []).chain.res 0) := by
  rintro ⟨-, h⟩
  have := h ⟨fun _ => 0, fun _ => 4⟩ (by
    show _ ∈ Spec.usedModels (batchFilter 10 (⟨fun _ => 0, fun _ => 4⟩ : Mdl 1) [3] fun _ => ())
    simp [batchFilter, Spec.usedModels])
  have := congrFun (congrArg Mdl.built this) 0
  norm_num at this

/-- SMC2 with a quasi-random context, before the first observation: the model has been built from parameters that
have since been replaced. -/
theorem C66_quasi_initial :
    (run oneEnv ([] : List (Callback 2 1 ℕ Unit Unit)) (init oneEnv (.smc2 demoSmc 0) 10 (fun _ _ => 4)
      (some fun _ _ => 5) fun _ => ()) []).1.sys.built 0 ≠
    (run oneEnv ([] : List (Callback 2 1 ℕ Unit Unit)) (init oneEnv (.smc2 demoSmc 0) 10 (fun _ _ => 4)
      (some fun _ _ => 5) fun _ => ()) []).1.sys.params 0 := by
  intro h
  have := congrFun h 0
  simp [run, init] at this

theorem C66_negation : ¬ C66_claim := by
  rintro ⟨-, h⟩
  exact C66_pmmh_initial (h 1 1 ℕ Unit Unit Unit ℝ oneEnv ⟨fun _ _ _ => (), fun _ _ _ => .fin 0, fun _ _ _ => ()⟩
    (fun _ θ => θ 0) 10 [3] (fun _ _ => 4) (fun _ => 0) (fun _ _ => ()) (fun _ _ => 0) [] 0)

/-- A case: three observations with particle increases. -/
example : let s := (run nanEnv ([] : List (Callback 2 1 ℕ Unit Unit)) (init nanEnv (.smc2 demoSmc 0) 10
      (fun i _ => (i : ℕ)) none fun _ => ()) [(7, demoStepDraws), (8, demoStepDraws), (9, demoStepDraws)]).1
    ∀ i, Spec.RanWith (s.sys.params i) [7, 8, 9] (s.obj.res i) ∧ s.sys.built i = s.sys.params i :=
  C66_smc2_partial nanEnv [] (by simp) demoSmc 10 _ _ _
    (C64_first_observations nanEnv [] demoSmc 10 _ none _ _ (by simp [demoSmc]))

/-! ### C67 -/

/-- What is claimed of a step: every callback is called once, in order, and is given the state object that the
step returns. -/
def C67_claim : Prop :=
  ∀ (P d : ℕ) (_ : NeZero P) (Y Ω K V : Type) (env : Env d Y Ω) (cbs : List (Callback P d Y Ω V))
    (s : State P d Y Ω K V) (y : Y) (r : StepDraws P d Ω), (∀ cb ∈ cbs, Benign cb) → (step env cbs s y r).err = none →
    (step env cbs s y r).calls.map (fun c => (c.name, c.y, c.seen.id)) =
      cbs.map fun cb => (cb.name, y, (step env cbs s y r).state.obj.id)

theorem runCallbacks_calls (cbs : List (Callback P d Y Ω V)) (sys : Sys P d) (y : Y) (tup : Tup Y V)
    (obj : Obj P d Y Ω) :
    (runCallbacks sys y cbs tup obj).1.map (fun c => (c.name, c.y)) = cbs.map fun cb => (cb.name, y) := by
  induction cbs generalizing tup obj with
  | nil => rfl
  | cons cb cbs ih =>
    simp only [runCallbacks, List.map_cons, ih]

theorem runCallbacks_seen (cbs : List (Callback P d Y Ω V)) (hb : ∀ cb ∈ cbs, Benign cb) (sys : Sys P d) (y : Y)
    (tup : Tup Y V) (obj : Obj P d Y Ω) :
    ∀ c ∈ (runCallbacks sys y cbs tup obj).1, c.seen.id = obj.id ∧ c.seen.iter = obj.iter := by
  induction cbs generalizing tup obj with
  | nil => simp [runCallbacks]
  | cons cb cbs ih =>
    intro c hc
    simp only [runCallbacks, List.mem_cons] at hc
    have hcb := hb cb (List.mem_cons_self ..)
    rcases hc with rfl | hc
    · exact ⟨rfl, rfl⟩
    · have := ih (fun c hc => hb c (List.mem_cons_of_mem _ hc)) _ _ c hc
      rw [hcb.id, hcb.iter] at this
      exact this

/-- In a run every callback is called exactly once for each observation that was processed without an exception,
in the order of the observations and then of the callbacks. -/
theorem C67_once_partial [NeZero P] (env : Env d Y Ω) (cbs : List (Callback P d Y Ω V)) (s : State P d Y Ω K V)
    (xs : List (Y × StepDraws P d Ω)) :
    let a := run env cbs s xs
    a.2.1.map (fun c => (c.name, c.y)) =
      (xs.take (if a.2.2.2 = none then xs.length else a.2.2.1.length - 1)).flatMap
        fun x => cbs.map fun cb => (cb.name, x.1) := by
  intro a
  simp only [a]
  induction xs generalizing s with
  | nil => simp [run]
  | cons x xs ih =>
    obtain ⟨y, r⟩ := x
    rw [run]
    simp only
    have hcalls : (step env cbs s y r).err = none →
        (step env cbs s y r).calls.map (fun c => (c.name, c.y)) = cbs.map fun cb => (cb.name, y) := by
      intro he
      cases hret : (s.algo.step_ env s.sys s.tup s.obj y r).ret with
      | error e =>
        rw [step_of_error env cbs s y r e hret] at he
        exact nomatch he
      | ok f =>
        rw [step_of_ok env cbs s y r f hret]
        exact runCallbacks_calls ..
    have hnone : ∀ e, (step env cbs s y r).err = some e → (step env cbs s y r).calls = [] := by
      intro e he
      cases hret : (s.algo.step_ env s.sys s.tup s.obj y r).ret with
      | error e => rw [step_of_error env cbs s y r e hret]
      | ok f =>
        rw [step_of_ok env cbs s y r f hret] at he
        exact nomatch he
    cases he : (step env cbs s y r).err with
    | some e =>
      simp [hnone e he]
    | none =>
      simp only [List.map_append, hcalls he, ih]
      cases hr : (run env cbs (step env cbs s y r).state xs).2.2.2 with
      | none => simp
      | some e =>
        simp only [reduceCtorEq, if_false, List.length_cons, Nat.add_sub_cancel]
        have hpos : 0 < (run env cbs (step env cbs s y r).state xs).2.2.1.length := by
          cases xs with
          | nil => exact nomatch hr
          | cons x xs =>
            rw [run]
            simp only
            cases (step env cbs (step env cbs s y r).state x.1 x.2).err <;> simp
        obtain ⟨n, hn⟩ : ∃ n, (run env cbs (step env cbs s y r).state xs).2.2.1.length = n + 1 :=
          ⟨_, (Nat.succ_pred_eq_of_pos hpos).symm⟩
        rw [hn]
        simp

/-- The callbacks are given the object that was passed to the step. The step returns that object unless the state
particles were increased; then it returns a new one. Its iteration counter has not been increased yet. -/
theorem C67_seen_partial [NeZero P] (env : Env d Y Ω) (cbs : List (Callback P d Y Ω V)) (hb : ∀ cb ∈ cbs, Benign cb)
    (s : State P d Y Ω K V) (y : Y) (r : StepDraws P d Ω) (h : (step env cbs s y r).err = none) :
    (∀ c ∈ (step env cbs s y r).calls, c.seen.id = s.obj.id ∧
      c.seen.iter + 1 = (step env cbs s y r).state.obj.iter) ∧
    ((step env cbs s y r).event ≠ .increased → (step env cbs s y r).state.obj.id = s.obj.id) ∧
    ((step env cbs s y r).event = .increased → (step env cbs s y r).state.obj.id = s.obj.id + 1) := by
  have hi := (step_iter env cbs hb s y r h).1
  cases hret : (s.algo.step_ env s.sys s.tup s.obj y r).ret with
  | error e =>
    rw [step_of_error env cbs s y r e hret] at h
    exact nomatch h
  | ok f =>
    have hk := step_kept env s.algo s.sys s.tup s.obj y r f hret
    rw [hi]
    rw [step_of_ok env cbs s y r f hret]
    simp only
    have hc := runCallbacks_benign cbs hb (s.algo.step_ env s.sys s.tup s.obj y r).sys y
      (s.algo.step_ env s.sys s.tup s.obj y r).tup (s.algo.step_ env s.sys s.tup s.obj y r).obj
    refine ⟨?_, ?_, ?_⟩
    · intro c hc'
      have := runCallbacks_seen cbs hb _ _ _ _ c hc'
      rw [hk.id, hk.iter] at this
      exact ⟨this.1, by rw [this.2]⟩
    · intro he
      cases f with
      | none => simp only [Option.getD_none, hc.2.2.2.1, hk.id]
      | some o => exact (he (hk.freshEvent.1 rfl)).elim
    · intro he
      cases f with
      | none =>
        have := hk.freshEvent.2 he
        simp at this
      | some o => exact (hk.freshIter o rfl).2

/-- Registration keeps the first occurrence of every callback, in order, and ignores `None`. -/
theorem C67_registered (opts : List (Option (Callback P d Y Ω V))) :
    (opts.foldl register []).map Callback.name = Spec.firsts ((opts.filterMap id).map Callback.name) := by
  have key : ∀ (opts : List (Option (Callback P d Y Ω V))) (cbs : List (Callback P d Y Ω V)),
      (opts.foldl register cbs).map Callback.name = cbs.map Callback.name ++
        (Spec.firsts ((opts.filterMap id).map Callback.name)).filter (· ∉ cbs.map Callback.name) := by
    intro opts
    induction opts with
    | nil => intro cbs; simp [Spec.firsts]
    | cons o opts ih =>
      intro cbs
      rw [List.foldl_cons, ih]
      cases o with
      | none => rfl
      | some cb =>
        simp only [List.filterMap_cons, id, List.map_cons, Spec.firsts, register]
        split_ifs with hm
        · rw [List.filter_cons_of_neg (by simpa using hm), List.filter_filter]
          congr 1
          apply List.filter_congr
          intro a _
          by_cases ha : a ∈ cbs.map Callback.name
          · simp [ha]
          · have : a ≠ cb.name := fun h => ha (h ▸ hm)
            simp [ha, this]
        · rw [List.filter_cons_of_pos (by simpa using hm), List.filter_filter, List.map_append, List.append_assoc]
          congr 1
          simp only [List.map_cons, List.map_nil, List.cons_append, List.nil_append, List.cons.injEq, true_and]
          apply List.filter_congr
          intro a _
          generalize cbs.map Callback.name = l
          have e : (a ∉ l ++ [cb.name]) ↔ (a ∉ l ∧ a ≠ cb.name) := by simp [List.mem_append, not_or]
          simp only [e, Bool.decide_and]
  simpa using key opts []

/-- A callback that only watches. -/
def watcher (n : ℕ) : Callback 2 1 ℕ Unit Unit := ⟨n, fun _ _ t o => (t, o)⟩

theorem watcher_benign (n : ℕ) : Benign (watcher n) :=
  ⟨fun _ _ _ _ => rfl, fun _ _ _ _ => rfl, fun _ _ _ _ => rfl, fun _ _ _ _ => rfl, fun _ _ _ _ => rfl⟩

theorem nan_step_ok :
    (step nanEnv [watcher 3] (init nanEnv (.smc2 demoSmc 0) 10 (fun i _ => (i : ℕ)) none fun _ => ()) 7
      demoStepDraws).err = none ∧
    (step nanEnv [watcher 3] (init nanEnv (.smc2 demoSmc 0) 10 (fun i _ => (i : ℕ)) none fun _ => ()) 7
      demoStepDraws).event = .increased := by
  have he : (step nanEnv [watcher 3] (init nanEnv (.smc2 demoSmc 0) 10 (fun i _ => (i : ℕ)) none fun _ => ()) 7
      demoStepDraws).event = .increased := by
    set s : State 2 1 ℕ Unit Unit Unit := init nanEnv (.smc2 demoSmc 0) 10 (fun i _ => (i : ℕ)) none fun _ => ()
    have e : (s.algo.step_ nanEnv s.sys s.tup s.obj 7 demoStepDraws).event = .increased := by
      rw [show s.algo = .smc2 demoSmc 0 from rfl, Algo.step_]
      exact nan_increases demoSmc (by simp [demoSmc]) (by simp [demoSmc]) 0 _ _ _ _ _
    cases hret : (s.algo.step_ nanEnv s.sys s.tup s.obj 7 demoStepDraws).ret with
    | error er => rw [step_of_error nanEnv _ s 7 demoStepDraws er hret]; exact e
    | ok f => rw [step_of_ok nanEnv _ s 7 demoStepDraws f hret]; exact e
  refine ⟨?_, he⟩
  rcases smc_step_count nanEnv [watcher 3] demoSmc
      (init nanEnv (.smc2 demoSmc 0) 10 (fun i _ => (i : ℕ)) none fun _ => ()) 0 rfl 7 demoStepDraws with h | h | h
  · exact h.2.2.2
  · exact h.2.2.2.2
  · exact absurd h.2.1 (by simp [demoSmc])

/-- When SMC2 increases the state particles, callbacks are given the discarded state. -/
theorem C67_negation : ¬ C67_claim := by
  intro h
  have h := h 2 1 inferInstance ℕ Unit Unit Unit nanEnv [watcher 3]
    (init nanEnv (.smc2 demoSmc 0) 10 (fun i _ => (i : ℕ)) none fun _ => ()) 7 demoStepDraws
    (by simpa using watcher_benign 3) nan_step_ok.1
  have hs := C67_seen_partial nanEnv [watcher 3] (by simpa using watcher_benign 3)
    (init nanEnv (.smc2 demoSmc 0) 10 (fun i _ => (i : ℕ)) none fun _ => ()) 7 demoStepDraws nan_step_ok.1
  rw [hs.2.2 nan_step_ok.2] at h
  have hm : (3, 7, (init nanEnv (.smc2 demoSmc 0) 10 (fun i _ => (i : ℕ)) none fun _ => () :
      State 2 1 ℕ Unit Unit Unit).obj.id + 1) ∈ [watcher 3].map fun cb =>
        (cb.name, 7, (init nanEnv (.smc2 demoSmc 0) 10 (fun i _ => (i : ℕ)) none fun _ => () :
          State 2 1 ℕ Unit Unit Unit).obj.id + 1) := by
    simp [watcher]
  rw [← h, List.mem_map] at hm
  obtain ⟨c, hc, he⟩ := hm
  have := (hs.1 c hc).1
  simp only [Prod.mk.injEq] at he
  omega

/-- Registration of two callbacks, one of them twice, and `None`. -/
example : ([some (watcher 1), none, some (watcher 2), some (watcher 1)].foldl register []).map Callback.name =
    [1, 2] := by
  rw [C67_registered]
  rfl

/-! ### C68 -/

/-- Whether the algorithm that acts at iteration `n` updates its particles before it filters the observation (the
online algorithms) or after it (SMC2). -/
def updatesFirst : Algo P d Y Ω K → ℕ → Bool
  | .ness _ _, _ => true
  | .fixed _ _ _, _ => true
  | .smc2 _ _, _ => false
  | .combined sw switched a b, n =>
    if !switched && decide ((n : ℤ) ≤ sw) then updatesFirst a n else updatesFirst b n

/-- A callback that leaves finite weights alone (it may clean others in place, as `normalized_weights` does). -/
def KeepsFinite (cb : Callback P d Y Ω V) : Prop :=
  ∀ sys y t o i, (o.w i).IsFinite → (cb.act sys y t o).2.w i = o.w i

/-- The weight of slot `i` after the run of `xs` from `s`, all of whose events are `kept`, is `base` plus the
log-likelihoods of the last `n` steps. -/
def AddsUp [NeZero P] (env : Env d Y Ω) (cbs : List (Callback P d Y Ω V)) (s : State P d Y Ω K V)
    (xs : List (Y × StepDraws P d Ω)) (i : Fin P) (base : XF) (n : ℕ) : Prop :=
  (run env cbs s xs).1.obj.w i = base + (Spec.recentIncs env n ((run env cbs s xs).1.obj.res i)).sum

/-- What is claimed, about the observations before the first rejuvenation and about those after one. -/
def C68_claim : Prop :=
  ∀ (P d : ℕ) (_ : NeZero P) (Y Ω K V : Type) (env : Env d Y Ω) (algo : Algo P d Y Ω K) (particles : ℕ)
    (drawn : Fin P → Row d) (noise : Fin P → Ω) (pre : List (Y × StepDraws P d Ω)) (i : Fin P),
    let a := run env ([] : List (Callback P d Y Ω V)) (init env algo particles drawn none noise) pre
    a.2.2.2 = none →
    ((∀ e ∈ a.2.2.1, e = .kept) → AddsUp env [] (init env algo particles drawn none noise : State P d Y Ω K V) pre i 0 pre.length) ∧
    ∀ (y : Y) (r : StepDraws P d Ω) (post : List (Y × StepDraws P d Ω)),
      let out := a.1.algo.step_ env a.1.sys a.1.tup a.1.obj y r
      let b := step env [] a.1 y r
      b.err = none → (run env [] b.state post).2.2.2 = none → (∀ e ∈ (run env [] b.state post).2.2.1, e = .kept) →
      (b.event = .updated → updatesFirst a.1.algo a.1.obj.iter = true →
        AddsUp env [] b.state post i 0 (post.length + 1)) ∧
      (b.event = .updated → updatesFirst a.1.algo a.1.obj.iter = false → AddsUp env [] b.state post i 0 post.length) ∧
      (b.event = .increased →
        AddsUp env [] b.state post i (env.loglik (b.state.obj.res i) - env.loglik (out.obj.res i)) post.length)

theorem nanToNum_finite (lo : ℝ) (x : XF) (h : x.IsFinite) : nanToNum lo x = x := by
  cases x <;> first | rfl | exact h.elim

theorem isFinite_add (a b : XF) (ha : a.IsFinite) (hb : b.IsFinite) : (a + b).IsFinite := by
  cases a <;> cases b <;> first | exact ha.elim | exact hb.elim | trivial

/-- What a step without exception does to weights and filter results. -/
structure Weighs (env : Env d Y Ω) (first : Bool) (obj : Obj P d Y Ω) (y : Y) (out : Out P d Y Ω K V)
    (f : Option (Obj P d Y Ω)) : Prop where
  kept : out.event = .kept → ∀ i, ∃ m o, out.obj.res i = .step (obj.res i) m y o ∧
    out.obj.w i = nanToNum env.lo (obj.w i + env.inc (obj.res i) m y o)
  before : out.event = .updated → first = true → ∀ i, ∃ s m o, out.obj.res i = .step s m y o ∧
    out.obj.w i = nanToNum env.lo (env.inc s m y o)
  after : out.event = .updated → first = false → ∀ i, out.obj.w i = 0
  more : out.event = .increased → ∃ n, f = some n ∧
    ∀ i, n.w i = nanToNum env.lo (env.loglik (n.res i) - env.loglik (out.obj.res i))
  same : out.event ≠ .increased → f = none

theorem onlineStep_weighs [NeZero P] (env : Env d Y Ω) (cfg : OnlineCfg d) (algo : Algo P d Y Ω K) (b : Bool)
    (sys : Sys P d) (tup : Tup Y V) (obj : Obj P d Y Ω) (y : Y) (r : StepDraws P d Ω)
    (f : Option (Obj P d Y Ω)) (h : (onlineStep env cfg algo b sys tup obj y r).ret = .ok f) :
    Weighs env true obj y (onlineStep env cfg algo b sys tup obj y r) f := by
  unfold onlineStep at h ⊢
  cases b with
  | false =>
    simp only [Bool.false_eq_true, if_false] at h ⊢
    cases h
    exact ⟨fun _ i => ⟨_, _, rfl, rfl⟩, nofun, nofun, nofun, fun _ => rfl⟩
  | true =>
    simp only [if_true] at h ⊢
    have hw : (onlineUpdate env cfg sys obj r).2.2 = none → ∀ i, (onlineUpdate env cfg sys obj r).2.1.w i = 0 := by
      unfold onlineUpdate
      simp only
      split
      · exact nofun
      · exact fun _ _ => rfl
    rcases hu : onlineUpdate env cfg sys obj r with ⟨sys', obj', e⟩
    rw [hu] at h hw
    simp only at h hw
    cases e with
    | some e => exact nomatch h
    | none =>
      cases h
      refine ⟨nofun, fun _ _ i => ⟨_, _, _, rfl, ?_⟩, nofun, nofun, fun _ => rfl⟩
      show nanToNum env.lo (obj'.w i + _) = _
      rw [hw rfl i, zero_add]
      rfl

theorem smcStep_weighs (env : Env d Y Ω) (cfg : SmcCfg P d Y Ω K) (k : ℕ) (sys : Sys P d) (tup : Tup Y V)
    (obj : Obj P d Y Ω) (y : Y) (r : StepDraws P d Ω) (f : Option (Obj P d Y Ω))
    (h : (smcStep env cfg k sys tup obj y r).ret = .ok f) :
    Weighs env false obj y (smcStep env cfg k sys tup obj y r) f := by
  revert h
  unfold smcStep
  simp only
  split_ifs
  · unfold smcUpdate
    simp only
    split_ifs
    · unfold increaseStates
      simp only
      split_ifs
      · exact nofun
      · intro h
        cases h
        exact ⟨nofun, nofun, nofun, fun _ => ⟨_, rfl, fun i => rfl⟩, fun h => (h rfl).elim⟩
    · intro h
      cases h
      exact ⟨nofun, nofun, fun _ _ _ => rfl, nofun, fun _ => rfl⟩
  · intro h
    cases h
    exact ⟨fun _ i => ⟨_, _, rfl, rfl⟩, nofun, nofun, nofun, fun _ => rfl⟩

theorem step_weighs [NeZero P] (env : Env d Y Ω) (algo : Algo P d Y Ω K) (sys : Sys P d) (tup : Tup Y V)
    (obj : Obj P d Y Ω) (y : Y) (r : StepDraws P d Ω) (f : Option (Obj P d Y Ω))
    (h : (algo.step_ env sys tup obj y r).ret = .ok f) :
    Weighs env (updatesFirst algo obj.iter) obj y (algo.step_ env sys tup obj y r) f := by
  induction algo with
  | ness t cfg =>
    rw [Algo.step_] at h ⊢
    exact onlineStep_weighs _ _ _ _ _ _ _ _ _ _ h
  | fixed bl count cfg =>
    rw [Algo.step_] at h ⊢
    split_ifs at h ⊢
    exact onlineStep_weighs _ _ _ _ _ _ _ _ _ _ h
  | smc2 cfg k =>
    rw [Algo.step_] at h ⊢
    exact smcStep_weighs _ _ _ _ _ _ _ _ _ h
  | combined sw switched a b iha ihb =>
    rw [Algo.step_] at h ⊢
    rw [updatesFirst]
    split_ifs at h ⊢
    · have := iha h
      exact ⟨this.kept, this.before, this.after, this.more, this.same⟩
    · have := ihb h
      exact ⟨this.kept, this.before, this.after, this.more, this.same⟩

theorem runCallbacks_finite (cbs : List (Callback P d Y Ω V)) (h : ∀ cb ∈ cbs, KeepsFinite cb) (sys : Sys P d) (y : Y)
    (tup : Tup Y V) (obj : Obj P d Y Ω) (i : Fin P) (hf : (obj.w i).IsFinite) :
    (runCallbacks sys y cbs tup obj).2.2.w i = obj.w i := by
  induction cbs generalizing tup obj with
  | nil => rfl
  | cons cb cbs ih =>
    have hb := h cb (List.mem_cons_self ..) sys y tup obj i hf
    simp only [runCallbacks]
    rw [ih (fun c hc => h c (List.mem_cons_of_mem _ hc)), hb]
    rw [hb]
    exact hf

/-- Weights in a segment without rejuvenation. -/
theorem segment_weights [NeZero P] (env : Env d Y Ω) (cbs : List (Callback P d Y Ω V)) (hb : ∀ cb ∈ cbs, Benign cb)
    (hk : ∀ cb ∈ cbs, KeepsFinite cb) (s : State P d Y Ω K V) (xs : List (Y × StepDraws P d Ω)) (i : Fin P)
    (h : (run env cbs s xs).2.2.2 = none) (he : ∀ e ∈ (run env cbs s xs).2.2.1, e = .kept)
    (hs : (s.obj.w i).IsFinite)
    (hi : ∀ x ∈ Spec.recentIncs env xs.length ((run env cbs s xs).1.obj.res i), x.IsFinite) :
    AddsUp env cbs s xs i (s.obj.w i) xs.length ∧ ((run env cbs s xs).1.obj.w i).IsFinite := by
  unfold AddsUp
  induction xs using List.reverseRecOn with
  | nil =>
    refine ⟨?_, hs⟩
    simp [run, Spec.recentIncs]
  | append_singleton xs x ih =>
    obtain ⟨y, r⟩ := x
    rw [run_concat] at h he hi ⊢
    cases hr : (run env cbs s xs).2.2.2 with
    | some e =>
      rw [hr] at h
      simp only at h
      rw [hr] at h
      exact nomatch h
    | none =>
      rw [hr] at h he hi
      simp only at h he hi ⊢
      have ih := ih hr (fun e hm => he e (List.mem_append_left _ hm))
      have hev := he _ (List.mem_append_right _ (List.mem_singleton.2 rfl))
      generalize (run env cbs s xs).1 = t at *
      cases hret : (t.algo.step_ env t.sys t.tup t.obj y r).ret with
      | error e =>
        rw [step_of_error env cbs t y r e hret] at h
        exact nomatch h
      | ok f =>
        have hw := step_weighs env t.algo t.sys t.tup t.obj y r f hret
        rw [step_of_ok env cbs t y r f hret] at hev hi ⊢
        simp only at hev hi ⊢
        have hf := hw.same (by rw [hev]; simp)
        subst hf
        simp only [Option.getD_none] at hi ⊢
        have hc := runCallbacks_benign cbs hb (t.algo.step_ env t.sys t.tup t.obj y r).sys y
          (t.algo.step_ env t.sys t.tup t.obj y r).tup (t.algo.step_ env t.sys t.tup t.obj y r).obj
        obtain ⟨m, o, e1, e2⟩ := hw.kept hev i
        rw [hc.2.2.2.2, e1, List.length_append, List.length_singleton, Spec.recentIncs] at hi ⊢
        have ih := ih (fun x hx => hi x (List.mem_append_left _ hx))
        have hinc := hi _ (List.mem_append_right _ (List.mem_singleton.2 rfl))
        have hsum := isFinite_add _ _ ih.2 hinc
        rw [nanToNum_finite _ _ hsum] at e2
        rw [runCallbacks_finite cbs hk _ _ _ _ i (by rw [e2]; exact hsum), e2]
        refine ⟨?_, hsum⟩
        rw [List.sum_append, List.sum_singleton, ← add_assoc, ← ih.1]

/-- Until the first rejuvenation the weight is the sum of all step log-likelihoods, if these are finite. -/
theorem C68_since_start_partial [NeZero P] (env : Env d Y Ω) (cbs : List (Callback P d Y Ω V))
    (hb : ∀ cb ∈ cbs, Benign cb) (hk : ∀ cb ∈ cbs, KeepsFinite cb) (algo : Algo P d Y Ω K) (particles : ℕ)
    (drawn : Fin P → Row d) (quasi : Option (Fin P → Row d)) (noise : Fin P → Ω) (xs : List (Y × StepDraws P d Ω))
    (i : Fin P) (h : (run env cbs (init env algo particles drawn quasi noise) xs).2.2.2 = none)
    (he : ∀ e ∈ (run env cbs (init env algo particles drawn quasi noise) xs).2.2.1, e = .kept)
    (hi : ∀ x ∈ Spec.recentIncs env xs.length
      ((run env cbs (init env algo particles drawn quasi noise) xs).1.obj.res i), x.IsFinite) :
    AddsUp env cbs (init env algo particles drawn quasi noise) xs i 0 xs.length :=
  (segment_weights env cbs hb hk _ xs i h he trivial hi).1

theorem segment_incs [NeZero P] (env : Env d Y Ω) (cbs : List (Callback P d Y Ω V)) (hb : ∀ cb ∈ cbs, Benign cb)
    (s : State P d Y Ω K V) (xs : List (Y × StepDraws P d Ω)) (i : Fin P) (n : ℕ)
    (h : (run env cbs s xs).2.2.2 = none) (he : ∀ e ∈ (run env cbs s xs).2.2.1, e = .kept) :
    Spec.recentIncs env (xs.length + n) ((run env cbs s xs).1.obj.res i) =
      Spec.recentIncs env n (s.obj.res i) ++ Spec.recentIncs env xs.length ((run env cbs s xs).1.obj.res i) := by
  induction xs using List.reverseRecOn with
  | nil => simp [run, Spec.recentIncs]
  | append_singleton xs x ih =>
    obtain ⟨y, r⟩ := x
    rw [run_concat] at h he ⊢
    cases hr : (run env cbs s xs).2.2.2 with
    | some e =>
      rw [hr] at h
      simp only at h
      rw [hr] at h
      exact nomatch h
    | none =>
      rw [hr] at h he
      simp only at h he ⊢
      have ih := ih hr (fun e hm => he e (List.mem_append_left _ hm))
      have hev := he _ (List.mem_append_right _ (List.mem_singleton.2 rfl))
      generalize (run env cbs s xs).1 = t at *
      cases hret : (t.algo.step_ env t.sys t.tup t.obj y r).ret with
      | error e =>
        rw [step_of_error env cbs t y r e hret] at h
        exact nomatch h
      | ok f =>
        have hw := step_weighs env t.algo t.sys t.tup t.obj y r f hret
        rw [step_of_ok env cbs t y r f hret] at hev ⊢
        simp only at hev ⊢
        have hf := hw.same (by rw [hev]; simp)
        subst hf
        simp only [Option.getD_none]
        have hc := runCallbacks_benign cbs hb (t.algo.step_ env t.sys t.tup t.obj y r).sys y
          (t.algo.step_ env t.sys t.tup t.obj y r).tup (t.algo.step_ env t.sys t.tup t.obj y r).obj
        obtain ⟨m, o, e1, e2⟩ := hw.kept hev i
        rw [hc.2.2.2.2, e1, List.length_append, List.length_singleton,
          show xs.length + 1 + n = (xs.length + n) + 1 by omega, Spec.recentIncs, Spec.recentIncs, ih,
          List.append_assoc]

/-- After a rejuvenation the weight is the sum of the step log-likelihoods since, plus the likelihood ratio if
the particles were increased, if these are finite. -/
theorem C68_since_rejuvenation_partial [NeZero P] (env : Env d Y Ω) (cbs : List (Callback P d Y Ω V))
    (hb : ∀ cb ∈ cbs, Benign cb) (hk : ∀ cb ∈ cbs, KeepsFinite cb) (s : State P d Y Ω K V) (y : Y)
    (r : StepDraws P d Ω) (post : List (Y × StepDraws P d Ω)) (i : Fin P) (h : (step env cbs s y r).err = none)
    (h' : (run env cbs (step env cbs s y r).state post).2.2.2 = none)
    (he : ∀ e ∈ (run env cbs (step env cbs s y r).state post).2.2.1, e = .kept)
    (hi : ∀ x ∈ Spec.recentIncs env post.length
      ((run env cbs (step env cbs s y r).state post).1.obj.res i), x.IsFinite) :
    ((step env cbs s y r).event = .updated → updatesFirst s.algo s.obj.iter = true →
      (∀ x ∈ Spec.recentIncs env 1 ((step env cbs s y r).state.obj.res i), x.IsFinite) →
      AddsUp env cbs (step env cbs s y r).state post i 0 (post.length + 1)) ∧
    ((step env cbs s y r).event = .updated → updatesFirst s.algo s.obj.iter = false →
      AddsUp env cbs (step env cbs s y r).state post i 0 post.length) ∧
    ((step env cbs s y r).event = .increased →
      (env.loglik ((step env cbs s y r).state.obj.res i) -
        env.loglik ((s.algo.step_ env s.sys s.tup s.obj y r).obj.res i)).IsFinite →
      AddsUp env cbs (step env cbs s y r).state post i (env.loglik ((step env cbs s y r).state.obj.res i) -
        env.loglik ((s.algo.step_ env s.sys s.tup s.obj y r).obj.res i)) post.length) := by
  have hseg := segment_weights env cbs hb hk _ post i h' he
  have hinc := segment_incs env cbs hb _ post i 1 h' he
  cases hret : (s.algo.step_ env s.sys s.tup s.obj y r).ret with
  | error e =>
    rw [step_of_error env cbs s y r e hret] at h
    exact nomatch h
  | ok f =>
    have hw := step_weighs env s.algo s.sys s.tup s.obj y r f hret
    have hc := runCallbacks_benign cbs hb (s.algo.step_ env s.sys s.tup s.obj y r).sys y
      (s.algo.step_ env s.sys s.tup s.obj y r).tup (s.algo.step_ env s.sys s.tup s.obj y r).obj
    have est := step_of_ok env cbs s y r f hret
    have eev : (step env cbs s y r).event = (s.algo.step_ env s.sys s.tup s.obj y r).event := by rw [est]
    have ew : (step env cbs s y r).state.obj.w i = (f.getD (runCallbacks (s.algo.step_ env s.sys s.tup s.obj y r).sys y
      cbs (s.algo.step_ env s.sys s.tup s.obj y r).tup (s.algo.step_ env s.sys s.tup s.obj y r).obj).2.2).w i := by
      rw [est]
    have eres : (step env cbs s y r).state.obj.res i = (f.getD (runCallbacks (s.algo.step_ env s.sys s.tup s.obj y r).sys y
      cbs (s.algo.step_ env s.sys s.tup s.obj y r).tup (s.algo.step_ env s.sys s.tup s.obj y r).obj).2.2).res i := by
      rw [est]
    generalize step env cbs s y r = b at *
    refine ⟨?_, ?_, ?_⟩
    · intro hev hfirst hfin
      rw [eev] at hev
      have hf := hw.same (by rw [hev]; simp)
      subst hf
      simp only [Option.getD_none] at ew eres
      obtain ⟨s', m, o, e1, e2⟩ := hw.before hev hfirst i
      rw [hc.2.2.2.2, e1] at eres
      rw [eres] at hfin hinc
      have hx : (env.inc s' m y o).IsFinite := hfin _ (List.mem_singleton.2 rfl)
      rw [nanToNum_finite _ _ hx] at e2
      rw [runCallbacks_finite cbs hk _ _ _ _ i (by rw [e2]; exact hx), e2] at ew
      have hseg := (hseg (by rw [ew]; exact hx) hi).1
      unfold AddsUp at hseg ⊢
      rw [hseg, ew, hinc, List.sum_append, zero_add]
      simp [Spec.recentIncs]
    · intro hev hfirst
      rw [eev] at hev
      have hf := hw.same (by rw [hev]; simp)
      subst hf
      simp only [Option.getD_none] at ew
      have e2 := hw.after hev hfirst i
      rw [runCallbacks_finite cbs hk _ _ _ _ i (by rw [e2]; trivial), e2] at ew
      have hseg := (hseg (by rw [ew]; trivial) hi).1
      rw [ew] at hseg
      exact hseg
    · intro hev hfin
      rw [eev] at hev
      obtain ⟨n, hf, hn⟩ := hw.more hev
      subst hf
      simp only [Option.getD_some] at ew eres
      have e2 := hn i
      rw [← eres, nanToNum_finite _ _ hfin] at e2
      rw [e2] at ew
      have hseg := (hseg (by rw [ew]; exact hfin) hi).1
      rw [ew] at hseg
      exact hseg

/-- A particle whose likelihood is zero does not keep the weight `-inf`: the cleaning in place replaces it by the
lowest finite number, to which the next log-likelihoods are added. -/
theorem C68_zero_likelihood [NeZero P] (env : Env d Y Ω) (algo : Algo P d Y Ω K) (sys : Sys P d)
    (tup : Tup Y V) (obj : Obj P d Y Ω) (y : Y) (r : StepDraws P d Ω) (f : Option (Obj P d Y Ω))
    (h : (algo.step_ env sys tup obj y r).ret = .ok f) (hk : (algo.step_ env sys tup obj y r).event = .kept)
    (i : Fin P) (hw : (obj.w i).IsFinite)
    (hi : Spec.recentIncs env 1 ((algo.step_ env sys tup obj y r).obj.res i) = [.ninf]) :
    (algo.step_ env sys tup obj y r).obj.w i = .fin env.lo := by
  obtain ⟨m, o, e1, e2⟩ := (step_weighs env algo sys tup obj y r f h).kept hk i
  rw [e1] at hi
  simp only [Spec.recentIncs, List.nil_append, List.cons.injEq, and_true] at hi
  rw [e2, hi]
  cases hx : obj.w i with
  | fin a => rfl
  | nan => rw [hx] at hw; exact hw.elim
  | ninf => rw [hx] at hw; exact hw.elim
  | pinf => rw [hx] at hw; exact hw.elim

theorem demo_zero_step :
    ((demoInit (.smc2 demoSmc 0)).algo.step_ zeroEnv (demoInit (.smc2 demoSmc 0)).sys (demoInit (.smc2 demoSmc 0)).tup
      (demoInit (.smc2 demoSmc 0)).obj 7 demoStepDraws).event = .kept ∧
    ((demoInit (.smc2 demoSmc 0)).algo.step_ zeroEnv (demoInit (.smc2 demoSmc 0)).sys (demoInit (.smc2 demoSmc 0)).tup
      (demoInit (.smc2 demoSmc 0)).obj 7 demoStepDraws).ret = .ok none := by
  have hk : (smcStep zeroEnv demoSmc 0 (demoInit (.smc2 demoSmc 0)).sys (demoInit (.smc2 demoSmc 0)).tup
      (demoInit (.smc2 demoSmc 0)).obj 7 demoStepDraws).event = .kept := by
    apply C60_ninf_unseen
    · exact two_pos
    · intro i
      rw [show demoStepDraws.noise = fun _ => () from rfl, demo_acc]
      split_ifs
      · exact Or.inl rfl
      · exact Or.inr trivial
    · simp only [demoSmc, Threshold.Thresholder.get, Threshold.Thresholder.mutate, Threshold.Thresholder.min]
      norm_num
  rw [show (demoInit (.smc2 demoSmc 0)).algo = .smc2 demoSmc 0 from rfl, Algo.step_]
  refine ⟨hk, ?_⟩
  unfold smcStep at hk ⊢
  simp only at hk ⊢
  split_ifs at hk ⊢ with hd
  · exact (smcUpdate_event _ _ _ _ _ _ _ hk).elim
  · rfl

/-- A particle with likelihood zero has a finite weight. -/
theorem C68_negation : ¬ C68_claim := by
  intro h
  have hst := step_of_ok zeroEnv [] (demoInit (.smc2 demoSmc 0)) 7 demoStepDraws none demo_zero_step.2
  have hrun : run zeroEnv [] (demoInit (.smc2 demoSmc 0)) [(7, demoStepDraws)] =
      ((step zeroEnv [] (demoInit (.smc2 demoSmc 0)) 7 demoStepDraws).state, [], [.kept], none) := by
    rw [run, hst]
    simp only [runCallbacks, run, List.append_nil, demo_zero_step.1]
  have h := (h 2 1 inferInstance ℕ Unit Unit Unit zeroEnv (.smc2 demoSmc 0) 10 (fun i _ => (i : ℕ)) (fun _ => ())
    [(7, demoStepDraws)] 0 (by
      show (run zeroEnv [] (demoInit (.smc2 demoSmc 0)) _).2.2.2 = none
      rw [hrun])).1 (by
      show ∀ e ∈ (run zeroEnv [] (demoInit (.smc2 demoSmc 0)) _).2.2.1, e = .kept
      rw [hrun]
      simp)
  have hres : (step zeroEnv [] (demoInit (.smc2 demoSmc 0)) 7 demoStepDraws).state.obj.res 0 =
      ((demoInit (.smc2 demoSmc 0)).algo.step_ zeroEnv (demoInit (.smc2 demoSmc 0)).sys (demoInit (.smc2 demoSmc 0)).tup
        (demoInit (.smc2 demoSmc 0)).obj 7 demoStepDraws).obj.res 0 := by
    rw [hst]
    rfl
  obtain ⟨m, o, e1, e2⟩ := (step_weighs zeroEnv _ _ _ _ _ _ _ demo_zero_step.2).kept demo_zero_step.1 0
  have hinc : Spec.recentIncs zeroEnv 1 (((demoInit (.smc2 demoSmc 0)).algo.step_ zeroEnv
      (demoInit (.smc2 demoSmc 0)).sys (demoInit (.smc2 demoSmc 0)).tup
        (demoInit (.smc2 demoSmc 0)).obj 7 demoStepDraws).obj.res 0) = [.ninf] := by
    have hd : ((demoInit (.smc2 demoSmc 0)).algo.step_ zeroEnv (demoInit (.smc2 demoSmc 0)).sys
        (demoInit (.smc2 demoSmc 0)).tup (demoInit (.smc2 demoSmc 0)).obj 7 demoStepDraws).obj.res 0 =
        .step ((demoInit (.smc2 demoSmc 0)).obj.res 0) ⟨fun _ => ((0 : ℕ) : ℝ), fun _ => ((0 : ℕ) : ℝ)⟩ 7 () := by
      have hk := demo_zero_step.1
      rw [show (demoInit (.smc2 demoSmc 0)).algo = .smc2 demoSmc 0 from rfl, Algo.step_] at hk ⊢
      unfold smcStep at hk ⊢
      simp only at hk ⊢
      split_ifs at hk ⊢ with hd
      · exact (smcUpdate_event _ _ _ _ _ _ _ hk).elim
      · rfl
    rw [hd]
    simp [Spec.recentIncs, zeroEnv]
  have hw := C68_zero_likelihood zeroEnv _ _ _ _ 7 demoStepDraws none demo_zero_step.2 demo_zero_step.1 0
    (show ((demoInit (.smc2 demoSmc 0)).obj.w 0).IsFinite from trivial) hinc
  unfold AddsUp at h
  rw [show init zeroEnv (.smc2 demoSmc 0) 10 (fun i _ => (i : ℕ)) none (fun _ => ()) = demoInit (.smc2 demoSmc 0) from rfl,
    hrun] at h
  simp only [List.length_singleton, hres, hinc] at h
  rw [hst] at h
  simp only [runCallbacks, Option.getD_none, hw] at h
  exact nomatch h

/-- The other particle of that run has the sum of its log-likelihoods as weight. -/
example : AddsUp zeroEnv [] (demoInit (.smc2 demoSmc 0)) [(7, demoStepDraws)] 1 0 1 := by
  have hst := step_of_ok zeroEnv [] (demoInit (.smc2 demoSmc 0)) 7 demoStepDraws none demo_zero_step.2
  have hrun : run zeroEnv [] (demoInit (.smc2 demoSmc 0)) [(7, demoStepDraws)] =
      ((step zeroEnv [] (demoInit (.smc2 demoSmc 0)) 7 demoStepDraws).state, [], [.kept], none) := by
    rw [run, hst]
    simp only [runCallbacks, run, List.append_nil, demo_zero_step.1]
  refine C68_since_start_partial zeroEnv [] (by simp) (by simp) (.smc2 demoSmc 0) 10 (fun i _ => (i : ℕ)) none
    (fun _ => ()) [(7, demoStepDraws)] 1 ?_ ?_ ?_
  · show (run zeroEnv [] (demoInit (.smc2 demoSmc 0)) _).2.2.2 = none
    rw [hrun]
  · show ∀ e ∈ (run zeroEnv [] (demoInit (.smc2 demoSmc 0)) _).2.2.1, e = .kept
    rw [hrun]
    simp
  · show ∀ x ∈ Spec.recentIncs zeroEnv 1 ((run zeroEnv [] (demoInit (.smc2 demoSmc 0)) _).1.obj.res 1), x.IsFinite
    rw [hrun, hst]
    have hd : ((demoInit (.smc2 demoSmc 0)).algo.step_ zeroEnv (demoInit (.smc2 demoSmc 0)).sys
        (demoInit (.smc2 demoSmc 0)).tup (demoInit (.smc2 demoSmc 0)).obj 7 demoStepDraws).obj.res 1 =
        .step ((demoInit (.smc2 demoSmc 0)).obj.res 1) ⟨fun _ => ((1 : ℕ) : ℝ), fun _ => ((1 : ℕ) : ℝ)⟩ 7 () := by
      have hk := demo_zero_step.1
      rw [show (demoInit (.smc2 demoSmc 0)).algo = .smc2 demoSmc 0 from rfl, Algo.step_] at hk ⊢
      unfold smcStep at hk ⊢
      simp only at hk ⊢
      split_ifs at hk ⊢ with hd
      · exact (smcUpdate_event _ _ _ _ _ _ _ hk).elim
      · rfl
    simp only [runCallbacks, Option.getD_none, hd]
    simp [Spec.recentIncs, zeroEnv, XF.IsFinite]

end Verif.Props
