import Verif.Lemmas.Logging
import Verif.Props.Sequential
import Mathlib.Tactic.NormNum

/-!
# C101: logging

The specification is in terms of runs without a logger: `Seq.run` and `Mcmc.fitLoop`.
-/

namespace Verif.Props

open Verif.Seq Verif.Logging

variable {P d : ℕ} {Y Ω K V F : Type}

/-- What the function of a logger is given: the state after the first `m` observations. -/
noncomputable def stateAfter [NeZero P] (env : Mcmc.Env d Y Ω) (cbs : List (Callback P d Y Ω V))
    (s : State P d Y Ω K V) (xs : List (Y × StepDraws P d Ω)) (m : ℕ) : Tup Y V × Obj P d Y Ω :=
  ((run env cbs s (xs.take m)).1.tup, (run env cbs s (xs.take m)).1.obj)

theorem run_take_none [NeZero P] (env : Mcmc.Env d Y Ω) (cbs : List (Callback P d Y Ω V)) (s : State P d Y Ω K V)
    (xs : List (Y × StepDraws P d Ω)) (h : (run env cbs s xs).2.2.2 = none) (m : ℕ) :
    (run env cbs s (xs.take m)).2.2.2 = none := by
  induction xs generalizing s m with
  | nil => simpa using h
  | cons x xs ih =>
    obtain ⟨y, r⟩ := x
    cases m with
    | zero => rfl
    | succ m =>
      rw [run] at h
      rw [List.take_succ_cons, run]
      simp only at h ⊢
      cases he : (step env cbs s y r).err with
      | some e =>
        rw [he] at h
        exact nomatch h
      | none =>
        rw [he] at h
        exact ih _ h m

/-- The run of the loop on observations that raise nothing. -/
theorem seqLoop_quiet [NeZero P] (env : Mcmc.Env d Y Ω) (cbs : List (Callback P d Y Ω V))
    (hb : ∀ cb ∈ cbs, Benign cb) (algo : Algo P d Y Ω K) (particles : ℕ) (drawn : Fin P → Mcmc.Row d)
    (quasi : Option (Fin P → Mcmc.Row d)) (noise : Fin P → Ω) (g : Logger (Tup Y V × Obj P d Y Ω) F) (hp : g.per ≠ 0)
    (l : Log (Tup Y V × Obj P d Y Ω)) (xs : List (Y × StepDraws P d Ω))
    (h : (run env cbs (init env algo particles drawn quasi noise) xs).2.2.2 = none)
    (hg : ∀ m < xs.length, g.per ∣ ((m + 1 : ℕ) : ℤ) →
      g.QuietAt (stateAfter env cbs (init env algo particles drawn quasi noise) xs (m + 1))) :
    loop (fun s x => ((step env cbs s x.1 x.2).state, (step env cbs s x.1 x.2).err))
        (fun _ s => (s.obj.iter : ℤ)) (fun s => (s.tup, s.obj)) g 0 (init env algo particles drawn quasi noise) l xs =
      ((run env cbs (init env algo particles drawn quasi noise) xs).1,
        g.after l (((List.range xs.length).filter fun m => g.per ∣ ((m + 1 : ℕ) : ℤ)).map fun m =>
          stateAfter env cbs (init env algo particles drawn quasi noise) xs (m + 1)), none) := by
  rw [loop_quiet _ _ _ g hp (fun m => ((m + 1 : ℕ) : ℤ))]
  · simp only [run_plain]
    rfl
  · rw [run_plain]
    exact h
  · intro m hm
    rw [run_plain]
    simp only
    rw [(C59_counters env cbs hb algo particles drawn quasi noise (xs.take (m + 1)) (run_take_none _ _ _ _ h _)).1]
    rw [List.length_take]
    congr 1
    omega
  · intro m hm hd
    have := hg m hm hd
    simp only [run_plain]
    exact this

/-- **C101** (sequential algorithms). With `DefaultLogger(func, k)` the function is called after observations `k`,
`2k`, … and no others, each time once, with the state that the run without a logger has after as many
observations. The run itself is that without a logger. -/
theorem C101_calls [NeZero P] (env : Mcmc.Env d Y Ω) (cbs : List (Callback P d Y Ω V)) (hb : ∀ cb ∈ cbs, Benign cb)
    (algo : Algo P d Y Ω K) (particles : ℕ) (drawn : Fin P → Mcmc.Row d) (quasi : Option (Fin P → Mcmc.Row d))
    (noise : Fin P → Ω) (func : Tup Y V × Obj P d Y Ω → Option F) (k : ℤ) (hk : k ≠ 0)
    (xs : List (Y × StepDraws P d Ω)) (h : (run env cbs (init env algo particles drawn quasi noise) xs).2.2.2 = none)
    (hf : ∀ m, func (stateAfter env cbs (init env algo particles drawn quasi noise) xs m) = none) :
    seqFit env cbs (.default (some func) k) Log.new (init env algo particles drawn quasi noise) xs =
      ((run env cbs (init env algo particles drawn quasi noise) xs).1,
        ⟨((List.range xs.length).filter fun m => k ∣ ((m + 1 : ℕ) : ℤ)).map fun m =>
          stateAfter env cbs (init env algo particles drawn quasi noise) xs (m + 1), 0, none, 0⟩, none) := by
  unfold seqFit
  simp only
  rw [seqLoop_quiet env cbs hb algo particles drawn quasi noise (.default (some func) k) hk _ xs h
    fun m _ _ => hf (m + 1)]
  rfl

/-- With no logger given, the progress bar is told the number of observations, shows after the fit how many have
been processed, and is closed once. The run is that without a logger; an exception of the algorithm is
passed on. -/
theorem C101_progress [NeZero P] (env : Mcmc.Env d Y Ω) (cbs : List (Callback P d Y Ω V))
    (hb : ∀ cb ∈ cbs, Benign cb) (algo : Algo P d Y Ω K) (particles : ℕ) (drawn : Fin P → Mcmc.Row d)
    (quasi : Option (Fin P → Mcmc.Row d)) (noise : Fin P → Ω) (xs rest : List (Y × StepDraws P d Ω))
    (h : (run env cbs (init env algo particles drawn quasi noise) xs).2.2.2 = none)
    (hr : rest = [] ∨ ∃ e, (run env cbs (run env cbs (init env algo particles drawn quasi noise) xs).1
      (rest.take 1)).2.2.2 = some e) :
    seqFit (F := F) env cbs .tqdm Log.new (init env algo particles drawn quasi noise) (xs ++ rest) =
      ((run env cbs (init env algo particles drawn quasi noise) (xs ++ rest.take 1)).1,
        ⟨[], xs.length, some (xs.length + rest.length), 1⟩,
        (run env cbs (init env algo particles drawn quasi noise) (xs ++ rest.take 1)).2.2.2.map Exn.algorithm) := by
  unfold seqFit
  simp only
  have hq := seqLoop_quiet (F := F) env cbs hb algo particles drawn quasi noise .tqdm
    (by show (1 : ℤ) ≠ 0; norm_num)
    (Logger.initialize (F := F) .tqdm Log.new (xs ++ rest).length) xs h fun _ _ _ => trivial
  have hn : ((List.range xs.length).filter fun m =>
      decide ((Logger.tqdm : Logger (Tup Y V × Obj P d Y Ω) F).per ∣ ((m + 1 : ℕ) : ℤ))) = List.range xs.length := by
    rw [List.filter_eq_self]
    intro m _
    simp only [decide_eq_true_eq]
    exact one_dvd _
  rw [loop_append _ _ _ _ _ _ _ xs rest (by rw [hq])]
  rw [hq, hn]
  rcases hr with rfl | ⟨e, he⟩
  · simp only [List.take_nil, List.append_nil, h, loop]
    simp [Logger.exit, Logger.teardown, Logger.after, Logger.initialize, Log.new]
  · cases rest with
    | nil => exact nomatch he
    | cons x rest =>
      obtain ⟨y, r⟩ := x
      have he' : (step env cbs (run env cbs (init env algo particles drawn quasi noise) xs).1 y r).err = some e := by
        rw [show List.take 1 ((y, r) :: rest) = [(y, r)] from rfl, run] at he
        simp only at he
        cases hh : (step env cbs (run env cbs (init env algo particles drawn quasi noise) xs).1 y r).err with
        | none =>
          rw [hh] at he
          exact nomatch he
        | some e' =>
          rw [hh] at he
          exact he
      rw [show List.take 1 ((y, r) :: rest) = [(y, r)] from rfl, run_concat, h]
      simp only [loop, he']
      simp [Logger.exit, Logger.teardown, Logger.after, Logger.initialize, Log.new]

/-- A function that raises ends the fit: it has been called with all states before that were due and with the
state for which it raised, the observations that follow are not processed, and its exception is passed on. -/
theorem C101_function [NeZero P] (env : Mcmc.Env d Y Ω) (cbs : List (Callback P d Y Ω V))
    (hb : ∀ cb ∈ cbs, Benign cb) (algo : Algo P d Y Ω K) (particles : ℕ) (drawn : Fin P → Mcmc.Row d)
    (quasi : Option (Fin P → Mcmc.Row d)) (noise : Fin P → Ω) (func : Tup Y V × Obj P d Y Ω → Option F) (k : ℤ)
    (hk : k ≠ 0) (xs rest : List (Y × StepDraws P d Ω)) (x : Y × StepDraws P d Ω)
    (h : (run env cbs (init env algo particles drawn quasi noise) (xs ++ [x])).2.2.2 = none)
    (hf : ∀ m ≤ xs.length, func (stateAfter env cbs (init env algo particles drawn quasi noise) xs m) = none)
    (hd : k ∣ ((xs.length + 1 : ℕ) : ℤ)) (e : F)
    (he : func (stateAfter env cbs (init env algo particles drawn quasi noise) (xs ++ [x]) (xs.length + 1)) = some e) :
    seqFit env cbs (.default (some func) k) Log.new (init env algo particles drawn quasi noise)
        (xs ++ x :: rest) =
      ((run env cbs (init env algo particles drawn quasi noise) (xs ++ [x])).1,
        ⟨((List.range (xs.length + 1)).filter fun m => k ∣ ((m + 1 : ℕ) : ℤ)).map fun m =>
          stateAfter env cbs (init env algo particles drawn quasi noise) (xs ++ [x]) (m + 1), 0, none, 0⟩,
        some (.function e)) := by
  have h0 : (run env cbs (init env algo particles drawn quasi noise) xs).2.2.2 = none := by
    have := run_take_none env cbs _ _ h xs.length
    rwa [List.take_left] at this
  obtain ⟨y, r⟩ := x
  have hs : (step env cbs (run env cbs (init env algo particles drawn quasi noise) xs).1 y r).err = none := by
    rw [run_concat, h0] at h
    exact h
  have hq := seqLoop_quiet env cbs hb algo particles drawn quasi noise (.default (some func) k) hk
    (Logger.initialize (.default (some func) k) Log.new (xs ++ (y, r) :: rest).length) xs h0
    fun m hm _ => hf (m + 1) hm
  have hit : (step env cbs (run env cbs (init env algo particles drawn quasi noise) xs).1 y r).state.obj.iter
      = xs.length + 1 := by
    rw [(step_iter env cbs hb _ y r hs).1, (C59_counters env cbs hb algo particles drawn quasi noise xs h0).1]
  have hlast : stateAfter env cbs (init env algo particles drawn quasi noise) (xs ++ [(y, r)]) (xs.length + 1) =
      ((step env cbs (run env cbs (init env algo particles drawn quasi noise) xs).1 y r).state.tup,
        (step env cbs (run env cbs (init env algo particles drawn quasi noise) xs).1 y r).state.obj) := by
    rw [stateAfter, List.take_of_length_le (by simp), run_concat, h0]
  have hbefore : ∀ m ∈ List.range xs.length,
      stateAfter env cbs (init env algo particles drawn quasi noise) xs (m + 1) =
        stateAfter env cbs (init env algo particles drawn quasi noise) (xs ++ [(y, r)]) (m + 1) := by
    intro m hm
    rw [List.mem_range] at hm
    rw [stateAfter, stateAfter, List.take_append_of_le_length hm]
  unfold seqFit
  simp only
  rw [loop_append _ _ _ _ _ _ _ xs _ (by rw [hq]), hq]
  simp only [loop, hs, hit]
  have hper : (Logger.default (some func) k).per = k := rfl
  rw [hper, run_concat, h0, List.range_succ, List.filter_append, List.map_append]
  have hone : List.filter (fun m : ℕ => decide (k ∣ ((m + 1 : ℕ) : ℤ))) [xs.length] = [xs.length] := by
    simp only [List.filter_eq_self, List.mem_singleton, forall_eq, decide_eq_true_eq]
    exact hd
  rw [hlast] at he
  rw [hone, List.map_singleton, hlast]
  have e1 : (Logger.default (some func) k).doLog (E := Err)
      ((Logger.default (some func) k).after
        ((Logger.default (some func) k).initialize Log.new (xs ++ (y, r) :: rest).length)
        (((List.range xs.length).filter fun m => decide (k ∣ ((m + 1 : ℕ) : ℤ))).map fun m =>
          stateAfter env cbs (init env algo particles drawn quasi noise) xs (m + 1)))
      ((xs.length + 1 : ℕ) : ℤ)
      ((step env cbs (run env cbs (init env algo particles drawn quasi noise) xs).1 y r).state.tup,
        (step env cbs (run env cbs (init env algo particles drawn quasi noise) xs).1 y r).state.obj) =
      (⟨(((List.range xs.length).filter fun m => decide (k ∣ ((m + 1 : ℕ) : ℤ))).map fun m =>
          stateAfter env cbs (init env algo particles drawn quasi noise) xs (m + 1)) ++
        [((step env cbs (run env cbs (init env algo particles drawn quasi noise) xs).1 y r).state.tup,
          (step env cbs (run env cbs (init env algo particles drawn quasi noise) xs).1 y r).state.obj)], 0, none, 0⟩,
        some (.function e)) := by
    unfold Logger.doLog
    rw [hper, if_neg hk, if_pos (Int.emod_eq_zero_of_dvd hd)]
    simp only [Logger.func, he, Logger.after, Logger.initialize, Log.new, List.nil_append]
  rw [e1]
  simp only [Logger.exit, Logger.teardown]
  rw [List.map_congr_left fun m hm => hbefore m (List.mem_of_mem_filter hm)]

/-- Whatever happens, the bar is closed exactly once and its total is the number of observations. -/
theorem C101_closed [NeZero P] (env : Mcmc.Env d Y Ω) (cbs : List (Callback P d Y Ω V))
    (s : State P d Y Ω K V) (l : Log (Tup Y V × Obj P d Y Ω)) (xs : List (Y × StepDraws P d Ω)) :
    (seqFit (F := F) env cbs .tqdm l s xs).2.1.closed = l.closed + 1 ∧
      (seqFit (F := F) env cbs .tqdm l s xs).2.1.total = some xs.length := by
  unfold seqFit
  simp only
  have := loop_kept (fun s x => ((step env cbs s x.1 x.2).state, (step env cbs s x.1 x.2).err))
    (fun _ s => (s.obj.iter : ℤ)) (fun s => (s.tup, s.obj)) (Logger.tqdm (F := F)) 0 s
    (Logger.initialize (F := F) .tqdm l xs.length) xs
  exact ⟨congrArg (· + 1) this.2, this.1⟩

/-- With `log_every_iteration = 0` the first observation that is processed ends the fit. -/
theorem C101_zero [NeZero P] (env : Mcmc.Env d Y Ω) (cbs : List (Callback P d Y Ω V))
    (func : Option (Tup Y V × Obj P d Y Ω → Option F)) (s : State P d Y Ω K V) (x : Y × StepDraws P d Ω)
    (xs : List (Y × StepDraws P d Ω)) (h : (step env cbs s x.1 x.2).err = none) :
    seqFit env cbs (.default func 0) Log.new s (x :: xs) =
      ((step env cbs s x.1 x.2).state, Log.new, some .zeroDivision) := by
  simp [seqFit, loop, h, Logger.doLog, Logger.per, Logger.exit, Logger.teardown, Logger.initialize]

/-! ### PMMH -/

section

variable {Name : Type}

theorem fit_plain (env : Mcmc.Env d Y Ω) (prop : Mcmc.Proposal P d Y Ω K) (get : Name → Mcmc.Row d → V)
    (ys : List Y) (f : Mcmc.Fit P d Y Ω K Name V) (rs : List (Mcmc.Draws P d Ω)) :
    plain (E := Empty) (fun f r => (Mcmc.fitStep env prop get ys f r, none)) f rs =
      (Mcmc.fitLoop env prop get ys f rs, none) := by
  induction rs generalizing f with
  | nil => rfl
  | cons r rs ih =>
    rw [plain]
    simp only
    rw [ih]
    rfl

/-- **C101** (PMMH). Iterations are counted from zero: with `DefaultLogger(func, k)` the function is called after
iterations 1, `k + 1`, `2k + 1`, … with the chain at that time. -/
theorem C101_pmmh (env : Mcmc.Env d Y Ω) (prop : Mcmc.Proposal P d Y Ω K) (get : Name → Mcmc.Row d → V)
    (ys : List Y) (func : Mcmc.Fit P d Y Ω K Name V → Option F) (hf : ∀ f, func f = none) (k : ℤ) (hk : k ≠ 0)
    (f : Mcmc.Fit P d Y Ω K Name V) (rs : List (Mcmc.Draws P d Ω)) :
    pmmhFit env prop get ys (.default (some func) k) Log.new f rs =
      (Mcmc.fitLoop env prop get ys f rs,
        ⟨((List.range rs.length).filter fun (m : ℕ) => k ∣ (m : ℤ)).map fun m =>
          Mcmc.fitLoop env prop get ys f (rs.take (m + 1)), 0, none, 0⟩, none) := by
  unfold pmmhFit
  simp only
  rw [loop_quiet _ _ _ (.default (some func) k) hk (fun m => (m : ℤ)) rs 0 f _ (by rw [fit_plain]) (fun m _ => by simp)
    fun m _ _ => hf _]
  simp only [fit_plain]
  rfl

/-- The progress bar of PMMH shows the number of iterations. -/
theorem C101_pmmh_progress (env : Mcmc.Env d Y Ω) (prop : Mcmc.Proposal P d Y Ω K) (get : Name → Mcmc.Row d → V)
    (ys : List Y) (f : Mcmc.Fit P d Y Ω K Name V) (rs : List (Mcmc.Draws P d Ω)) :
    pmmhFit (F := F) env prop get ys .tqdm Log.new f rs =
      (Mcmc.fitLoop env prop get ys f rs, ⟨[], rs.length, some rs.length, 1⟩, none) := by
  unfold pmmhFit
  simp only
  rw [loop_quiet _ _ _ .tqdm (by show (1 : ℤ) ≠ 0; norm_num) (fun m => (m : ℤ)) rs 0 f _ (by rw [fit_plain])
    (fun m _ => by simp) fun m _ _ => trivial]
  have hn : due (Logger.tqdm : Logger (Mcmc.Fit P d Y Ω K Name V) F).per (fun m => (m : ℤ)) rs.length
      = List.range rs.length := by
    rw [due, List.filter_eq_self]
    intro m _
    simp only [decide_eq_true_eq]
    exact one_dvd _
  rw [hn, fit_plain]
  simp [Logger.exit, Logger.teardown, Logger.after, Logger.initialize, Log.new]

end

/-! ### Concrete cases -/

theorem demo_online_run (s : State 2 1 ℕ Unit Unit Unit) (count : ℕ) (hs : s.algo = .fixed 2 count demoOnline)
    (ys : List ℕ) : (run oneEnv [] s (ys.map fun y => (y, demoStepDraws))).2.2.2 = none := by
  induction ys generalizing s count with
  | nil => rfl
  | cons y ys ih =>
    have h1 := demo_online_ok s 2 count (by norm_num) hs y
    rw [List.map_cons, run]
    simp only [h1]
    exact ih _ _ (fixed_step oneEnv [] s 2 count demoOnline (by norm_num) hs y demoStepDraws).1

/-- Fixed-width NESS, whose steps do not raise. -/
noncomputable def loggedInit : State 2 1 ℕ Unit Unit Unit :=
  init oneEnv (.fixed 2 0 demoOnline) 10 (fun _ _ => 0) none fun _ => ()

/-- Five observations, logged every second observation: two calls, after the second and the fourth. -/
example :
    (seqFit (F := Unit) oneEnv [] (.default (some fun _ => none) 2) Log.new loggedInit
        ([7, 8, 9, 10, 11].map fun y => (y, demoStepDraws))).2.1.calls =
      [stateAfter oneEnv [] loggedInit ([7, 8, 9, 10, 11].map fun y => (y, demoStepDraws)) 2,
        stateAfter oneEnv [] loggedInit ([7, 8, 9, 10, 11].map fun y => (y, demoStepDraws)) 4] := by
  have hrun := demo_online_run loggedInit 0 rfl [7, 8, 9, 10, 11]
  unfold loggedInit at hrun ⊢
  rw [C101_calls oneEnv [] (by simp) _ _ _ _ _ _ 2 (by norm_num) _ hrun fun _ => rfl]
  rfl

/-- A function that raises after the second of five observations: the last three are not processed. -/
example :
    (seqFit oneEnv [] (.default (some fun s => if s.2.iter = 2 then some () else none) 1) Log.new loggedInit
        ([7, 8, 9, 10, 11].map fun y => (y, demoStepDraws))).1.obj.iter = 2 := by
  have hrun := fun ys => demo_online_run loggedInit 0 rfl ys
  have hc := fun ys => (C59_counters oneEnv [] (by simp) (.fixed 2 0 demoOnline) 10 (fun _ _ => 0) none (fun _ => ())
    (List.map (fun y => (y, demoStepDraws)) ys) (hrun ys)).1
  have h := C101_function oneEnv [] (by simp) (.fixed 2 0 demoOnline) 10 (fun _ _ => 0) none (fun _ => ())
    (fun s : Tup ℕ Unit × Obj 2 1 ℕ Unit => if s.2.iter = 2 then some () else none) 1 (by norm_num) [(7, demoStepDraws)]
    ([9, 10, 11].map fun y => (y, demoStepDraws)) (8, demoStepDraws) (K := Unit) (hrun [7, 8])
    (fun m hm => by
      have hm : m = 0 ∨ m = 1 := by
        simp only [List.length_cons, List.length_nil] at hm
        omega
      rcases hm with rfl | rfl
      · rfl
      · exact if_neg fun h => absurd ((hc [7]).symm.trans h) (by simp)) (one_dvd _) () (if_pos (hc [7, 8]))
  unfold loggedInit
  rw [show List.map (fun y => (y, demoStepDraws)) [7, 8, 9, 10, 11] =
    [(7, demoStepDraws)] ++ (8, demoStepDraws) :: ([9, 10, 11].map fun y => (y, demoStepDraws)) from rfl, h]
  exact hc [7, 8]

/-- An algorithm that raises at the first observation: the bar stands at zero and is closed. -/
example : ∃ s : State 2 1 ℕ Unit Unit Unit, ∃ e,
    (seqFit (F := Unit) oneEnv [] .tqdm Log.new s [(7, demoStepDraws)]).2 = (⟨[], 0, some 1, 1⟩, some (.algorithm e)) := by
  refine ⟨init oneEnv (.fixed 0 0 demoOnline) 10 (fun _ _ => 0) none fun _ => (), .zeroDivision, ?_⟩
  have he : (run oneEnv [] (init oneEnv (.fixed 0 0 demoOnline) 10 (fun _ _ => 0) none fun _ => () :
      State 2 1 ℕ Unit Unit Unit) [(7, demoStepDraws)]).2.2.2 = some .zeroDivision := by
    simp [run, step, init, Algo.step_]
  have := C101_progress (F := Unit) oneEnv [] (by simp) (.fixed 0 0 demoOnline) 10 (fun _ _ => 0) none (fun _ => ())
    (K := Unit) (V := Unit) [] [(7, demoStepDraws)] rfl (Or.inr ⟨_, he⟩)
  rw [List.nil_append] at this
  rw [this]
  rw [show List.take 1 [(7, demoStepDraws)] = [(7, demoStepDraws)] from rfl, List.nil_append, he]
  rfl

/-- PMMH with three iterations, logged every second one: after the first and the third. -/
example (f : Mcmc.Fit 2 1 ℕ Unit (Mcmc.Gauss 2 1) Unit ℝ) (r : Mcmc.Draws 2 1 Unit) :
    ((pmmhFit (F := Unit) oneEnv (Mcmc.randomWalk fun _ => 1) (fun _ u => u 0) [7]
      (.default (some fun _ => none) 2) Log.new f [r, r, r]).2.1.calls).length = 2 := by
  rw [C101_pmmh _ _ _ _ _ (fun _ => rfl) 2 (by norm_num), List.length_map]
  show ((List.range 3).filter fun m : ℕ => decide ((2 : ℤ) ∣ (m : ℤ))).length = 2
  decide

end Verif.Props
