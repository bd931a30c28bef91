import Verif.Model.Sequential

/-!
# Helper lemmas about the sequential algorithms
-/

namespace Verif.Seq

open Mcmc

variable {P d : ℕ} {Y Ω K V : Type}

/-- What every successful `_step` does to the bookkeeping. -/
structure Kept (tup : Tup Y V) (obj : Obj P d Y Ω) (out : Out P d Y Ω K V)
    (fresh : Option (Obj P d Y Ω)) : Prop where
  ess : ∃ e, out.tup.ess = tup.ess ++ [e]
  extra : out.tup.extra = tup.extra
  iter : out.obj.iter = obj.iter
  id : out.obj.id = obj.id
  freshIter : ∀ o, fresh = some o → o.iter = obj.iter ∧ o.id = obj.id + 1
  freshEvent : fresh.isSome = true ↔ out.event = .increased

theorem filterAppend_ess (env : Env d Y Ω) (sys : Sys P d) (tup : Tup Y V) (obj : Obj P d Y Ω) (y : Y)
    (noise : Fin P → Ω) :
    (filterAppend env sys tup obj y noise).1.ess =
      tup.ess ++ [(getEss1 env.lo (fun i => obj.w i + stepLogLik env sys obj y noise i) false).2] := rfl

theorem onlineUpdate_obj [NeZero P] (env : Env d Y Ω) (cfg : OnlineCfg d) (sys : Sys P d) (obj : Obj P d Y Ω)
    (r : StepDraws P d Ω) :
    (onlineUpdate env cfg sys obj r).2.1.iter = obj.iter ∧ (onlineUpdate env cfg sys obj r).2.1.id = obj.id := by
  unfold onlineUpdate
  simp only
  split
  · exact ⟨rfl, rfl⟩
  · exact ⟨rfl, rfl⟩

theorem onlineStep_kept [NeZero P] (env : Env d Y Ω) (cfg : OnlineCfg d) (algo : Algo P d Y Ω K) (b : Bool)
    (sys : Sys P d) (tup : Tup Y V) (obj : Obj P d Y Ω) (y : Y) (r : StepDraws P d Ω)
    (f : Option (Obj P d Y Ω)) (h : (onlineStep env cfg algo b sys tup obj y r).ret = .ok f) :
    Kept tup obj (onlineStep env cfg algo b sys tup obj y r) f := by
  unfold onlineStep at h ⊢
  cases b with
  | false =>
    simp only [Bool.false_eq_true, if_false] at h ⊢
    cases h
    exact ⟨⟨_, rfl⟩, rfl, rfl, rfl, nofun, by simp⟩
  | true =>
    simp only [if_true] at h ⊢
    have hb := onlineUpdate_obj env cfg sys obj r
    rcases hu : onlineUpdate env cfg sys obj r with ⟨sys', obj', e⟩
    rw [hu] at h hb
    simp only at h hb
    cases e with
    | some e => exact nomatch h
    | none =>
      cases h
      exact ⟨⟨_, rfl⟩, rfl, hb.1, hb.2, nofun, by simp⟩

theorem increaseStates_fresh (env : Env d Y Ω) (k max : ℕ) (data : List Y) (sys : Sys P d) (obj : Obj P d Y Ω)
    (rerun : Fin P → ℕ → Ω) (f : Option (Obj P d Y Ω))
    (h : (increaseStates env k max data sys obj rerun).2.2 = .ok f) :
    ∃ o, f = some o ∧ o.iter = obj.iter ∧ o.id = obj.id + 1 := by
  unfold increaseStates at h
  simp only at h
  split_ifs at h
  cases h
  exact ⟨_, rfl, rfl, rfl⟩

theorem smcUpdate_kept (env : Env d Y Ω) (cfg : SmcCfg P d Y Ω K) (k : ℕ) (data : List Y) (sys : Sys P d)
    (obj : Obj P d Y Ω) (r : StepDraws P d Ω) :
    (smcUpdate env cfg k data sys obj r).2.2.1.iter = obj.iter ∧
      (smcUpdate env cfg k data sys obj r).2.2.1.id = obj.id ∧
      ∀ f, (smcUpdate env cfg k data sys obj r).2.2.2.1 = .ok f →
        (∀ o, f = some o → o.iter = obj.iter ∧ o.id = obj.id + 1) ∧
          (f.isSome = true ↔ (smcUpdate env cfg k data sys obj r).2.2.2.2 = .increased) := by
  unfold smcUpdate
  simp only
  split_ifs
  · refine ⟨rfl, rfl, ?_⟩
    intro f hf
    obtain ⟨o, rfl, h1, h2⟩ := increaseStates_fresh _ _ _ _ _ _ _ _ hf
    exact ⟨by rintro _ ⟨⟩; exact ⟨h1, h2⟩, by simp⟩
  · refine ⟨rfl, rfl, ?_⟩
    intro f hf
    cases hf
    exact ⟨nofun, by simp⟩

theorem smcStep_kept (env : Env d Y Ω) (cfg : SmcCfg P d Y Ω K) (k : ℕ) (sys : Sys P d) (tup : Tup Y V)
    (obj : Obj P d Y Ω) (y : Y) (r : StepDraws P d Ω) (f : Option (Obj P d Y Ω))
    (h : (smcStep env cfg k sys tup obj y r).ret = .ok f) :
    Kept tup obj (smcStep env cfg k sys tup obj y r) f := by
  unfold smcStep at h ⊢
  simp only at h ⊢
  split_ifs at h ⊢ with hd
  · have hk := smcUpdate_kept env cfg k (filterAppend env sys { tup with data := tup.data ++ [y] } obj y r.noise).1.data
      sys (filterAppend env sys { tup with data := tup.data ++ [y] } obj y r.noise).2 r
    have hf := hk.2.2 f h
    exact ⟨⟨_, rfl⟩, rfl, hk.1, hk.2.1, hf.1, hf.2⟩
  · cases h
    exact ⟨⟨_, rfl⟩, rfl, rfl, rfl, nofun, by simp⟩

theorem step_kept [NeZero P] (env : Env d Y Ω) (algo : Algo P d Y Ω K) (sys : Sys P d) (tup : Tup Y V)
    (obj : Obj P d Y Ω) (y : Y) (r : StepDraws P d Ω) (f : Option (Obj P d Y Ω))
    (h : (algo.step_ env sys tup obj y r).ret = .ok f) :
    Kept tup obj (algo.step_ env sys tup obj y r) f := by
  induction algo with
  | ness t cfg =>
    rw [Algo.step_] at h ⊢
    exact onlineStep_kept _ _ _ _ _ _ _ _ _ _ h
  | fixed bl count cfg =>
    rw [Algo.step_] at h ⊢
    split_ifs at h ⊢
    exact onlineStep_kept _ _ _ _ _ _ _ _ _ _ h
  | smc2 cfg k =>
    rw [Algo.step_] at h ⊢
    exact smcStep_kept _ _ _ _ _ _ _ _ _ h
  | combined sw switched a b iha ihb =>
    rw [Algo.step_] at h ⊢
    split_ifs at h ⊢
    · have := iha h
      exact ⟨this.ess, this.extra, this.iter, this.id, this.freshIter, this.freshEvent⟩
    · have := ihb h
      exact ⟨this.ess, this.extra, this.iter, this.id, this.freshIter, this.freshEvent⟩

/-- The algorithm keeps its kind and configuration. -/
theorem smcStep_algo (env : Env d Y Ω) (cfg : SmcCfg P d Y Ω K) (k : ℕ) (sys : Sys P d) (tup : Tup Y V)
    (obj : Obj P d Y Ω) (y : Y) (r : StepDraws P d Ω) :
    ∃ k', (smcStep env cfg k sys tup obj y r).algo = .smc2 cfg k' := by
  unfold smcStep
  simp only
  split_ifs
  · exact ⟨_, rfl⟩
  · exact ⟨_, rfl⟩

theorem smcStep_data (env : Env d Y Ω) (cfg : SmcCfg P d Y Ω K) (k : ℕ) (sys : Sys P d) (tup : Tup Y V)
    (obj : Obj P d Y Ω) (y : Y) (r : StepDraws P d Ω) :
    (smcStep env cfg k sys tup obj y r).tup.data = tup.data ++ [y] := by
  unfold smcStep
  simp only
  split_ifs
  · rfl
  · rfl

theorem step_of_error [NeZero P] (env : Env d Y Ω) (cbs : List (Callback P d Y Ω V)) (s : State P d Y Ω K V)
    (y : Y) (r : StepDraws P d Ω) (e : Err) (h : (s.algo.step_ env s.sys s.tup s.obj y r).ret = .error e) :
    step env cbs s y r =
      ⟨⟨(s.algo.step_ env s.sys s.tup s.obj y r).algo, (s.algo.step_ env s.sys s.tup s.obj y r).sys,
        (s.algo.step_ env s.sys s.tup s.obj y r).tup, (s.algo.step_ env s.sys s.tup s.obj y r).obj⟩, [],
        (s.algo.step_ env s.sys s.tup s.obj y r).event, some e⟩ := by
  unfold step
  simp only
  split
  · rename_i e' he'
    rw [h] at he'
    cases he'
    rfl
  · rename_i f hf
    rw [h] at hf
    exact nomatch hf

theorem step_of_ok [NeZero P] (env : Env d Y Ω) (cbs : List (Callback P d Y Ω V)) (s : State P d Y Ω K V)
    (y : Y) (r : StepDraws P d Ω) (f : Option (Obj P d Y Ω))
    (h : (s.algo.step_ env s.sys s.tup s.obj y r).ret = .ok f) :
    step env cbs s y r =
      let out := s.algo.step_ env s.sys s.tup s.obj y r
      let c := runCallbacks out.sys y cbs out.tup out.obj
      ⟨⟨out.algo, out.sys, c.2.1, { f.getD c.2.2 with iter := (f.getD c.2.2).iter + 1 }⟩, c.1, out.event, none⟩ := by
  unfold step
  simp only
  split
  · rename_i e' he'
    rw [h] at he'
    exact nomatch he'
  · rename_i f' hf
    rw [h] at hf
    cases hf
    rfl

/-- Callbacks that do not touch what the algorithms rely on. -/
structure Benign (cb : Callback P d Y Ω V) : Prop where
  ess : ∀ sys y t o, (cb.act sys y t o).1.ess = t.ess
  data : ∀ sys y t o, (cb.act sys y t o).1.data = t.data
  iter : ∀ sys y t o, (cb.act sys y t o).2.iter = o.iter
  id : ∀ sys y t o, (cb.act sys y t o).2.id = o.id
  res : ∀ sys y t o, (cb.act sys y t o).2.res = o.res

theorem runCallbacks_benign (cbs : List (Callback P d Y Ω V)) (h : ∀ cb ∈ cbs, Benign cb) (sys : Sys P d) (y : Y)
    (tup : Tup Y V) (obj : Obj P d Y Ω) :
    (runCallbacks sys y cbs tup obj).2.1.ess = tup.ess ∧ (runCallbacks sys y cbs tup obj).2.1.data = tup.data ∧
      (runCallbacks sys y cbs tup obj).2.2.iter = obj.iter ∧ (runCallbacks sys y cbs tup obj).2.2.id = obj.id ∧
      (runCallbacks sys y cbs tup obj).2.2.res = obj.res := by
  induction cbs generalizing tup obj with
  | nil => exact ⟨rfl, rfl, rfl, rfl, rfl⟩
  | cons cb cbs ih =>
    have hb := h cb (List.mem_cons_self ..)
    have := ih (fun c hc => h c (List.mem_cons_of_mem _ hc)) (cb.act sys y tup obj).1 (cb.act sys y tup obj).2
    simp only [runCallbacks]
    rw [hb.ess, hb.data, hb.iter, hb.id, hb.res] at this
    exact this

/-- One more step at the end of a run. -/
theorem run_concat [NeZero P] (env : Env d Y Ω) (cbs : List (Callback P d Y Ω V)) (s : State P d Y Ω K V)
    (xs : List (Y × StepDraws P d Ω)) (y : Y) (r : StepDraws P d Ω) :
    run env cbs s (xs ++ [(y, r)]) =
      match (run env cbs s xs).2.2.2 with
      | some _ => run env cbs s xs
      | none =>
        let a := step env cbs (run env cbs s xs).1 y r
        (a.state, (run env cbs s xs).2.1 ++ a.calls, (run env cbs s xs).2.2.1 ++ [a.event], a.err) := by
  induction xs generalizing s with
  | nil =>
    simp only [List.nil_append, run]
    split
    · rename_i e he
      simp [he]
    · rename_i he
      simp [he]
  | cons x xs ih =>
    obtain ⟨y0, r0⟩ := x
    simp only [List.cons_append]
    rw [run]
    conv_rhs => rw [run]
    simp only
    cases he : (step env cbs s y0 r0).err with
    | some e => rfl
    | none =>
      simp only
      rw [ih]
      cases hr : (run env cbs (step env cbs s y0 r0).state xs).2.2.2 with
      | some e => simp only [hr]
      | none =>
        simp only [List.append_assoc, List.cons_append]

/-- A property of states that every successful step keeps holds after every successful run. -/
theorem run_induction [NeZero P] (env : Env d Y Ω) (cbs : List (Callback P d Y Ω V))
    (Q : List (Y × StepDraws P d Ω) → State P d Y Ω K V → Prop)
    (s : State P d Y Ω K V) (h0 : Q [] s)
    (hs : ∀ xs s y r, Q xs s → (step env cbs s y r).err = none → Q (xs ++ [(y, r)]) (step env cbs s y r).state)
    (xs : List (Y × StepDraws P d Ω)) (h : (run env cbs s xs).2.2.2 = none) : Q xs (run env cbs s xs).1 := by
  induction xs using List.reverseRecOn with
  | nil => exact h0
  | append_singleton xs x ih =>
    obtain ⟨y, r⟩ := x
    rw [run_concat] at h ⊢
    cases hr : (run env cbs s xs).2.2.2 with
    | some e =>
      rw [hr] at h
      simp only at h
      rw [hr] at h
      exact nomatch h
    | none =>
      rw [hr] at h
      simp only at h ⊢
      exact hs xs _ y r (ih hr) h

end Verif.Seq
