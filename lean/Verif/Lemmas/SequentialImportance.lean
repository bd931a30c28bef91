import Verif.Lemmas.Sequential
import Verif.Props.SequentialMoves
import Verif.Props.PmmhExact

/-!
# Runs of the sequential algorithms without updates
-/

namespace Verif.SeqImportance

open Verif Verif.Seq Verif.Mcmc Verif.Props XF

variable {P d : ℕ} {Y Ω K V : Type}

theorem step_batchFilter (n : ℕ) (m : Mdl d) (ys : List Y) (noise : ℕ → Ω) (y : Y) (o : Ω) :
    ∃ noise' : ℕ → Ω, noise' 0 = noise 0 ∧
      Slot.step (batchFilter n m ys noise) m y o = batchFilter n m (ys ++ [y]) noise' := by
  classical
  refine ⟨Function.update noise (ys.length + 1) o, Function.update_of_ne (by omega) _ _, ?_⟩
  unfold batchFilter
  rw [List.zipIdx_append, List.foldl_append, Function.update_of_ne (by omega : (0 : ℕ) ≠ ys.length + 1)]
  have h : ∀ (l : List Y) (j : ℕ) (s : Slot d Y Ω), j + l.length ≤ ys.length →
      (l.zipIdx j).foldl (fun s y => Slot.step s m y.1 (noise (y.2 + 1))) s =
        (l.zipIdx j).foldl (fun s y => Slot.step s m y.1 (Function.update noise (ys.length + 1) o (y.2 + 1))) s := by
    intro l
    induction l with
    | nil => exact fun _ _ _ => rfl
    | cons a l ih =>
      intro j s hj
      rw [List.length_cons] at hj
      rw [List.zipIdx_cons, List.foldl_cons, List.foldl_cons, ih (j + 1) _ (by omega)]
      simp only
      rw [Function.update_of_ne (by omega)]
  rw [h ys 0 _ (by omega)]
  simp [List.zipIdx_cons]

/-- A step without update adds the filter's log-likelihood and nothing else. -/
theorem step_kept [NeZero P] (env : Env d Y Ω) (algo : Algo P d Y Ω K) (sys : Sys P d) (tup : Tup Y V)
    (obj : Obj P d Y Ω) (y : Y) (r : StepDraws P d Ω) (f : Option (Obj P d Y Ω))
    (h : (algo.step_ env sys tup obj y r).ret = .ok f) (he : (algo.step_ env sys tup obj y r).event = .kept) :
    f = none ∧ (algo.step_ env sys tup obj y r).sys = sys ∧ ∃ tup', tup'.ess = tup.ess ∧
      (algo.step_ env sys tup obj y r).tup = (filterAppend env sys tup' obj y r.noise).1 ∧
      (algo.step_ env sys tup obj y r).obj = (filterAppend env sys tup' obj y r.noise).2 := by
  have online : ∀ (cfg : OnlineCfg d) (algo : Algo P d Y Ω K) (b : Bool),
      (onlineStep env cfg algo b sys tup obj y r).ret = .ok f →
      (onlineStep env cfg algo b sys tup obj y r).event = .kept →
      f = none ∧ (onlineStep env cfg algo b sys tup obj y r).sys = sys ∧ ∃ tup', tup'.ess = tup.ess ∧
        (onlineStep env cfg algo b sys tup obj y r).tup = (filterAppend env sys tup' obj y r.noise).1 ∧
        (onlineStep env cfg algo b sys tup obj y r).obj = (filterAppend env sys tup' obj y r.noise).2 := by
    intro cfg algo b
    unfold onlineStep
    cases b with
    | false =>
      rw [if_neg Bool.false_ne_true]
      intro h _
      cases h
      exact ⟨rfl, rfl, tup, rfl, rfl, rfl⟩
    | true =>
      simp only [if_true]
      rcases onlineUpdate env cfg sys obj r with ⟨sys', obj', e⟩
      cases e with
      | some e => exact nofun
      | none => exact fun _ => nofun
  induction algo with
  | ness t cfg =>
    rw [Algo.step_] at h he ⊢
    exact online _ _ _ h he
  | fixed bl count cfg =>
    rw [Algo.step_] at h he ⊢
    split_ifs at h he ⊢
    exact online _ _ _ h he
  | smc2 cfg k =>
    rw [Algo.step_] at h he ⊢
    revert h he
    unfold smcStep
    simp only
    split_ifs
    · intro _ he
      exact (smcUpdate_event _ _ _ _ _ _ _ he).elim
    · intro h _
      cases h
      exact ⟨rfl, rfl, { tup with data := tup.data ++ [y] }, rfl, rfl, rfl⟩
  | combined sw switched a b iha ihb =>
    rw [Algo.step_] at h he ⊢
    split_ifs at h he ⊢
    · exact iha h he
    · exact ihb h he

/-- What is known about a state that was reached without update. -/
structure Untouched (env : Env d Y Ω) (n : ℕ) (drawn : Fin P → Row d) (noise : Fin P → Ω) (ys : List Y)
    (s : State P d Y Ω K V) : Prop where
  sys : s.sys = ⟨drawn, drawn, n⟩
  res : ∀ i, ∃ ω : ℕ → Ω, ω 0 = noise i ∧ s.obj.res i = batchFilter n ⟨drawn i, drawn i⟩ ys ω
  weight : ∀ i, s.obj.w i = env.loglik (s.obj.res i)
  ess : ∃ e : ℝ, 1 ≤ e ∧ lastEss s.tup = fin e

/-- The log-likelihood of every filter result is finite. -/
def FiniteLikelihoods (env : Env d Y Ω) (n : ℕ) : Prop :=
  ∀ (u : Row d) (ys : List Y) (ω : ℕ → Ω), (env.loglik (batchFilter n ⟨u, u⟩ ys ω)).IsFinite

theorem usable_of_finite {x : XF} (h : x.IsFinite) : Spec.Usable x := by
  cases x <;> first | exact trivial | exact False.elim h

theorem untouched_init [NeZero P] (env : Env d Y Ω) (algo : Algo P d Y Ω K) (n : ℕ) (drawn : Fin P → Row d)
    (noise : Fin P → Ω) : Untouched (V := V) env n drawn noise [] (init env algo n drawn none noise) where
  sys := rfl
  res i := ⟨fun _ => noise i, rfl, rfl⟩
  weight i := rfl
  ess := by
    obtain ⟨e, p, h1, -, h2, -⟩ := C04_ess_bounds env.lo (fun _ : Fin P => (0 : XF)) ⟨0, trivial⟩
    exact ⟨e, h2, h1⟩

theorem untouched_step [NeZero P] (env : Env d Y Ω) (cbs : List (Callback P d Y Ω V)) (hb : ∀ cb ∈ cbs, Benign cb)
    (hk : ∀ cb ∈ cbs, KeepsFinite cb) {n : ℕ} (hfin : FiniteLikelihoods env n) {drawn : Fin P → Row d}
    {noise : Fin P → Ω} {ys : List Y} {s : State P d Y Ω K V} (hs : Untouched env n drawn noise ys s) (y : Y)
    (r : StepDraws P d Ω) (h : (step env cbs s y r).err = none) (he : (step env cbs s y r).event = .kept) :
    Untouched env n drawn noise (ys ++ [y]) (step env cbs s y r).state := by
  cases hret : (s.algo.step_ env s.sys s.tup s.obj y r).ret with
  | error e =>
    rw [step_of_error env cbs s y r e hret] at h
    exact nomatch h
  | ok f =>
    rw [step_of_ok env cbs s y r f hret] at he ⊢
    simp only at he ⊢
    obtain ⟨rfl, hsys, tup', hess, ht, ho⟩ := step_kept env s.algo s.sys s.tup s.obj y r f hret he
    have hc := runCallbacks_benign cbs hb (s.algo.step_ env s.sys s.tup s.obj y r).sys y
      (s.algo.step_ env s.sys s.tup s.obj y r).tup (s.algo.step_ env s.sys s.tup s.obj y r).obj
    have hcw := runCallbacks_finite cbs hk (s.algo.step_ env s.sys s.tup s.obj y r).sys y
      (s.algo.step_ env s.sys s.tup s.obj y r).tup (s.algo.step_ env s.sys s.tup s.obj y r).obj
    simp only [Option.getD_none]
    have hres : ∀ i, ∃ ω : ℕ → Ω, ω 0 = noise i ∧
        (s.algo.step_ env s.sys s.tup s.obj y r).obj.res i = batchFilter n ⟨drawn i, drawn i⟩ (ys ++ [y]) ω := by
      intro i
      obtain ⟨ω, h0, hω⟩ := hs.res i
      obtain ⟨ω', h0', hω'⟩ := step_batchFilter n ⟨drawn i, drawn i⟩ ys ω y (r.noise i)
      refine ⟨ω', h0'.trans h0, ?_⟩
      rw [ho, ← hω', ← hω]
      show Slot.step (s.obj.res i) ⟨s.sys.params i, s.sys.built i⟩ y (r.noise i) = _
      rw [hs.sys]
    have hll : ∀ i, (env.loglik ((s.algo.step_ env s.sys s.tup s.obj y r).obj.res i)).IsFinite := by
      intro i
      obtain ⟨ω, -, hω⟩ := hres i
      rw [hω]
      exact hfin _ _ _
    have hsum : ∀ i, s.obj.w i + stepLogLik env s.sys s.obj y r.noise i
        = env.loglik ((s.algo.step_ env s.sys s.tup s.obj y r).obj.res i) := by
      intro i
      rw [ho, hs.weight]
      rfl
    have hw : ∀ i, (s.algo.step_ env s.sys s.tup s.obj y r).obj.w i
        = env.loglik ((s.algo.step_ env s.sys s.tup s.obj y r).obj.res i) := by
      intro i
      have h1 : (s.algo.step_ env s.sys s.tup s.obj y r).obj.w i
          = nanToNum env.lo (s.obj.w i + stepLogLik env s.sys s.obj y r.noise i) := by
        rw [ho]
        rfl
      rw [h1, hsum, nanToNum_finite _ _ (hll i)]
    refine ⟨hsys.trans hs.sys, fun i => ?_, fun i => ?_, ?_⟩
    · show ∃ ω, _ ∧ (runCallbacks _ y cbs _ _).2.2.res i = _
      rw [hc.2.2.2.2]
      exact hres i
    · show (runCallbacks _ y cbs _ _).2.2.w i = env.loglik ((runCallbacks _ y cbs _ _).2.2.res i)
      rw [hc.2.2.2.2, hcw i (by rw [hw]; exact hll i), hw]
    · obtain ⟨e, p, h1, -, h2, -⟩ := C04_ess_bounds env.lo
        (fun i => s.obj.w i + stepLogLik env s.sys s.obj y r.noise i)
        ⟨0, usable_of_finite (by rw [hsum]; exact hll 0)⟩
      refine ⟨e, h2, ?_⟩
      unfold lastEss
      rw [hc.1, ht]
      show ((tup'.ess ++ [_]).getLast?).getD _ = _
      rw [List.getLast?_append, List.getLast?_singleton, ← h1]
      rfl

theorem untouched_run [NeZero P] (env : Env d Y Ω) (cbs : List (Callback P d Y Ω V)) (hb : ∀ cb ∈ cbs, Benign cb)
    (hk : ∀ cb ∈ cbs, KeepsFinite cb) {n : ℕ} (hfin : FiniteLikelihoods env n) (algo : Algo P d Y Ω K)
    (drawn : Fin P → Row d) (noise : Fin P → Ω) (xs : List (Y × StepDraws P d Ω))
    (h : (run env cbs (init env algo n drawn none noise) xs).2.2.2 = none)
    (he : ∀ e ∈ (run env cbs (init env algo n drawn none noise) xs).2.2.1, e = .kept) :
    Untouched env n drawn noise (xs.map Prod.fst) (run env cbs (init env algo n drawn none noise) xs).1 := by
  induction xs using List.reverseRecOn with
  | nil => exact untouched_init env algo n drawn noise
  | append_singleton xs x ih =>
    obtain ⟨y, r⟩ := x
    rw [run_concat] at h he ⊢
    cases hr : (run env cbs (init env algo n drawn none noise) xs).2.2.2 with
    | some e =>
      rw [hr] at h
      simp only at h
      rw [hr] at h
      exact nomatch h
    | none =>
      rw [hr] at h he
      simp only at h he ⊢
      have ih := ih hr (fun e hm => he e (List.mem_append_left _ hm))
      have hev := he _ (List.mem_append_right _ (List.mem_singleton.2 rfl))
      rw [List.map_append]
      exact untouched_step env cbs hb hk hfin ih y r h hev

/-- The algorithm does not update in the next `k` steps, as long as weights are finite and the effective sample
size is at least one. -/
def Quiet (P : ℕ) {d : ℕ} {Y Ω K : Type} : Algo P d Y Ω K → ℕ → Prop
  | .ness t _, _ => t ≤ 1
  | .fixed bl count _, k => ((count + k : ℕ) : ℤ) < |bl|
  | .smc2 cfg _, _ => ∀ j, cfg.threshold.get j * P ≤ 1
  | .combined _ _ a b, k => Quiet P a k ∧ Quiet P b k

theorem quiet_mono (algo : Algo P d Y Ω K) {k l : ℕ} (hkl : k ≤ l) (h : Quiet P algo l) : Quiet P algo k := by
  induction algo with
  | ness t cfg => exact h
  | fixed bl count cfg =>
    unfold Quiet at h ⊢
    omega
  | smc2 cfg j => exact h
  | combined sw b a1 a2 ih1 ih2 => exact ⟨ih1 h.1, ih2 h.2⟩

theorem quiet_step [NeZero P] (env : Env d Y Ω) (algo : Algo P d Y Ω K) (k : ℕ) (hq : Quiet P algo (k + 1))
    (sys : Sys P d) (tup : Tup Y V) (obj : Obj P d Y Ω) (y : Y) (r : StepDraws P d Ω)
    (hw : ∀ i, (obj.w i).IsFinite) (hsum : ∀ i, (obj.w i + stepLogLik env sys obj y r.noise i).IsFinite)
    (hess : ∃ e : ℝ, 1 ≤ e ∧ lastEss tup = fin e) :
    (algo.step_ env sys tup obj y r).ret = .ok none ∧ (algo.step_ env sys tup obj y r).event = .kept ∧
      Quiet P (algo.step_ env sys tup obj y r).algo k := by
  have hnf : ¬ anyNonFinite obj.w := fun ⟨i, hi⟩ => hi (hw i)
  obtain ⟨e, he1, he⟩ := hess
  induction algo with
  | ness t cfg =>
    rw [Algo.step_]
    have hd : nessDecides t tup obj = false := by
      unfold nessDecides
      rw [decide_eq_false_iff_not, he]
      rintro (⟨-, h⟩ | h)
      · unfold Quiet at hq
        have : e < t := h
        linarith
      · exact hnf h
    rw [hd]
    exact ⟨rfl, rfl, hq⟩
  | fixed bl count cfg =>
    rw [Algo.step_]
    unfold Quiet at hq
    have hbl : bl ≠ 0 := by
      rintro rfl
      rw [abs_zero] at hq
      omega
    have hd : ¬ ((count + 1 : ℤ) % bl = 0 ∨ anyNonFinite obj.w) := by
      rintro (h | h)
      · have hdvd := Int.dvd_of_emod_eq_zero h
        have := Int.le_of_dvd (by omega) ((abs_dvd _ _).2 hdvd)
        push_cast at hq
        omega
      · exact hnf h
    classical
    rw [if_neg hbl]
    simp only [hd, decide_false]
    refine ⟨rfl, rfl, ?_⟩
    show ((count + 1 + k : ℕ) : ℤ) < |bl|
    push_cast at hq ⊢
    linarith
  | smc2 cfg j =>
    rw [Algo.step_]
    unfold smcStep
    simp only
    obtain ⟨e', p, h1, -, h2, -⟩ := C04_ess_bounds env.lo
      (fun i => obj.w i + stepLogLik env sys obj y r.noise i) ⟨0, usable_of_finite (hsum 0)⟩
    have hd : smcDecides cfg.threshold
        (filterAppend env sys { tup with data := tup.data ++ [y] } obj y r.noise).1
        (filterAppend env sys { tup with data := tup.data ++ [y] } obj y r.noise).2 = false := by
      unfold smcDecides
      rw [decide_eq_false_iff_not]
      have hlast : lastEss (filterAppend env sys { tup with data := tup.data ++ [y] } obj y r.noise).1 = fin e' := by
        unfold lastEss
        show ((tup.ess ++ [_]).getLast?).getD _ = _
        rw [List.getLast?_append, List.getLast?_singleton, ← h1]
        rfl
      rw [hlast]
      rintro (h | ⟨i, hi⟩)
      · have h' : e' < cfg.threshold.get _ * P := h
        have := hq (((filterAppend env sys { tup with data := tup.data ++ [y] } obj y r.noise).1.ess.length : ℤ) - 1)
        linarith
      · refine hi ?_
        show (nanToNum env.lo (obj.w i + stepLogLik env sys obj y r.noise i)).IsFinite
        rw [nanToNum_finite _ _ (hsum i)]
        exact hsum i
    rw [hd]
    exact ⟨rfl, rfl, hq⟩
  | combined sw b a1 a2 ih1 ih2 =>
    rw [Algo.step_]
    split_ifs
    · have := ih1 hq.1
      exact ⟨this.1, this.2.1, this.2.2, quiet_mono a2 (Nat.le_succ k) hq.2⟩
    · have := ih2 hq.2
      exact ⟨this.1, this.2.1, quiet_mono a1 (Nat.le_succ k) hq.1, this.2.2⟩

theorem quiet_run_from [NeZero P] (env : Env d Y Ω) (cbs : List (Callback P d Y Ω V)) (hb : ∀ cb ∈ cbs, Benign cb)
    (hk : ∀ cb ∈ cbs, KeepsFinite cb) {n : ℕ} (hfin : FiniteLikelihoods env n) {drawn : Fin P → Row d}
    {noise : Fin P → Ω} : ∀ (xs : List (Y × StepDraws P d Ω)) (ys : List Y) (s : State P d Y Ω K V),
    Quiet P s.algo xs.length → Untouched env n drawn noise ys s →
    (run env cbs s xs).2.2.2 = none ∧ ∀ e ∈ (run env cbs s xs).2.2.1, e = .kept
  | [], _, _, _, _ => ⟨rfl, fun _ h => nomatch h⟩
  | (y, r) :: xs, ys, s, hq, hs => by
    have hw : ∀ i, (s.obj.w i).IsFinite := by
      intro i
      obtain ⟨ω, -, hω⟩ := hs.res i
      rw [hs.weight, hω]
      exact hfin _ _ _
    have hsum : ∀ i, (s.obj.w i + stepLogLik env s.sys s.obj y r.noise i).IsFinite := by
      intro i
      obtain ⟨ω, -, hω⟩ := hs.res i
      obtain ⟨ω', -, hω'⟩ := step_batchFilter n ⟨drawn i, drawn i⟩ ys ω y (r.noise i)
      have h1 : s.obj.w i + stepLogLik env s.sys s.obj y r.noise i
          = env.loglik (.step (s.obj.res i) ⟨s.sys.params i, s.sys.built i⟩ y (r.noise i)) := by
        rw [hs.weight]
        rfl
      rw [h1, hs.sys, hω]
      show (env.loglik (.step (batchFilter n ⟨drawn i, drawn i⟩ ys ω) ⟨drawn i, drawn i⟩ y (r.noise i))).IsFinite
      rw [hω']
      exact hfin _ _ _
    obtain ⟨h1, h2, h3⟩ := quiet_step env s.algo xs.length hq s.sys s.tup s.obj y r hw hsum hs.ess
    have hst := step_of_ok env cbs s y r none h1
    have herr : (step env cbs s y r).err = none := by rw [hst]
    have hev : (step env cbs s y r).event = .kept := by rw [hst]; exact h2
    have hq' : Quiet P (step env cbs s y r).state.algo xs.length := by rw [hst]; exact h3
    have ih := quiet_run_from env cbs hb hk hfin xs (ys ++ [y]) _ hq'
      (untouched_step env cbs hb hk hfin hs y r herr hev)
    rw [run]
    simp only [herr]
    refine ⟨ih.1, fun e hm => ?_⟩
    rcases List.mem_cons.1 hm with rfl | hm
    · exact hev
    · exact ih.2 e hm

theorem quiet_run [NeZero P] (env : Env d Y Ω) (cbs : List (Callback P d Y Ω V)) (hb : ∀ cb ∈ cbs, Benign cb)
    (hk : ∀ cb ∈ cbs, KeepsFinite cb) {n : ℕ} (hfin : FiniteLikelihoods env n) (algo : Algo P d Y Ω K)
    (drawn : Fin P → Row d) (noise : Fin P → Ω) (xs : List (Y × StepDraws P d Ω)) (hq : Quiet P algo xs.length) :
    (run env cbs (init env algo n drawn none noise) xs).2.2.2 = none ∧
      ∀ e ∈ (run env cbs (init env algo n drawn none noise) xs).2.2.1, e = .kept :=
  quiet_run_from env cbs hb hk hfin xs [] _ hq (untouched_init env algo n drawn noise)

end Verif.SeqImportance
