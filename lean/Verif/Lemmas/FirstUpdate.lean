import Verif.Lemmas.SequentialImportance
import Verif.Lemmas.ImportanceLaw

/-!
# When the sequential algorithms update for the first time
-/

namespace Verif.SeqImportance

open Verif Verif.Spec Verif.Seq Verif.Mcmc Verif.Props Verif.ImportanceLaw XF

variable {P d : ℕ} {Y Ω K V : Type}

/-- The effective sample size of finite log-weights. -/
theorem getEss1_finite [NeZero P] (lo : ℝ) (r : Fin P → ℝ) :
    (getEss1 lo (fun i => fin (r i)) false).2 = fin (essVal fun i => Real.exp (r i)) := by
  have hp := isProb_mass lo (fun i : Fin P => fin (r i)) ⟨0, trivial⟩
  have hm : ∀ i, mass lo (fin (r i)) = Real.exp (r i) := fun i => rfl
  have hn := normalize1_usable lo (fun i : Fin P => fin (r i)) ⟨0, trivial⟩
  have hS : (∑ j : Fin P, Real.exp (r j)) ≠ 0 :=
    (Finset.sum_pos (fun j _ => Real.exp_pos _) ⟨0, Finset.mem_univ _⟩).ne'
  have hQ : (∑ j : Fin P, Real.exp (r j) ^ 2) ≠ 0 :=
    (Finset.sum_pos (fun j _ => pow_pos (Real.exp_pos _) 2) ⟨0, Finset.mem_univ _⟩).ne'
  show fin 1 / ∑ i, (normalize1 lo (fun i => fin (r i))).2 i * (normalize1 lo (fun i => fin (r i))).2 i = _
  simp only [hn]
  rw [getEss_value hp]
  congr 1
  simp only [hm]
  unfold essVal
  have : ∀ i, Real.exp (r i) / (∑ j : Fin P, Real.exp (r j)) * (Real.exp (r i) / ∑ j : Fin P, Real.exp (r j))
      = Real.exp (r i) ^ 2 / (∑ j : Fin P, Real.exp (r j)) ^ 2 := by
    intro i
    field_simp
  simp only [this, ← Finset.sum_div]
  field_simp

/-- The filters have finite log-likelihoods that depend on parameters and generator only. -/
def Estimates (env : Env d Y Ω) (n : ℕ) (L : List Y → Row d → Ω → ℝ) : Prop :=
  ∀ (u : Row d) (ys : List Y) (ω : ℕ → Ω), env.loglik (batchFilter n ⟨u, u⟩ ys ω) = fin (L ys u (ω 0))

theorem Estimates.finite {env : Env d Y Ω} {n : ℕ} {L : List Y → Row d → Ω → ℝ} (h : Estimates env n L) :
    FiniteLikelihoods env n := by
  intro u ys ω
  rw [h]
  trivial

/-- The effective sample size after the observations `ys`. -/
noncomputable def essAt (L : List Y → Row d → Ω → ℝ) (drawn : Fin P → Row d) (noise : Fin P → Ω) (ys : List Y) : ℝ :=
  essVal fun i => Real.exp (L ys (drawn i) (noise i))

theorem essAt_pos [NeZero P] (L : List Y → Row d → Ω → ℝ) (drawn : Fin P → Row d) (noise : Fin P → Ω) (ys : List Y) :
    0 < essAt L drawn noise ys := by
  unfold essAt essVal
  exact div_pos (pow_pos (Finset.sum_pos (fun j _ => Real.exp_pos _) ⟨0, Finset.mem_univ _⟩) 2)
    (Finset.sum_pos (fun j _ => pow_pos (Real.exp_pos _) 2) ⟨0, Finset.mem_univ _⟩)

/-- An untouched state together with its record of effective sample sizes. -/
structure Recorded (env : Env d Y Ω) (n : ℕ) (L : List Y → Row d → Ω → ℝ) (drawn : Fin P → Row d)
    (noise : Fin P → Ω) (ys : List Y) (s : State P d Y Ω K V) : Prop where
  untouched : Untouched env n drawn noise ys s
  length : s.tup.ess.length = ys.length + 1
  last : lastEss s.tup = fin (essAt L drawn noise ys)

variable {env : Env d Y Ω} {n : ℕ} {L : List Y → Row d → Ω → ℝ} {drawn : Fin P → Row d} {noise : Fin P → Ω}

theorem Recorded.w {ys : List Y} {s : State P d Y Ω K V} (hL : Estimates env n L)
    (hs : Recorded env n L drawn noise ys s) (i : Fin P) : s.obj.w i = fin (L ys (drawn i) (noise i)) := by
  obtain ⟨ω, h0, hω⟩ := hs.untouched.res i
  rw [hs.untouched.weight, hω, hL, h0]

theorem Recorded.sum {ys : List Y} {s : State P d Y Ω K V} (hL : Estimates env n L)
    (hs : Recorded env n L drawn noise ys s) (y : Y) (o : Fin P → Ω) (i : Fin P) :
    s.obj.w i + stepLogLik env s.sys s.obj y o i = fin (L (ys ++ [y]) (drawn i) (noise i)) := by
  obtain ⟨ω, h0, hω⟩ := hs.untouched.res i
  obtain ⟨ω', h0', hω'⟩ := step_batchFilter n ⟨drawn i, drawn i⟩ ys ω y (o i)
  have h1 : s.obj.w i + stepLogLik env s.sys s.obj y o i
      = env.loglik (.step (s.obj.res i) ⟨s.sys.params i, s.sys.built i⟩ y (o i)) := by
    rw [hs.untouched.weight]
    rfl
  rw [h1, hs.untouched.sys, hω]
  show env.loglik (.step (batchFilter n ⟨drawn i, drawn i⟩ ys ω) ⟨drawn i, drawn i⟩ y (o i)) = _
  rw [hω', hL, h0', h0]

theorem Recorded.append [NeZero P] {ys : List Y} {s : State P d Y Ω K V} (hL : Estimates env n L)
    (hs : Recorded env n L drawn noise ys s) (tup : Tup Y V) (y : Y) (o : Fin P → Ω) :
    (filterAppend env s.sys tup s.obj y o).1.ess = tup.ess ++ [fin (essAt L drawn noise (ys ++ [y]))] := by
  show tup.ess ++ [_] = _
  rw [funext (hs.sum hL y o), getEss1_finite]
  rfl

theorem recorded_init [NeZero P] (hL : Estimates env n L) (algo : Algo P d Y Ω K) :
    Recorded (V := V) env n L drawn noise [] (init env algo n drawn none noise) where
  untouched := untouched_init env algo n drawn noise
  length := rfl
  last := by
    have h := getEss1_finite env.lo (fun _ : Fin P => (0 : ℝ))
    show (getEss1 env.lo (fun _ : Fin P => (0 : XF)) false).2 = _
    have h0 : ∀ i, L [] (drawn i) (noise i) = 0 := by
      intro i
      have h1 := hL (drawn i) [] fun _ => noise i
      have h2 : env.loglik (batchFilter n ⟨drawn i, drawn i⟩ ([] : List Y) fun _ => noise i) = fin 0 := rfl
      rw [h2] at h1
      exact (XF.fin.inj h1).symm
    unfold essAt
    simp only [h0]
    exact h

theorem recorded_step [NeZero P] (cbs : List (Callback P d Y Ω V)) (hb : ∀ cb ∈ cbs, Benign cb)
    (hk : ∀ cb ∈ cbs, KeepsFinite cb) (hL : Estimates env n L) {ys : List Y} {s : State P d Y Ω K V}
    (hs : Recorded env n L drawn noise ys s) (y : Y) (r : StepDraws P d Ω)
    (h1 : (s.algo.step_ env s.sys s.tup s.obj y r).ret = .ok none)
    (h2 : (s.algo.step_ env s.sys s.tup s.obj y r).event = .kept) :
    (step env cbs s y r).err = none ∧ (step env cbs s y r).event = .kept ∧
      (step env cbs s y r).state.algo = (s.algo.step_ env s.sys s.tup s.obj y r).algo ∧
      Recorded env n L drawn noise (ys ++ [y]) (step env cbs s y r).state := by
  have hst := step_of_ok env cbs s y r none h1
  have herr : (step env cbs s y r).err = none := by rw [hst]
  have hev : (step env cbs s y r).event = .kept := by rw [hst]; exact h2
  obtain ⟨-, -, tup', hess, ht, -⟩ := step_kept env s.algo s.sys s.tup s.obj y r none h1 h2
  have hc := runCallbacks_benign cbs hb (s.algo.step_ env s.sys s.tup s.obj y r).sys y
    (s.algo.step_ env s.sys s.tup s.obj y r).tup (s.algo.step_ env s.sys s.tup s.obj y r).obj
  have hess' : (step env cbs s y r).state.tup.ess = s.tup.ess ++ [fin (essAt L drawn noise (ys ++ [y]))] := by
    rw [hst]
    show (runCallbacks _ y cbs _ _).2.1.ess = _
    rw [hc.1, ht, hs.append hL, hess]
  refine ⟨herr, hev, by rw [hst], untouched_step env cbs hb hk hL.finite hs.untouched y r herr hev, ?_, ?_⟩
  · rw [hess', List.length_append, hs.length, List.length_append]
    rfl
  · unfold lastEss
    rw [hess', List.getLast?_append, List.getLast?_singleton]
    rfl

theorem xf_lt_fin {a b : ℝ} : XF.lt (fin a) (fin b) ↔ a < b := Iff.rfl

/-- SMC2 looks at the effective sample size after the observation. -/
theorem smc2_keeps [NeZero P] (hL : Estimates env n L) {ys : List Y} {s : State P d Y Ω K V}
    (hs : Recorded env n L drawn noise ys s) (y : Y) (r : StepDraws P d Ω) (cfg : SmcCfg P d Y Ω K) (j : ℕ)
    (h : cfg.threshold.get (ys.length + 1 : ℕ) * P ≤ essAt L drawn noise (ys ++ [y])) :
    let out := (Algo.smc2 cfg j : Algo P d Y Ω K).step_ env s.sys s.tup s.obj y r
    out.ret = .ok none ∧ out.event = .kept ∧ out.algo = .smc2 cfg j := by
  rw [Algo.step_]
  unfold smcStep
  simp only
  have hd : smcDecides cfg.threshold
      (filterAppend env s.sys { s.tup with data := s.tup.data ++ [y] } s.obj y r.noise).1
      (filterAppend env s.sys { s.tup with data := s.tup.data ++ [y] } s.obj y r.noise).2 = false := by
    unfold smcDecides lastEss
    rw [decide_eq_false_iff_not, hs.append hL, List.getLast?_append, List.getLast?_singleton, List.length_append,
      List.length_singleton, hs.length]
    rintro (h' | ⟨i, hi⟩)
    · have h'' := xf_lt_fin.1 h'
      have e : (((ys.length + 1 + 1 : ℕ) : ℤ) - 1) = ((ys.length + 1 : ℕ) : ℤ) := by push_cast; ring
      rw [e] at h''
      exact absurd h (not_le.2 h'')
    · refine hi ?_
      show (nanToNum env.lo (s.obj.w i + stepLogLik env s.sys s.obj y r.noise i)).IsFinite
      rw [hs.sum hL]
      trivial
  rw [hd]
  exact ⟨rfl, rfl, rfl⟩

theorem smc2_updates [NeZero P] (hL : Estimates env n L) {ys : List Y} {s : State P d Y Ω K V}
    (hs : Recorded env n L drawn noise ys s) (y : Y) (r : StepDraws P d Ω) (cfg : SmcCfg P d Y Ω K) (j : ℕ)
    (h : essAt L drawn noise (ys ++ [y]) < cfg.threshold.get (ys.length + 1 : ℕ) * P) :
    ((Algo.smc2 cfg j : Algo P d Y Ω K).step_ env s.sys s.tup s.obj y r).event ≠ .kept := by
  rw [Algo.step_]
  unfold smcStep
  simp only
  have hd : smcDecides cfg.threshold
      (filterAppend env s.sys { s.tup with data := s.tup.data ++ [y] } s.obj y r.noise).1
      (filterAppend env s.sys { s.tup with data := s.tup.data ++ [y] } s.obj y r.noise).2 = true := by
    unfold smcDecides lastEss
    simp only [decide_eq_true_eq]
    rw [hs.append hL, List.getLast?_append, List.getLast?_singleton, List.length_append,
      List.length_singleton, hs.length]
    refine Or.inl (xf_lt_fin.2 ?_)
    have e : (((ys.length + 1 + 1 : ℕ) : ℤ) - 1) = ((ys.length + 1 : ℕ) : ℤ) := by push_cast; ring
    rw [e]
    exact h
  rw [hd]
  exact fun he => smcUpdate_event _ _ _ _ _ _ _ he

/-- NESS looks at the effective sample size before the observation. -/
theorem ness_keeps [NeZero P] (hL : Estimates env n L) {ys : List Y} {s : State P d Y Ω K V}
    (hs : Recorded env n L drawn noise ys s) (y : Y) (r : StepDraws P d Ω) (t : ℝ) (cfg : OnlineCfg d)
    (h : t ≤ essAt L drawn noise ys) :
    let out := (Algo.ness t cfg : Algo P d Y Ω K).step_ env s.sys s.tup s.obj y r
    out.ret = .ok none ∧ out.event = .kept ∧ out.algo = .ness t cfg := by
  rw [Algo.step_]
  have hd : nessDecides t s.tup s.obj = false := by
    unfold nessDecides
    rw [decide_eq_false_iff_not, hs.last]
    rintro (⟨-, h'⟩ | ⟨i, hi⟩)
    · exact absurd h (not_le.2 (xf_lt_fin.1 h'))
    · refine hi ?_
      rw [hs.w hL]
      trivial
  rw [hd]
  exact ⟨rfl, rfl, rfl⟩

theorem ness_decides [NeZero P] {ys : List Y} {s : State P d Y Ω K V}
    (hs : Recorded env n L drawn noise ys s) (t : ℝ) (h : essAt L drawn noise ys < t) :
    nessDecides t s.tup s.obj = true := by
  unfold nessDecides
  simp only [decide_eq_true_eq]
  rw [hs.last]
  refine Or.inl ⟨?_, xf_lt_fin.2 h⟩
  have hne : s.tup.ess ≠ [] := by
    intro h0
    have := hs.length
    rw [h0] at this
    simp at this
  refine ⟨s.tup.ess.getLast hne, List.getLast_mem hne, ?_⟩
  have h1 := hs.last
  unfold lastEss at h1
  rw [List.getLast?_eq_getLast_of_ne_nil hne] at h1
  simp only [Option.getD_some] at h1
  rw [h1]
  exact (essAt_pos L drawn noise ys).ne'

/-- The runs without update, from the record of effective sample sizes. -/
theorem recorded_run [NeZero P] (cbs : List (Callback P d Y Ω V)) (hb : ∀ cb ∈ cbs, Benign cb)
    (hk : ∀ cb ∈ cbs, KeepsFinite cb) (hL : Estimates env n L) (algo : Algo P d Y Ω K)
    (xs : List (Y × StepDraws P d Ω))
    (hkeep : ∀ (l : List (Y × StepDraws P d Ω)) (x : Y × StepDraws P d Ω), l ++ [x] <+: xs →
      ∀ s : State P d Y Ω K V, Recorded env n L drawn noise (l.map Prod.fst) s →
        let out := algo.step_ env s.sys s.tup s.obj x.1 x.2
        out.ret = .ok none ∧ out.event = .kept ∧ out.algo = algo) :
    let a := run env cbs (init env algo n drawn none noise) xs
    a.2.2.2 = none ∧ a.2.2.1 = List.replicate xs.length .kept ∧ a.1.algo = algo ∧
      Recorded env n L drawn noise (xs.map Prod.fst) a.1 := by
  induction xs using List.reverseRecOn with
  | nil => exact ⟨rfl, rfl, rfl, recorded_init hL algo⟩
  | append_singleton xs x ih =>
    obtain ⟨h1, h2, h3, h4⟩ := ih fun l x' hl => hkeep l x' (hl.trans (List.prefix_append _ _))
    obtain ⟨y, r⟩ := x
    have hst := hkeep xs (y, r) (List.prefix_refl _) _ h4
    obtain ⟨g1, g2, g3, g4⟩ := recorded_step cbs hb hk hL h4 y r (by rw [h3]; exact hst.1) (by rw [h3]; exact hst.2.1)
    intro a
    have ha : a = ((step env cbs (run env cbs (init env algo n drawn none noise) xs).1 y r).state,
        (run env cbs (init env algo n drawn none noise) xs).2.1
          ++ (step env cbs (run env cbs (init env algo n drawn none noise) xs).1 y r).calls,
        (run env cbs (init env algo n drawn none noise) xs).2.2.1
          ++ [(step env cbs (run env cbs (init env algo n drawn none noise) xs).1 y r).event],
        (step env cbs (run env cbs (init env algo n drawn none noise) xs).1 y r).err) := by
      show run env cbs (init env algo n drawn none noise) (xs ++ [(y, r)]) = _
      rw [run_concat, h1]
    rw [ha]
    refine ⟨g1, ?_, ?_, ?_⟩
    · show _ ++ [_] = _
      rw [h2, g2, List.length_append, List.length_singleton, List.replicate_succ']
    · show (step env cbs _ y r).state.algo = algo
      rw [g3, h3]
      exact hst.2.2
    · rw [List.map_append]
      exact g4

/-- A run without update keeps the record. -/
theorem recorded_kept [NeZero P] (cbs : List (Callback P d Y Ω V)) (hb : ∀ cb ∈ cbs, Benign cb)
    (hk : ∀ cb ∈ cbs, KeepsFinite cb) (hL : Estimates env n L) (algo : Algo P d Y Ω K) (xs : List (Y × StepDraws P d Ω))
    (h : (run env cbs (init env algo n drawn none noise) xs).2.2.2 = none)
    (he : ∀ e ∈ (run env cbs (init env algo n drawn none noise) xs).2.2.1, e = .kept) :
    Recorded env n L drawn noise (xs.map Prod.fst) (run env cbs (init env algo n drawn none noise) xs).1 := by
  induction xs using List.reverseRecOn with
  | nil => exact recorded_init hL algo
  | append_singleton xs x ih =>
    obtain ⟨y, r⟩ := x
    rw [run_concat] at h he ⊢
    cases hr : (run env cbs (init env algo n drawn none noise) xs).2.2.2 with
    | some e =>
      rw [hr] at h
      simp only at h
      rw [hr] at h
      exact nomatch h
    | none =>
      rw [hr] at h he
      simp only at h he ⊢
      have ih := ih hr (fun e hm => he e (List.mem_append_left _ hm))
      have hev := he _ (List.mem_append_right _ (List.mem_singleton.2 rfl))
      rw [List.map_append]
      generalize (run env cbs (init env algo n drawn none noise) xs).1 = s at *
      cases hret : (s.algo.step_ env s.sys s.tup s.obj y r).ret with
      | error e =>
        rw [step_of_error env cbs s y r e hret] at h
        exact nomatch h
      | ok f =>
        have hst := step_of_ok env cbs s y r f hret
        have hk' : (s.algo.step_ env s.sys s.tup s.obj y r).event = .kept := by
          rw [hst] at hev
          exact hev
        obtain ⟨rfl, -⟩ := step_kept env s.algo s.sys s.tup s.obj y r f hret hk'
        exact (recorded_step cbs hb hk hL ih y r hret hk').2.2.2

end Verif.SeqImportance
