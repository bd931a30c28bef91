import Verif.Model.PreWeight

/-!
# Property C135: pre-weights evaluate the observation at a guess of the next state
-/

namespace Verif.Props

open Verif Verif.PreWeight

variable {N B d : ℕ} {V Y : Type}

/-- The pre-weights that are meant: the log-density of the observation at the state that the function of the user predicts or, if
there is none, at the mean of the next state, one time step later. If there is neither, an exception. -/
def MeantPreWeight (f : Option (PreWeight.Model N B d V Y → TS N B d V → TS N B d V)) (m : PreWeight.Model N B d V Y) (y : Y)
    (x : TS N B d V) (r : Except PyErr (Fin N → Fin B → XF)) : Prop :=
  (∀ g, f = some g → r = .ok (m.logProb y (g m x))) ∧
  (∀ mean, f = none → m.mean = some mean → r = .ok (m.logProb y ⟨mean x, x.time + 1⟩)) ∧
  (f = none → m.mean = none → ∃ s, r = .error (.exception s))

/-- The proposal after models have been set one after another; refused models raise an exception, which is caught. -/
def afterModels (p : PreWeight.Obj N B d V Y) (ms : List (PreWeight.Model N B d V Y)) : PreWeight.Obj N B d V Y :=
  ms.foldl (fun p m => (setModel p m).1) p

/-- What is claimed: whatever models have been set before, after `set_model m` the pre-weights are those for `m`. -/
def C135_claim : Prop :=
  ∀ (N B d : ℕ) (V Y : Type) (kind : ProposalKind) (f : Option (PreWeight.Model N B d V Y → TS N B d V → TS N B d V))
    (p : PreWeight.Obj N B d V Y) (_ : construct kind f = .ok p) (earlier : List (PreWeight.Model N B d V Y))
    (m : PreWeight.Model N B d V Y) (_ : (setModel (afterModels p earlier) m).2 = .ok ()) (y : Y) (x : TS N B d V),
    MeantPreWeight f m y x (preWeight (setModel (afterModels p earlier) m).1 y x)

theorem afterModels_kind (p : PreWeight.Obj N B d V Y) (ms : List (PreWeight.Model N B d V Y)) : (afterModels p ms).kind = p.kind := by
  induction ms generalizing p with
  | nil => rfl
  | cons m ms ih =>
    refine (ih _).trans ?_
    dsimp only
    rcases h : p.kind <;> unfold setModel <;> rw [h] <;> dsimp only <;> (try split_ifs) <;> exact h

/-- A proposal that never refuses. -/
def Permissive (kind : ProposalKind) : Prop := kind = .bootstrap ∨ kind = .nested ∨ kind = .gaussian

theorem setModel_permissive {p : PreWeight.Obj N B d V Y} (h : Permissive p.kind) (m : PreWeight.Model N B d V Y) :
    setModel p m = (setModelBase p m, .ok ()) := by
  unfold setModel
  rcases h with h | h | h <;> rw [h]

theorem setModel_cases (p : PreWeight.Obj N B d V Y) (m : PreWeight.Model N B d V Y) :
    (setModel p m = (p, .error .valueError)) ∨
      (setModel p m = (setModelBase p m, .ok ()) ∧ (Permissive p.kind ∨ m.mean.isSome)) := by
  unfold setModel Permissive
  cases hk : p.kind <;> simp only [] <;> (try split_ifs with h) <;>
    simp_all [Option.isSome_iff_ne_none, Option.isNone_iff_eq_none]

theorem custom_kept (p : PreWeight.Obj N B d V Y) (g : Func N B d V Y) (hp : p.func = some g)
    (ms : List (PreWeight.Model N B d V Y)) : (afterModels p ms).func = some g := by
  induction ms generalizing p with
  | nil => exact hp
  | cons m ms ih =>
    refine ih _ ?_
    dsimp only
    rcases setModel_cases p m with h | ⟨h, -⟩
    · rw [h]; exact hp
    · rw [h]
      unfold setModelBase getPreWeightFunc
      simp [hp]

/-- The function that is held after models of one class. -/
theorem resolved_kept (p : PreWeight.Obj N B d V Y) (m : PreWeight.Model N B d V Y)
    (hp : p.func = none ∨ p.func = some (getPreWeightFunc none m)) (ms : List (PreWeight.Model N B d V Y))
    (hms : ∀ m' ∈ ms, (setModel p m').2 = .ok () → m'.mean.isSome = m.mean.isSome) :
    (afterModels p ms).func = none ∨ (afterModels p ms).func = some (getPreWeightFunc none m) := by
  induction ms generalizing p with
  | nil => exact hp
  | cons m' ms ih =>
    have hacc : ∀ (q : PreWeight.Obj N B d V Y) m'', q.kind = p.kind → (setModel q m'').2 = (setModel p m'').2 := by
      intro q m'' hq
      unfold setModel
      rw [hq]
      cases p.kind <;> simp only [] <;> (try split_ifs) <;> rfl
    have hk : (setModel p m').1.kind = p.kind := afterModels_kind p [m']
    refine ih _ ?_ fun m'' hm'' ha => hms m'' (by simp [hm'']) (by rw [← hacc _ m'' hk]; exact ha)
    dsimp only
    rcases setModel_cases p m' with h | ⟨h, -⟩
    · rw [h]; exact hp
    · rw [h]
      right
      have h1 := hms m' (by simp) (by rw [h])
      unfold setModelBase
      rcases hp with hp | hp
      · unfold getPreWeightFunc
        simp only [hp, h1]
      · simp only [hp]
        rfl

/-- C135, proved if a function was passed, or all models that were accepted before are affine if and only if the new one is (so in
particular if there were none, and for the linearised proposals, which accept affine models only). Missing: a proposal that is
reused for a model of another class; see `C135_negation`. -/
theorem C135_pre_weights_partial (kind : ProposalKind) (f : Option (PreWeight.Model N B d V Y → TS N B d V → TS N B d V))
    (p : PreWeight.Obj N B d V Y) (hp : construct kind f = .ok p) (earlier : List (PreWeight.Model N B d V Y))
    (m : PreWeight.Model N B d V Y) (hm : (setModel (afterModels p earlier) m).2 = .ok ())
    (hclass : f.isSome ∨ ∀ m' ∈ earlier, (setModel p m').2 = .ok () → m'.mean.isSome = m.mean.isSome)
    (y : Y) (x : TS N B d V) : MeantPreWeight f m y x (preWeight (setModel (afterModels p earlier) m).1 y x) := by
  have hset : setModel (afterModels p earlier) m = (setModelBase (afterModels p earlier) m, .ok ()) := by
    rcases setModel_cases (afterModels p earlier) m with h | ⟨h, -⟩
    · rw [h] at hm; cases hm
    · exact h
  have hfunc : p.func = f.map .custom := by
    cases kind <;> cases f <;> (unfold construct at hp; cases hp) <;> rfl
  rw [hset]
  cases f with
  | some g =>
    have h1 := custom_kept p (.custom g) hfunc earlier
    have h2 : preWeight (setModelBase (afterModels p earlier) m) y x = .ok (m.logProb y (g m x)) := by
      unfold preWeight setModelBase
      simp only [h1]
      rfl
    refine ⟨?_, by simp, by simp⟩
    intro g' hg
    cases hg
    exact h2
  | none =>
    have h1 := resolved_kept p m (Or.inl hfunc) earlier (hclass.resolve_left (by simp))
    have h2 : (setModelBase (afterModels p earlier) m).func = some (getPreWeightFunc none m) := by
      unfold setModelBase
      rcases h1 with h1 | h1
      · simp only [h1]
      · simp only [h1]
        rfl
    have h3 : preWeight (setModelBase (afterModels p earlier) m) y x
        = ((getPreWeightFunc none m).call m x >>= fun new => .ok (m.logProb y new)) := by
      unfold preWeight
      rw [h2]
      rfl
    rw [h3]
    refine ⟨by simp, fun mean _ hmean => ?_, fun _ hmean => ?_⟩
    · unfold getPreWeightFunc
      simp only [hmean, Option.isSome_some, if_true, Func.call]
      unfold affineProcess
      rw [hmean]
      rfl
    · unfold getPreWeightFunc
      simp only [hmean, Option.isSome_none, Bool.false_eq_true, if_false, Func.call]
      exact ⟨_, rfl⟩

/-- The linearised proposals have the pre-weights for the last model that was set, whatever was set before. -/
theorem C135_linearized (kind : ProposalKind) (hk : kind = .linearized ∨ kind = .gaussianLinearized)
    (p : PreWeight.Obj N B d V Y) (hp : construct kind none = .ok p) (earlier : List (PreWeight.Model N B d V Y))
    (m : PreWeight.Model N B d V Y) (hm : (setModel (afterModels p earlier) m).2 = .ok ()) (y : Y) (x : TS N B d V) :
    ∃ mean, m.mean = some mean ∧
      preWeight (setModel (afterModels p earlier) m).1 y x = .ok (m.logProb y ⟨mean x, x.time + 1⟩) := by
  have hpk : p.kind = kind := by
    rcases hk with rfl | rfl <;> (cases hp; rfl)
  have haff : ∀ (q : PreWeight.Obj N B d V Y) m', q.kind = kind → (setModel q m').2 = .ok () → m'.mean.isSome := by
    intro q m' hq hm'
    rcases setModel_cases q m' with h | ⟨-, h | h⟩
    · rw [h] at hm'; cases hm'
    · unfold Permissive at h
      rw [hq] at h
      rcases hk with rfl | rfl <;> simp at h
    · exact h
  have h1 := haff (afterModels p earlier) m ((afterModels_kind p earlier).trans hpk) hm
  obtain ⟨mean, hmean⟩ := Option.isSome_iff_exists.1 h1
  refine ⟨mean, hmean, ?_⟩
  exact (C135_pre_weights_partial kind none p hp earlier m hm (Or.inr fun m' _ ha => by
    rw [haff p m' hpk ha, h1]) y x).2.1 mean rfl hmean

/-- A reused proposal keeps the function that was found for the first model: after a model that is not affine all pre-weights
raise, and after an affine model those for other models raise as well, but with another exception. -/
theorem C135_reused {kind : ProposalKind} (hk : Permissive kind) (p : PreWeight.Obj N B d V Y) (hp : construct kind none = .ok p)
    (m₁ m₂ : PreWeight.Model N B d V Y) (y : Y) (x : TS N B d V) :
    (m₁.mean = none → ∃ s, preWeight (afterModels p [m₁, m₂]) y x = .error (.exception s)) ∧
    (m₁.mean.isSome → m₂.mean = none → preWeight (afterModels p [m₁, m₂]) y x = .error .attributeError) := by
  have hpe : p = ⟨kind, none, none⟩ := by
    rcases hk with rfl | rfl | rfl <;> (cases hp; rfl)
  subst hpe
  have h2 : afterModels (⟨kind, none, none⟩ : PreWeight.Obj N B d V Y) [m₁, m₂]
      = ⟨kind, some m₂, some (getPreWeightFunc none m₁)⟩ := by
    unfold afterModels
    simp only [List.foldl]
    rw [setModel_permissive (p := ⟨kind, none, none⟩) hk, setModel_permissive (p := setModelBase ⟨kind, none, none⟩ m₁) hk]
    rfl
  rw [h2]
  constructor
  · intro h
    unfold preWeight getPreWeightFunc
    simp only [h, Option.isSome_none, Bool.false_eq_true, if_false, Func.call]
    exact ⟨_, rfl⟩
  · intro h h'
    unfold preWeight getPreWeightFunc
    simp only [h, if_true, Func.call]
    unfold affineProcess
    rw [h']
    rfl

/-- One proposal object for two filters: first a process that is not affine, then a random walk. -/
theorem C135_negation : ¬ C135_claim := by
  intro h
  let m₁ : PreWeight.Model 1 1 1 ℝ ℝ := ⟨none, false, fun _ _ _ _ => .fin 0⟩
  let m₂ : PreWeight.Model 1 1 1 ℝ ℝ := ⟨some fun x => x.value, true, fun y x i b => .fin (-(y - x.value i b 0) ^ 2)⟩
  let x : TS 1 1 1 ℝ := ⟨fun _ _ _ => 0, 0⟩
  have h1 := (h 1 1 1 ℝ ℝ .bootstrap none ⟨.bootstrap, none, none⟩ rfl [m₁] m₂ rfl 0 x).2.1 (fun x => x.value) rfl rfl
  obtain ⟨s, h2⟩ := (C135_reused (Or.inl rfl) (⟨.bootstrap, none, none⟩ : PreWeight.Obj 1 1 1 ℝ ℝ) rfl m₁ m₂ 0 x).1 rfl
  have h3 := h1.symm.trans h2
  cases h3

/-- A case for the partial theorem: two autoregressive models, one after the other, as in `initialize` after a parameter move. -/
example : ∃ (m₁ m₂ : PreWeight.Model 3 2 1 ℝ ℝ) (p : PreWeight.Obj 3 2 1 ℝ ℝ), construct .bootstrap none = .ok p ∧
    (setModel (afterModels p [m₁]) m₂).2 = .ok () ∧ m₁.mean.isSome = m₂.mean.isSome ∧
    ∀ y x, preWeight (setModel (afterModels p [m₁]) m₂).1 y x
      = .ok fun i b => .fin (-(y - (b + 1 : ℝ) * x.value i b 0) ^ 2) := by
  let m₁ : PreWeight.Model 3 2 1 ℝ ℝ := ⟨some fun x i b j => x.value i b j / 2, true, fun y x i b => .fin (-(y - x.value i b 0) ^ 2)⟩
  let m₂ : PreWeight.Model 3 2 1 ℝ ℝ := ⟨some fun x i b j => (b + 1 : ℝ) * x.value i b j, true, fun y x i b => .fin (-(y - x.value i b 0) ^ 2)⟩
  refine ⟨m₁, m₂, ⟨.bootstrap, none, none⟩, rfl, rfl, rfl, fun y x => ?_⟩
  exact (C135_pre_weights_partial .bootstrap none _ rfl [m₁] m₂ rfl (Or.inr (by simp [m₁, m₂])) y x).2.1 _ rfl rfl

end Verif.Props
