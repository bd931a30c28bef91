import Verif.Lemmas.Pickle

/-!
# C122: pickled and deep-copied contexts and parameters
-/

namespace Verif.Props

open Verif.Ctx Verif.Ctx.Graph Verif.Spec

variable {α : Type}

/-! ### From the invariant of the walk to the specification -/

theorem untouched_of_ext {g g' : Graph α} (h : Ext g g') (hs : Separate g.w) : Untouched g g' :=
  ⟨h.ctx, fun _ hp => h.tensor hs hp, h.name, h.owner, h.grad⟩

theorem ownValues_of_separate {g : Graph α} (h : Separate g.w) : OwnValues g := by
  intro p q data hp hq hpq
  have : g.w.obj q ≠ g.w.obj p := fun e => hpq (h.inj q p hq hp e).symm
  simp only [World.tensor, World.write, Function.update_of_ne this]

theorem samePar_of_done {g g' : Graph α} (h : WF g) {c d : ℕ} (hc : c < g.nx) {k : List Char} {p q : ℕ}
    (hp : dictGet (g.ctx c).params k = some p) (hd : Done g g' d p q)
    (hpr : (g'.ctx d).priors = (g.ctx c).priors) : SamePar g g' p q := by
  obtain ⟨_, ho, hn⟩ := h.bound c hc _ (mem_of_dictGet hp)
  obtain ⟨pr, hprior⟩ := h.prior c hc _ (mem_of_dictGet hp)
  dsimp only at ho hn hprior
  refine ⟨⟨hd.ge, hd.lt⟩, hd.tensor, hd.grad, hd.name, pr, ?_, ?_⟩
  · simp only [Graph.prior, ho, hn, Option.bind_some, hprior]
  · simp only [Graph.prior, hd.owner, hd.name, hn, Option.bind_some, hpr, hprior]

theorem sameCtx_of_inv {g g' : Graph α} (h : WF g) {c : ℕ} (hc : c < g.nx) {m : Memo}
    (hi : Inv g c g.nx g' m) (hx : g'.nx = g.nx + 1) {qs : List (List Char × ℕ)}
    (h1 : g'.ctx g.nx = { g.ctx c with params := qs })
    (h2 : List.Forall₂ (fun e e' : List Char × ℕ => e.1 = e'.1 ∧ m.par e.2 = some e'.2)
      (g.ctx c).params qs) : SameCtx g g' c g.nx := by
  refine ⟨⟨le_rfl, by omega⟩, ?_, ?_, ?_, ?_, ?_, ?_, ?_⟩
  · rw [h1]
  · rw [h1]
  · rw [h1]
  · rw [h1]
  · rw [h1]
  · rw [h1]; exact forall₂_keys h2
  · intro k p hp
    have hg : dictGet qs k = m.par p := by rw [forall₂_get h2 k, hp]; rfl
    have : (dictGet qs k).isSome := by
      rw [dictGet_isSome, forall₂_keys h2, ← dictGet_isSome, hp]; rfl
    obtain ⟨q, hq⟩ := Option.isSome_iff_exists.1 this
    have hd := hi.done p q (by rw [← hg, hq])
    refine ⟨q, by rw [h1]; exact hq, samePar_of_done h hc hp hd (by rw [h1]), hd.owner⟩

/-! ### C122 -/

/-- C122 as stated: pickles and deep copies of contexts are equal to the original and independent of it,
with parameters that know their context and their prior. -/
def C122_claim : Prop :=
  ∀ g : Graph ℚ, Made g → ∀ c, c < g.nx →
    (∀ f, 5 ≤ f → ∃ g' m d, g.pickleContext f Memo.empty c = .ok (g', m, d) ∧ SameCtx g g' c d
      ∧ Untouched g g' ∧ OwnValues g')
    ∧ SameCtx g (g.deepContext Memo.empty c).1 c (g.deepContext Memo.empty c).2.2

/-- C122 for pickles: in every reachable state a pickle of a context can be read, it is a new context with
equal settings, in which every parameter is found under its name with its values, its prior and a
reference to the new context; nothing that existed is changed, and all values can be changed
independently. Missing: `copy.deepcopy`, which loses the prior (`C122_deepcopy_context`). -/
theorem C122_context_partial {g : Graph α} (hg : Made g) {c : ℕ} (hc : c < g.nx) {f : ℕ} (hf : 5 ≤ f) :
    ∃ g' m d, g.pickleContext f Memo.empty c = .ok (g', m, d) ∧ SameCtx g g' c d ∧ Untouched g g'
      ∧ OwnValues g' := by
  have h := wf_of_made hg
  obtain ⟨f, rfl⟩ := Nat.exists_eq_add_of_le' hf
  obtain ⟨g', m, e, i, n, _, qs, h1, h2⟩ := pickleContext_wf h hc f
  exact ⟨g', m, g.nx, e, sameCtx_of_inv h hc i n h1 h2, untouched_of_ext i.ext h.sep,
    ownValues_of_separate i.sep⟩

/-- C122: a pickle of a registered parameter contains its context, and the parameter that is read is the
very object that the new context has under this name (although `_rebuild_parameter` is called for it
twice). -/
theorem C122_parameter {g : Graph α} (hg : Made g) {c : ℕ} (hc : c < g.nx) {k : List Char} {p : ℕ}
    (hp : dictGet (g.ctx c).params k = some p) {f : ℕ} (hf : 7 ≤ f) :
    ∃ g' m q d, g.pickleParameter f Memo.empty p = .ok (g', m, q) ∧ SamePar g g' p q
      ∧ g'.owner q = some d ∧ SameCtx g g' c d ∧ dictGet (g'.ctx d).params k = some q
      ∧ Untouched g g' ∧ OwnValues g' := by
  have h := wf_of_made hg
  obtain ⟨f, rfl⟩ := Nat.exists_eq_add_of_le' hf
  obtain ⟨g', m, q, e, i, hm, n, _, qs, h1, h2⟩ := pickleParameter_wf h hc hp f
  have hd := i.done p q hm
  refine ⟨g', m, q, g.nx, e, samePar_of_done h hc hp hd (by rw [h1]), hd.owner,
    sameCtx_of_inv h hc i n h1 h2, ?_, untouched_of_ext i.ext h.sep, ownValues_of_separate i.sep⟩
  rw [h1]
  dsimp only
  rw [forall₂_get h2 k, hp]
  exact hm

/-- C122: an object pickled together with its context (a filter or an algorithm that holds parameters
of the context) gets the parameters of the new context, not further copies. -/
theorem C122_shared {g : Graph α} (hg : Made g) {c : ℕ} (hc : c < g.nx) {k : List Char} {p : ℕ}
    (hp : dictGet (g.ctx c).params k = some p) {f f' : ℕ} (hf : 5 ≤ f) (hf' : 1 ≤ f')
    {g' : Graph α} {m : Memo} {d : ℕ} (he : g.pickleContext f Memo.empty c = .ok (g', m, d)) :
    ∃ q, g'.pickleParameter f' m p = .ok (g', m, q) ∧ dictGet (g'.ctx d).params k = some q := by
  have h := wf_of_made hg
  obtain ⟨f, rfl⟩ := Nat.exists_eq_add_of_le' hf
  obtain ⟨f', rfl⟩ := Nat.exists_eq_add_of_le' hf'
  obtain ⟨g1, m1, e, i, n, _, qs, h1, h2⟩ := pickleContext_wf h hc f
  rw [e] at he
  cases he
  have hg : dictGet qs k = m.par p := by rw [forall₂_get h2 k, hp]; rfl
  have : (dictGet qs k).isSome := by
    rw [dictGet_isSome, forall₂_keys h2, ← dictGet_isSome, hp]; rfl
  obtain ⟨q, hq⟩ := Option.isSome_iff_exists.1 this
  refine ⟨q, ?_, by rw [h1]; exact hq⟩
  unfold Graph.pickleParameter
  rw [← hg, hq]

/-- C122: the deep copy of a parameter has its values but no prior: asking for it, or evaluating it,
raises an `AttributeError`. -/
theorem C122_deepcopy_parameter {β : Type} (g : Graph α) (p : ℕ) (l : Prior α → Tens α → β) :
    (g.deepParameter Memo.empty p).1.w.tensor (g.deepParameter Memo.empty p).2.2 = g.w.tensor p
      ∧ (g.deepParameter Memo.empty p).1.prior (g.deepParameter Memo.empty p).2.2 = .error .attribute
      ∧ (g.deepParameter Memo.empty p).1.evalPrior l (g.deepParameter Memo.empty p).2.2
        = .error .attribute := by
  have hp : (g.deepParameter Memo.empty p).1.prior (g.deepParameter Memo.empty p).2.2
      = .error .attribute := by
    simp [Graph.prior, deepParameter, Memo.empty, newPar]
  refine ⟨?_, hp, ?_⟩
  · simp [deepParameter, Memo.empty, newPar, World.tensor, World.newParam]
  · simp only [evalPrior, hp]

/-- A parameter without a context. -/
def Lost (g : Graph α) (q : ℕ) : Prop := g.owner q = none

theorem deepDict_lost (ps : List (List Char × ℕ)) :
    ∀ (g : Graph α) (m : Memo), (∀ x y, m.par x = some y → y < g.w.no ∧ Lost g y) →
      (g.deepDict m ps).2.2.map Prod.fst = ps.map Prod.fst
        ∧ ∀ e ∈ (g.deepDict m ps).2.2, Lost (g.deepDict m ps).1 e.2 := by
  induction ps with
  | nil =>
    intro g m _
    refine ⟨rfl, ?_⟩
    intro e he
    cases he
  | cons e rest ih =>
    obtain ⟨k, p⟩ := e
    -- deep copying the rest keeps lost objects lost
    have keep : ∀ (ps : List (List Char × ℕ)) (g : Graph α) (m : Memo) (q : ℕ), q < g.w.no → Lost g q →
        Lost (g.deepDict m ps).1 q := by
      intro ps
      induction ps with
      | nil => intro g m q _ h; exact h
      | cons e rest ih' =>
        intro g m q hq h
        obtain ⟨k, p⟩ := e
        simp only [deepDict]
        refine ih' _ _ q ?_ ?_
        · unfold deepParameter
          split
          · exact hq
          · exact Nat.lt_succ_of_lt hq
        · unfold deepParameter
          split
          · exact h
          · simp only [Lost, newPar, Function.update_of_ne (Nat.ne_of_lt hq)]
            exact h
    intro g m hm
    have step : (g.deepParameter m p).2.2 < (g.deepParameter m p).1.w.no
        ∧ Lost (g.deepParameter m p).1 (g.deepParameter m p).2.2
        ∧ ∀ x y, (g.deepParameter m p).2.1.par x = some y →
          y < (g.deepParameter m p).1.w.no ∧ Lost (g.deepParameter m p).1 y := by
      unfold deepParameter
      cases hp : m.par p with
      | some q => exact ⟨(hm p q hp).1, (hm p q hp).2, hm⟩
      | none =>
        dsimp only
        refine ⟨Nat.lt_succ_self _, ?_, ?_⟩
        · simp [Lost, newPar]
        · intro x y hxy
          by_cases hx : x = p
          · subst hx
            rw [Function.update_self] at hxy
            have : g.w.no = y := Option.some.inj hxy
            subst this
            exact ⟨Nat.lt_succ_self _, by simp [Lost, newPar]⟩
          · rw [Function.update_of_ne hx] at hxy
            obtain ⟨h1, h2⟩ := hm x y hxy
            refine ⟨Nat.lt_succ_of_lt h1, ?_⟩
            simp only [Lost, newPar, Function.update_of_ne (Nat.ne_of_lt h1)]
            exact h2
    obtain ⟨s1, s2, s3⟩ := step
    obtain ⟨i1, i2⟩ := ih _ _ s3
    simp only [deepDict, List.map_cons]
    refine ⟨by rw [i1], ?_⟩
    intro e he
    rcases List.mem_cons.1 he with rfl | he
    · exact keep rest _ _ _ s1 s2
    · exact i2 e he

/-- C122: the deep copy of a context has the names and the priors of the original, but every parameter
in it raises an `AttributeError` when asked for its prior. -/
theorem C122_deepcopy_context (g : Graph α) (c : ℕ) :
    ((g.deepContext Memo.empty c).1.ctx (g.deepContext Memo.empty c).2.2).priors = (g.ctx c).priors
      ∧ ((g.deepContext Memo.empty c).1.ctx (g.deepContext Memo.empty c).2.2).params.map Prod.fst
        = (g.ctx c).params.map Prod.fst
      ∧ ∀ k q, dictGet ((g.deepContext Memo.empty c).1.ctx (g.deepContext Memo.empty c).2.2).params k
          = some q → (g.deepContext Memo.empty c).1.prior q = .error .attribute := by
  have h := deepDict_lost (g.ctx c).params g.newCtx.1
    { Memo.empty with ctx := Function.update Memo.empty.ctx c (some g.newCtx.2) }
    (fun x y hxy => by simp [Memo.empty] at hxy)
  unfold deepContext
  rw [show Memo.empty.ctx c = none from rfl]
  dsimp only
  rw [Function.update_self]
  refine ⟨rfl, h.1, ?_⟩
  intro k q hq
  have := h.2 (k, q) (mem_of_dictGet hq)
  simp only [Lost] at this
  simp only [Graph.prior, this]

/-! ### A concrete case -/

/-- A normal prior for the example. -/
def demoPickle : Prior ℚ :=
  { dist := .simple ['N'] [(['l'], [.fin 0]), (['s'], [.fin 1])], batchShape := [], eventShape := [],
    uEventShape := some [], support := fun _ => true, toC := id, toU := id, icdf := id }

/-- Nothing. -/
def demoGraph₀ : Graph ℚ :=
  ⟨⟨fun _ => ⟨[], []⟩, fun _ => 0, 0, 0⟩, fun _ => none, fun _ => none, fun _ => false, fun _ => {}, 0⟩

/-- One context with two parameters and two values each. -/
def demoGraph : Graph ℚ :=
  ((((demoGraph₀.newCtx.1.setBatch 0 [2]).1.register 0 ['a'] demoPickle fun i => i).1.register 0 ['b']
    demoPickle fun i => i + 5).1)

theorem demoGraph_made : Made demoGraph :=
  .register _ _ _ _ (.register _ _ _ _ (.setBatch _ _ (.newCtx (.empty _ rfl rfl)) (by decide))
    (by decide)) (by decide)

theorem demoGraph_params : (demoGraph.ctx 0).params = [(['a'], 0), (['b'], 1)] := rfl

/-- The case is not trivial: the second parameter has the values 5 and 6 and a prior. -/
example : (demoGraph.w.tensor 1).data = [0 + 5, 1 + 5] ∧ demoGraph.prior 1 = .ok (some demoPickle) :=
  ⟨rfl, rfl⟩

example : ∃ g' m d, demoGraph.pickleContext 9 Memo.empty 0 = .ok (g', m, d) ∧ SameCtx demoGraph g' 0 d
    ∧ Untouched demoGraph g' ∧ OwnValues g' :=
  C122_context_partial demoGraph_made (by decide) (by decide)

example : ∃ g' m q d, demoGraph.pickleParameter 9 Memo.empty 1 = .ok (g', m, q)
    ∧ SamePar demoGraph g' 1 q ∧ g'.owner q = some d ∧ SameCtx demoGraph g' 0 d
    ∧ dictGet (g'.ctx d).params ['b'] = some q ∧ Untouched demoGraph g' ∧ OwnValues g' :=
  C122_parameter demoGraph_made (by decide) (by rw [demoGraph_params]; rfl) (by decide)

example : ∃ g' m d q, demoGraph.pickleContext 9 Memo.empty 0 = .ok (g', m, d)
    ∧ g'.pickleParameter 9 m 1 = .ok (g', m, q) ∧ dictGet (g'.ctx d).params ['b'] = some q := by
  obtain ⟨g', m, d, h, _⟩ := C122_context_partial demoGraph_made (c := 0) (f := 9) (by decide) (by decide)
  obtain ⟨q, h1, h2⟩ := C122_shared demoGraph_made (c := 0) (k := ['b']) (p := 1) (f := 9) (f' := 9)
    (by decide) (by rw [demoGraph_params]; rfl) (by decide) (by decide) h
  exact ⟨g', m, d, q, h, h1, h2⟩

example : demoGraph.prior 1 = .ok (some demoPickle)
    ∧ (demoGraph.deepParameter Memo.empty 1).1.prior (demoGraph.deepParameter Memo.empty 1).2.2
      = .error .attribute :=
  ⟨rfl, (C122_deepcopy_parameter demoGraph 1 fun _ _ => ()).2.1⟩

/-- C122 fails for `copy.deepcopy`. -/
theorem C122_negation : ¬ C122_claim := by
  intro h
  obtain ⟨_, h⟩ := h demoGraph demoGraph_made 0 (by decide)
  obtain ⟨q, hq, hs, _⟩ := h.params ['b'] 1 (by rw [demoGraph_params]; rfl)
  obtain ⟨d, _, hd⟩ := hs.prior
  rw [(C122_deepcopy_context demoGraph 0).2.2 _ q hq] at hd
  cases hd

end Verif.Props
