import Verif.Props.ContextCopy

/-!
# C136: applying a function to a context
-/

namespace Verif.Props

open Verif.Ctx Verif.Spec Context Demo

variable {α : Type}

/-- A result for a parameter with events of shape `event` that has the batch shape `b`: it has dimensions for the
events, or it is a number. -/
def BatchPart (shape event b : List ℕ) : Prop :=
  (∃ s, shape = b ++ s ∧ s.length = event.length) ∨ shape = [] ∧ b = []

/-- The dimensions of a result can be expanded to those of the parameter. -/
def EventFits (shape event b : List ℕ) : Prop :=
  (∃ s, shape = b ++ s ∧ List.Forall₂ (fun i j => i = j ∨ i = 1) s event) ∨ shape = [] ∧ b = []

/-- A result filled up with leading dimensions of length one. -/
def padded (shape target : List ℕ) : List ℕ := List.replicate (target.length - shape.length) 1 ++ shape

theorem broadcastable_iff (s t : List ℕ) : broadcastable s t = true ↔ List.Forall₂ (fun i j => i = j ∨ i = 1) s t := by
  induction s generalizing t with
  | nil => cases t <;> simp [broadcastable]
  | cons a s ih => cases t <;> simp [broadcastable, ih]

theorem batchPart_take {shape event b : List ℕ} (h : BatchPart shape event b) :
    (if event.length ≤ shape.length then shape.take (shape.length - event.length)
      else shape.take (shape.length - (event.length - shape.length))) = b := by
  rcases h with ⟨s, rfl, hs⟩ | ⟨rfl, rfl⟩
  · rw [if_pos (by simp [hs])]
    simp [hs]
  · simp

theorem eventFits_iff {shape event b : List ℕ} (h : BatchPart shape event b) :
    broadcastable (padded shape (b ++ event)) (b ++ event) = true ↔ EventFits shape event b := by
  rcases h with ⟨s, rfl, hs⟩ | ⟨rfl, rfl⟩
  · have hp : padded (b ++ s) (b ++ event) = b ++ s := by simp [padded, hs]
    rw [hp, broadcastable_iff]
    constructor
    · intro h
      refine .inl ⟨s, rfl, ?_⟩
      induction b with
      | nil => simpa using h
      | cons a b ih =>
        cases h with
        | cons _ h => exact ih (by simp [padded, hs]) h
    · rintro (⟨s', h1, h2⟩ | ⟨h1, h2⟩)
      · have : s = s' := by simpa using h1
        subst this
        clear hp h1
        induction b with
        | nil => simpa using h2
        | cons a b ih => exact List.Forall₂.cons (.inl rfl) ih
      · have : s = [] := by
          have := congrArg List.length h1
          simp at this
          exact this.2
        subst this h2
        cases event with
        | nil => exact List.Forall₂.nil
        | cons a e => simp at hs
  · constructor
    · intro _
      exact .inr ⟨rfl, rfl⟩
    · intro _
      simpa [padded] using broadcastable_ones event

theorem copyInto_expands {t : Tens α} {event b : List ℕ} (hb : BatchPart t.shape event b) (hf : EventFits t.shape event b)
    (ht : t.data.length = t.shape.prod) :
    ∃ d, copyInto t (b ++ event) = some d ∧ Expands (padded t.shape (b ++ event)) t.data (b ++ event) d := by
  have h := (eventFits_iff hb).2 hf
  refine ⟨broadcastData (padded t.shape (b ++ event)) (b ++ event) t.data, ?_, ?_, ?_⟩
  · unfold copyInto
    rw [padded] at h
    dsimp only
    rw [if_pos h]
    rfl
  · exact broadcastData_length _ _ h _ (by simp [padded, ht])
  · exact broadcastData_get _ _ h _ (by simp [padded, ht])

/-! ### C136 -/

/-- If the results have one common batch shape and their events fit, the new context has that batch shape, the
names and priors of the old one, and the results as values; the old context keeps its values, and nothing that is
done to one of the two contexts afterwards changes the values in the other. -/
theorem C136_apply (w : World α) (c : Context α) (b₀ b : List ℕ) (es : List (Entry α)) (h : Holds w c b₀ es)
    (hne : es ≠ []) (f : Tens α → Tens α) (hsz : ∀ t, (f t).data.length = (f t).shape.prod)
    (hb : ∀ e ∈ es, BatchPart (f (w.tensor e.pid)).shape e.prior.eventShape b)
    (hf : ∀ e ∈ es, EventFits (f (w.tensor e.pid)).shape e.prior.eventShape b) (draw : List Char → ℕ → α) :
    ∃ w' c' es', applyFun w c f draw = (w', .ok c') ∧ Holds w' c' b es' ∧ Holds w' c b₀ es ∧
      es'.map Entry.name = es.map Entry.name ∧ es'.map Entry.prior = es.map Entry.prior ∧
      List.Forall₂ (fun e e' => Expands (padded (f (w.tensor e.pid)).shape (b ++ e.prior.eventShape))
        (f (w.tensor e.pid)).data (b ++ e.prior.eventShape) (w'.tensor e'.pid).data) es es' ∧
      es.map (fun e => w'.tensor e.pid) = es.map (fun e => w.tensor e.pid) ∧
      (∀ ops : List (CtxOp α), ∀ e ∈ es, (CtxOp.run (w', c') ops).1.tensor e.pid = w'.tensor e.pid) ∧
      ∀ ops : List (CtxOp α), ∀ e' ∈ es', (CtxOp.run (w', c) ops).1.tensor e'.pid = w'.tensor e'.pid := by
  classical
  have hex : ∀ e : Entry α, ∃ d, e ∈ es → copyInto (f (w.tensor e.pid)) (b ++ e.prior.eventShape) = some d ∧
      Expands (padded (f (w.tensor e.pid)).shape (b ++ e.prior.eventShape)) (f (w.tensor e.pid)).data
        (b ++ e.prior.eventShape) d := by
    intro e
    by_cases he : e ∈ es
    · obtain ⟨d, hd⟩ := copyInto_expands (hb e he) (hf e he) (hsz _)
      exact ⟨d, fun _ => hd⟩
    · exact ⟨[], fun he' => absurd he' he⟩
  choose D hD using hex
  obtain ⟨w', c', es', h1, h2, h3, h4, h5, h6, h7, h8, h9⟩ := applyFun_ok h hne f D
    (fun e he => batchPart_take (hb e he)) (fun e he => (hD e he).1) (fun e he => (hD e he).2.1) draw
  have hm := h.mono h8 h9 h6 h7
  refine ⟨w', c', es', h1, h2, hm, ?_, ?_, ?_, ?_, ?_, ?_⟩
  · clear h1 h2 h3 h5 hne h hm hb hf hD
    induction h4 with
    | nil => rfl
    | cons hh _ ih => simp [hh.1, ih]
  · clear h1 h2 h3 h5 hne h hm hb hf hD
    induction h4 with
    | nil => rfl
    | cons hh _ ih => simp [hh.2.1, ih]
  · clear h1 h2 h3 h5 hne h hm hb hf
    induction h4 with
    | nil => exact List.Forall₂.nil
    | cons hh _ ih =>
      refine List.Forall₂.cons ?_ (ih fun e he => hD e (by simp [he]))
      rw [hh.2.2.2]
      exact (hD _ (by simp)).2
  · apply List.map_congr_left
    intro e he
    rw [World.tensor, h8 _ (h.pid_lt e he), h9 _ (h.cell_lt e he)]
    rfl
  · intro ops e he
    have hf := run_frame (fun a => a < w.nc) ops (w', c')
      (by
        intro q hq
        simp only [h2.params] at hq
        obtain ⟨e', he', rfl⟩ := List.mem_map.1 hq
        exact ⟨not_lt.2 (h5 e' he').2, h2.pid_lt e' he'⟩)
      fun a ha => lt_of_lt_of_le ha h6
    rw [World.tensor, hf.2 _ (hm.pid_lt e he), World.tensor]
    refine hf.1 _ ?_
    show w'.obj e.pid < w.nc
    rw [h8 _ (h.pid_lt e he)]
    exact h.cell_lt e he
  · intro ops e' he'
    have hf := run_frame (fun a => w.nc ≤ a ∧ a < w'.nc) ops (w', c)
      (by
        intro q hq
        simp only [h.params] at hq
        obtain ⟨e, he, rfl⟩ := List.mem_map.1 hq
        refine ⟨?_, hm.pid_lt e he⟩
        simp only [h8 _ (h.pid_lt e he)]
        have := h.cell_lt e he
        omega)
      fun a ha => ha.2
    rw [World.tensor, hf.2 _ (h2.pid_lt e' he'), World.tensor]
    exact hf.1 _ ⟨(h5 e' he').2, h2.cell_lt e' he'⟩

/-- If the function returns numbers, such as a mean, the new context has no batch dimensions, and every entry of a
parameter is the number: the entries of a vector are not kept apart. -/
theorem C136_number (w : World α) (c : Context α) (b₀ : List ℕ) (es : List (Entry α)) (h : Holds w c b₀ es)
    (hne : es ≠ []) (f : Tens α → α) (draw : List Char → ℕ → α) :
    ∃ w' c' es', applyFun w c (fun t => ⟨[], [f t]⟩) draw = (w', .ok c') ∧ Holds w' c' [] es' ∧
      es'.map Entry.name = es.map Entry.name ∧ es'.map Entry.prior = es.map Entry.prior ∧
      List.Forall₂ (fun e e' => (w'.tensor e'.pid) =
        ⟨e.prior.eventShape, List.replicate e.prior.eventShape.prod (f (w.tensor e.pid))⟩) es es' := by
  obtain ⟨w', c', es', h1, h2, h3, h4, -⟩ := applyFun_ok h hne (b := []) (fun t => ⟨[], [f t]⟩)
    (fun e => List.replicate e.prior.eventShape.prod (f (w.tensor e.pid)))
    (fun e he => by simp) (fun e he => copyInto_scalar _ _) (fun e he => by simp) draw
  refine ⟨w', c', es', h1, h2, ?_, ?_, h4.imp fun e e' hs => hs.2.2.2⟩
  · clear h1 h2 h3 hne h
    induction h4 with
    | nil => rfl
    | cons hh _ ih => simp [hh.1, ih]
  · clear h1 h2 h3 hne h
    induction h4 with
    | nil => rfl
    | cons hh _ ih => simp [hh.2.1, ih]

/-- If two results have different batch shapes, an exception is raised, and nothing has changed. -/
theorem C136_different (w : World α) (c : Context α) (b₀ : List ℕ) (es : List (Entry α)) (h : Holds w c b₀ es)
    (f : Tens α → Tens α) (b : Entry α → List ℕ)
    (hb : ∀ e ∈ es, BatchPart (f (w.tensor e.pid)).shape e.prior.eventShape (b e)) (e₁ e₂ : Entry α) (h₁ : e₁ ∈ es)
    (h₂ : e₂ ∈ es) (hne : b e₁ ≠ b e₂) (draw : List Char → ℕ → α) :
    applyFun w c f draw = (w, .error .assertion) := by
  unfold applyFun
  rw [h.priors, applyTemp_fun h f b es (fun e he => he) fun e he => batchPart_take (hb e he)]
  cases es with
  | nil => simp at h₁
  | cons e es =>
    simp only [List.map_cons]
    rw [if_neg]
    intro hall
    rw [List.all_eq_true] at hall
    have hq : ∀ e' ∈ e :: es, b e = b e' := by
      intro e' he'
      have := hall (b e', e'.name, e'.prior, f (w.tensor e'.pid)) (by
        rw [← List.map_cons (f := fun e => (b e, e.name, e.prior, f (w.tensor e.pid)))]
        exact List.mem_map.2 ⟨e', he', rfl⟩)
      simpa using this
    exact hne ((hq e₁ h₁).symm.trans (hq e₂ h₂))

/-- If the batch shapes agree and the events of a result do not fit those of its parameter, an exception is raised,
and the old context keeps its values. -/
theorem C136_unfit (w : World α) (c : Context α) (b₀ b : List ℕ) (es : List (Entry α)) (h : Holds w c b₀ es)
    (f : Tens α → Tens α) (hsz : ∀ t, (f t).data.length = (f t).shape.prod)
    (hb : ∀ e ∈ es, BatchPart (f (w.tensor e.pid)).shape e.prior.eventShape b) (e₁ : Entry α) (h₁ : e₁ ∈ es)
    (hf : ¬ EventFits (f (w.tensor e₁.pid)).shape e₁.prior.eventShape b) (draw : List Char → ℕ → α) :
    ∃ w', applyFun w c f draw = (w', .error .runtime) ∧ Holds w' c b₀ es ∧
      es.map (fun e => w'.tensor e.pid) = es.map (fun e => w.tensor e.pid) := by
  classical
  obtain ⟨pre, e₀, post, hes, hpre, hbad⟩ : ∃ pre e₀ post, es = pre ++ e₀ :: post ∧
      (∀ e ∈ pre, EventFits (f (w.tensor e.pid)).shape e.prior.eventShape b) ∧
      ¬ EventFits (f (w.tensor e₀.pid)).shape e₀.prior.eventShape b := by
    clear h hb
    induction es with
    | nil => simp at h₁
    | cons e es ih =>
      by_cases he : EventFits (f (w.tensor e.pid)).shape e.prior.eventShape b
      · have : e₁ ∈ es := by
          rcases List.mem_cons.1 h₁ with rfl | h
          · exact absurd he hf
          · exact h
        obtain ⟨pre, e₀, post, h1, h2, h3⟩ := ih this
        refine ⟨e :: pre, e₀, post, by simp [h1], ?_, h3⟩
        intro e' he'
        rcases List.mem_cons.1 he' with rfl | h
        · exact he
        · exact h2 e' h
      · exact ⟨[], e, es, rfl, by simp, he⟩
  have hex : ∀ e : Entry α, ∃ d, e ∈ pre → copyInto (f (w.tensor e.pid)) (b ++ e.prior.eventShape) = some d ∧
      d.length = (b ++ e.prior.eventShape).prod := by
    intro e
    by_cases he : e ∈ pre
    · obtain ⟨d, hd, hl, -⟩ := copyInto_expands (hb e (by simp [hes, he])) (hpre e he) (hsz _)
      exact ⟨d, fun _ => ⟨hd, hl⟩⟩
    · exact ⟨[], fun he' => absurd he' he⟩
  choose D hD using hex
  have hnone : copyInto (f (w.tensor e₀.pid)) (b ++ e₀.prior.eventShape) = none := by
    unfold copyInto
    dsimp only
    rw [if_neg]
    intro hc
    exact hbad ((eventFits_iff (hb e₀ (by simp [hes]))).1 hc)
  obtain ⟨w', h1, h2, h3, h4, h5⟩ := applyFun_runtime h f D (fun e he => batchPart_take (hb e he)) pre post e₀ hes
    (fun e he => (hD e he).1) (fun e he => (hD e he).2) hnone draw
  refine ⟨w', h1, h.mono h4 h5 h2 h3, List.map_congr_left fun e he => ?_⟩
  rw [World.tensor, h4 _ (h.pid_lt e he), h5 _ (h.cell_lt e he)]
  rfl

/-- A context without parameters raises. -/
theorem C136_empty (w : World α) (c : Context α) (hp : c.priors = []) (f : Tens α → Tens α) (draw : List Char → ℕ → α) :
    applyFun w c f draw = (w, .error .index) := by
  unfold applyFun
  rw [hp]
  rfl

/-- Sums over everything. -/
example : ∃ w' c' es', applyFun w₁ c₁ (fun t => ⟨[], [t.data.sum]⟩) (fun _ _ => 0) = (w', .ok c') ∧ Holds w' c' [] es' ∧
    es'.map (fun e => (w'.tensor e.pid).data) = [[3, 3], [6]] := by
  obtain ⟨w', c', es', h1, h2, -, -, h5⟩ := C136_number w₁ c₁ [3] es₁ holds₁ (by simp [es₁, Demo.entries])
    (fun t => t.data.sum) fun _ _ => 0
  refine ⟨w', c', es', h1, h2, ?_⟩
  have e : es'.map (fun e => (w'.tensor e.pid).data) =
      es₁.map fun e => List.replicate e.prior.eventShape.prod (w₁.tensor e.pid).data.sum := by
    clear h1 h2
    generalize es₁ = es at h5 ⊢
    induction h5 with
    | nil => rfl
    | cons hh _ ih => simp [hh, ih]
  rw [e]
  decide

/-- The first two members. -/
def firstTwo (t : Tens ℤ) : Tens ℤ :=
  ⟨2 :: t.shape.tail, (t.data ++ List.replicate (2 * t.shape.tail.prod) 0).take (2 * t.shape.tail.prod)⟩

example : ∃ w' c' es', applyFun w₁ c₁ firstTwo (fun _ _ => 0) = (w', .ok c') ∧ Holds w' c' [2] es' := by
  obtain ⟨w', c', es', h1, h2, -⟩ := C136_apply w₁ c₁ [3] [2] es₁ holds₁ (by simp [es₁, Demo.entries]) firstTwo
    (fun t => by simp [firstTwo])
    (fun e he => .inl ⟨e.prior.eventShape, by rw [firstTwo, holds₁.shape e he]; rfl, rfl⟩)
    (fun e he => .inl ⟨e.prior.eventShape, by rw [firstTwo, holds₁.shape e he]; rfl, List.forall₂_same.2 fun _ _ => .inl rfl⟩)
    fun _ _ => 0
  exact ⟨w', c', es', h1, h2⟩

/-- Selecting the first entries of vectors only. -/
example : applyFun w₁ c₁ (fun t => if t.shape = [3, 2] then ⟨[2], t.data.take 2⟩ else t) (fun _ _ => 0) = (w₁, .error .assertion) :=
  C136_different w₁ c₁ [3] es₁ holds₁ _ (fun e => if e.prior.eventShape = [2] then [] else [3])
    (by
      intro e he
      have hs := holds₁.shape e he
      simp only [hs]
      simp only [es₁, Demo.entries, List.mem_cons, List.not_mem_nil, or_false] at he
      rcases he with rfl | rfl
      · exact .inl ⟨[2], rfl, rfl⟩
      · exact .inl ⟨[], by simp [hs, positive], rfl⟩)
    ⟨nameA, simplex, [1], w₀.no⟩ ⟨nameB, positive, [], w₀.no + 1⟩ (by simp [es₁, Demo.entries])
    (by simp [es₁, Demo.entries]) (by simp [simplex, positive]) _

/-- Vectors with too many entries. -/
example : ∃ w', applyFun w₁ c₁ (fun t => if t.shape = [3, 2] then ⟨[3], [0, 0, 0]⟩ else ⟨[], [1]⟩) (fun _ _ => 0) =
    (w', .error .runtime) := by
  obtain ⟨w', h, -⟩ := C136_unfit w₁ c₁ [3] [] es₁ holds₁ (fun t => if t.shape = [3, 2] then ⟨[3], [0, 0, 0]⟩ else ⟨[], [1]⟩)
    (fun t => by split_ifs <;> rfl)
    (by
      intro e he
      have hs := holds₁.shape e he
      simp only [hs]
      simp only [es₁, Demo.entries, List.mem_cons, List.not_mem_nil, or_false] at he
      rcases he with rfl | rfl
      · exact .inl ⟨[3], rfl, rfl⟩
      · exact .inr ⟨rfl, rfl⟩)
    ⟨nameA, simplex, [1], w₀.no⟩ (by simp [es₁, Demo.entries])
    (by
      rw [holds₁.shape ⟨nameA, simplex, [1], w₀.no⟩ (by simp [es₁, Demo.entries])]
      rintro (⟨s, h1, h2⟩ | ⟨h1, -⟩)
      · have : s = [3] := by simpa [simplex] using h1.symm
        subst this
        simp [simplex] at h2
      · simp [simplex] at h1) fun _ _ => 0
  exact ⟨w', h⟩

end Verif.Props
