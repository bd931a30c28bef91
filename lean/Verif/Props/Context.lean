import Verif.Props.ContextDemo

/-!
# C46–C54 and C78: parameter contexts
-/

namespace Verif.Props

open Verif.Ctx Verif.Spec Context Demo

variable {α : Type}

/-! ### C46 -/

/-- Once set, the batch shape survives every sequence of requests; the same shape is accepted again and
any other one is refused, without effect. -/
theorem C46_set_once (s : World α × Context α) (b : List ℕ) (hb : s.2.batch = some b) (ops : List (CtxOp α)) :
    (CtxOp.run s ops).2.batch = some b ∧
      (CtxOp.run s ops).2.setBatchShape b = ((CtxOp.run s ops).2, .ok ()) ∧
      ∀ b', b' ≠ b →
        (CtxOp.run s ops).2.setBatchShape b' = ((CtxOp.run s ops).2, .error .batchShapeAlreadySet) := by
  have h := run_batch ops s hb
  refine ⟨h, ?_, fun b' hb' => ?_⟩
  · unfold setBatchShape; rw [h]; simp
  · unfold setBatchShape; rw [h]; simp [Ne.symm hb']

/-- The first request sets it. -/
theorem C46_first (c : Context α) (hb : c.batch = none) (b : List ℕ) :
    (c.setBatchShape b).2 = .ok () ∧ (c.setBatchShape b).1.batch = some b := by
  unfold setBatchShape; rw [hb]; exact ⟨rfl, rfl⟩

/-- Before that no parameter can be created. -/
theorem C46_needed (w : World α) (c : Context α) (hb : c.batch = none) (n : List Char) (p : Prior α)
    (d : ℕ → α) : named w c n p d = (w, c, .error .batchShapeNotSet) := by
  unfold named; rw [hb]

example : (CtxOp.run (w₁, c₁) [.setBatchShape [4], .named nameA positive drawB, .resample [0, 0, 1]]).2.batch
    = some [3] := (C46_set_once (w₁, c₁) [3] rfl _).1

example : named w₀ {} nameA simplex drawA = (w₀, {}, .error .batchShapeNotSet) :=
  C46_needed w₀ {} rfl _ _ _

/-! ### C47 -/

/-- After a successful registration and whatever else, requesting the name again with an equivalent prior
returns the same parameter object and changes nothing; with a different prior it raises (unless
verification is off) and changes nothing. -/
theorem C47_created_once (w : World α) (c : Context α) (n : List Char) (p : Prior α) (d : ℕ → α)
    (w₁ : World α) (c₁ : Context α) (pid : ℕ) (hnew : dictGet c.priors n = none)
    (hok : named w c n p d = (w₁, c₁, .ok pid)) (ops : List (CtxOp α)) (p' : Prior α) (d' : ℕ → α) :
    let s := CtxOp.run (w₁, c₁) ops
    (verifySamePrior p.dist p'.dist = .ok true → named s.1 s.2 n p' d' = (s.1, s.2, .ok pid)) ∧
      (s.2.verify = true → verifySamePrior p.dist p'.dist = .ok false →
        named s.1 s.2 n p' d' = (s.1, s.2, .error .notSamePrior)) ∧
      (s.2.verify = false → named s.1 s.2 n p' d' = (s.1, s.2, .ok pid)) := by
  intro s
  have hfact : c₁.batch ≠ none ∧ dictGet c₁.priors n = some p ∧ dictGet c₁.params n = some pid := by
    rcases named_cases w c n p d with ⟨r, h1, h2 | ⟨q, h2⟩⟩ | ⟨b', -, -, -, h1⟩ | ⟨b', -, -, -, -, h1⟩ |
      ⟨b', u', h2, -, -, -, h1⟩
    · rw [C46_needed w c h2] at hok; cases hok
    · rw [hnew] at h2; cases h2
    · rw [h1] at hok; cases hok
    · rw [h1] at hok; cases hok
    · rw [h1] at hok
      simp only [Prod.mk.injEq, Except.ok.injEq] at hok
      obtain ⟨-, rfl, rfl⟩ := hok
      exact ⟨by simp [h2], dictGet_set_self _ _ _, dictGet_set_self _ _ _⟩
  obtain ⟨hb, hp, hq⟩ := hfact
  obtain ⟨b, hb⟩ := Option.ne_none_iff_exists'.1 hb
  have hbatch : s.2.batch = some b := run_batch ops (w₁, c₁) hb
  obtain ⟨hp', hq'⟩ := run_keeps ops (w₁, c₁) (n := n) (q := p) hp
  have hg : s.2.getParameter n = .ok pid := by
    unfold getParameter
    rw [show dictGet s.2.params n = some pid from hq'.trans hq]
  have hpr : dictGet s.2.priors n = some p := hp'
  refine ⟨fun he => ?_, fun hv he => ?_, fun hv => ?_⟩
  · unfold named
    rw [hbatch]
    simp only [hpr, he, hg]
    split_ifs <;> rfl
  · unfold named
    rw [hbatch]
    simp only [hpr, he, hv]
    rfl
  · unfold named
    rw [hbatch]
    simp only [hpr, hv, hg]
    rfl

/-- Whatever the outcome, a request leaves all other names and the values of all existing parameters
alone. -/
theorem C47_others_untouched (w : World α) (c : Context α) (n : List Char) (p : Prior α) (d : ℕ → α) :
    (∀ n', n' ≠ n → dictGet (named w c n p d).2.1.params n' = dictGet c.params n' ∧
      dictGet (named w c n p d).2.1.priors n' = dictGet c.priors n') ∧
    ∀ q < w.no, w.obj q < w.nc → (named w c n p d).1.tensor q = w.tensor q := by
  rcases named_cases w c n p d with ⟨r, h1, -⟩ | ⟨b', -, -, -, h1⟩ | ⟨b', -, -, -, -, h1⟩ |
    ⟨b', u', -, -, -, -, h1⟩ <;> rw [h1]
  · exact ⟨fun _ _ => ⟨rfl, rfl⟩, fun _ _ _ => rfl⟩
  · exact ⟨fun n' hn => ⟨rfl, dictGet_set_ne _ _ hn⟩, fun _ _ _ => rfl⟩
  · exact ⟨fun n' hn => ⟨dictGet_set_ne _ _ hn, dictGet_set_ne _ _ hn⟩,
      fun q hq hc => tensor_newParam_old _ _ hq hc⟩
  · exact ⟨fun n' hn => ⟨dictGet_set_ne _ _ hn, dictGet_set_ne _ _ hn⟩,
      fun q hq hc => tensor_newParam_old _ _ hq hc⟩

example : let s := CtxOp.run (w₁, c₁) [.resample [2, 2, 0]]
    named s.1 s.2 nameB positive drawA = (s.1, s.2, .ok 1) ∧
      named s.1 s.2 nameB simplex drawA = (s.1, s.2, .error .notSamePrior) := by
  have h := C47_created_once (named w₀ { batch := some [3] } nameA simplex drawA).1
    (named w₀ { batch := some [3] } nameA simplex drawA).2.1 nameB positive drawB w₁ c₁ 1 rfl rfl
    [.resample [2, 2, 0]]
  exact ⟨(h positive drawA).1 (by decide), (h simplex drawA).2.1 rfl (by decide)⟩

/-! ### C48 -/

/-- The claim as stated. -/
def C48_claim : Prop :=
  ∀ (α : Type) (w : World α) (c : Context α) (n : List Char) (p : Prior α) (d : ℕ → α) (e : Err),
    (named w c n p d).2.2 = .error e → (named w c n p d).2.1 = c

/-- Proved part: refusals before anything is stored, that is without batch shape or for a known name.
Missing: refusals of a new name, which leave the prior behind. -/
theorem C48_known_name_partial (w : World α) (c : Context α) (n : List Char) (p : Prior α) (d : ℕ → α)
    (h : c.batch = none ∨ dictGet c.priors n ≠ none) :
    (named w c n p d).2.1 = c ∧ (named w c n p d).1 = w := by
  rcases named_cases w c n p d with ⟨r, h1, -⟩ | ⟨b', h2, h3, -, h1⟩ | ⟨b', h2, h3, -, -, h1⟩ |
    ⟨b', u', h2, h3, -, -, h1⟩
  · rw [h1]; exact ⟨rfl, rfl⟩
  all_goals
    rcases h with h | h
    · rw [h] at h2; cases h2
    · exact absurd h3 h

/-- What happens otherwise: after a batched prior was refused, the name is lost. No later request of it
ever succeeds, whatever the prior and whatever happens in between. -/
theorem C48_name_is_lost (w : World α) (c : Context α) (n : List Char) (p : Prior α) (d : ℕ → α)
    (b : List ℕ) (hb : c.batch = some b) (hnew : dictGet c.priors n = none)
    (hnp : dictGet c.params n = none) (hp : p.batchShape ≠ []) (ops : List (CtxOp α)) (p' : Prior α)
    (d' : ℕ → α) :
    (named w c n p d).2.2 = .error .assertion ∧
      let s := CtxOp.run ((named w c n p d).1, (named w c n p d).2.1) ops
      ∀ pid, (named s.1 s.2 n p' d').2.2 ≠ .ok pid := by
  have hn : named w c n p d = (w, { c with priors := dictSet c.priors n p }, .error .assertion) := by
    rcases named_cases w c n p d with ⟨r, -, h1 | ⟨q, h1⟩⟩ | ⟨b', -, -, -, h1⟩ | ⟨b', -, -, h1, -⟩ |
      ⟨b', u', -, -, h1, -⟩
    · rw [hb] at h1; cases h1
    · rw [hnew] at h1; cases h1
    · exact h1
    · exact absurd h1 hp
    · exact absurd h1 hp
  rw [hn]
  refine ⟨rfl, ?_⟩
  intro s pid
  have hk := run_keeps ops (w, { c with priors := dictSet c.priors n p }) (n := n) (q := p)
    (dictGet_set_self _ _ _)
  have hg : s.2.getParameter n = .error .parameterDoesNotExist := by
    unfold getParameter
    rw [show dictGet s.2.params n = none from hk.2.trans hnp]
  have hpr : dictGet s.2.priors n = some p := hk.1
  have hbatch : s.2.batch = some b := run_batch ops (w, { c with priors := dictSet c.priors n p }) hb
  unfold named
  rw [hbatch]
  simp only [hpr, hg]
  split_ifs
  · simp
  · split <;> simp

/-- A prior with a batch dimension. -/
def batchedPrior : Prior ℤ := { positive with batchShape := [2] }

theorem C48_negation : ¬ C48_claim := by
  intro h
  have := h ℤ w₀ { batch := some [3] } nameA batchedPrior drawA .assertion rfl
  have := congrArg (fun c => c.priors.length) this
  exact absurd this (by decide)

example : (named w₁ c₁ nameB simplex drawA).2.1 = c₁ :=
  (C48_known_name_partial w₁ c₁ nameB simplex drawA (.inr (by
    have : dictGet c₁.priors nameB = some positive := rfl
    rw [this]; simp))).1

/-- A correct prior cannot be registered after a failed attempt. -/
example (pid : ℕ) : (named (named w₀ { batch := some [3] } nameA batchedPrior drawA).1
    (named w₀ { batch := some [3] } nameA batchedPrior drawA).2.1 nameA positive drawB).2.2 ≠ .ok pid :=
  (C48_name_is_lost w₀ { batch := some [3] } nameA batchedPrior drawA [3] rfl rfl rfl (by decide) []
    positive drawB).2 pid

/-! ### C49 -/

/-- Unstacking a matrix and stacking again returns the matrix. -/
theorem C49_stack_unstack (w : World α) (c : Context α) (b : List ℕ) (es : List (Entry α))
    (h : Holds w c b es) (hne : es ≠ []) (k : Bool)
    (hpos : ∀ e ∈ es, 0 < e.prior.eventShape.prod ∧ 0 < e.cols k)
    (rows : List (List α)) (hn : rows.length = b.prod)
    (hrows : ∀ r ∈ rows, r.length = (es.map fun e => e.cols k).sum)
    (hsupport : k = true → ∀ pre e post, es = pre ++ e :: post → ∀ row ∈ rows,
      e.prior.support ((row.drop (pre.map fun e => e.cols k).sum).take (e.cols k)) = true)
    (hbij : k = false → ∀ e ∈ es, ∀ r : List α, r.length = e.cols k →
      (e.prior.toC r).length = e.prior.eventShape.prod ∧ e.prior.toU (e.prior.toC r) = r) :
    ∃ w', unstack w c ⟨(es.map fun e => e.cols k).sum, rows⟩ k = (w', .ok ()) ∧ stack w' c k = .ok rows := by
  obtain ⟨R, hR, hrw⟩ := split_rows k es h.names rows hrows
  rw [hn] at hR hrw
  have hC : ∀ e ∈ es, ∀ i < b.prod,
      (if k then R e i else e.prior.toC (R e i)).length = e.prior.eventShape.prod := by
    intro e he i hi
    cases k
    · exact (hbij rfl e he _ (hR e he i hi)).1
    · simpa [Entry.cols] using hR e he i hi
  have hS : k = true → ∀ e ∈ es, ∀ i < b.prod, e.prior.support (R e i) = true := by
    intro hk e he i hi
    obtain ⟨pre, post, hes⟩ := List.append_of_mem he
    have := hsupport hk pre e post hes (es.flatMap fun e => R e i)
      (by rw [hrw]; exact List.mem_map.2 ⟨i, List.mem_range.2 hi, rfl⟩)
    rw [hes, slice_eq k R pre e post i fun e' he' => hR e' (hes ▸ he') i hi] at this
    exact this
  refine ⟨writeAll w (newData b.prod k R) es, ?_, ?_⟩
  · rw [hrw]
    exact unstack_ok h k R hR hC hS
  · have hrow : ∀ e ∈ es, ∀ i < b.prod,
        rowOf (writeAll w (newData b.prod k R) es) k e i = R e i := by
      intro e he i hi
      exact rowOf_writeAll h k R he hi (hC e he) fun hk => (hbij hk e he _ (hR e he i hi)).2
    have h' : Holds (writeAll w (newData b.prod k R) es) c b es :=
      h.writeAll _ es (fun e he => he) fun e he => newData_length _ _ _ _ (hC e he)
    rw [stack_ok h' k hne hpos fun e he i hi => by rw [hrow e he i hi]; exact hR e he i hi]
    conv_rhs => rw [hrw]
    congr 1
    apply List.map_congr_left
    intro i hi
    apply List.flatMap_congr
    intro e he
    exact hrow e he i (List.mem_range.1 hi)

/-- Unstacking what was stacked changes nothing: the bijection undoes itself on the values at hand, and
constrained values are in the support. -/
theorem C49_unstack_stack (w : World α) (c : Context α) (b : List ℕ) (es : List (Entry α))
    (h : Holds w c b es) (hne : es ≠ []) (k : Bool)
    (hpos : ∀ e ∈ es, 0 < e.prior.eventShape.prod ∧ 0 < e.cols k)
    (hval : ∀ e ∈ es, ∀ i < b.prod,
      let r := ((w.tensor e.pid).data.drop (i * e.prior.eventShape.prod)).take e.prior.eventShape.prod
      e.prior.support r = true ∧ (e.prior.toU r).length = e.u.prod ∧ e.prior.toC (e.prior.toU r) = r) :
    ∃ rows, stack w c k = .ok rows ∧
      unstack w c ⟨(es.map fun e => e.cols k).sum, rows⟩ k = (w, .ok ()) := by
  have hr : ∀ e ∈ es, ∀ i < b.prod,
      (((w.tensor e.pid).data.drop (i * e.prior.eventShape.prod)).take e.prior.eventShape.prod).length =
        e.prior.eventShape.prod := fun e he i hi => chunk_row_length (h.size' he) hi
  have hR : ∀ e ∈ es, ∀ i < b.prod, (rowOf w k e i).length = e.cols k := by
    intro e he i hi
    cases k
    · exact (hval e he i hi).2.1
    · exact hr e he i hi
  have hnd : ∀ e ∈ es, ∀ i < b.prod, (if k then rowOf w k e i else e.prior.toC (rowOf w k e i)) =
      ((w.tensor e.pid).data.drop (i * e.prior.eventShape.prod)).take e.prior.eventShape.prod := by
    intro e he i hi
    cases k
    · exact (hval e he i hi).2.2
    · rfl
  refine ⟨_, stack_ok h k hne hpos hR, ?_⟩
  rw [unstack_ok h k (rowOf w k) hR]
  · rw [writeAll_same]
    intro e he
    unfold newData
    rw [List.map_congr_left fun i hi => hnd e he i (List.mem_range.1 hi), ← chunk_eq,
      chunk_flatten _ _ _ (h.size' he)]
  · intro e he i hi
    rw [hnd e he i hi]
    exact hr e he i hi
  · intro hk e he i hi
    subst hk
    exact (hval e he i hi).1

/-- Which columns go where: the parameters take consecutive blocks of columns in the order of their
registration, and row `i` of the matrix belongs to member `i` of the batch. -/
theorem C49_layout (w : World α) (c : Context α) (b : List ℕ) (es pre post : List (Entry α)) (e : Entry α)
    (h : Holds w c b es) (hes : es = pre ++ e :: post)
    (rows : List (List α)) (hn : rows.length = b.prod)
    (hrows : ∀ r ∈ rows, r.length = (es.map fun e => e.prior.eventShape.prod).sum)
    (w' : World α)
    (hok : unstack w c ⟨(es.map fun e => e.prior.eventShape.prod).sum, rows⟩ true = (w', .ok ()))
    (hsupport : ∀ pre e post, es = pre ++ e :: post → ∀ row ∈ rows, e.prior.support
      ((row.drop (pre.map fun e => e.prior.eventShape.prod).sum).take e.prior.eventShape.prod) = true) :
    w'.tensor e.pid = ⟨b ++ e.prior.eventShape, (rows.map fun r =>
      (r.drop (pre.map fun e => e.prior.eventShape.prod).sum).take e.prior.eventShape.prod).flatten⟩ := by
  obtain ⟨R, hR, hrw⟩ := split_rows true es h.names rows hrows
  rw [hn] at hR hrw
  have hS : ∀ e ∈ es, ∀ i < b.prod, e.prior.support (R e i) = true := by
    intro e he i hi
    obtain ⟨pre, post, hes⟩ := List.append_of_mem he
    have := hsupport pre e post hes (es.flatMap fun e => R e i)
      (by rw [hrw]; exact List.mem_map.2 ⟨i, List.mem_range.2 hi, rfl⟩)
    have hsl := slice_eq true R pre e post i fun e' he' => hR e' (hes ▸ he') i hi
    simp only [Entry.cols, if_true] at hsl
    rw [hes, hsl] at this
    exact this
  have hu := unstack_ok h true R hR (fun e he i hi => hR e he i hi) fun _ => hS
  have hu' := hok
  rw [hrw] at hu'
  have : w' = writeAll w (newData b.prod true R) es := congrArg Prod.fst (hu'.symm.trans hu)
  have he : e ∈ es := by rw [hes]; simp
  rw [this, writeAll_tensor _ _ _ h.storage he, h.shape e he]
  congr 1
  rw [hrw, List.map_map]
  unfold newData
  congr 1
  apply List.map_congr_left
  intro i hi
  simp only [if_true, Function.comp_def]
  rw [hes]
  symm
  apply slice_eq true
  intro e' he'
  exact hR e' (hes ▸ he') i (List.mem_range.1 hi)

/-- Unconstrained: a `3 × 2` matrix for a simplex (one column) and a positive number (one column). -/
example : ∃ w', unstack w₁ c₁ ⟨2, [[1, 2], [3, 4], [5, 6]]⟩ false = (w', .ok ()) ∧
    stack w' c₁ false = .ok [[1, 2], [3, 4], [5, 6]] := by
  refine C49_stack_unstack w₁ c₁ [3] es₁ holds₁ (by simp [es₁, Demo.entries]) false ?_ _ rfl ?_ (by simp) ?_
  · simp [es₁, Demo.entries, simplex, positive, Entry.cols]
  · simp [es₁, Demo.entries, Entry.cols]
  · simp only [es₁, Demo.entries, List.mem_cons, List.not_mem_nil, or_false, Entry.cols, forall_const]
    rintro e (rfl | rfl) r hr
    · obtain ⟨x, rfl⟩ := List.length_eq_one_iff.1 hr
      simp [simplex]
    · obtain ⟨x, rfl⟩ := List.length_eq_one_iff.1 hr
      simp [positive]

/-- Constrained: what is stacked has three columns. -/
example : ∃ rows, stack w₁ c₁ true = .ok rows ∧ unstack w₁ c₁ ⟨3, rows⟩ true = (w₁, .ok ()) := by
  refine C49_unstack_stack w₁ c₁ [3] es₁ holds₁ (by simp [es₁, Demo.entries]) true ?_ ?_
  · simp [es₁, Demo.entries, simplex, positive, Entry.cols]
  · simp only [es₁, Demo.entries, List.mem_cons, List.not_mem_nil, or_false]
    rintro e (rfl | rfl) i hi
    · have : i < 3 := hi
      interval_cases i <;> decide
    · have : i < 3 := hi
      interval_cases i <;> decide

/-- Constrained unstacking: the columns of both parameters. -/
example : ∃ w', unstack w₁ c₁ ⟨3, [[5, -4, 1], [6, -5, 2], [7, -6, 9]]⟩ true = (w', .ok ()) ∧
    w'.tensor 0 = ⟨[3, 2], [5, -4, 6, -5, 7, -6]⟩ ∧ w'.tensor 1 = ⟨[3], [1, 2, 9]⟩ := by
  have hs : ∀ pre e post, es₁ = pre ++ e :: post →
      ∀ row ∈ [[5, -4, 1], [6, -5, 2], [(7 : ℤ), -6, 9]], e.prior.support
      ((row.drop (pre.map fun e => e.prior.eventShape.prod).sum).take e.prior.eventShape.prod) = true := by
    intro pre e post h row hrow
    match pre, h with
    | [], h =>
      cases h
      simp only [List.mem_cons, List.not_mem_nil, or_false] at hrow
      rcases hrow with rfl | rfl | rfl <;> decide
    | [_], h =>
      cases h
      simp only [List.mem_cons, List.not_mem_nil, or_false] at hrow
      rcases hrow with rfl | rfl | rfl <;> decide
    | _ :: _ :: pre, h =>
      have := congrArg List.length h
      simp [es₁, Demo.entries] at this
  have hr : ∀ r ∈ [[5, -4, 1], [6, -5, 2], [(7 : ℤ), -6, 9]],
      r.length = (es₁.map fun e => e.prior.eventShape.prod).sum := by
    simp only [List.mem_cons, List.not_mem_nil, or_false]
    rintro r (rfl | rfl | rfl) <;> rfl
  obtain ⟨w', h, -⟩ := C49_stack_unstack w₁ c₁ [3] es₁ holds₁ (by simp [es₁, Demo.entries]) true
    (by simp [es₁, Demo.entries, simplex, positive, Entry.cols]) [[5, -4, 1], [6, -5, 2], [7, -6, 9]] rfl
    hr (fun _ => hs) (by simp)
  exact ⟨w', h, C49_layout w₁ c₁ [3] es₁ [] [⟨nameB, positive, [], 1⟩] ⟨nameA, simplex, [1], 0⟩ holds₁ rfl _ rfl
    hr w' h hs, C49_layout w₁ c₁ [3] es₁ [⟨nameA, simplex, [1], 0⟩] [] ⟨nameB, positive, [], 1⟩ holds₁ rfl _
    rfl hr w' h hs⟩

/-! ### C50 -/

/-- The claim as stated. -/
def C50_claim : Prop :=
  ∀ (α : Type) (w : World α) (c : Context α) (x : Mat α),
    (unstack w c x true).2 = .error .outOfBounds → ∀ n pid, (n, pid) ∈ c.params →
      (unstack w c x true).1.tensor pid = w.tensor pid

/-- Proved part: the first parameter with a value out of bounds stops the update; it and all later
parameters are unchanged. Missing: the earlier parameters, which have been overwritten. -/
theorem C50_later_unchanged_partial (w : World α) (c : Context α) (b : List ℕ)
    (pre post : List (Entry α)) (e : Entry α) (h : Holds w c b (pre ++ e :: post))
    (R : Entry α → ℕ → List α)
    (hR : ∀ e' ∈ pre ++ e :: post, ∀ i < b.prod, (R e' i).length = e'.prior.eventShape.prod)
    (hpre : ∀ e' ∈ pre, ∀ i < b.prod, e'.prior.support (R e' i) = true)
    (hbad : ∃ i < b.prod, e.prior.support (R e i) = false) :
    let r := unstack w c ⟨((pre ++ e :: post).map fun e => e.prior.eventShape.prod).sum,
      (List.range b.prod).map fun i => (pre ++ e :: post).flatMap fun e => R e i⟩ true
    r.2 = .error .outOfBounds ∧ (∀ e' ∈ e :: post, r.1.tensor e'.pid = w.tensor e'.pid) ∧
      ∀ e' ∈ pre, (r.1.tensor e'.pid).data = ((List.range b.prod).map (R e')).flatten := by
  intro r
  have hu : r = (writeAll w (newData b.prod true R) pre, .error .outOfBounds) := by
    show unstack w c _ true = _
    unfold unstack
    have ht := h.total true
    simp only [Entry.cols, if_true] at ht
    simp only [ht, ne_eq, not_true, if_false]
    rw [h.params]
    have := apply_prefix h true (fun w n pid v => updateValues w c n pid v true) R
      (newData b.prod true R) (some .outOfBounds) hR [] pre (e :: post) rfl
      (fun e' he' w hw => updateValues_ok hw (by simp [he']) true R
        (fun i hi => hR e' (by simp [he']) i hi) fun _ => hpre e' he')
      (fun e' he' => newData_length _ _ _ _ fun i hi => hR e' (by simp [he']) i hi)
      (by simp)
      (by
        intro e' post' hep
        simp only [List.cons.injEq] at hep
        obtain ⟨rfl, rfl⟩ := hep
        exact ⟨_, rfl, fun w hw => updateValues_refused hw (by simp) R hbad⟩)
    simpa [outcome] using this
  rw [hu]
  have hsplit := h.storage
  rw [List.map_append, List.nodup_append] at hsplit
  refine ⟨rfl, ?_, ?_⟩
  · intro e' he'
    have : (writeAll w (newData b.prod true R) pre).obj = w.obj := (writeAll_obj _ _ _).1
    show (writeAll w (newData b.prod true R) pre).tensor e'.pid = _
    rw [World.tensor, this, writeAll_cell]
    · rfl
    · intro e'' he''
      exact hsplit.2.2 _ (List.mem_map.2 ⟨e'', he'', rfl⟩) _ (List.mem_map.2 ⟨e', he', rfl⟩)
  · intro e' he'
    show ((writeAll w (newData b.prod true R) pre).tensor e'.pid).data = _
    rw [writeAll_tensor _ _ _ hsplit.1 he']
    simp [newData]

/-- A matrix of another number of columns than the parameters have together is refused without changing anything. -/
theorem C50_wrong_width (w : World α) (c : Context α) (b : List ℕ) (es : List (Entry α)) (h : Holds w c b es)
    (x : Mat α) (constrained : Bool) (hx : x.width ≠ (es.map fun e => e.cols constrained).sum) :
    unstack w c x constrained = (w, .error .assertion) := by
  unfold unstack
  simp only [h.total constrained, ne_eq, hx.symm, not_false_iff, if_true]

/-- One column short, one too many. -/
example : unstack w₁ c₁ ⟨2, [[5, -4], [6, -5], [7, -6]]⟩ true = (w₁, .error .assertion) ∧
    unstack w₁ c₁ ⟨4, [[5, -4, 1, 1], [6, -5, 1, 1], [7, -6, 1, 1]]⟩ true = (w₁, .error .assertion) :=
  ⟨C50_wrong_width w₁ c₁ [3] es₁ holds₁ _ _ (by decide), C50_wrong_width w₁ c₁ [3] es₁ holds₁ _ _ (by decide)⟩

theorem C50_negation : ¬ C50_claim := by
  intro h
  have := h ℤ w₁ c₁ ⟨3, [[5, -4, 1], [6, -5, 2], [7, -6, -1]]⟩ (by decide) nameA 0 (by decide)
  have := congrArg Tens.data this
  exact absurd this (by decide)

/-- The simplex is overwritten although the whole update is refused. -/
example : (unstack w₁ c₁ ⟨3, [[5, -4, 1], [6, -5, 2], [7, -6, -1]]⟩ true).2 = .error .outOfBounds ∧
    ((unstack w₁ c₁ ⟨3, [[5, -4, 1], [6, -5, 2], [7, -6, -1]]⟩ true).1.tensor 0).data =
      [5, -4, 6, -5, 7, -6] := by
  have := C50_later_unchanged_partial w₁ c₁ [3] [⟨nameA, simplex, [1], 0⟩] [] ⟨nameB, positive, [], 1⟩ holds₁
    (fun e i => if e.pid = 0 then [(5 + i : ℤ), -4 - i] else [if i = 2 then -1 else 1 + i])
    (by simp [simplex, positive]) (by
      simp only [List.mem_singleton]
      rintro e rfl i -
      simp [simplex]) ⟨2, by decide, by decide⟩
  exact ⟨this.1, this.2.2 ⟨nameA, simplex, [1], 0⟩ (by simp)⟩

/-! ### C51 -/

/-- Exchange: entry `j` of row `i` of every parameter comes from the other context if row `i` is masked
and is unchanged if not. No other storage changes. -/
theorem C51_exchange (N : ℕ) (w : World α) (c o : Context α) (es es' : List (Entry α))
    (h : Holds w c [N] es) (h' : Holds w o [N] es')
    (partner : Entry α → Entry α) (hpart : ∀ e ∈ es, partner e ∈ es' ∧ (partner e).name = e.name ∧
      (partner e).prior.eventShape.prod = e.prior.eventShape.prod)
    (hsep : ∀ e ∈ es, ∀ e' ∈ es', w.obj e.pid = w.obj e'.pid → e.name = e'.name)
    (mask : List Bool) (hm : mask.length = N) :
    ∃ w', exchange w c o mask = (w', .ok ()) ∧ Holds w' c [N] es ∧
      (∀ e ∈ es, ∀ i j, j < e.prior.eventShape.prod →
        (w'.tensor e.pid).data[i * e.prior.eventShape.prod + j]? =
          if mask[i]? = some true then
            (w.tensor (partner e).pid).data[i * e.prior.eventShape.prod + j]?
          else (w.tensor e.pid).data[i * e.prior.eventShape.prod + j]?) ∧
      ∀ a, (∀ e ∈ es, w.obj e.pid ≠ a) → w'.cell a = w.cell a := by
  have hts : ∀ e ∈ es, (w.tensor e.pid).data.length = mask.length * e.prior.eventShape.prod := by
    intro e he; rw [h.size' he, hm]; simp
  have hss : ∀ e ∈ es, (w.tensor (partner e).pid).data.length = mask.length * e.prior.eventShape.prod := by
    intro e he
    obtain ⟨hp1, -, hp3⟩ := hpart e he
    rw [h'.size' hp1, hm, hp3]; simp
  refine ⟨writeAll w (fun e => mixData e.prior.eventShape.prod mask (w.tensor e.pid).data
    (w.tensor (partner e).pid).data) es, ?_, ?_, ?_, ?_⟩
  · unfold exchange
    rw [h.params]
    exact exchangeGo_ok h h' partner hpart hsep mask hm
      (fun e => mixData e.prior.eventShape.prod mask (w.tensor e.pid).data (w.tensor (partner e).pid).data)
      es (fun e he => he) h.names fun e _ => rfl
  · apply h.writeAll _ es fun e he => he
    intro e he
    rw [mixData_length (hts e he) (hss e he), hm]; simp
  · intro e he i j hj
    rw [writeAll_tensor _ _ _ h.storage he]
    exact mixData_get (hts e he) (hss e he) i j hj
  · intro a ha
    exact writeAll_cell _ _ _ ha

/-- Resampling: row `i` of every parameter becomes its former row `idx i`. No other storage changes. -/
theorem C51_resample (N : ℕ) (w : World α) (c : Context α) (es : List (Entry α))
    (h : Holds w c [N] es) (idx : List ℕ) (hl : idx.length = N) (hi : ∀ i ∈ idx, i < N) :
    ∃ w', resample w c idx = (w', .ok ()) ∧ Holds w' c [N] es ∧
      (∀ e ∈ es, ∀ i a j, idx[i]? = some a → j < e.prior.eventShape.prod →
        (w'.tensor e.pid).data[i * e.prior.eventShape.prod + j]? =
          (w.tensor e.pid).data[a * e.prior.eventShape.prod + j]?) ∧
      ∀ a, (∀ e ∈ es, w.obj e.pid ≠ a) → w'.cell a = w.cell a := by
  have hts : ∀ e ∈ es, (w.tensor e.pid).data.length = N * e.prior.eventShape.prod := by
    intro e he; rw [h.size' he]; simp
  refine ⟨writeAll w (fun e => gatherData N e.prior.eventShape.prod idx (w.tensor e.pid).data) es,
    ?_, ?_, ?_, ?_⟩
  · unfold resample
    rw [h.params]
    exact resampleGo_ok h idx hl hi (fun e => gatherData N e.prior.eventShape.prod idx (w.tensor e.pid).data)
      es (fun e he => he) h.names fun e _ => rfl
  · apply h.writeAll _ es fun e he => he
    intro e he
    rw [gatherData_length hi (hts e he), hl]; simp
  · intro e he i a j ha hj
    rw [writeAll_tensor _ _ _ h.storage he]
    exact gatherData_get hi (hts e he) i a j ha hj
  · intro a ha
    exact writeAll_cell _ _ _ ha

/-- The two contexts of the demonstration, a mask and indices with a repetition. -/
example : ∃ w', exchange w₂ c₁ c₂ [true, false, true] = (w', .ok ()) ∧ Holds w' c₁ [3] es₁ := by
  obtain ⟨w', h1, h2, -⟩ := C51_exchange 3 w₂ c₁ c₂ es₁ es₂ holds₁₂ holds₂
    (fun e => ⟨e.name, e.prior, e.u, e.pid + 2⟩)
    (by
      simp only [es₁, Demo.entries, List.mem_cons, List.not_mem_nil, or_false]
      rintro e (rfl | rfl)
      · exact ⟨List.mem_cons.2 (.inl rfl), trivial, trivial⟩
      · exact ⟨List.mem_cons.2 (.inr (List.mem_singleton.2 rfl)), trivial, trivial⟩)
    (by
      simp only [es₁, es₂, Demo.entries, List.mem_cons, List.not_mem_nil, or_false]
      rintro e (rfl | rfl) e' (rfl | rfl) <;> first | (intro; rfl) | (intro h; exact absurd h (by decide)))
    [true, false, true] rfl
  exact ⟨w', h1, h2⟩

example : ∃ w', resample w₁ c₁ [2, 2, 0] = (w', .ok ()) ∧ Holds w' c₁ [3] es₁ := by
  obtain ⟨w', h1, h2, -⟩ := C51_resample 3 w₁ c₁ es₁ holds₁ [2, 2, 0] rfl (by decide)
  exact ⟨w', h1, h2⟩

end Verif.Props
