import Verif.Props.ContextDemo

/-!
# C52–C54, C78: saving, loading, copying and quasi-random initialisation of contexts
-/

namespace Verif.Props

open Verif.Ctx Verif.Spec Context Demo

variable {α : Type}

/-! ### C52 -/

/-- Arguments of a prior that are stored under different names and are not NaN. -/
def PlainArgs (p : Prior α) : Prop :=
  (p.dist.args.map Prod.fst).Nodup ∧ ∀ a ∈ p.dist.args, Num.nan ∉ a.2

/-- The saved state of a context. -/
theorem stateDict_get {w : World α} {c : Context α} {b : List ℕ} {es : List (Entry α)} (h : Holds w c b es)
    {e : Entry α} (he : e ∈ es) :
    dictGet (stateDict w c).params e.name = some (w.obj e.pid) ∧
      dictGet (stateDict w c).priors e.name = some e.prior.dist.args ∧
      (stateDict w c).params.map Prod.fst = es.map Entry.name := by
  unfold stateDict
  simp only [h.params, h.priors, List.map_map]
  refine ⟨Container.dictGet_of_mem ?_ ?_, Container.dictGet_of_mem ?_ ?_, rfl⟩
  · rw [List.map_map]; exact h.names
  · exact List.mem_map.2 ⟨e, he, rfl⟩
  · rw [List.map_map]; exact h.names
  · exact List.mem_map.2 ⟨e, he, rfl⟩

/-- The claim as stated: equal names and arguments are restored, everything else is refused. -/
def C52_claim : Prop :=
  ∀ (α : Type) (w : World α) (c s : Context α) (b b' : List ℕ) (es es' : List (Entry α)),
    Holds w c b es → Holds w s b' es' → es ≠ [] →
    ((load w c (stateDict w s)).2 = .ok () ↔
      es.map Entry.name = es'.map Entry.name ∧ es.map (fun e => e.prior.dist) = es'.map fun e => e.prior.dist)

/-- Restoring: after loading the state of a context with the same names and prior arguments, every
parameter has the values of the source. -/
theorem C52_restores_partial (w : World α) (c s : Context α) (b b' : List ℕ) (es es' : List (Entry α))
    (h : Holds w c b es) (hs : Holds w s b' es') (hargs : ∀ e ∈ es, PlainArgs e.prior)
    (partner : Entry α → Entry α) (hpart : ∀ e ∈ es, partner e ∈ es' ∧ (partner e).name = e.name ∧
      (partner e).prior.dist.args = e.prior.dist.args)
    (hnames : ∀ e' ∈ es', e'.name ∈ es.map Entry.name) :
    ∃ w', load w c (stateDict w s) = (w', .ok ()) ∧ ∀ e ∈ es, w'.tensor e.pid = w.tensor (partner e).pid := by
  have hA : ∀ e ∈ es, dictGet (stateDict w s).params e.name = some (w.obj (partner e).pid) := by
    intro e he
    obtain ⟨h1, h2, -⟩ := hpart e he
    rw [← h2]; exact (stateDict_get hs h1).1
  refine ⟨pointAll w (fun e => w.obj (partner e).pid) es, ?_, ?_⟩
  · refine load_ok h _ _ hA ?_ ?_ hargs w
    · intro e he
      by_cases hes : es' = []
      · subst hes
        simp [stateDict, hs.params] at he
      · obtain ⟨e', he'⟩ := List.exists_mem_of_ne_nil _ hes
        have : e.1 ∈ (stateDict w s).params.map Prod.fst := List.mem_map.2 ⟨e, he, rfl⟩
        rw [(stateDict_get hs he').2.2] at this
        obtain ⟨e'', h1, h2⟩ := List.mem_map.1 this
        rw [← h2]; exact hnames e'' h1
    · intro e he
      obtain ⟨h1, h2, h3⟩ := hpart e he
      rw [← h2, ← h3]; exact (stateDict_get hs h1).2.1
  · intro e he
    obtain ⟨p1, -, -⟩ := pointAll_fields w (fun e => w.obj (partner e).pid) es
    rw [World.tensor, pointAll_obj _ _ _ h.pids he, p1]
    rfl

/-- Other names are refused without effect. -/
theorem C52_refuses_names (w : World α) (c s : Context α) (b b' : List ℕ) (es es' : List (Entry α))
    (h : Holds w c b es) (hs : Holds w s b' es')
    (hnames : ∃ n, ¬ (n ∈ es.map Entry.name ↔ n ∈ es'.map Entry.name)) :
    load w c (stateDict w s) = (w, .error .assertion) := by
  obtain ⟨n, hn⟩ := hnames
  have hp : (stateDict w s).params.map Prod.fst = es'.map Entry.name := by
    unfold stateDict; simp [hs.params, Function.comp_def]
  have hc : c.params.map Prod.fst = es.map Entry.name := by
    simp [h.params, Function.comp_def]
  unfold load
  rw [if_neg]
  rintro ⟨h1, h2⟩
  apply hn
  constructor
  · intro hm
    rw [← hc] at hm
    obtain ⟨e, he, rfl⟩ := List.mem_map.1 hm
    rw [← hp]; exact h1 e he
  · intro hm
    rw [← hp] at hm
    obtain ⟨e, he, rfl⟩ := List.mem_map.1 hm
    rw [← hc]; exact h2 e he

/-- An argument of the first prior that differs in some entry is refused without effect. -/
theorem C52_refuses_argument (w : World α) (c s : Context α) (b b' : List ℕ) (e : Entry α)
    (es es' : List (Entry α)) (h : Holds w c b (e :: es)) (hs : Holds w s b' es') (e' : Entry α)
    (he' : e' ∈ es') (hn : e'.name = e.name) (k : List Char) (x y : Num) (xs ys : List Num)
    (rest rest' : List (List Char × List Num)) (hx : e.prior.dist.args = (k, x :: xs) :: rest)
    (hy : e'.prior.dist.args = (k, y :: ys) :: rest') (hl : xs.length = ys.length) (hxy : x ≠ y) :
    ∃ err, load w c (stateDict w s) = (w, .error err) := by
  unfold load
  split_ifs
  · rw [h.priors, List.map_cons, loadGo]
    have hg := (stateDict_get hs he').2.1
    rw [hn] at hg
    rw [hg, hx, hy]
    simp only [checkArgs, dictGet, if_true, broadcast, List.length_cons, hl, List.zip_cons_cons, List.all_cons]
    have : x.eq y = false := by
      rw [← Bool.not_eq_true]
      exact fun hh => hxy (Num.eq_true hh)
    simp only [this, Bool.false_and, Bool.false_eq_true, if_false]
    exact ⟨_, rfl⟩
  · exact ⟨_, rfl⟩

/-- `simplex` as an independent copy of a base distribution: nothing about it is compared. -/
def wrapped (loc : ℚ) : Prior ℤ :=
  { simplex with dist := .independent (.simple "Normal".toList [("loc".toList, [.fin loc, .fin loc])]) 1 }

/-- A context with the parameter `a` under a wrapped prior. -/
def buildWrapped (w : World ℤ) (loc : ℚ) : World ℤ × Context ℤ :=
  let r := Context.named w { batch := some [3] } nameA (wrapped loc) drawA
  (r.1, r.2.1)

theorem buildWrapped_holds (w : World ℤ) (loc : ℚ) :
    Holds (buildWrapped w loc).1 (buildWrapped w loc).2 [3] [⟨nameA, wrapped loc, [1], w.no⟩] ∧
      (∀ q < w.no, (buildWrapped w loc).1.obj q = w.obj q) ∧
      (∀ a < w.nc, (buildWrapped w loc).1.cell a = w.cell a) ∧ w.nc ≤ (buildWrapped w loc).1.nc ∧
      w.no ≤ (buildWrapped w loc).1.no := by
  obtain ⟨w1, c1, h1, h2, -, h4, h5, h6, h7, -⟩ :=
    (holds_empty w [3]).named (n := nameA) (p := wrapped loc) (u := [1]) (by simp) rfl rfl drawA
  have : buildWrapped w loc = (w1, c1) := by
    unfold buildWrapped; rw [h1]
  rw [this]
  exact ⟨h2, h6, h7, by dsimp only; omega, by dsimp only; omega⟩

/-- What fails: the state of a context whose prior has another location is accepted, because wrapped
distributions have no declared arguments. -/
theorem C52_accepts_other_prior :
    (load (buildWrapped (buildWrapped w₀ 0).1 7).1 (buildWrapped w₀ 0).2
      (stateDict (buildWrapped (buildWrapped w₀ 0).1 7).1 (buildWrapped (buildWrapped w₀ 0).1 7).2)).2 =
      .ok () := by
  decide

theorem C52_negation : ¬ C52_claim := by
  intro h
  obtain ⟨h1, -⟩ := buildWrapped_holds w₀ 0
  obtain ⟨h2, h3, h4, h5, h6⟩ := buildWrapped_holds (buildWrapped w₀ 0).1 7
  have := (h ℤ _ _ _ _ _ _ _ (h1.mono h3 h4 h5 h6) h2 (by simp)).1 C52_accepts_other_prior
  have := this.2
  simp [wrapped] at this

theorem plainArgs₁ : ∀ e ∈ es₁, PlainArgs e.prior := by
  simp only [es₁, Demo.entries, List.mem_cons, List.not_mem_nil, or_false]
  rintro e (rfl | rfl)
  · exact ⟨by decide, by decide⟩
  · exact ⟨by decide, by decide⟩

/-- Restoring the first context from the second one. -/
example : ∃ w', load w₂ c₁ (stateDict w₂ c₂) = (w', .ok ()) ∧
    ∀ e ∈ es₁, w'.tensor e.pid = w₂.tensor (e.pid + 2) := by
  refine C52_restores_partial w₂ c₁ c₂ [3] [3] es₁ es₂ holds₁₂ holds₂ plainArgs₁
    (fun e => ⟨e.name, e.prior, e.u, e.pid + 2⟩) ?_ ?_
  · simp only [es₁, Demo.entries, List.mem_cons, List.not_mem_nil, or_false]
    rintro e (rfl | rfl)
    · exact ⟨List.mem_cons.2 (.inl rfl), trivial, trivial⟩
    · exact ⟨List.mem_cons.2 (.inr (List.mem_singleton.2 rfl)), trivial, trivial⟩
  · simp [es₁, es₂, Demo.entries]

/-- A context with one parameter does not accept the state of one with two. -/
example : load (build (buildWrapped w₀ 0).1).1 (buildWrapped w₀ 0).2
    (stateDict (build (buildWrapped w₀ 0).1).1 (build (buildWrapped w₀ 0).1).2) =
      ((build (buildWrapped w₀ 0).1).1, .error .assertion) := by
  obtain ⟨h1, -⟩ := buildWrapped_holds w₀ 0
  obtain ⟨h2, h3, h4, h5, h6, -⟩ := build_holds (buildWrapped w₀ 0).1
  exact C52_refuses_names _ _ _ _ _ _ _ (h1.mono h5 h6 (by omega) (by omega)) h2
    ⟨nameB, by simp [Demo.entries, nameA, nameB]⟩

/-! ### C53 -/

/-- The claim as stated. -/
def C53_claim : Prop :=
  ∀ (α : Type) (w w' : World α) (c s : Context α) (b b' : List ℕ) (es es' : List (Entry α)),
    Holds w c b es → Holds w s b' es' → load w c (stateDict w s) = (w', .ok ()) →
    ∀ (ops : List (CtxOp α)) (e : Entry α), e ∈ es' → (CtxOp.run (w', c) ops).1.tensor e.pid = w'.tensor e.pid

/-- Proved part: if the saved state was written to disk and read again, the contexts are independent
and hold equal values: nothing that is done to one of them afterwards changes the other. Missing: loading
a state dictionary as it is. -/
theorem C53_via_disk_partial (w : World α) (c s : Context α) (b b' : List ℕ) (es es' : List (Entry α))
    (h : Holds w c b es) (hs : Holds w s b' es') (hargs : ∀ e ∈ es, PlainArgs e.prior)
    (hdisj : ∀ e ∈ es, ∀ e' ∈ es', e.pid ≠ e'.pid)
    (partner : Entry α → Entry α) (hpart : ∀ e ∈ es, partner e ∈ es' ∧ (partner e).name = e.name ∧
      (partner e).prior.dist.args = e.prior.dist.args)
    (hnames : ∀ e' ∈ es', e'.name ∈ es.map Entry.name) :
    let saved := reread w (stateDict w s).params
    ∃ w', load saved.1 c ⟨saved.2, (stateDict w s).priors⟩ = (w', .ok ()) ∧
      (∀ e ∈ es, w'.tensor e.pid = w.tensor (partner e).pid) ∧
      (∀ ops : List (CtxOp α), ∀ e' ∈ es', (CtxOp.run (w', c) ops).1.tensor e'.pid = w.tensor e'.pid) ∧
      ∀ ops : List (CtxOp α), ∀ e ∈ es, (CtxOp.run (w', s) ops).1.tensor e.pid = w'.tensor e.pid := by
  intro saved
  have hlt : ∀ e ∈ (stateDict w s).params, e.2 < w.nc := by
    intro e he
    unfold stateDict at he
    simp only [hs.params, List.map_map, List.mem_map, Function.comp_def] at he
    obtain ⟨e', he', rfl⟩ := he
    exact hs.cell_lt e' he'
  obtain ⟨r1, r2, r3, r4, r5, r6, r7, r8⟩ := reread_spec (stateDict w s).params w hlt
  have hkeys : saved.2.map Prod.fst = es'.map Entry.name := by
    rw [r5]; unfold stateDict; simp [hs.params, Function.comp_def]
  have hget : ∀ e ∈ es, ∃ a, dictGet saved.2 e.name = some a := by
    intro e he
    obtain ⟨h1, h2, -⟩ := hpart e he
    rw [← Option.isSome_iff_exists, dictGet_isSome, hkeys, ← h2]
    exact List.mem_map.2 ⟨_, h1, rfl⟩
  have hA : ∀ e ∈ es, dictGet saved.2 e.name = some ((dictGet saved.2 e.name).getD 0) := by
    intro e he
    obtain ⟨a, ha⟩ := hget e he
    rw [ha]; rfl
  have hw₁ : Holds saved.1 c b es := h.mono (fun q _ => congrFun r1 q) r4 r3 r2.ge
  have hload := load_ok hw₁ ⟨saved.2, (stateDict w s).priors⟩ _ hA
    (by
      intro e he
      have : e.1 ∈ saved.2.map Prod.fst := List.mem_map.2 ⟨e, he, rfl⟩
      rw [hkeys] at this
      obtain ⟨e'', h1, h2⟩ := List.mem_map.1 this
      rw [← h2]; exact hnames e'' h1)
    (by
      intro e he
      obtain ⟨h1, h2, h3⟩ := hpart e he
      rw [← h2, ← h3]; exact (stateDict_get hs h1).2.1) hargs saved.1
  obtain ⟨p1, p2, p3⟩ := pointAll_fields saved.1 (fun e => (dictGet saved.2 e.name).getD 0) es
  have hobj : ∀ e ∈ es, (pointAll saved.1 (fun e => (dictGet saved.2 e.name).getD 0) es).obj e.pid =
      (dictGet saved.2 e.name).getD 0 := fun e he => pointAll_obj _ _ _ h.pids he
  have hobj' : ∀ e' ∈ es', (pointAll saved.1 (fun e => (dictGet saved.2 e.name).getD 0) es).obj e'.pid =
      w.obj e'.pid := by
    intro e' he'
    rw [pointAll_obj_ne _ _ _ fun e he => hdisj e he e' he']
    exact congrFun r1 _
  have hrange : ∀ e ∈ es, w.nc ≤ (dictGet saved.2 e.name).getD 0 ∧
      (dictGet saved.2 e.name).getD 0 < saved.1.nc := by
    intro e he
    obtain ⟨a, ha⟩ := hget e he
    rw [ha]
    have hm : (e.name, a) ∈ saved.2 := by
      have : ∀ (l : List (List Char × ℕ)), dictGet l e.name = some a → (e.name, a) ∈ l := by
        intro l hl
        induction l with
        | nil => simp [dictGet] at hl
        | cons q l ih =>
          obtain ⟨k', v⟩ := q
          unfold dictGet at hl
          split_ifs at hl with hh
          · cases hl; subst hh; simp
          · simp [ih hl]
      exact this _ ha
    exact r6 _ hm
  refine ⟨_, hload, ?_, ?_, ?_⟩
  · intro e he
    obtain ⟨h1, h2, -⟩ := hpart e he
    rw [World.tensor, hobj e he, p1]
    have h8 := r8 e.name
    rw [← h2, (stateDict_get hs h1).1, h2] at h8
    obtain ⟨a, ha⟩ := hget e he
    rw [ha] at h8 ⊢
    simpa [World.tensor] using h8
  · intro ops e' he'
    have hf := run_frame (fun a => a < w.nc) ops
      (pointAll saved.1 (fun e => (dictGet saved.2 e.name).getD 0) es, c)
      (by
        intro q hq
        simp only [h.params] at hq
        obtain ⟨e, he, rfl⟩ := List.mem_map.1 hq
        refine ⟨?_, ?_⟩
        · simp only [hobj e he, not_lt]; exact (hrange e he).1
        · simp only [p3]
          exact (h.pid_lt e he).trans_le r2.ge)
      (by
        intro a ha
        simp only [p2]
        exact lt_of_lt_of_le ha r3)
    rw [World.tensor, hf.2 _ (by simp only [p3]; exact (hs.pid_lt e' he').trans_le r2.ge)]
    simp only [hobj' e' he']
    rw [hf.1 _ (hs.cell_lt e' he')]
    simp only [p1]
    rw [r4 _ (hs.cell_lt e' he')]
    rfl
  · intro ops e he
    have hf := run_frame (fun a => w.nc ≤ a ∧ a < saved.1.nc) ops
      (pointAll saved.1 (fun e => (dictGet saved.2 e.name).getD 0) es, s)
      (by
        intro q hq
        simp only [hs.params] at hq
        obtain ⟨e', he', rfl⟩ := List.mem_map.1 hq
        refine ⟨?_, ?_⟩
        · simp only [hobj' e' he']
          have := hs.cell_lt e' he'
          omega
        · simp only [p3]
          exact (hs.pid_lt e' he').trans_le r2.ge)
      (by
        intro a ha
        simp only [p2]
        exact ha.2)
    rw [World.tensor, hf.2 _ (by simp only [p3]; exact (h.pid_lt e he).trans_le r2.ge)]
    simp only [hobj e he]
    rw [hf.1 _ (hrange e he), World.tensor, hobj e he]

/-- What happens to a state dictionary that is loaded as it is: both parameters share one storage, so
that a write to one is a write to the other. -/
theorem C53_shared (w : World α) (c s : Context α) (b b' : List ℕ) (es es' : List (Entry α))
    (h : Holds w c b es) (hs : Holds w s b' es') (hargs : ∀ e ∈ es, PlainArgs e.prior)
    (hdisj : ∀ e ∈ es, ∀ e' ∈ es', e.pid ≠ e'.pid)
    (partner : Entry α → Entry α) (hpart : ∀ e ∈ es, partner e ∈ es' ∧ (partner e).name = e.name ∧
      (partner e).prior.dist.args = e.prior.dist.args)
    (hnames : ∀ e' ∈ es', e'.name ∈ es.map Entry.name) :
    ∃ w', load w c (stateDict w s) = (w', .ok ()) ∧
      ∀ e ∈ es, ∀ d, ((w'.write e.pid d).tensor (partner e).pid).data = d := by
  have hA : ∀ e ∈ es, dictGet (stateDict w s).params e.name = some (w.obj (partner e).pid) := by
    intro e he
    obtain ⟨h1, h2, -⟩ := hpart e he
    rw [← h2]; exact (stateDict_get hs h1).1
  refine ⟨pointAll w (fun e => w.obj (partner e).pid) es, ?_, ?_⟩
  · refine load_ok h _ _ hA ?_ ?_ hargs w
    · intro e he
      by_cases hes : es' = []
      · subst hes
        simp [stateDict, hs.params] at he
      · obtain ⟨e', he'⟩ := List.exists_mem_of_ne_nil _ hes
        have : e.1 ∈ (stateDict w s).params.map Prod.fst := List.mem_map.2 ⟨e, he, rfl⟩
        rw [(stateDict_get hs he').2.2] at this
        obtain ⟨e'', h1, h2⟩ := List.mem_map.1 this
        rw [← h2]; exact hnames e'' h1
    · intro e he
      obtain ⟨h1, h2, h3⟩ := hpart e he
      rw [← h2, ← h3]; exact (stateDict_get hs h1).2.1
  · intro e he d
    obtain ⟨h1, -, -⟩ := hpart e he
    have o1 := pointAll_obj w (fun e => w.obj (partner e).pid) es h.pids he
    have o2 := pointAll_obj_ne w (fun e => w.obj (partner e).pid) es
      (p := (partner e).pid) fun e'' he'' => hdisj e'' he'' _ h1
    simp [World.write, World.tensor, o1, o2]

theorem C53_negation : ¬ C53_claim := by
  intro h
  have := h ℤ w₂ (load w₂ c₁ (stateDict w₂ c₂)).1 c₁ c₂ [3] [3] es₁ es₂ holds₁₂ holds₂
    (Prod.ext rfl (by decide)) [.resample [2, 2, 2]] ⟨nameB, positive, [], 3⟩
    (List.mem_cons.2 (.inr (List.mem_singleton.2 rfl)))
  have := congrArg Tens.data this
  exact absurd this (by decide)

theorem partner₁₂ : ∀ e ∈ es₁, (⟨e.name, e.prior, e.u, e.pid + 2⟩ : Entry ℤ) ∈ es₂ ∧ True ∧ True := by
  simp only [es₁, Demo.entries, List.mem_cons, List.not_mem_nil, or_false]
  rintro e (rfl | rfl)
  · exact ⟨List.mem_cons.2 (.inl rfl), trivial, trivial⟩
  · exact ⟨List.mem_cons.2 (.inr (List.mem_singleton.2 rfl)), trivial, trivial⟩

theorem disjoint₁₂ : ∀ e ∈ es₁, ∀ e' ∈ es₂, e.pid ≠ e'.pid := by
  simp only [es₁, es₂, Demo.entries, List.mem_cons, List.not_mem_nil, or_false]
  rintro e (rfl | rfl) e' (rfl | rfl) <;> decide

/-- Via disk: resampling the loaded context leaves the source as it was. -/
example : let saved := reread w₂ (stateDict w₂ c₂).params
    ∃ w', load saved.1 c₁ ⟨saved.2, (stateDict w₂ c₂).priors⟩ = (w', .ok ()) ∧
      ∀ e' ∈ es₂, (CtxOp.run (w', c₁) [.resample [2, 2, 2]]).1.tensor e'.pid = w₂.tensor e'.pid := by
  obtain ⟨w', h1, -, h3, -⟩ := C53_via_disk_partial w₂ c₁ c₂ [3] [3] es₁ es₂ holds₁₂ holds₂ plainArgs₁ disjoint₁₂
    (fun e => ⟨e.name, e.prior, e.u, e.pid + 2⟩) (fun e he => ⟨(partner₁₂ e he).1, rfl, rfl⟩)
    (by simp [es₁, es₂, Demo.entries])
  exact ⟨w', h1, h3 _⟩

/-! ### C54 -/

/-- A copy has the same names, priors and values in the same order, and nothing that is done to one of
the two contexts afterwards changes the values in the other. -/
theorem C54_copy (w : World α) (c : Context α) (b : List ℕ) (es : List (Entry α)) (h : Holds w c b es)
    (hne : es ≠ []) (draw : List Char → ℕ → α) :
    ∃ w' c' es', copy w c draw = (w', .ok c') ∧ Holds w' c' b es' ∧ Holds w' c b es ∧
      es'.map Entry.name = es.map Entry.name ∧ es'.map Entry.prior = es.map Entry.prior ∧
      es'.map (fun e => w'.tensor e.pid) = es.map (fun e => w.tensor e.pid) ∧
      es.map (fun e => w'.tensor e.pid) = es.map (fun e => w.tensor e.pid) ∧
      (∀ ops : List (CtxOp α), ∀ e ∈ es, (CtxOp.run (w', c') ops).1.tensor e.pid = w'.tensor e.pid) ∧
      ∀ ops : List (CtxOp α), ∀ e' ∈ es', (CtxOp.run (w', c) ops).1.tensor e'.pid = w'.tensor e'.pid := by
  obtain ⟨w', c', es', h1, h2, h3, h4, h5, h6, h7, h8, h9⟩ := copy_ok h hne draw
  have hm := h.mono h8 h9 h6 h7
  refine ⟨w', c', es', h1, h2, hm, ?_, ?_, ?_, ?_, ?_, ?_⟩
  · clear h1 h2 h3 h5 hne h hm
    induction h4 with
    | nil => rfl
    | cons hh _ ih => simp [hh.1, ih]
  · clear h1 h2 h3 h5 hne h hm
    induction h4 with
    | nil => rfl
    | cons hh _ ih => simp [hh.2.1, ih]
  · clear h1 h2 h3 h5 hne h hm
    induction h4 with
    | nil => rfl
    | cons hh _ ih => simp [hh.2.2.2, ih]
  · apply List.map_congr_left
    intro e he
    rw [World.tensor, h8 _ (h.pid_lt e he), h9 _ (h.cell_lt e he)]
    rfl
  · intro ops e he
    have hf := run_frame (fun a => a < w.nc) ops (w', c')
      (by
        intro q hq
        simp only [h2.params] at hq
        obtain ⟨e', he', rfl⟩ := List.mem_map.1 hq
        exact ⟨not_lt.2 (h5 e' he').2, h2.pid_lt e' he'⟩)
      fun a ha => lt_of_lt_of_le ha h6
    rw [World.tensor, hf.2 _ (hm.pid_lt e he), World.tensor]
    refine hf.1 _ ?_
    show w'.obj e.pid < w.nc
    rw [h8 _ (h.pid_lt e he)]
    exact h.cell_lt e he
  · intro ops e' he'
    have hf := run_frame (fun a => w.nc ≤ a ∧ a < w'.nc) ops (w', c)
      (by
        intro q hq
        simp only [h.params] at hq
        obtain ⟨e, he, rfl⟩ := List.mem_map.1 hq
        refine ⟨?_, hm.pid_lt e he⟩
        simp only [h8 _ (h.pid_lt e he)]
        have := h.cell_lt e he
        omega)
      fun a ha => ha.2
    rw [World.tensor, hf.2 _ (h2.pid_lt e' he'), World.tensor]
    exact hf.1 _ ⟨(h5 e' he').2, h2.cell_lt e' he'⟩

/-- Copying an empty context raises instead of returning an empty context. -/
theorem C54_empty (w : World α) (c : Context α) (hp : c.priors = []) (draw : List Char → ℕ → α) :
    copy w c draw = (w, .error .index) := by
  unfold copy applyFun
  rw [hp]
  rfl

example : ∃ w' c' es', copy w₁ c₁ (fun _ _ => 0) = (w', .ok c') ∧ Holds w' c' [3] es' ∧
    es'.map (fun e => w'.tensor e.pid) = es₁.map (fun e => w₁.tensor e.pid) := by
  obtain ⟨w', c', es', h1, h2, -, -, -, h6, -⟩ :=
    C54_copy w₁ c₁ [3] es₁ holds₁ (by simp [es₁, Demo.entries]) fun _ _ => 0
  exact ⟨w', c', es', h1, h2, h6⟩

/-! ### C78 -/

/-- The claim as stated: every parameter becomes the inverse distribution function of its own columns,
mapped to constrained space. -/
def C78_claim : Prop :=
  ∀ (α : Type) (w : World α) (c : Context α) (b : List ℕ) (es : List (Entry α)) (R : Entry α → ℕ → List α),
    Holds w c b es → es ≠ [] →
    (∀ e ∈ es, 0 < e.prior.eventShape.prod ∧ 0 < e.u.prod) →
    (∀ e ∈ es, ∀ r : List α, r.length = e.prior.eventShape.prod → (e.prior.toU r).length = e.u.prod) →
    (∀ e ∈ es, ∀ r : List α, r.length = e.u.prod → (e.prior.toC (e.prior.icdf r)).length =
      e.prior.eventShape.prod) →
    (∀ e ∈ es, ∀ i < b.prod, (R e i).length = e.u.prod) →
    ∃ w', quasiInit w c ((List.range b.prod).map fun i => es.flatMap fun e => R e i) = (w', .ok ()) ∧
      ∀ e ∈ es, (w'.tensor e.pid).data =
        ((List.range b.prod).map fun i => e.prior.toC (e.prior.icdf (R e i))).flatten

/-- Proved part: priors whose constrained and unconstrained events have equally many entries. Missing:
the others (such as a simplex), for which the initialisation raises. -/
theorem C78_same_size_partial (w : World α) (c : Context α) (b : List ℕ) (es : List (Entry α))
    (R : Entry α → ℕ → List α) (h : Holds w c b es) (hne : es ≠ [])
    (hpos : ∀ e ∈ es, 0 < e.prior.eventShape.prod ∧ 0 < e.u.prod)
    (hU : ∀ e ∈ es, ∀ r : List α, r.length = e.prior.eventShape.prod → (e.prior.toU r).length = e.u.prod)
    (hC : ∀ e ∈ es, ∀ r : List α, r.length = e.u.prod → (e.prior.toC (e.prior.icdf r)).length =
      e.prior.eventShape.prod)
    (hR : ∀ e ∈ es, ∀ i < b.prod, (R e i).length = e.u.prod)
    (hsame : ∀ e ∈ es, e.u.prod = e.prior.eventShape.prod) :
    ∃ w', quasiInit w c ((List.range b.prod).map fun i => es.flatMap fun e => R e i) = (w', .ok ()) ∧
      ∀ e ∈ es, (w'.tensor e.pid).data =
        ((List.range b.prod).map fun i => e.prior.toC (e.prior.icdf (R e i))).flatten := by
  have hst := stack_ok h false hne hpos fun e he i hi => hU e he _ (chunk_row_length (h.size' he) hi)
  have hVlen : ∀ e ∈ es, (((List.range b.prod).map fun i => e.prior.toC (e.prior.icdf (R e i))).flatten).length
      = b.prod * e.prior.eventShape.prod := by
    intro e he
    rw [flatten_length e.prior.eventShape.prod]
    · simp
    · intro r hr
      obtain ⟨i, hi, rfl⟩ := List.mem_map.1 hr
      exact hC e he _ (hR e he i (List.mem_range.1 hi))
  have := apply_prefix h false (fun w n pid v => inverseSample w c n pid v) R
    (fun e => ((List.range b.prod).map fun i => e.prior.toC (e.prior.icdf (R e i))).flatten) none hR [] es []
    (by simp)
    (by
      intro e he w hw
      show inverseSample w c e.name e.pid _ = _
      unfold inverseSample
      rw [hw.get_prior he, hw.batch]
      have hl : ((List.range b.prod).map (R e)).flatten.length = (b ++ e.prior.eventShape).prod := by
        rw [flatten_length e.u.prod, hsame e he, List.prod_append]
        · simp
        · intro r hr
          obtain ⟨i, hi, rfl⟩ := List.mem_map.1 hr
          exact hR e he i (List.mem_range.1 hi)
      simp only [hl, ne_eq, not_true, if_false, List.map_map, Function.comp_def]
      rw [if_pos (by rw [hVlen e he, hw.size' he])])
    (fun e he => hVlen e he) (by simp) (by simp)
  refine ⟨writeAll w (fun e =>
    ((List.range b.prod).map fun i => e.prior.toC (e.prior.icdf (R e i))).flatten) es, ?_, ?_⟩
  · unfold quasiInit
    rw [hst, h.params]
    simpa [shapeDict, outcome] using this
  · intro e he
    rw [writeAll_tensor _ _ _ h.storage he]

/-- A simplex with two entries has one unconstrained column: the initialisation raises. -/
theorem C78_simplex : (quasiInit w₁ c₁ [[1, 2], [3, 4], [5, 6]]).2 = .error .runtime := by decide

theorem C78_negation : ¬ C78_claim := by
  intro h
  obtain ⟨w', h1, -⟩ := h ℤ w₁ c₁ [3] es₁ (fun _ _ => [1]) holds₁ (by simp [es₁, Demo.entries])
    (by simp [es₁, Demo.entries, simplex, positive])
    (by
      simp only [es₁, Demo.entries, List.mem_cons, List.not_mem_nil, or_false]
      rintro e (rfl | rfl) r hr
      · rfl
      · simpa [positive] using hr)
    (by
      simp only [es₁, Demo.entries, List.mem_cons, List.not_mem_nil, or_false]
      rintro e (rfl | rfl) r hr
      · rfl
      · simpa [positive] using hr)
    (by
      simp only [es₁, Demo.entries, List.mem_cons, List.not_mem_nil, or_false]
      rintro e (rfl | rfl) i hi <;> rfl)
  have h2 : (quasiInit w₁ c₁ ((List.range [3].prod).map fun _ => es₁.flatMap fun _ => [1])).2 = .ok () :=
    congrArg Prod.snd h1
  exact absurd h2 (by decide)

/-- One positive parameter for two members. -/
example : ∃ w' : World ℤ,
    quasiInit (named w₀ { batch := some [2] } nameB positive drawB).1
      (named w₀ { batch := some [2] } nameB positive drawB).2.1 [[1], [2]] = (w', .ok ()) ∧
      (w'.tensor 0).data = [13, 16] := by
  obtain ⟨w1, c1, h1, h2, -⟩ :=
    (holds_empty w₀ [2]).named (n := nameB) (p := positive) (u := []) (by simp) rfl rfl drawB
  rw [h1]
  obtain ⟨w', h3, h4⟩ := C78_same_size_partial w1 c1 [2] _ (fun _ i => [(i + 1 : ℤ)]) h2 (by simp)
    (by simp [positive]) (by simp [positive]) (by simp [positive]) (by simp) (by simp [positive])
  exact ⟨w', h3, h4 ⟨nameB, positive, [], w₀.no⟩ (by simp)⟩

end Verif.Props
