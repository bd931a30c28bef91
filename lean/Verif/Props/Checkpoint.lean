import Verif.Lemmas.Checkpoint

/-!
# Properties C89-C91: saving and loading the states of the algorithms
-/

namespace Verif.Props

open Verif Heap Res Spec

variable {B : ℕ} {V T : Type}

/-- Executions of a state: created by `initialize`, then any sequence of observations, rejuvenations (resampled
filters, masked exchanges with other results, weights set in place), increases of the number of particles, and
allocations by the rest of the program. -/
inductive SeqRun [Add V] (ess : (Fin B → V) → (Fin B → V) × T) (shape : T → List ℕ) (sy : List ℕ)
    (smc2 : Bool) : Heap B V → SeqObj T → Prop where
  | start {h h' : Heap B V} {r : Res} {i : Ideal B V} {s : SeqObj T} (hr : Run h r i) (zero : Fin B → V)
      (hn : SeqObj.init ess smc2 h zero r = .ok (h', s)) : SeqRun ess shape sy smc2 h' s
  | observe {h h' : Heap B V} {s s' : SeqObj T} (hr : SeqRun ess shape sy smc2 h s) (f : Fields B V)
      (hw : okSource h s f.w) (hp : okSource h s f.prev) (y : Option T) (hy : y.isSome = smc2)
      (hsy : ∀ d ∈ y, shape d = sy) (ho : s.observe ess h f y = .ok (h', s')) :
      SeqRun ess shape sy smc2 h' s'
  | bump {h : Heap B V} {s : SeqObj T} (hr : SeqRun ess shape sy smc2 h s) :
      SeqRun ess shape sy smc2 h s.bump
  | rejuvenate {h : Heap B V} {s : SeqObj T} (hr : SeqRun ess shape sy smc2 h s) (idx : Fin B → Fin B)
      (eh : Bool) (zero : Fin B → V) : SeqRun ess shape sy smc2 (s.rejuvenate h idx eh zero) s
  | exchange {h : Heap B V} {s : SeqObj T} (hr : SeqRun ess shape sy smc2 h s) (other : Res)
      (mask : Fin B → Bool) : SeqRun ess shape sy smc2 (s.res.exchange h other mask) s
  | increase {h h' h'' : Heap B V} {s s' : SeqObj T} {r : Res} {i : Ideal B V}
      (hr : SeqRun ess shape sy smc2 h s) (he : Ext h h') (hn : Run h' r i) (weight : Fin B → V)
      (hi : s.increase ess h' r weight = .ok (h'', s')) : SeqRun ess shape sy smc2 h'' s'
  | other {h h' : Heap B V} {s : SeqObj T} (hr : SeqRun ess shape sy smc2 h s) (he : Ext h h') :
      SeqRun ess shape sy smc2 h' s

theorem run_windows [AddCommSemigroup V] {h : Heap B V} {r : Res} {i : Ideal B V} (hr : Run h r i) :
    (∀ k, r.means.maxlen = some k → r.means.items.length ≤ k) ∧
      (∀ k, r.vars.maxlen = some k → r.vars.items.length ≤ k) := by
  obtain ⟨-, -, hm, hv⟩ := run_refines hr
  constructor
  · intro k hk
    have := congrArg List.length hm
    rw [hk, lastN] at this
    simp only [List.length_map, List.length_reverse, List.length_take] at this
    omega
  · intro k hk
    have := congrArg List.length hv
    rw [hk, lastN] at this
    simp only [List.length_map, List.length_reverse, List.length_take] at this
    omega

theorem new_ok (ess : (Fin B → V) → (Fin B → V) × T) (h : Heap B V) (w : ℕ) (r : Res) :
    SeqObj.new ess h w r =
      .ok (h.write w (ess (h.cell w)).1, ⟨w, r, histories [(ess (h.cell w)).2] none, 0⟩) := by
  simp [SeqObj.new, Container.makeDeque, makeDequeue, dictSet, Deq.extend_none, histories, bind, Except.bind,
    pure, Except.pure]

theorem newSmc2_ok (ess : (Fin B → V) → (Fin B → V) × T) (h : Heap B V) (w : ℕ) (r : Res) :
    SeqObj.newSmc2 ess h w r =
      .ok (h.write w (ess (h.cell w)).1, ⟨w, r, histories [(ess (h.cell w)).2] (some []), 0⟩) := by
  simp [SeqObj.newSmc2, new_ok, Container.makeDeque, makeDequeue, dictSet, Deq.extend_none, histories, bind,
    Except.bind, pure, Except.pure, essName_ne]

/-- A state with new weights on the result of a run. -/
theorem sane_fresh [AddCommSemigroup V] {shape : T → List ℕ} {sy : List ℕ} {m : Bool} {h h' : Heap B V}
    {r : Res} {i : Ideal B V} (hr : Run h r i) (v : Fin B → V) (hsame : SameObj (h.alloc v) h')
    (c : Container T) (it : ℕ) (hc : ∃ es ds, c = histories es ds ∧ es ≠ [] ∧ (∀ e ∈ es, shape e = []) ∧
      (∀ d ∈ ds.getD [], shape d = sy) ∧ ds.isSome = m) : Sane shape sy m h' ⟨h.nc, r, c, it⟩ := by
  have hi := (run_refines hr).1
  have hm := run_moments_ne hr
  obtain ⟨w1, w2⟩ := run_windows hr
  refine ⟨hsame.inv (hi.ext (ext_alloc h v)), ?_, ?_, ?_, ?_, w1, w2, hc⟩
  · rw [hsame.1]; exact Nat.lt_succ_self _
  · intro hin
    exact absurd (hi.lt _ hin) (lt_irrefl _)
  · intro o ho f hf
    rw [hsame.2.2]
    show f (h.obj o) ≠ h.nc
    obtain ⟨q1, q2, q3, q4, q5, q6⟩ := hi.below o ho
    simp only [List.mem_cons, List.not_mem_nil, or_false] at hf
    rcases hf with rfl | rfl | rfl | rfl | rfl | rfl
    exacts [q1.ne, q2.ne, q3.ne, q4.ne, q5.ne, q6.ne]
  · intro o ho
    rw [hsame.2.2]
    exact hm o ho

theorem init_ok (ess : (Fin B → V) → (Fin B → V) × T) (m : Bool) (h : Heap B V) (zero : Fin B → V) (r : Res) :
    ∃ h' es ds, SeqObj.init ess m h zero r = .ok (h', ⟨h.nc, r, histories [es] ds, 0⟩) ∧
      SameObj (h.alloc zero) h' ∧ (∃ v, es = (ess v).2) ∧ ds.getD [] = [] ∧ ds.isSome = m := by
  cases m with
  | false =>
    simp only [SeqObj.init, new_ok, bind, Except.bind, pure, Except.pure, Bool.false_eq_true, if_false]
    exact ⟨_, _, none, rfl, sameObj_write _ _ _, ⟨_, rfl⟩, rfl, rfl⟩
  | true =>
    simp only [SeqObj.init, new_ok, newSmc2_ok, bind, Except.bind, if_true]
    exact ⟨_, _, some [], rfl, (sameObj_write _ _ _).trans (sameObj_write _ _ _), ⟨_, rfl⟩, rfl, rfl⟩

theorem increase_ok (ess : (Fin B → V) → (Fin B → V) × T) (h : Heap B V) (s : SeqObj T) (r : Res)
    (weight : Fin B → V) : ∃ h', s.increase ess h r weight = .ok (h', ⟨h.nc, r, s.tuples, s.iter⟩) ∧
      SameObj (h.alloc weight) h' := by
  refine ⟨_, ?_, sameObj_write _ h.nc (ess ((h.alloc weight).cell h.nc)).1⟩
  simp only [SeqObj.increase, newSmc2_ok, bind, Except.bind, pure, Except.pure]

/-- Every reachable state has sane storage. -/
theorem seqRun_sane [AddCommSemigroup V] {ess : (Fin B → V) → (Fin B → V) × T} {shape : T → List ℕ}
    {sy : List ℕ} {m : Bool} (hess : ∀ v, shape (ess v).2 = []) {h : Heap B V} {s : SeqObj T}
    (hr : SeqRun ess shape sy m h s) : Sane shape sy m h s := by
  induction hr with
  | @start h h' r i s hr zero hn =>
    obtain ⟨h2, es, ds, e1, e2, ⟨v, hv⟩, e4, e5⟩ := init_ok ess m h zero r
    rw [e1] at hn
    cases hn
    refine sane_fresh hr zero e2 _ 0 ⟨[es], ds, rfl, by simp, ?_, by simp [e4], e5⟩
    intro e he
    rw [List.mem_singleton.1 he, hv]
    exact hess v
  | observe hr f hw hp y hy hsy ho ih =>
    obtain ⟨h2, s2, e1, e2, -⟩ := ih.observe ess hess f hw hp y hy hsy
    rw [e1] at ho
    cases ho
    exact e2
  | bump hr ih => exact ⟨ih.inv, ih.wLt, ih.wSep, ih.states, ih.moments, ih.meansWindow, ih.varsWindow, ih.tuples⟩
  | rejuvenate hr idx eh zero ih => exact (ih.resample idx eh).same (sameObj_write _ _ _)
  | exchange hr other mask ih => exact ih.same (sameObj_exchange _ _ _ _)
  | increase hr he hn weight hi ih =>
    obtain ⟨h2, e1, e2⟩ := increase_ok ess _ _ _ weight
    rw [e1] at hi
    cases hi
    exact sane_fresh hn weight e2 _ _ ih.tuples
  | other hr he ih => exact ih.ext he

/-- Further observations of a state, each reported and counted, with any allocations in between. -/
inductive Observed [Add V] (ess : (Fin B → V) → (Fin B → V) × T) (shape : T → List ℕ) (sy : List ℕ)
    (smc2 : Bool) (h : Heap B V) (s : SeqObj T) :
    List (Report B V × Option T) → Heap B V → SeqObj T → Prop where
  | nil : Observed ess shape sy smc2 h s [] h s
  | snoc {rs : List (Report B V × Option T)} {h1 h2 : Heap B V} {s1 s2 : SeqObj T}
      (ho : Observed ess shape sy smc2 h s rs h1 s1) (f : Fields B V)
      (hw : okSource h1 s1 f.w) (hp : okSource h1 s1 f.prev) (y : Option T) (hy : y.isSome = smc2)
      (hsy : ∀ d ∈ y, shape d = sy) (hs : s1.observe ess h1 f y = .ok (h2, s2)) :
      Observed ess shape sy smc2 h s (rs ++ [(reportOf f, y)]) h2 s2.bump
  | other {rs : List (Report B V × Option T)} {h1 h2 : Heap B V} {s1 : SeqObj T}
      (ho : Observed ess shape sy smc2 h s rs h1 s1) (he : Ext h1 h2) :
      Observed ess shape sy smc2 h s rs h2 s1

theorem view_ext {shape : T → List ℕ} {sy : List ℕ} {m : Bool} {h h' : Heap B V} {s : SeqObj T}
    (hS : Sane shape sy m h s) (he : Ext h h') : viewOf h' s = viewOf h s := by
  unfold viewOf
  rw [he.2.2.1 _ hS.wLt, he.2.2.1 _ (hS.inv.lt _ (by simp [owned]))]
  congr 1
  · exact List.map_congr_left fun c hc => he.2.2.1 _ (hS.inv.lt c (by unfold owned; simp [hc]))
  · exact List.map_congr_left fun c hc => he.2.2.1 _ (hS.inv.lt c (by unfold owned; simp [hc]))

/-- What the specification says after the observations. -/
def viewAfter [Add V] (ess : (Fin B → V) → (Fin B → V) × T) (v : SeqView B V T)
    (rs : List (Report B V × Option T)) : SeqView B V T :=
  rs.foldl (fun v r => v.observe ess r.1 r.2) v

theorem observed_view [Add V] {ess : (Fin B → V) → (Fin B → V) × T} {shape : T → List ℕ} {sy : List ℕ}
    {m : Bool} (hess : ∀ v, shape (ess v).2 = []) {h h' : Heap B V} {s s' : SeqObj T}
    {rs : List (Report B V × Option T)} (hs : Sane shape sy m h s)
    (ho : Observed ess shape sy m h s rs h' s') :
    Sane shape sy m h' s' ∧ viewOf h' s' = viewAfter ess (viewOf h s) rs ∧ s'.w = s.w ∧
      s'.res.ll = s.res.ll ∧ h.nc ≤ h'.nc ∧ h.no ≤ h'.no ∧
      (∀ c < h.nc, c ≠ s.w → c ≠ s.res.ll → h'.cell c = h.cell c) ∧ (∀ o < h.no, h'.obj o = h.obj o) := by
  induction ho with
  | nil => exact ⟨hs, rfl, rfl, rfl, le_rfl, le_rfl, fun _ _ _ _ => rfl, fun _ _ => rfl⟩
  | snoc ho f hw hp y hy hsy hst ih =>
    obtain ⟨i1, i2, i3, i4, i5, i6, i7, i8⟩ := ih
    obtain ⟨h3, s3, e1, e2, e3, e4, e5, e6, e7, e8, e9⟩ := i1.observe ess hess f hw hp y hy hsy
    rw [e1] at hst
    cases hst
    refine ⟨⟨e2.inv, e2.wLt, e2.wSep, e2.states, e2.moments, e2.meansWindow, e2.varsWindow, e2.tuples⟩, ?_,
      e4.trans i3, e5.trans i4, i5.trans e6, i6.trans e7, ?_, ?_⟩
    · rw [e3, i2]
      simp [viewAfter]
    · intro c hc hcw hcl
      rw [e8 c (by omega) (by rw [i3]; exact hcw) (by rw [i4]; exact hcl), i7 c hc hcw hcl]
    · intro o ho
      rw [e9 o (by omega), i8 o ho]
  | other ho he ih =>
    obtain ⟨i1, i2, i3, i4, i5, i6, i7, i8⟩ := ih
    refine ⟨i1.ext he, (view_ext i1 he).trans i2, i3, i4, i5.trans he.1, i6.trans he.2.1, ?_, ?_⟩
    · intro c hc hcw hcl
      rw [he.2.2.1 c (by omega), i7 c hc hcw hcl]
    · intro o ho
      rw [he.2.2.2 o (by omega), i8 o ho]

theorem stackCopy_nodup (rs : List ℕ) : ∀ h : Heap B V,
    (stackCopy h rs).2.Nodup ∧ ∀ c ∈ (stackCopy h rs).2, h.nc ≤ c := by
  induction rs with
  | nil => intro h; simp [stackCopy]
  | cons r rs ih =>
    intro h
    obtain ⟨i1, i2⟩ := ih (h.alloc (h.cell r))
    have e : (stackCopy h (r :: rs)).2 = h.nc :: (stackCopy (h.alloc (h.cell r)) rs).2 := rfl
    rw [e]
    have hn : (h.alloc (h.cell r)).nc = h.nc + 1 := rfl
    rw [hn] at i2
    refine ⟨List.nodup_cons.2 ⟨fun hin => ?_, i1⟩, ?_⟩
    · have := i2 _ hin
      omega
    · intro c hc
      rcases List.mem_cons.1 hc with rfl | hc
      · exact le_rfl
      · have := i2 _ hc
        omega

/-- What saving a state gives. -/
theorem save_spec {shape : T → List ℕ} {sy : List ℕ} {m : Bool} {h : Heap B V} {s : SeqObj T}
    (hs : Sane shape sy m h s) (o : ℕ) (ho : s.res.states.items.getLast? = some o) :
    ∃ hs' ms vs es ds, s.stateDict shape h =
        .ok (hs', ⟨savedHistories es ds, ⟨(s.res.means.maxlen, ms), (s.res.vars.maxlen, vs), s.res.ll, h.obj o⟩,
          s.w, s.iter⟩) ∧
      s.tuples = histories es ds ∧ ds.isSome = m ∧ Ext h hs' ∧ hs'.obj = h.obj ∧ (ms ++ vs).Nodup ∧
      (∀ c ∈ ms ++ vs, h.nc ≤ c ∧ c < hs'.nc) ∧
      ms.map hs'.cell = s.res.means.items.map h.cell ∧ vs.map hs'.cell = s.res.vars.items.map h.cell := by
  obtain ⟨es, ds, ht, -, he, hd, hdm⟩ := hs.tuples
  obtain ⟨a1, a2, a3, a4⟩ := stackCopy_spec s.res.means.items h
    fun c hc => hs.inv.lt c (by unfold owned; simp [hc])
  obtain ⟨b1, b2, b3, b4⟩ := stackCopy_spec s.res.vars.items (stackCopy h s.res.means.items).1
    fun c hc => lt_of_lt_of_le (hs.inv.lt c (by unfold owned; simp [hc])) a1.1
  obtain ⟨n1, -⟩ := stackCopy_nodup s.res.means.items h
  obtain ⟨n2, -⟩ := stackCopy_nodup s.res.vars.items (stackCopy h s.res.means.items).1
  have hobj : (stackCopy (stackCopy h s.res.means.items).1 s.res.vars.items).1.obj = h.obj := b2.trans a2
  refine ⟨(stackCopy (stackCopy h s.res.means.items).1 s.res.vars.items).1, (stackCopy h s.res.means.items).2,
    (stackCopy (stackCopy h s.res.means.items).1 s.res.vars.items).2, es, ds, ?_, ht, hdm, a1.trans b1, hobj,
    ?_, ?_, ?_, ?_⟩
  · simp only [SeqObj.stateDict, ht, stateDict_histories shape sy es ds he hd, Res.stateDict, ho, bind,
      Except.bind, pure, Except.pure, hobj]
  · rw [List.nodup_append]
    refine ⟨n1, n2, ?_⟩
    intro a ha b hb hab
    have h1 := (a4 a ha).2
    have h2 := (b4 b hb).1
    omega
  · intro c hc
    rcases List.mem_append.1 hc with hc | hc
    · have h1 := a4 c hc
      have := b1.1
      omega
    · have h1 := b4 c hc
      have := a1.1
      omega
  · rw [← a3]
    exact List.map_congr_left fun c hc => b1.2.2.1 _ (a4 c hc).2
  · rw [b3]
    exact List.map_congr_left fun c hc => a1.2.2.1 _ (hs.inv.lt c (by unfold owned; simp [hc]))

theorem extend_window (k : Option ℕ) (xs : List ℕ) (hk : ∀ n, k = some n → xs.length ≤ n) :
    (⟨k, []⟩ : Deq ℕ).extend xs = ⟨k, xs⟩ := by
  apply extend_cut (ys := xs.map fun _ => 0)
  cases k with
  | none => simp [Deq.cut]
  | some n =>
    have := hk n rfl
    simp only [Deq.cut, List.length_drop, List.length_map]
    omega

/-- The object restored by a load. -/
def restored (h : Heap B V) (o2 : ℕ) (c : Corr) : Corr :=
  ⟨c.x, c.w, c.ll, c.prev, c.mean, c.var, (h.obj o2).time + (-(h.obj o2).time + c.time), (h.obj o2).shape⟩

/-- What loading a saved state gives, in whatever storage. -/
theorem load_spec (h : Heap B V) (s0 : SeqObj T) (es es₀ : List T) (ds ds₀ : Option (List T))
    (sv : Res.Saved) (w it o2 : ℕ) (ht : s0.tuples = histories es₀ ds₀) (hk : ds₀.isSome = ds.isSome)
    (ho2 : s0.res.states.items = [o2]) (hsh : (h.obj o2).shape = sv.state.shape)
    (hm : ∀ n, sv.means.1 = some n → sv.means.2.length ≤ n)
    (hv : ∀ n, sv.vars.1 = some n → sv.vars.2.length ≤ n) :
    s0.loadStateDict h ⟨savedHistories es ds, sv, w, it⟩ =
      (h.setObj o2 (restored h o2 sv.state),
        ⟨w, ⟨sv.ll, ⟨sv.means.1, sv.means.2⟩, ⟨sv.vars.1, sv.vars.2⟩, s0.res.states⟩, histories es ds, it⟩,
        ⟨[], sv, w, it⟩, none) := by
  unfold SeqObj.loadStateDict
  simp only [ht, load_histories es es₀ ds ds₀ hk, Res.loadStateDict, extend_window _ _ hm, extend_window _ _ hv,
    ho2, loadCorr, if_pos hsh, restored]

/-! ## C89 -/

/-- C89: saving a state of a sequential algorithm and loading it into another state of the same algorithm
(whose filter records one state of the same shape) succeeds; the loaded state shows the same weights,
histories, counter, log-likelihood, moments and windows, and its latest filter state has the same tensors and
time. -/
theorem C89_round_trip [AddCommSemigroup V] {ess : (Fin B → V) → (Fin B → V) × T} {shape : T → List ℕ}
    {sy : List ℕ} {m : Bool} (hess : ∀ v, shape (ess v).2 = []) {h : Heap B V} {s s0 : SeqObj T}
    (hr : SeqRun ess shape sy m h s) (hr0 : SeqRun ess shape sy m h s0) (o o2 : ℕ)
    (ho : s.res.states.items.getLast? = some o) (ho2 : s0.res.states.items = [o2])
    (hsh : (h.obj o2).shape = (h.obj o).shape) :
    ∃ hs sd h' s' sd', s.stateDict shape h = .ok (hs, sd) ∧ s0.loadStateDict hs sd = (h', s', sd', none) ∧
      viewOf h' s' = viewOf h s ∧ s'.res.states.items = [o2] ∧
      (∀ f ∈ [Corr.x, Corr.w, Corr.ll, Corr.prev, Corr.mean, Corr.var],
        h'.cell (f (h'.obj o2)) = h.cell (f (h.obj o))) ∧ (h'.obj o2).time = (h.obj o).time := by
  have hS := seqRun_sane hess hr
  obtain ⟨es₀, ds₀, ht0, -, -, -, hd0⟩ := (seqRun_sane hess hr0).tuples
  obtain ⟨hs, ms, vs, es, ds, e1, e2, e3, e4, e5, e6, e7, e8, e9⟩ := save_spec hS o ho
  have lm : ms.length = s.res.means.items.length := by
    have := congrArg List.length e8
    simpa using this
  have lv : vs.length = s.res.vars.items.length := by
    have := congrArg List.length e9
    simpa using this
  have hl := load_spec hs s0 es es₀ ds ds₀ ⟨(s.res.means.maxlen, ms), (s.res.vars.maxlen, vs), s.res.ll, h.obj o⟩
    s.w s.iter o2 ht0 (by rw [hd0, e3]) ho2 (by rw [e5]; exact hsh)
    (fun n hn => by show ms.length ≤ n; rw [lm]; exact hS.meansWindow n hn)
    (fun n hn => by show vs.length ≤ n; rw [lv]; exact hS.varsWindow n hn)
  refine ⟨hs, _, _, _, _, e1, hl, ?_, ho2, ?_, ?_⟩
  · unfold viewOf
    simp only [e2, setObj, e8, e9]
    rw [e4.2.2.1 _ hS.wLt, e4.2.2.1 _ (hS.inv.lt _ (by simp [owned]))]
  · obtain ⟨q1, q2, q3, q4, q5, q6⟩ := hS.inv.below o (List.mem_of_getLast? ho)
    intro f hf
    have hob : (hs.setObj o2 (restored hs o2 (h.obj o))).obj o2 = restored hs o2 (h.obj o) :=
      Function.update_self _ _ _
    show hs.cell (f ((hs.setObj o2 (restored hs o2 (h.obj o))).obj o2)) = _
    rw [hob]
    simp only [List.mem_cons, List.not_mem_nil, or_false] at hf
    rcases hf with rfl | rfl | rfl | rfl | rfl | rfl
    exacts [e4.2.2.1 _ q1, e4.2.2.1 _ q2, e4.2.2.1 _ q3, e4.2.2.1 _ q4, e4.2.2.1 _ q5, e4.2.2.1 _ q6]
  · simp [setObj, restored]

/-- The loaded state has sane storage, so it can be continued. -/
theorem loaded_sane {shape : T → List ℕ} {sy : List ℕ} {m : Bool} {h hs : Heap B V} {s s0 : SeqObj T}
    (hS : Sane shape sy m h s) (o o2 : ℕ) (ho : s.res.states.items.getLast? = some o)
    (ho2 : s0.res.states.items = [o2]) (ho2l : o2 < h.no) {ms vs : List ℕ}
    (e4 : Ext h hs) (e6 : (ms ++ vs).Nodup) (e7 : ∀ c ∈ ms ++ vs, h.nc ≤ c ∧ c < hs.nc)
    (lm : ms.length = s.res.means.items.length) (lv : vs.length = s.res.vars.items.length) :
    Sane shape sy m (hs.setObj o2 (restored hs o2 (h.obj o)))
      ⟨s.w, ⟨s.res.ll, ⟨s.res.means.maxlen, ms⟩, ⟨s.res.vars.maxlen, vs⟩, s0.res.states⟩, s.tuples, s.iter⟩ := by
  have hom := List.mem_of_getLast? ho
  have hob : (hs.setObj o2 (restored hs o2 (h.obj o))).obj o2 = restored hs o2 (h.obj o) :=
    Function.update_self _ _ _
  have hll : s.res.ll < h.nc := hS.inv.lt _ (by simp [owned])
  have hn1 := e4.1
  have hb := (hS.inv.below o hom).mono hn1
  have hout : ∀ c < h.nc, c ∉ ms ++ vs := fun c hc hin => by
    have := (e7 c hin).1
    omega
  obtain ⟨p1, p2, p3⟩ := hS.inv.sep o hom
  obtain ⟨q1, q2, q3, q4, q5, q6⟩ := hS.inv.below o hom
  have hne : ∀ c, c ∉ s.res.owned → c ≠ s.res.ll := by
    rintro c hc rfl
    exact hc (by simp [owned])
  have hno : ∀ c < h.nc, c ≠ s.res.ll →
      c ∉ (⟨s.res.ll, ⟨s.res.means.maxlen, ms⟩, ⟨s.res.vars.maxlen, vs⟩, s0.res.states⟩ : Res).owned := by
    intro c hc hcl hin
    unfold owned at hin
    rcases List.mem_cons.1 hin with hin | hin
    · exact hcl hin
    · exact hout c hc hin
  have hmem : ∀ o' ∈ s0.res.states.items, o' = o2 := by
    intro o' ho'
    rw [ho2] at ho'
    exact List.mem_singleton.1 ho'
  refine ⟨⟨?_, ?_, ?_, ?_, ?_, ?_⟩, ?_, ?_, ?_, ?_, ?_, ?_, hS.tuples⟩
  · unfold owned
    exact List.nodup_cons.2 ⟨hout _ hll, e6⟩
  · intro c hc
    rcases List.mem_cons.1 hc with hc | hc
    · rw [hc]
      exact lt_of_lt_of_le hll hn1
    · exact (e7 c hc).2
  · show s0.res.states.items.Nodup
    rw [ho2]; simp
  · intro o' ho'
    rw [hmem o' ho']
    exact lt_of_lt_of_le ho2l e4.2.1
  · intro o' ho'
    rw [hmem o' ho', hob]
    exact hb
  · intro o' ho'
    rw [hmem o' ho', hob]
    exact ⟨hno _ q1 (hne _ p1), hno _ q2 (hne _ p2), hno _ q4 (hne _ p3)⟩
  · exact lt_of_lt_of_le hS.wLt hn1
  · refine hno _ hS.wLt ?_
    exact hne _ hS.wSep
  · intro o' ho' f hf
    rw [hmem o' ho', hob]
    have := hS.states o hom
    simp only [List.mem_cons, List.not_mem_nil, or_false] at hf
    rcases hf with rfl | rfl | rfl | rfl | rfl | rfl
    exacts [this Corr.x (by simp), this Corr.w (by simp), this Corr.ll (by simp), this Corr.prev (by simp),
      this Corr.mean (by simp), this Corr.var (by simp)]
  · intro o' ho'
    rw [hmem o' ho', hob]
    exact hS.moments o hom
  · intro k hk
    show ms.length ≤ k
    rw [lm]; exact hS.meansWindow k hk
  · intro k hk
    show vs.length ≤ k
    rw [lv]; exact hS.varsWindow k hk

/-- C89: a loaded state continues like the saved one. Whatever the filter reports on the further observations,
both show what the specification says, hence the same weights, histories, counter, log-likelihood and
moments. -/
theorem C89_resume [AddCommSemigroup V] {ess : (Fin B → V) → (Fin B → V) × T} {shape : T → List ℕ}
    {sy : List ℕ} {m : Bool} (hess : ∀ v, shape (ess v).2 = []) {h hs h' : Heap B V} {s s0 s' : SeqObj T}
    {sd sd' : SeqObj.Saved T} (hr : SeqRun ess shape sy m h s) (hr0 : SeqRun ess shape sy m h s0) (o o2 : ℕ)
    (ho : s.res.states.items.getLast? = some o) (ho2 : s0.res.states.items = [o2])
    (hsh : (h.obj o2).shape = (h.obj o).shape) (hd : s.stateDict shape h = .ok (hs, sd))
    (hl : s0.loadStateDict hs sd = (h', s', sd', none)) (rs : List (Report B V × Option T))
    {h1 h2 : Heap B V} {s1 s2 : SeqObj T} (hc1 : Observed ess shape sy m h s rs h1 s1)
    (hc2 : Observed ess shape sy m h' s' rs h2 s2) :
    viewOf h2 s2 = viewAfter ess (viewOf h s) rs ∧ viewOf h1 s1 = viewAfter ess (viewOf h s) rs := by
  have hS := seqRun_sane hess hr
  have hS0 := seqRun_sane hess hr0
  obtain ⟨es₀, ds₀, ht0, -, -, -, hd0⟩ := hS0.tuples
  obtain ⟨hsx, ms, vs, es, ds, e1, e2, e3, e4, e5, e6, e7, e8, e9⟩ := save_spec hS o ho
  have lm : ms.length = s.res.means.items.length := by
    have := congrArg List.length e8
    simpa using this
  have lv : vs.length = s.res.vars.items.length := by
    have := congrArg List.length e9
    simpa using this
  have hl' := load_spec hsx s0 es es₀ ds ds₀
    ⟨(s.res.means.maxlen, ms), (s.res.vars.maxlen, vs), s.res.ll, h.obj o⟩
    s.w s.iter o2 ht0 (by rw [hd0, e3]) ho2 (by rw [e5]; exact hsh)
    (fun n hn => by show ms.length ≤ n; rw [lm]; exact hS.meansWindow n hn)
    (fun n hn => by show vs.length ≤ n; rw [lv]; exact hS.varsWindow n hn)
  obtain ⟨hs', sd1, h1', s1', sd1', f1, f2, f3, -⟩ := C89_round_trip hess hr hr0 o o2 ho ho2 hsh
  rw [hd] at e1 f1
  cases e1
  cases f1
  rw [hl] at hl' f2
  have hloaded : Sane shape sy m h' s' := by
    simp only [Prod.mk.injEq] at hl'
    rw [hl'.1, hl'.2.1, ← e2]
    exact loaded_sane hS o o2 ho ho2 (hS0.inv.statesLt o2 (by rw [ho2]; simp)) e4 e6 e7 lm lv
  cases f2
  refine ⟨?_, (observed_view hess hS hc1).2.1⟩
  rw [(observed_view hess hloaded hc2).2.1, f3]

/-- C89: further observations never fail on a reachable state. -/
theorem C89_continues [AddCommSemigroup V] {ess : (Fin B → V) → (Fin B → V) × T} {shape : T → List ℕ}
    {sy : List ℕ} {m : Bool} (hess : ∀ v, shape (ess v).2 = []) {h : Heap B V} {s : SeqObj T}
    (hr : SeqRun ess shape sy m h s) (f : Fields B V) (hw : okSource h s f.w) (hp : okSource h s f.prev)
    (y : Option T) (hy : y.isSome = m) (hsy : ∀ d ∈ y, shape d = sy) :
    ∃ h' s', s.observe ess h f y = .ok (h', s') ∧
      viewOf h' s'.bump = (viewOf h s).observe ess (reportOf f) y := by
  obtain ⟨h', s', e1, -, e3, -⟩ := (seqRun_sane hess hr).observe ess hess f hw hp y hy hsy
  exact ⟨h', s', e1, e3⟩

theorem ext_write_above {h h' : Heap B V} (he : Ext h h') (c : ℕ) (hc : h.nc ≤ c) (v : Fin B → V) :
    Ext h (h'.write c v) :=
  ⟨he.1, he.2.1, fun r hr => by
    show Function.update h'.cell c v r = _
    rw [Function.update_of_ne (by omega), he.2.2.1 r hr], he.2.2.2⟩

/-- C89: beside every reachable state a new one of the same algorithm can be initialized, with a filter of any
shape: the target that `C89_round_trip` and `C89_resume` speak of exists. -/
theorem C89_target [AddCommSemigroup V] {ess : (Fin B → V) → (Fin B → V) × T} {shape : T → List ℕ}
    {sy : List ℕ} {m : Bool} {h : Heap B V} {s : SeqObj T} (hr : SeqRun ess shape sy m h s)
    (x p l mu va zero : Fin B → V) (time : ℤ) (sh : List ℕ) :
    ∃ h' s0 o2, SeqRun ess shape sy m h' s ∧ SeqRun ess shape sy m h' s0 ∧ Ext h h' ∧
      s0.res.states.items = [o2] ∧ (h'.obj o2).shape = sh := by
  set f : Fields B V := ⟨x, .fresh zero, l, .fresh p, mu, va, time, sh⟩ with hf
  have spec := construct_spec h f trivial trivial
  obtain ⟨h1, o, hco⟩ : ∃ h1 o, h.construct f = (h1, o) := ⟨_, _, rfl⟩
  have hst := startable_construct h f trivial trivial
  rw [hco] at spec hst
  dsimp only at spec hst
  obtain ⟨e, -, -, -, c2, -, -, -, -, -, -, -, -, -, -, -, -, -, -, -, -, -, hsh⟩ := spec
  have hrun := Run.start h1 o (some 1) none hst
  set h2 := (Res.new h1 o (some 1) none).1 with hh2
  set r := (Res.new h1 o (some 1) none).2 with hhr
  have e2 : Ext h h2 := ext_write_above e _ c2 _
  have hst2 : r.states.items = [o] := rfl
  have hobj : h2.obj = h1.obj := rfl
  have e3 : Ext h (h2.alloc zero) := e2.trans (ext_alloc h2 zero)
  have hn2 := e2.1
  cases m with
  | false =>
    refine ⟨_, _, o, ?_, SeqRun.start hrun zero (h' := (h2.alloc zero).write h2.nc
      (ess ((h2.alloc zero).cell h2.nc)).1) (s := ⟨h2.nc, r, histories [(ess ((h2.alloc zero).cell h2.nc)).2] none,
        0⟩) ?_, ?_, hst2, ?_⟩
    · exact SeqRun.other hr (ext_write_above e3 _ hn2 _)
    · simp only [SeqObj.init, new_ok, bind, Except.bind, pure, Except.pure, Bool.false_eq_true, if_false]
    · exact ext_write_above e3 _ hn2 _
    · exact hsh
  | true =>
    set h3 := (h2.alloc zero).write h2.nc (ess ((h2.alloc zero).cell h2.nc)).1 with hh3
    refine ⟨_, _, o, ?_, SeqRun.start hrun zero (h' := h3.write h2.nc (ess (h3.cell h2.nc)).1)
      (s := ⟨h2.nc, r, histories [(ess (h3.cell h2.nc)).2] (some []), 0⟩) ?_, ?_, hst2, ?_⟩
    · exact SeqRun.other hr (ext_write_above (ext_write_above e3 _ hn2 _) _ hn2 _)
    · simp only [SeqObj.init, new_ok, newSmc2_ok, bind, Except.bind, if_true]
      rfl
    · exact ext_write_above (ext_write_above e3 _ hn2 _) _ hn2 _
    · exact hsh

/-- An algorithm of one parameter particle on integers, with the weight itself recorded in place of the
effective sample size. -/
def plainEss (v : Fin 1 → ℤ) : (Fin 1 → ℤ) × ℤ := (v, v 0)

/-- The filter result of the cases below: created from one state, then nothing. -/
def ckRes : Heap 1 ℤ × Res := Res.new (heap1 ℤ 0 0 0 0 0 0) 0 (some 1) none

/-- A state of SMC2 initialized with this result. -/
def ckInit : Heap 1 ℤ × SeqObj ℤ :=
  (((ckRes.1.alloc fun _ => 0).write ckRes.1.nc fun _ => 0).write ckRes.1.nc fun _ => 0,
    ⟨ckRes.1.nc, ckRes.2, histories [0] (some []), 0⟩)

/-- What the filter computes for the first observation. -/
def ckFields : Fields 1 ℤ := ⟨0, .fresh 0, fun _ => 3, .fresh 0, fun _ => 4, fun _ => 5, 1, [2]⟩

/-- The state after the observation 7. -/
def ckSeen : Heap 1 ℤ × SeqObj ℤ :=
  match ckInit.2.observe plainEss ckInit.1 ckFields (some 7) with
  | .ok (h, s) => (h, s.bump)
  | .error _ => ckInit

theorem ck_run : SeqRun plainEss (fun _ => []) [] true ckSeen.1 ckSeen.2 := by
  have hs := startable_heap1 (B := 1) (V := ℤ) 0 0 0 0 0 0
  have e1 : SeqObj.init plainEss true ckRes.1 (fun _ => 0) ckRes.2 = .ok ckInit := by
    simp only [SeqObj.init, new_ok, newSmc2_ok, bind, Except.bind, if_true]
    rfl
  have r1 : SeqRun plainEss (fun _ : ℤ => []) [] true ckInit.1 ckInit.2 :=
    SeqRun.start (Run.start _ 0 (some 1) none hs) _ e1
  exact SeqRun.bump (SeqRun.observe r1 ckFields trivial trivial (some 7) rfl (fun _ _ => rfl) rfl)

/-- Case for C89: a state of SMC2 that has seen the observation 7 with log-likelihood 3; what it shows. -/
example : SeqRun plainEss (fun _ => []) [] true ckSeen.1 ckSeen.2 ∧
    ckSeen.2.res.states.items = [1] ∧ (ckSeen.1.obj 1).shape = [2] ∧
    viewOf ckSeen.1 ckSeen.2 = ⟨fun _ => 3, [0, 3], [7], 1, fun _ => 3, [fun _ => 0, fun _ => 4],
      [fun _ => 0, fun _ => 5], none, none⟩ :=
  ⟨ck_run, rfl, rfl, rfl⟩

/-! ## C90 -/

/-- The full claim C90: a checkpoint describes the moment when it was taken. Whatever the state has observed
since, loading the checkpoint gives the state that was saved. -/
def C90_claim : Prop :=
  ∀ (h hs h1 h' : Heap 1 ℤ) (s s1 s0 s' : SeqObj ℤ) (sd sd' : SeqObj.Saved ℤ)
    (rs : List (Report 1 ℤ × Option ℤ)), SeqRun plainEss (fun _ => []) [] true h s →
    s.stateDict (fun _ => []) h = .ok (hs, sd) → Observed plainEss (fun _ => []) [] true hs s rs h1 s1 →
    SeqRun plainEss (fun _ => []) [] true h1 s0 → s0.loadStateDict h1 sd = (h', s', sd', none) →
    viewOf h' s' = viewOf h s

/-- C90 fails in general: a checkpoint loaded after further observations shows the counter, the histories and
the moments of the moment of saving, but the weights and the log-likelihood of the running state. -/
theorem C90_mixture [AddCommSemigroup V] {ess : (Fin B → V) → (Fin B → V) × T} {shape : T → List ℕ}
    {sy : List ℕ} {m : Bool} (hess : ∀ v, shape (ess v).2 = []) {h hs h1 : Heap B V} {s s1 s0 : SeqObj T}
    {sd : SeqObj.Saved T} {rs : List (Report B V × Option T)} (hr : SeqRun ess shape sy m h s)
    (hd : s.stateDict shape h = .ok (hs, sd)) (ho : Observed ess shape sy m hs s rs h1 s1)
    (hr0 : SeqRun ess shape sy m h1 s0) (o2 : ℕ) (ho2 : s0.res.states.items = [o2])
    (hsh : (h1.obj o2).shape = sd.filter.state.shape) :
    ∃ h' s' sd', s0.loadStateDict h1 sd = (h', s', sd', none) ∧
      viewOf h' s' = { viewOf h s with w := (viewAfter ess (viewOf h s) rs).w,
                                       ll := (viewAfter ess (viewOf h s) rs).ll } := by
  have hS := seqRun_sane hess hr
  obtain ⟨es₀, ds₀, ht0, -, -, -, hd0⟩ := (seqRun_sane hess hr0).tuples
  obtain ⟨o, hlast⟩ : ∃ o, s.res.states.items.getLast? = some o := by
    cases hg : s.res.states.items.getLast? with
    | some o => exact ⟨o, rfl⟩
    | none =>
      unfold SeqObj.stateDict at hd
      simp only [Res.stateDict, hg, bind, Except.bind] at hd
      split at hd <;> cases hd
  obtain ⟨hsx, ms, vs, es, ds, e1, e2, e3, e4, e5, e6, e7, e8, e9⟩ := save_spec hS o hlast
  rw [hd] at e1
  cases e1
  have lm : ms.length = s.res.means.items.length := by
    have := congrArg List.length e8
    simpa using this
  have lv : vs.length = s.res.vars.items.length := by
    have := congrArg List.length e9
    simpa using this
  have hl := load_spec h1 s0 es es₀ ds ds₀
    ⟨(s.res.means.maxlen, ms), (s.res.vars.maxlen, vs), s.res.ll, h.obj o⟩
    s.w s.iter o2 ht0 (by rw [hd0, e3]) ho2 hsh
    (fun n hn => by show ms.length ≤ n; rw [lm]; exact hS.meansWindow n hn)
    (fun n hn => by show vs.length ≤ n; rw [lv]; exact hS.varsWindow n hn)
  have hS' : Sane shape sy m hs s := hS.ext e4
  obtain ⟨-, v2, v3, v4, -, -, v7, -⟩ := observed_view hess hS' ho
  have hview : viewOf hs s = viewOf h s := view_ext hS e4
  rw [hview] at v2
  have hcopy : ∀ c ∈ ms ++ vs, h1.cell c = hs.cell c := by
    intro c hc
    have hb := e7 c hc
    have hwl := hS.wLt
    have hll : s.res.ll < h.nc := hS.inv.lt _ (by simp [owned])
    exact v7 c hb.2 (by omega) (by omega)
  refine ⟨_, _, _, hl, ?_⟩
  have hvw : (viewOf h1 s1).w = h1.cell s.w := by
    show h1.cell s1.w = _
    rw [v3]
  have hvl : (viewOf h1 s1).ll = h1.cell s.res.ll := by
    show h1.cell s1.res.ll = _
    rw [v4]
  rw [← v2, hvw, hvl]
  unfold viewOf
  simp only [setObj, e2]
  congr 1
  · rw [← e8]; exact List.map_congr_left fun c hc => hcopy c (List.mem_append_left _ hc)
  · rw [← e9]; exact List.map_congr_left fun c hc => hcopy c (List.mem_append_right _ hc)

/-- C90 where it holds: a checkpoint loaded before the state observes anything else gives the state that was
saved, and also later the counter, both histories, the recorded moments and their windows are those of the
moment of saving. Missing from the full claim: weights and log-likelihood after further observations, for
which it is false, see `C90_mixture` and `C90_negation`. -/
theorem C90_kept_partial [AddCommSemigroup V] {ess : (Fin B → V) → (Fin B → V) × T} {shape : T → List ℕ}
    {sy : List ℕ} {m : Bool} (hess : ∀ v, shape (ess v).2 = []) {h hs h1 h' : Heap B V}
    {s s1 s0 s' : SeqObj T} {sd sd' : SeqObj.Saved T} {rs : List (Report B V × Option T)}
    (hr : SeqRun ess shape sy m h s) (hd : s.stateDict shape h = .ok (hs, sd))
    (ho : Observed ess shape sy m hs s rs h1 s1) (hr0 : SeqRun ess shape sy m h1 s0) (o2 : ℕ)
    (ho2 : s0.res.states.items = [o2]) (hsh : (h1.obj o2).shape = sd.filter.state.shape)
    (hl : s0.loadStateDict h1 sd = (h', s', sd', none)) :
    (rs = [] → viewOf h' s' = viewOf h s) ∧ (viewOf h' s').iter = (viewOf h s).iter ∧
      (viewOf h' s').ess = (viewOf h s).ess ∧ (viewOf h' s').data = (viewOf h s).data ∧
      (viewOf h' s').means = (viewOf h s).means ∧ (viewOf h' s').vars = (viewOf h s).vars ∧
      (viewOf h' s').meansWindow = (viewOf h s).meansWindow ∧
      (viewOf h' s').varsWindow = (viewOf h s).varsWindow := by
  obtain ⟨h2, s2, sd2, e1, e2⟩ := C90_mixture hess hr hd ho hr0 o2 ho2 hsh
  rw [hl] at e1
  cases e1
  rw [e2]
  refine ⟨?_, rfl, rfl, rfl, rfl, rfl, rfl, rfl⟩
  rintro rfl
  rfl

/-- The checkpoint of the demonstration, the state after one more observation of log-likelihood 3. -/
def ckSaved : Heap 1 ℤ × SeqObj.Saved ℤ :=
  match ckSeen.2.stateDict (fun _ => []) ckSeen.1 with
  | .ok p => p
  | .error _ => (ckSeen.1, ⟨[], ⟨(none, []), (none, []), 0, ⟨0, 0, 0, 0, 0, 0, 0, []⟩⟩, 0, 0⟩)

theorem ck_saved : ckSeen.2.stateDict (fun _ => []) ckSeen.1 = .ok ckSaved := rfl

/-- The full claim C90 is false. -/
theorem C90_negation : ¬ C90_claim := by
  intro hc
  have hr := ck_run
  have hsane := seqRun_sane (fun _ => rfl) hr
  obtain ⟨h', ms, vs, es, ds, e1, -, -, e4, -⟩ := save_spec hsane 1 rfl
  rw [ck_saved] at e1
  have hext : Ext ckSeen.1 ckSaved.1 := by
    have : ckSaved.1 = h' := by
      have := congrArg (fun p => match p with | Except.ok q => q.1 | Except.error _ => h') e1
      exact this
    rw [this]; exact e4
  have hr' : SeqRun plainEss (fun _ => []) [] true ckSaved.1 ckSeen.2 := SeqRun.other hr hext
  obtain ⟨h2, s2, o1, -⟩ := (seqRun_sane (fun _ => rfl) hr').observe plainEss (fun _ => rfl) ckFields trivial
    trivial (some 7) rfl (fun _ _ => rfl)
  have hr2 := SeqRun.observe hr' ckFields trivial trivial (some 7) rfl (fun _ _ => rfl) o1
  have hobs : Observed plainEss (fun _ : ℤ => []) [] true ckSaved.1 ckSeen.2 _ h2 s2.bump :=
    Observed.snoc Observed.nil ckFields trivial trivial (some 7) rfl (fun _ _ => rfl) o1
  obtain ⟨h3, s0, o2, -, t2, t3, t4, t5⟩ := C89_target (SeqRun.bump hr2) 0 0 0 0 0 0 0 [2]
  obtain ⟨h4, s', sd', l1, l2⟩ := C90_mixture (fun _ => rfl) hr ck_saved (Observed.other hobs t3) t2 o2 t4
    (t5.trans rfl)
  have := hc _ _ _ _ _ _ _ _ _ _ _ hr ck_saved (Observed.other hobs t3) t2 l1
  rw [l2] at this
  have h6 := congrFun (congrArg SeqView.w this) 0
  revert h6
  show ¬ ((3 : ℤ) + 3 = 3)
  decide

/-- Case for C90: the demonstration can be saved, and the checkpoint shows its weights and its counter. -/
example : ckSeen.2.stateDict (fun _ => []) ckSeen.1 = .ok ckSaved ∧ ckSaved.2.iter = 1 ∧
    ckSaved.1.cell ckSaved.2.w = fun _ => 3 := ⟨ck_saved, rfl, rfl⟩

/-- C90 fails in a second way: loading empties the histories of the checkpoint. Loaded a second time it gives
another state its weights, its counter and its filter result, but neither effective sample sizes nor
observations. -/
theorem C90_second_load {ess : (Fin B → V) → (Fin B → V) × T} [AddCommSemigroup V] {shape : T → List ℕ}
    {sy : List ℕ} {m : Bool} (hess : ∀ v, shape (ess v).2 = []) {h : Heap B V} {s0 s1 s' : SeqObj T}
    {h' : Heap B V} {sd sd' : SeqObj.Saved T} (hr0 : SeqRun ess shape sy m h s0)
    (hr1 : SeqRun ess shape sy m h' s1) (es : List T) (ds : Option (List T)) (hm : ds.isSome = m)
    (ht : sd.tuples = savedHistories es ds) (hl : s0.loadStateDict h sd = (h', s', sd', none)) :
    ∀ h2 s2 sd2, s1.loadStateDict h' sd' = (h2, s2, sd2, none) →
      s2.w = s'.w ∧ s2.iter = s'.iter ∧ s2.tuples = s1.tuples := by
  obtain ⟨es₀, ds₀, ht0, -, -, -, hd0⟩ := (seqRun_sane hess hr0).tuples
  obtain ⟨es₁, ds₁, ht1, -, -, -, hd1⟩ := (seqRun_sane hess hr1).tuples
  unfold SeqObj.loadStateDict at hl
  simp only [ht, ht0, load_histories es es₀ ds ds₀ (by rw [hd0, hm])] at hl
  intro h2 s2 sd2 hl2
  split at hl
  · simp at hl
  · simp only [Prod.mk.injEq, and_true] at hl
    obtain ⟨-, rfl, rfl⟩ := hl
    unfold SeqObj.loadStateDict at hl2
    have h0 : s1.tuples.loadStateDict ([] : Container.SavedDict T) = (s1.tuples, [], none) := rfl
    simp only [h0] at hl2
    split at hl2
    · simp at hl2
    · simp only [Prod.mk.injEq, and_true] at hl2
      obtain ⟨-, rfl, -⟩ := hl2
      exact ⟨rfl, rfl, rfl⟩

/-! ## C91 -/

/-- The full claim C91: a PMMH result that is saved and loaded has the same chain. -/
def C91_claim : Prop :=
  ∀ (h hs h' : Heap 1 ℤ) (s s0 s' : PmmhObj ℤ ℤ) (sd : PmmhObj.Saved ℤ),
    s.stateDict (fun _ => []) h = .ok (hs, sd) → s0.loadStateDict hs sd = (h', s', none) →
    s'.samples = s.samples

/-- C91 fails in general: the chain is not saved. A loaded result has the samples that it had before, whatever
was saved. -/
theorem C91_chain_lost {P : Type} (h h' : Heap B V) (s0 s' : PmmhObj P T) (sd : PmmhObj.Saved T)
    (e : Option PyErr) (hl : s0.loadStateDict h sd = (h', s', e)) : s'.samples = s0.samples := by
  unfold PmmhObj.loadStateDict at hl
  simp only at hl
  split at hl
  · simp only [Prod.mk.injEq] at hl
    rw [← hl.2.1]
  · simp only [Prod.mk.injEq] at hl
    rw [← hl.2.1]

/-- The samples of a chain of one parameter: the first one and then those of every iteration, in order. -/
theorem C91_chain {P : Type} (n : List Char) (p : P) (r : Res) (ps : List P) :
    ps.foldlM (fun s q => PmmhObj.updateChain s [(n, q)]) (PmmhObj.new [(n, p)] r : PmmhObj P T) =
      .ok ⟨r, {}, [(n, p :: ps)]⟩ := by
  have key : ∀ (ps qs : List P), ps.foldlM (fun s q => PmmhObj.updateChain s [(n, q)])
      (⟨r, {}, [(n, qs)]⟩ : PmmhObj P T) = .ok ⟨r, {}, [(n, qs ++ ps)]⟩ := by
    intro ps
    induction ps with
    | nil => intro qs; simp [pure, Except.pure]
    | cons q ps ih =>
      intro qs
      have := ih (qs ++ [q])
      simpa [List.foldlM, PmmhObj.updateChain, dictGet, dictSet, bind, Except.bind] using this
  exact key ps [p]

/-- C91 where it holds: the filter result of a saved PMMH result is restored. Missing from the full claim: the
chain, for which it is false, see `C91_chain_lost` and `C91_negation`. -/
theorem C91_filter_partial [AddCommSemigroup V] {P : Type} {shape : T → List ℕ} {h : Heap B V} {r : Res}
    {i : Ideal B V} (hr : Run h r i) (sm sm2 : List (List Char × List P)) (o : ℕ)
    (ho : r.states.items.getLast? = some o) (r2 : Res) (o2 : ℕ) (h2 : r2.states.items = [o2])
    (hsh : (h.obj o2).shape = (h.obj o).shape) :
    ∃ hs sd h' s', (⟨r, {}, sm⟩ : PmmhObj P T).stateDict shape h = .ok (hs, sd) ∧
      (⟨r2, {}, sm2⟩ : PmmhObj P T).loadStateDict hs sd = (h', s', none) ∧
      h'.cell s'.res.ll = h.cell r.ll ∧
      s'.res.means.items.map h'.cell = r.means.items.map h.cell ∧
      s'.res.vars.items.map h'.cell = r.vars.items.map h.cell ∧
      (∀ f ∈ [Corr.x, Corr.w, Corr.ll, Corr.prev, Corr.mean, Corr.var],
        h'.cell (f (h'.obj o2)) = h.cell (f (h.obj o))) := by
  obtain ⟨hs, sv, e1, h', r', e2, q1, q2, -, q4, -, -, q7, -⟩ := C21_round_trip hr o ho r2 o2 h2 hsh
  refine ⟨hs, ⟨[], sv⟩, h', ⟨r', {}, sm2⟩, ?_, ?_, q1, q2, q4, q7⟩
  · have : (({} : Container T).stateDict shape) = .ok [] := rfl
    simp only [PmmhObj.stateDict, this, e1, bind, Except.bind, pure, Except.pure]
  · have : ({} : Container T).loadStateDict ([] : Container.SavedDict T) = ({}, [], none) := rfl
    simp only [PmmhObj.loadStateDict, this, e2]

/-- The full claim C91 is false: a chain of three samples is loaded into a new result. -/
theorem C91_negation : ¬ C91_claim := by
  intro hc
  have hr : Run ckRes.1 ckRes.2 _ :=
    Run.start _ 0 (some 1) none (startable_heap1 (B := 1) (V := ℤ) 0 0 0 0 0 0)
  obtain ⟨hs, sd, h', s', e1, e2, -⟩ := C91_filter_partial (T := ℤ) (shape := fun _ => []) hr
    [("x".toList, [(1 : ℤ), 2, 3])] [("x".toList, [(1 : ℤ)])] 0 rfl ckRes.2 0 rfl rfl
  have h1 := hc _ _ _ _ _ _ _ e1 e2
  rw [C91_chain_lost _ _ _ _ _ _ e2] at h1
  revert h1
  decide

/-- Case for C91: a result whose filter has one recorded state, with a chain of three samples. -/
example : ∃ (h : Heap 1 ℤ) (r : Res) (i : Ideal 1 ℤ), Run h r i ∧ r.states.items = [0] ∧
    [(2 : ℤ), 3].foldlM (fun s q => PmmhObj.updateChain s [("x".toList, q)])
      (PmmhObj.new [("x".toList, 1)] r : PmmhObj ℤ ℤ) = .ok ⟨r, {}, [("x".toList, [1, 2, 3])]⟩ :=
  ⟨_, _, _, Run.start _ 0 (some 1) none (startable_heap1 (B := 1) (V := ℤ) 0 0 0 0 0 0), rfl,
    C91_chain _ _ _ _⟩

end Verif.Props
