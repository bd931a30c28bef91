import Verif.Model.Copy
import Verif.Spec.Copy
import Verif.Lemmas.FilterResult

/-!
# Deep copies and footprints
-/

namespace Verif

open Heap Spec

variable {B : ℕ} {V : Type}

/-! ### Views -/

/-- Contents of a correction object. -/
def stateView (h : Heap B V) (c : Corr) : StateView B V :=
  ⟨h.cell c.x, h.cell c.w, h.cell c.ll, h.cell c.prev, h.cell c.mean, h.cell c.var, c.time, c.shape⟩

/-- Contents of a result. -/
def resultView (h : Heap B V) (r : Res) : ResultView B V where
  ll := h.cell r.ll
  means := (r.means.maxlen, r.means.items.map h.cell)
  vars := (r.vars.maxlen, r.vars.items.map h.cell)
  states := (r.states.maxlen, r.states.items.map fun o => stateView h (h.obj o))

/-- The tensors of a correction object. -/
def Corr.cells (c : Corr) : List ℕ := [c.x, c.w, c.ll, c.prev, c.mean, c.var]

/-- The tensors of a result. -/
def Res.cells (h : Heap B V) (r : Res) : List ℕ := r.owned ++ r.states.items.flatMap fun o => (h.obj o).cells

theorem resultView_congr {h h' : Heap B V} {r : Res} (hc : ∀ c ∈ r.cells h, h'.cell c = h.cell c)
    (ho : ∀ o ∈ r.states.items, h'.obj o = h.obj o) : resultView h' r = resultView h r := by
  have hown : ∀ c ∈ r.owned, h'.cell c = h.cell c := fun c hm => hc c (List.mem_append_left _ hm)
  unfold resultView
  congr 1
  · exact hown _ List.mem_cons_self
  · congr 1
    exact List.map_congr_left fun c hm => hown c (List.mem_cons_of_mem _ (List.mem_append_left _ hm))
  · congr 1
    exact List.map_congr_left fun c hm => hown c (List.mem_cons_of_mem _ (List.mem_append_right _ hm))
  · congr 1
    refine List.map_congr_left fun o hm => ?_
    have hst : ∀ c ∈ (h.obj o).cells, h'.cell c = h.cell c := fun c hcm =>
      hc c (List.mem_append_right _ (List.mem_flatMap.2 ⟨o, hm, hcm⟩))
    rw [ho o hm]
    unfold stateView
    simp only [Corr.cells, List.mem_cons, List.not_mem_nil, or_false, forall_eq_or_imp, forall_eq] at hst
    obtain ⟨a1, a2, a3, a4, a5, a6⟩ := hst
    rw [a1, a2, a3, a4, a5, a6]

/-! ### Copying -/

/-- What holds of storage and memo while a result of the heap `h` is copied. -/
structure Copying.Good (h : Heap B V) (s : Copying B V) : Prop where
  ext : Ext h s.heap
  cell : ∀ c n, s.cells c = some n → h.nc ≤ n ∧ n < s.heap.nc ∧ s.heap.cell n = h.cell c
  cellInj : ∀ c c' n, s.cells c = some n → s.cells c' = some n → c = c'
  obj : ∀ o p, s.objs o = some p → h.no ≤ p ∧ p < s.heap.no ∧
    (s.heap.obj p).time = (h.obj o).time ∧ (s.heap.obj p).shape = (h.obj o).shape ∧
    (h.obj o).cells.map s.cells = (s.heap.obj p).cells.map some
  objInj : ∀ o o' p, s.objs o = some p → s.objs o' = some p → o = o'

/-- The memo only grows. -/
def Copying.Le (s t : Copying B V) : Prop :=
  (∀ c n, s.cells c = some n → t.cells c = some n) ∧ ∀ o p, s.objs o = some p → t.objs o = some p

theorem Copying.Le.refl (s : Copying B V) : s.Le s := ⟨fun _ _ h => h, fun _ _ h => h⟩

theorem Copying.Le.trans {s t u : Copying B V} (a : s.Le t) (b : t.Le u) : s.Le u :=
  ⟨fun c n h => b.1 c n (a.1 c n h), fun o p h => b.2 o p (a.2 o p h)⟩

theorem map_mono {f g : ℕ → Option ℕ} (h : ∀ c n, f c = some n → g c = some n) {l l' : List ℕ}
    (hl : l.map f = l'.map some) : l.map g = l'.map some := by
  induction l generalizing l' with
  | nil =>
    cases l' with
    | nil => rfl
    | cons a l' => exact absurd hl (by simp)
  | cons a l ih =>
    cases l' with
    | nil => exact absurd hl (by simp)
    | cons b l' =>
      rw [List.map_cons, List.map_cons, List.cons.injEq] at hl
      rw [List.map_cons, List.map_cons, h _ _ hl.1, ih hl.2]

theorem Copying.cell_good {h : Heap B V} {s : Copying B V} (hg : Good h s) {c : ℕ} (hc : c < h.nc) :
    Good h (s.cell c).1 ∧ s.Le (s.cell c).1 ∧ (s.cell c).1.cells c = some (s.cell c).2 ∧
      (s.cell c).1.objs = s.objs ∧ (s.cell c).1.heap.no = s.heap.no := by
  unfold Copying.cell
  cases hs : s.cells c with
  | some n => exact ⟨hg, .refl s, hs, rfl, rfl⟩
  | none =>
    have hle : ∀ c' n, s.cells c' = some n → Function.update s.cells c (some s.heap.nc) c' = some n := by
      intro c' n hn
      rw [Function.update_of_ne]
      · exact hn
      · rintro rfl
        rw [hs] at hn
        exact nomatch hn
    refine ⟨?_, ⟨hle, fun _ _ h => h⟩, Function.update_self .., rfl, rfl⟩
    dsimp only
    refine ⟨hg.ext.trans (ext_alloc _ _), ?_, ?_, ?_, hg.objInj⟩
    · intro c' n hn
      dsimp only at hn
      by_cases hcc : c' = c
      · subst hcc
        rw [Function.update_self] at hn
        obtain rfl := Option.some.inj hn
        refine ⟨hg.ext.1, Nat.lt_succ_self _, ?_⟩
        show Function.update _ _ _ _ = _
        rw [Function.update_self, hg.ext.2.2.1 _ hc]
      · rw [Function.update_of_ne hcc] at hn
        obtain ⟨a1, a2, a3⟩ := hg.cell c' n hn
        refine ⟨a1, Nat.lt_succ_of_lt a2, ?_⟩
        show Function.update _ _ _ _ = _
        rw [Function.update_of_ne (Nat.ne_of_lt a2), a3]
    · intro c1 c2 n h1 h2
      dsimp only at h1 h2
      by_cases e1 : c1 = c <;> by_cases e2 : c2 = c
      · rw [e1, e2]
      · rw [e1, Function.update_self] at h1
        rw [Function.update_of_ne e2] at h2
        obtain rfl := Option.some.inj h1
        exact absurd (hg.cell _ _ h2).2.1 (lt_irrefl _)
      · rw [e2, Function.update_self] at h2
        rw [Function.update_of_ne e1] at h1
        obtain rfl := Option.some.inj h2
        exact absurd (hg.cell _ _ h1).2.1 (lt_irrefl _)
      · rw [Function.update_of_ne e1] at h1
        rw [Function.update_of_ne e2] at h2
        exact hg.cellInj _ _ _ h1 h2
    · intro o p hp
      obtain ⟨a1, a2, a3, a4, a5⟩ := hg.obj o p hp
      exact ⟨a1, a2, a3, a4, map_mono hle a5⟩

theorem Copying.obj_good {h : Heap B V} {s : Copying B V} (hg : Good h s) {o : ℕ} (ho : o < h.no)
    (hb : ∀ c ∈ (h.obj o).cells, c < h.nc) :
    Good h (s.obj o).1 ∧ s.Le (s.obj o).1 ∧ (s.obj o).1.objs o = some (s.obj o).2 := by
  unfold Copying.obj
  cases hs : s.objs o with
  | some n => exact ⟨hg, .refl s, hs⟩
  | none =>
    have e0 : s.heap.obj o = h.obj o := hg.ext.2.2.2 o ho
    dsimp only
    simp only [Corr.cells, List.mem_cons, List.not_mem_nil, or_false, forall_eq_or_imp, forall_eq] at hb
    obtain ⟨b1, b2, b3, b4, b5, b6⟩ := hb
    rw [e0]
    set s1 := (s.cell (h.obj o).x).1 with h1
    set s2 := (s1.cell (h.obj o).w).1 with h2
    set s3 := (s2.cell (h.obj o).ll).1 with h3
    set s4 := (s3.cell (h.obj o).prev).1 with h4
    set s5 := (s4.cell (h.obj o).mean).1 with h5
    set s6 := (s5.cell (h.obj o).var).1 with h6
    obtain ⟨g1, l1, m1, o1, -⟩ := cell_good hg b1
    rw [← h1] at g1 l1 m1 o1
    obtain ⟨g2, l2, m2, o2, -⟩ := cell_good g1 b2
    rw [← h2] at g2 l2 m2 o2
    obtain ⟨g3, l3, m3, o3, -⟩ := cell_good g2 b3
    rw [← h3] at g3 l3 m3 o3
    obtain ⟨g4, l4, m4, o4, -⟩ := cell_good g3 b4
    rw [← h4] at g4 l4 m4 o4
    obtain ⟨g5, l5, m5, o5, -⟩ := cell_good g4 b5
    rw [← h5] at g5 l5 m5 o5
    obtain ⟨g6, l6, m6, o6, -⟩ := cell_good g5 b6
    rw [← h6] at g6 l6 m6 o6
    have hobjs : s6.objs = s.objs := by rw [o6, o5, o4, o3, o2, o1]
    have hle : s.Le s6 := l1.trans (l2.trans (l3.trans (l4.trans (l5.trans l6))))
    have hnone : ∀ o' p, s6.objs o' = some p → Function.update s6.objs o (some s6.heap.no) o' = some p := by
      intro o' p hp
      rw [Function.update_of_ne]
      · exact hp
      · rintro rfl
        rw [hobjs, hs] at hp
        exact nomatch hp
    refine ⟨?_, ⟨hle.1, fun o' p hp => hnone o' p (hle.2 o' p hp)⟩, Function.update_self ..⟩
    refine ⟨g6.ext.trans (ext_allocObj _ _), g6.cell, g6.cellInj, ?_, ?_⟩
    · intro o' p hp
      by_cases hoo : o' = o
      · subst hoo
        dsimp only at hp
        rw [Function.update_self] at hp
        obtain rfl := Option.some.inj hp
        refine ⟨g6.ext.2.1, Nat.lt_succ_self _, ?_⟩
        have e1 : (s6.heap.allocObj ⟨(s.cell (h.obj o').x).2, (s1.cell (h.obj o').w).2, (s2.cell (h.obj o').ll).2,
            (s3.cell (h.obj o').prev).2, (s4.cell (h.obj o').mean).2, (s5.cell (h.obj o').var).2, (h.obj o').time,
            (h.obj o').shape⟩).obj s6.heap.no = _ := Function.update_self ..
        dsimp only
        rw [e1]
        refine ⟨rfl, rfl, ?_⟩
        simp only [Corr.cells, List.map_cons, List.map_nil]
        rw [l6.1 _ _ (l5.1 _ _ (l4.1 _ _ (l3.1 _ _ (l2.1 _ _ m1)))), l6.1 _ _ (l5.1 _ _ (l4.1 _ _ (l3.1 _ _ m2))),
          l6.1 _ _ (l5.1 _ _ (l4.1 _ _ m3)), l6.1 _ _ (l5.1 _ _ m4), l6.1 _ _ m5, m6]
      · dsimp only at hp
        rw [Function.update_of_ne hoo] at hp
        obtain ⟨a1, a2, a3, a4, a5⟩ := g6.obj o' p hp
        have e1 : ∀ c, (s6.heap.allocObj c).obj p = s6.heap.obj p := fun c =>
          Function.update_of_ne (Nat.ne_of_lt a2) _ _
        refine ⟨a1, Nat.lt_succ_of_lt a2, ?_⟩
        dsimp only
        rw [e1]
        exact ⟨a3, a4, a5⟩
    · intro o1 o2 p q1 q2
      dsimp only at q1 q2
      by_cases e1 : o1 = o <;> by_cases e2 : o2 = o
      · rw [e1, e2]
      · rw [e1, Function.update_self] at q1
        rw [Function.update_of_ne e2] at q2
        obtain rfl := Option.some.inj q1
        exact absurd (g6.obj _ _ q2).2.1 (lt_irrefl _)
      · rw [e2, Function.update_self] at q2
        rw [Function.update_of_ne e1] at q1
        obtain rfl := Option.some.inj q2
        exact absurd (g6.obj _ _ q1).2.1 (lt_irrefl _)
      · rw [Function.update_of_ne e1] at q1
        rw [Function.update_of_ne e2] at q2
        exact g6.objInj _ _ _ q1 q2

theorem Copying.cells_good {h : Heap B V} (l : List ℕ) : ∀ {s : Copying B V}, Good h s → (∀ c ∈ l, c < h.nc) →
    Good h (s.list Copying.cell l).1 ∧ s.Le (s.list Copying.cell l).1 ∧
      l.map (s.list Copying.cell l).1.cells = (s.list Copying.cell l).2.map some := by
  induction l with
  | nil => exact fun hg _ => ⟨hg, .refl _, rfl⟩
  | cons c l ih =>
    intro s hg hl
    obtain ⟨g1, l1, m1, -⟩ := cell_good hg (hl c List.mem_cons_self)
    obtain ⟨g2, l2, m2⟩ := ih g1 fun c' hc' => hl c' (List.mem_cons_of_mem _ hc')
    refine ⟨g2, l1.trans l2, ?_⟩
    have e : s.list Copying.cell (c :: l) =
        (((s.cell c).1.list Copying.cell l).1, (s.cell c).2 :: ((s.cell c).1.list Copying.cell l).2) := rfl
    rw [e, List.map_cons, List.map_cons, ← m2, l2.1 _ _ m1]

theorem Copying.objs_good {h : Heap B V} (l : List ℕ) : ∀ {s : Copying B V}, Good h s → (∀ o ∈ l, o < h.no) →
    (∀ o ∈ l, ∀ c ∈ (h.obj o).cells, c < h.nc) →
    Good h (s.list Copying.obj l).1 ∧ s.Le (s.list Copying.obj l).1 ∧
      l.map (s.list Copying.obj l).1.objs = (s.list Copying.obj l).2.map some := by
  induction l with
  | nil => exact fun hg _ _ => ⟨hg, .refl _, rfl⟩
  | cons c l ih =>
    intro s hg hl hb
    obtain ⟨g1, l1, m1⟩ := obj_good hg (hl c List.mem_cons_self) (hb c List.mem_cons_self)
    obtain ⟨g2, l2, m2⟩ := ih g1 (fun c' hc' => hl c' (List.mem_cons_of_mem _ hc'))
      fun c' hc' => hb c' (List.mem_cons_of_mem _ hc')
    refine ⟨g2, l1.trans l2, ?_⟩
    have e : s.list Copying.obj (c :: l) =
        (((s.obj c).1.list Copying.obj l).1, (s.obj c).2 :: ((s.obj c).1.list Copying.obj l).2) := rfl
    rw [e, List.map_cons, List.map_cons, ← m2, l2.2 _ _ m1]

/-- Everything a result refers to is allocated. -/
def Res.Allocated (h : Heap B V) (r : Res) : Prop :=
  (∀ c ∈ r.cells h, c < h.nc) ∧ ∀ o ∈ r.states.items, o < h.no

/-- The copy corresponds to the original, reference by reference. -/
theorem copy_spec {h : Heap B V} {r : Res} (ha : r.Allocated h) :
    ∃ s : Copying B V, Copying.Good h s ∧ (r.copy h).1 = s.heap ∧
      s.cells r.ll = some (r.copy h).2.ll ∧
      (r.copy h).2.means.maxlen = r.means.maxlen ∧ r.means.items.map s.cells = (r.copy h).2.means.items.map some ∧
      (r.copy h).2.vars.maxlen = r.vars.maxlen ∧ r.vars.items.map s.cells = (r.copy h).2.vars.items.map some ∧
      (r.copy h).2.states.maxlen = r.states.maxlen ∧ r.states.items.map s.objs = (r.copy h).2.states.items.map some := by
  have g0 : Copying.Good h (⟨h, fun _ => none, fun _ => none⟩ : Copying B V) :=
    { ext := Ext.refl h
      cell := fun _ _ hn => Option.noConfusion rfl (heq_of_eq hn)
      cellInj := fun _ _ _ hn => Option.noConfusion rfl (heq_of_eq hn)
      obj := fun _ _ hn => Option.noConfusion rfl (heq_of_eq hn)
      objInj := fun _ _ _ hn => Option.noConfusion rfl (heq_of_eq hn) }
  have hown : ∀ c ∈ r.owned, c < h.nc := fun c hm => ha.1 c (List.mem_append_left _ hm)
  obtain ⟨g1, l1, m1⟩ := Copying.cells_good r.means.items g0 fun c hm =>
    hown c (List.mem_cons_of_mem _ (List.mem_append_left _ hm))
  obtain ⟨g2, l2, m2⟩ := Copying.cells_good r.vars.items g1 fun c hm =>
    hown c (List.mem_cons_of_mem _ (List.mem_append_right _ hm))
  obtain ⟨g3, l3, m3, -⟩ := Copying.cell_good g2 (hown r.ll List.mem_cons_self)
  obtain ⟨g4, l4, m4⟩ := Copying.objs_good r.states.items g3 ha.2 fun o ho c hc =>
    ha.1 c (List.mem_append_right _ (List.mem_flatMap.2 ⟨o, ho, hc⟩))
  exact ⟨_, g4, rfl, l4.1 _ _ m3, rfl, map_mono (fun c n hn => l4.1 c n (l3.1 c n (l2.1 c n hn))) m1, rfl,
    map_mono (fun c n hn => l4.1 c n (l3.1 c n hn)) m2, rfl, m4⟩

theorem Copying.Good.map {h : Heap B V} {s : Copying B V} (hg : Good h s) :
    ∀ {l l' : List ℕ}, l.map s.cells = l'.map some → l'.map s.heap.cell = l.map h.cell
  | [], [], _ => rfl
  | [], _ :: _, e => absurd e (by simp)
  | _ :: _, [], e => absurd e (by simp)
  | c :: l, c' :: l', e => by
    rw [List.map_cons, List.map_cons, List.cons.injEq] at e
    rw [List.map_cons, List.map_cons, (hg.cell _ _ e.1).2.2, hg.map e.2]

theorem Copying.Good.flat {h : Heap B V} {s : Copying B V} (hg : Good h s) :
    ∀ {l l' : List ℕ}, l.map s.objs = l'.map some →
      (l.flatMap fun o => (h.obj o).cells).map s.cells = (l'.flatMap fun o => (s.heap.obj o).cells).map some ∧
        l'.map (fun o => stateView s.heap (s.heap.obj o)) = l.map fun o => stateView h (h.obj o)
  | [], [], _ => ⟨rfl, rfl⟩
  | [], _ :: _, e => absurd e (by simp)
  | _ :: _, [], e => absurd e (by simp)
  | o :: l, o' :: l', e => by
    rw [List.map_cons, List.map_cons, List.cons.injEq] at e
    obtain ⟨i1, i2⟩ := hg.flat e.2
    obtain ⟨-, -, a3, a4, a5⟩ := hg.obj _ _ e.1
    refine ⟨?_, ?_⟩
    · rw [List.flatMap_cons, List.flatMap_cons, List.map_append, List.map_append, i1, a5]
    · rw [List.map_cons, List.map_cons, i2]
      congr 1
      have := hg.map a5
      simp only [Corr.cells, List.map_cons, List.map_nil, List.cons.injEq, and_true] at this
      obtain ⟨b1, b2, b3, b4, b5, b6⟩ := this
      unfold stateView
      rw [b1, b2, b3, b4, b5, b6, a3, a4]

theorem getElem_pattern {f : ℕ → Option ℕ} (hf : ∀ c c' n, f c = some n → f c' = some n → c = c') {l l' : List ℕ}
    (e : l.map f = l'.map some) : l'.length = l.length ∧
      ∀ i j (hi : i < l.length) (hj : j < l.length) (hi' : i < l'.length) (hj' : j < l'.length),
        l[i] = l[j] ↔ l'[i] = l'[j] := by
  have hl : l'.length = l.length := by
    have := congrArg List.length e
    rw [List.length_map, List.length_map] at this
    exact this.symm
  refine ⟨hl, fun i j hi hj hi' hj' => ?_⟩
  have key : ∀ k (hk : k < l.length) (hk' : k < l'.length), f l[k] = some l'[k] := by
    intro k hk hk'
    have := congrArg (fun m => m[k]?) e
    simp only [List.getElem?_map, List.getElem?_eq_getElem hk, List.getElem?_eq_getElem hk', Option.map_some] at this
    exact Option.some.inj this
  constructor
  · intro h
    have h1 := key i hi hi'
    rw [h, key j hj hj'] at h1
    exact (Option.some.inj h1).symm
  · intro h
    have h1 := key i hi hi'
    rw [h] at h1
    exact hf _ _ _ h1 (key j hj hj')

/-! ### Footprints -/

/-- The tensors `C` and the objects `O` are allocated, and a result uses none of them. -/
structure Off (C O : Set ℕ) (h : Heap B V) (r : Res) : Prop where
  cellLt : ∀ c ∈ C, c < h.nc
  objLt : ∀ o ∈ O, o < h.no
  alloc : r.Allocated h
  cells : ∀ c ∈ r.cells h, c ∉ C
  objs : ∀ o ∈ r.states.items, o ∉ O

/-- The tensors `C` and the objects `O` are as before. -/
def Same (C O : Set ℕ) (h h' : Heap B V) : Prop :=
  h.nc ≤ h'.nc ∧ h.no ≤ h'.no ∧ (∀ c ∈ C, h'.cell c = h.cell c) ∧ ∀ o ∈ O, h'.obj o = h.obj o

theorem Same.trans {C O : Set ℕ} {h h' h'' : Heap B V} (a : Same C O h h') (b : Same C O h' h'') : Same C O h h'' :=
  ⟨a.1.trans b.1, a.2.1.trans b.2.1, fun c hc => (b.2.2.1 c hc).trans (a.2.2.1 c hc),
    fun o ho => (b.2.2.2 o ho).trans (a.2.2.2 o ho)⟩

theorem Same.rfl {C O : Set ℕ} {h : Heap B V} : Same C O h h :=
  ⟨le_rfl, le_rfl, fun _ _ => Eq.refl _, fun _ _ => Eq.refl _⟩

theorem same_write {C O : Set ℕ} (h : Heap B V) {c : ℕ} (hc : c ∉ C) (v : Fin B → V) : Same C O h (h.write c v) :=
  ⟨le_rfl, le_rfl, fun c' h' => Function.update_of_ne (fun e : c' = c => hc (e ▸ h')) _ _, fun _ _ => Eq.refl _⟩

theorem same_ext {C O : Set ℕ} {h h' : Heap B V} (hC : ∀ c ∈ C, c < h.nc) (hO : ∀ o ∈ O, o < h.no) (he : Ext h h') :
    Same C O h h' :=
  ⟨he.1, he.2.1, fun c hc => he.2.2.1 c (hC c hc), fun o ho => he.2.2.2 o (hO o ho)⟩

theorem mem_cells {h : Heap B V} {r : Res} {c : ℕ} :
    c ∈ r.cells h ↔ c ∈ r.owned ∨ ∃ o ∈ r.states.items, c ∈ (h.obj o).cells := by
  rw [Res.cells, List.mem_append, List.mem_flatMap]

/-- If the objects of a result are as before, it still uses the same tensors. -/
theorem Off.same {C O : Set ℕ} {h h' : Heap B V} {r : Res} (ho : Off C O h r) (hn : h.nc ≤ h'.nc) (hm : h.no ≤ h'.no)
    (hs : ∀ o ∈ r.states.items, h'.obj o = h.obj o) : Off C O h' r := by
  have e : r.cells h' = r.cells h := by
    unfold Res.cells
    congr 1
    rw [List.flatMap_def, List.flatMap_def, List.map_congr_left fun o hm => by rw [hs o hm]]
  refine ⟨fun c hc => (ho.cellLt c hc).trans_le hn, fun o h1 => (ho.objLt o h1).trans_le hm,
    ⟨fun c hc => ?_, fun o h1 => (ho.alloc.2 o h1).trans_le hm⟩, ?_, ho.objs⟩
  · rw [e] at hc
    exact (ho.alloc.1 c hc).trans_le hn
  · rw [e]
    exact ho.cells

theorem gatherAll_same {C O : Set ℕ} (idx : Fin B → Fin B) (rs : List ℕ) (hr : ∀ c ∈ rs, c ∉ C) : ∀ h : Heap B V,
    Same C O h (Res.gatherAll h idx rs) ∧ (Res.gatherAll h idx rs).obj = h.obj ∧ (Res.gatherAll h idx rs).no = h.no ∧
      (Res.gatherAll h idx rs).nc = h.nc := by
  induction rs with
  | nil => exact fun h => ⟨Same.rfl, rfl, rfl, rfl⟩
  | cons c rs ih =>
    intro h
    obtain ⟨a1, a2, a3, a4⟩ := ih (fun c' hc => hr c' (List.mem_cons_of_mem _ hc)) (h.write c (h.cell c ∘ idx))
    exact ⟨(same_write h (hr c List.mem_cons_self) _).trans a1, a2, a3, a4⟩

theorem resampleCorr_same {C O : Set ℕ} (h : Heap B V) (o : ℕ) (idx : Fin B → Fin B) (hC : ∀ c ∈ C, c < h.nc)
    (hb : ∀ c ∈ (h.obj o).cells, c < h.nc) (hc : ∀ c ∈ (h.obj o).cells, c ∉ C) (ho : o ∉ O) :
    Same C O h (h.resampleCorr o idx) ∧ (h.resampleCorr o idx).no = h.no ∧
      (∀ o' ≠ o, (h.resampleCorr o idx).obj o' = h.obj o') ∧
      (∀ c ∈ ((h.resampleCorr o idx).obj o).cells, c < (h.resampleCorr o idx).nc ∧ c ∉ C) := by
  have hb' : (h.obj o).below h.nc := by
    simp only [Corr.cells, List.mem_cons, List.not_mem_nil, or_false, forall_eq_or_imp, forall_eq] at hb
    exact hb
  obtain ⟨a1, a2, a3, a4, -, -, -, -, -, a10, -, -, ⟨b1, b2, b3, b4, b5⟩, c1, c2, c3, c4, c5, c6⟩ :=
    resampleCorr_spec h o idx hb'
  refine ⟨⟨by omega, a2.ge, fun c hcm => a3 c (hC c hcm), fun o' hm => a4 o' fun e => ho (e ▸ hm)⟩, a2, a4, ?_⟩
  have hge : ∀ c, h.nc ≤ c → c ∉ C := fun c h1 h2 => absurd (hC c h2) (by omega)
  have hl : ((h.resampleCorr o idx).obj o).ll ∉ C := by
    rw [a10]
    exact hc _ (by simp [Corr.cells])
  simp only [Corr.cells, List.mem_cons, List.not_mem_nil, or_false, forall_eq_or_imp, forall_eq]
  exact ⟨⟨c1, hge _ b1⟩, ⟨c2, hge _ b2⟩, ⟨c3, hl⟩, ⟨c4, hge _ b3⟩, ⟨c5, hge _ b4⟩, ⟨c6, hge _ b5⟩⟩

theorem resampleStates_same {C O : Set ℕ} (idx : Fin B → Fin B) (all os : List ℕ) (hsub : ∀ o ∈ os, o ∈ all)
    (hO : ∀ o ∈ all, o ∉ O) : ∀ h : Heap B V, (∀ c ∈ C, c < h.nc) →
      (∀ o ∈ all, ∀ c ∈ (h.obj o).cells, c < h.nc ∧ c ∉ C) →
      Same C O h (os.foldl (fun h o => h.resampleCorr o idx) h) ∧
        (os.foldl (fun h o => h.resampleCorr o idx) h).no = h.no ∧
        ∀ o ∈ all, ∀ c ∈ ((os.foldl (fun h o => h.resampleCorr o idx) h).obj o).cells,
          c < (os.foldl (fun h o => h.resampleCorr o idx) h).nc ∧ c ∉ C := by
  induction os with
  | nil => exact fun h _ hc => ⟨Same.rfl, rfl, hc⟩
  | cons o os ih =>
    intro h hC hc
    have hm := hsub o List.mem_cons_self
    obtain ⟨a1, a2, a3, a4⟩ := resampleCorr_same (O := O) h o idx hC (fun c h1 => (hc o hm c h1).1)
      (fun c h1 => (hc o hm c h1).2) (hO o hm)
    obtain ⟨b1, b2, b3⟩ := ih (fun o' h1 => hsub o' (List.mem_cons_of_mem _ h1)) (h.resampleCorr o idx)
      (fun c h1 => (hC c h1).trans_le a1.1) fun o' h1 c h2 => by
        by_cases e : o' = o
        · subst e
          exact a4 c h2
        · rw [a3 o' e] at h2
          exact ⟨((hc o' h1 c h2).1).trans_le a1.1, (hc o' h1 c h2).2⟩
    exact ⟨a1.trans b1, b2.trans a2, b3⟩

theorem Off.resample {C O : Set ℕ} {h : Heap B V} {r : Res} (hf : Off C O h r) (idx : Fin B → Fin B) (eh : Bool) :
    Same C O h (r.resample h idx eh) ∧ Off C O (r.resample h idx eh) r := by
  have hown : ∀ c ∈ r.owned, c < h.nc ∧ c ∉ C := fun c hm =>
    ⟨hf.alloc.1 c (mem_cells.2 (.inl hm)), hf.cells c (mem_cells.2 (.inl hm))⟩
  have s1 : Same C O h (h.write r.ll (h.cell r.ll ∘ idx)) := same_write h (hown _ List.mem_cons_self).2 _
  set h1 := h.write r.ll (h.cell r.ll ∘ idx) with hh1
  set h2 := if eh then Res.gatherAll h1 idx (r.means.items ++ r.vars.items) else h1 with hh2
  have g := gatherAll_same (C := C) (O := O) idx (r.means.items ++ r.vars.items)
    (fun c hm => (hown c (List.mem_cons_of_mem _ hm)).2) h1
  have s2 : Same C O h1 h2 ∧ h2.obj = h.obj ∧ h2.no = h.no ∧ h2.nc = h.nc := by
    rw [hh2]
    split_ifs
    · exact g
    · exact ⟨Same.rfl, rfl, rfl, rfl⟩
  obtain ⟨s3, e1, e2, e3⟩ := s2
  obtain ⟨s4, n4, c4⟩ := resampleStates_same (C := C) (O := O) idx r.states.items r.states.items (fun _ h => h) hf.objs h2
    (fun c hc => by rw [e3]; exact hf.cellLt c hc) fun o ho c hc => by
      rw [e1] at hc
      have := mem_cells.2 (.inr ⟨o, ho, hc⟩)
      rw [e3]
      exact ⟨hf.alloc.1 c this, hf.cells c this⟩
  have hs : Same C O h (r.resample h idx eh) := s1.trans (s3.trans s4)
  refine ⟨hs, fun c hc => (hf.cellLt c hc).trans_le hs.1, fun o ho => (hf.objLt o ho).trans_le hs.2.1,
    ⟨fun c hc => ?_, fun o ho => (hf.alloc.2 o ho).trans_le hs.2.1⟩, fun c hc => ?_, hf.objs⟩
  · rcases mem_cells.1 hc with h1 | ⟨o, h1, h2⟩
    · exact (hown c h1).1.trans_le hs.1
    · exact (c4 o h1 c h2).1
  · rcases mem_cells.1 hc with h1 | ⟨o, h1, h2⟩
    · exact (hown c h1).2
    · exact (c4 o h1 c h2).2

theorem Off.append [Add V] {C O : Set ℕ} {h : Heap B V} {r : Res} (hf : Off C O h r) {o : ℕ} (ho : o < h.no)
    (hb : ∀ c ∈ (h.obj o).cells, c < h.nc) (hc : ∀ c ∈ (h.obj o).cells, c ∉ C) (hO : o ∉ O) :
    Same C O h (r.append h o).1 ∧ Off C O (r.append h o).1 (r.append h o).2 := by
  have hs : Same C O h (r.append h o).1 := same_write h (hf.cells _ (mem_cells.2 (.inl List.mem_cons_self))) _
  have hsub : ∀ k : Option ℕ, ∀ l : List ℕ, ∀ a c, c ∈ Deq.cut k (l ++ [a]) → c ∈ l ∨ c = a := by
    intro k l a c hm
    have := (cut_sublist k (l ++ [a])).subset hm
    simpa using this
  have hst : ∀ o', o' ∈ (r.append h o).2.states.items → o' ∈ r.states.items ∨ o' = o := hsub _ _ _
  have key : ∀ c ∈ (r.append h o).2.cells (r.append h o).1, c ∈ r.cells h ∨ c ∈ (h.obj o).cells := by
    intro c hm
    rcases mem_cells.1 hm with h1 | ⟨o', h1, h2⟩
    · rcases List.mem_cons.1 h1 with h1 | h1
      · exact .inl (mem_cells.2 (.inl (by rw [h1]; exact List.mem_cons_self)))
      · rcases List.mem_append.1 h1 with h1 | h1
        · rcases hsub _ _ _ _ h1 with h1 | h1
          · exact .inl (mem_cells.2 (.inl (List.mem_cons_of_mem _ (List.mem_append_left _ h1))))
          · exact .inr (by rw [h1]; simp [Corr.cells])
        · rcases hsub _ _ _ _ h1 with h1 | h1
          · exact .inl (mem_cells.2 (.inl (List.mem_cons_of_mem _ (List.mem_append_right _ h1))))
          · exact .inr (by rw [h1]; simp [Corr.cells])
    · rcases hst o' h1 with h3 | h3
      · exact .inl (mem_cells.2 (.inr ⟨o', h3, h2⟩))
      · exact .inr (h3 ▸ h2)
  refine ⟨hs, hf.cellLt, hf.objLt, ⟨fun c hm => ?_, fun o' hm => ?_⟩, fun c hm => ?_, fun o' hm => ?_⟩
  · exact (key c hm).elim (hf.alloc.1 c) (hb c)
  · exact (hst o' hm).elim (hf.alloc.2 o') fun e => e ▸ ho
  · exact (key c hm).elim (hf.cells c) (hc c)
  · exact (hst o' hm).elim (hf.objs o') fun e => e ▸ hO

end Verif
