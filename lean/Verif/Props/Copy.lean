import Verif.Lemmas.Copy
import Verif.Props.FilterResult

/-!
# C117: copies of filter results
-/

namespace Verif.Props

open Verif Heap Res Spec

variable {B : ℕ} {V : Type}

/-- A new tensor, or one that the result uses already. -/
def ownSrc (h : Heap B V) (r : Res) : Src B V → Prop
  | .fresh _ => True
  | .old c => c ∈ r.cells h

/-- What can happen to a result: a state is built and appended, the result is resampled, it exchanges with any other
result, or other code allocates. -/
inductive Act [Add V] : Heap B V → Res → Heap B V → Res → Prop where
  | append (h : Heap B V) (r : Res) (f : Fields B V) (hw : ownSrc h r f.w) (hp : ownSrc h r f.prev) :
      Act h r (r.append (h.construct f).1 (h.construct f).2).1 (r.append (h.construct f).1 (h.construct f).2).2
  | resample (h : Heap B V) (r : Res) (idx : Fin B → Fin B) (eh : Bool) : Act h r (r.resample h idx eh) r
  | exchange (h : Heap B V) (r other : Res) (mask : Fin B → Bool) : Act h r (r.exchange h other mask) r
  | other (h h' : Heap B V) (r : Res) (he : Ext h h') : Act h r h' r

/-- Two results that things happen to, in any order. -/
inductive Together [Add V] (h : Heap B V) (a b : Res) : Heap B V → Res → Res → Prop where
  | refl : Together h a b h a b
  | left {h' h'' : Heap B V} {a' b' a'' : Res} (t : Together h a b h' a' b') (s : Act h' a' h'' a'') :
      Together h a b h'' a'' b'
  | right {h' h'' : Heap B V} {a' b' b'' : Res} (t : Together h a b h' a' b') (s : Act h' b' h'' b'') :
      Together h a b h'' a' b''

theorem run_allocated [AddCommSemigroup V] {h : Heap B V} {r : Res} {i : Ideal B V} (hr : Run h r i) : r.Allocated h := by
  obtain ⟨hi, -⟩ := run_refines hr
  refine ⟨fun c hc => ?_, hi.statesLt⟩
  rcases mem_cells.1 hc with h1 | ⟨o, h1, h2⟩
  · exact hi.lt c h1
  · obtain ⟨b1, b2, b3, b4, b5, b6⟩ := hi.below o h1
    simp only [Corr.cells, List.mem_cons, List.not_mem_nil, or_false] at h2
    rcases h2 with rfl | rfl | rfl | rfl | rfl | rfl <;> assumption

/-- What happens to a result stays off what it does not use. -/
theorem act_off [Add V] {C O : Set ℕ} {h h' : Heap B V} {r r' : Res} (hf : Off C O h r) (s : Act h r h' r') :
    Same C O h h' ∧ Off C O h' r' := by
  cases s with
  | append _ f hw hp =>
    have ok : ∀ s, ownSrc h r s → okSrc h s := by
      intro s hs
      cases s with
      | fresh v => trivial
      | old c => exact hf.alloc.1 c hs
    obtain ⟨e, a2, a3, c1, c2, c3, c4, b1, b2, b3, b4, b5, b6, -, -, -, -, ow, op, fw, fp, -, -⟩ :=
      construct_spec h f (ok _ hw) (ok _ hp)
    have s1 := same_ext hf.cellLt hf.objLt e
    have hge : ∀ c, h.nc ≤ c → c ∉ C := fun c h1 h2 => absurd (hf.cellLt c h2) (by omega)
    have hwC : ((h.construct f).1.obj (h.construct f).2).w ∉ C := by
      cases hfw : f.w with
      | fresh v => exact hge _ (fw v hfw).1
      | old c =>
        rw [ow c hfw]
        rw [hfw] at hw
        exact hf.cells c hw
    have hpC : ((h.construct f).1.obj (h.construct f).2).prev ∉ C := by
      cases hfp : f.prev with
      | fresh v => exact hge _ (fp v hfp).1
      | old c =>
        rw [op c hfp]
        rw [hfp] at hp
        exact hf.cells c hp
    have hf' : Off C O (h.construct f).1 r := hf.same e.1 e.2.1 fun o ho => e.2.2.2 o (hf.alloc.2 o ho)
    obtain ⟨s2, f2⟩ := hf'.append (o := (h.construct f).2) (by omega)
      (by
        simp only [Corr.cells, List.mem_cons, List.not_mem_nil, or_false, forall_eq_or_imp, forall_eq]
        omega)
      (by
        simp only [Corr.cells, List.mem_cons, List.not_mem_nil, or_false, forall_eq_or_imp, forall_eq]
        exact ⟨hge _ c1, hwC, hge _ c2, hpC, hge _ c3, hge _ c4⟩)
      (fun hO => absurd (hf.objLt _ hO) (by omega))
    exact ⟨s1.trans s2, f2⟩
  | resample _ idx eh => exact hf.resample idx eh
  | exchange _ other mask =>
    rw [exchange_eq]
    have hmem : ∀ p ∈ touched h r other, p.1 ∈ r.cells h := by
      intro p hp
      rw [touched, List.mem_cons, List.mem_append, List.mem_append, List.mem_flatMap] at hp
      rcases hp with rfl | (hp | hp) | ⟨q, hq, hp⟩
      · exact mem_cells.2 (.inl List.mem_cons_self)
      · exact mem_cells.2 (.inl (List.mem_cons_of_mem _ (List.mem_append_left _ (List.of_mem_zip hp).1)))
      · exact mem_cells.2 (.inl (List.mem_cons_of_mem _ (List.mem_append_right _ (List.of_mem_zip hp).1)))
      · refine mem_cells.2 (.inr ⟨q.1, (List.of_mem_zip hq).1, ?_⟩)
        simp only [List.mem_cons, List.not_mem_nil, or_false] at hp
        rcases hp with rfl | rfl | rfl | rfl | rfl | rfl <;> simp [Corr.cells]
    have key : ∀ (l : List (ℕ × ℕ)), (∀ p ∈ l, p.1 ∉ C) → ∀ h : Heap B V,
        Same C O h (l.foldl (fun h p => h.maskSet mask p.1 p.2) h) ∧
          (l.foldl (fun h p => h.maskSet mask p.1 p.2) h).obj = h.obj := by
      intro l
      induction l with
      | nil => exact fun _ h => ⟨Same.rfl, rfl⟩
      | cons p l ih =>
        intro hl h
        obtain ⟨a1, a2⟩ := ih (fun q hq => hl q (List.mem_cons_of_mem _ hq)) (h.maskSet mask p.1 p.2)
        exact ⟨(same_write h (hl p List.mem_cons_self) _).trans a1, a2⟩
    obtain ⟨k1, k2⟩ := key (touched h r other) (fun p hp => hf.cells _ (hmem p hp)) h
    exact ⟨k1, hf.same k1.1 k1.2.1 fun o _ => by rw [k2]⟩
  | other _ _ he =>
    exact ⟨same_ext hf.cellLt hf.objLt he, hf.same he.1 he.2.1 fun o ho => he.2.2.2 o (hf.alloc.2 o ho)⟩

/-- Two results that share nothing. -/
structure NoSharing (h : Heap B V) (a b : Res) : Prop where
  left : Off {c | c ∈ b.cells h} {o | o ∈ b.states.items} h a
  right : Off {c | c ∈ a.cells h} {o | o ∈ a.states.items} h b

theorem NoSharing.symm {h : Heap B V} {a b : Res} (hd : NoSharing h a b) : NoSharing h b a := ⟨hd.right, hd.left⟩

theorem NoSharing.act [Add V] {h h' : Heap B V} {a b a' : Res} (hd : NoSharing h a b) (s : Act h a h' a') :
    NoSharing h' a' b ∧ resultView h' b = resultView h b := by
  obtain ⟨k, f⟩ := act_off hd.left s
  have e : b.cells h' = b.cells h := by
    unfold Res.cells
    congr 1
    rw [List.flatMap_def, List.flatMap_def, List.map_congr_left fun o hm => by rw [k.2.2.2 o hm]]
  refine ⟨⟨?_, ?_⟩, resultView_congr k.2.2.1 k.2.2.2⟩
  · rw [e]
    exact f
  · refine ⟨f.alloc.1, f.alloc.2, ⟨fun c hc => ?_, f.objLt⟩, fun c hc hm => ?_, fun o ho hm => f.objs o hm ho⟩
    · rw [e] at hc
      exact f.cellLt c hc
    · rw [e] at hc
      exact f.cells c hm hc

theorem copy_disjoint {h : Heap B V} {r : Res} (ha : r.Allocated h) : NoSharing (r.copy h).1 r (r.copy h).2 := by
  obtain ⟨s, hg, e, e1, -, e2, -, e3, -, e4⟩ := copy_spec ha
  have new : ∀ {l l' : List ℕ}, l.map s.cells = l'.map some → ∀ c ∈ l', h.nc ≤ c ∧ c < s.heap.nc := by
    intro l l' hl c hc
    have : some c ∈ l.map s.cells := by
      rw [hl]
      exact List.mem_map_of_mem hc
    obtain ⟨c0, -, h1⟩ := List.mem_map.1 this
    obtain ⟨a1, a2, -⟩ := hg.cell _ _ h1
    exact ⟨a1, a2⟩
  have newo : ∀ o ∈ (r.copy h).2.states.items, h.no ≤ o ∧ o < s.heap.no := by
    intro o ho
    have : some o ∈ r.states.items.map s.objs := by
      rw [e4]
      exact List.mem_map_of_mem ho
    obtain ⟨o0, -, h1⟩ := List.mem_map.1 this
    obtain ⟨a1, a2, -⟩ := hg.obj _ _ h1
    exact ⟨a1, a2⟩
  have cells : ∀ c ∈ (r.copy h).2.cells (r.copy h).1, h.nc ≤ c ∧ c < s.heap.nc := by
    intro c hc
    rw [e] at hc
    rcases mem_cells.1 hc with h1 | ⟨o, h1, h2⟩
    · rcases List.mem_cons.1 h1 with h1 | h1
      · obtain ⟨a1, a2, -⟩ := hg.cell _ _ e1
        rw [h1]
        exact ⟨a1, a2⟩
      · rcases List.mem_append.1 h1 with h1 | h1
        · exact new e2 c h1
        · exact new e3 c h1
    · exact new (hg.flat e4).1 c (List.mem_flatMap.2 ⟨o, h1, h2⟩)
  have old : r.cells (r.copy h).1 = r.cells h := by
    unfold Res.cells
    congr 1
    rw [List.flatMap_def, List.flatMap_def, List.map_congr_left fun o hm => by rw [e, hg.ext.2.2.2 o (ha.2 o hm)]]
  have alloc : r.Allocated (r.copy h).1 := by
    refine ⟨fun c hc => ?_, fun o ho => ?_⟩
    · rw [old] at hc
      rw [e]
      exact (ha.1 c hc).trans_le hg.ext.1
    · rw [e]
      exact (ha.2 o ho).trans_le hg.ext.2.1
  have alloc' : (r.copy h).2.Allocated (r.copy h).1 := by
    refine ⟨fun c hc => ?_, fun o ho => ?_⟩
    · have := (cells c hc).2
      rwa [e]
    · have := (newo o ho).2
      rwa [e]
  refine ⟨⟨alloc'.1, alloc'.2, alloc, fun c hc hm => ?_, fun o ho hm => ?_⟩,
    ⟨alloc.1, alloc.2, alloc', fun c hc hm => ?_, fun o ho hm => ?_⟩⟩
  · rw [old] at hc
    exact absurd (ha.1 c hc) (by have := (cells c hm).1; omega)
  · exact absurd (ha.2 o ho) (by have := (newo o hm).1; omega)
  · have hm' : c ∈ r.cells (r.copy h).1 := hm
    rw [old] at hm'
    exact absurd (ha.1 c hm') (by have := (cells c hc).1; omega)
  · exact absurd (ha.2 o hm) (by have := (newo o ho).1; omega)

/-- **C117.** A copy has the contents of the original, which is unchanged. -/
theorem C117_equal {h : Heap B V} {r : Res} (ha : r.Allocated h) :
    resultView (r.copy h).1 (r.copy h).2 = resultView h r ∧ resultView (r.copy h).1 r = resultView h r := by
  obtain ⟨s, hg, e, e1, m1, e2, m2, e3, m3, e4⟩ := copy_spec ha
  constructor
  · unfold resultView
    rw [e, m1, m2, m3, (hg.cell _ _ e1).2.2, hg.map e2, hg.map e3, (hg.flat e4).2]
  · rw [e]
    exact resultView_congr (fun c hc => hg.ext.2.2.1 c (ha.1 c hc)) fun o ho => hg.ext.2.2.2 o (ha.2 o ho)

/-- C117: two places of the copy share a tensor if and only if the same two places of the original do, and likewise for
the recorded states. -/
theorem C117_sharing {h : Heap B V} {r : Res} (ha : r.Allocated h) :
    let l := r.cells h
    let l' := (r.copy h).2.cells (r.copy h).1
    let o := r.states.items
    let o' := (r.copy h).2.states.items
    (l'.length = l.length ∧ ∀ i j (hi : i < l.length) (hj : j < l.length) (hi' : i < l'.length) (hj' : j < l'.length),
      l[i] = l[j] ↔ l'[i] = l'[j]) ∧
    (o'.length = o.length ∧ ∀ i j (hi : i < o.length) (hj : j < o.length) (hi' : i < o'.length) (hj' : j < o'.length),
      o[i] = o[j] ↔ o'[i] = o'[j]) := by
  obtain ⟨s, hg, e, e1, -, e2, -, e3, -, e4⟩ := copy_spec ha
  refine ⟨getElem_pattern hg.cellInj ?_, getElem_pattern hg.objInj e4⟩
  unfold Res.cells owned
  rw [e, List.map_append, List.map_append, (hg.flat e4).1, List.map_cons, List.map_cons, List.map_append, List.map_append,
    e1, e2, e3]

/-- C117: from then on, whatever happens to the two in whatever order, what happens to one leaves the contents of the
other as they are. -/
theorem C117_independent [Add V] {h h' : Heap B V} {r a b : Res} (ha : r.Allocated h)
    (t : Together (r.copy h).1 r (r.copy h).2 h' a b) :
    (∀ h'' a', Act h' a h'' a' → resultView h'' b = resultView h' b) ∧
    (∀ h'' b', Act h' b h'' b' → resultView h'' a = resultView h' a) := by
  have hd : NoSharing h' a b := by
    induction t with
    | refl => exact copy_disjoint ha
    | left t s ih => exact (ih.act s).1
    | right t s ih => exact (ih.symm.act s).1.symm
  exact ⟨fun h'' a' s => (hd.act s).2, fun h'' b' s => (hd.symm.act s).2⟩

/-- C117: in particular every result of a filter run can be copied, and keeps its contents while the copy is used. -/
theorem C117_run [AddCommSemigroup V] {h h' h'' : Heap B V} {r b b' : Res} {i : Ideal B V} (hr : Run h r i)
    (t : Together (r.copy h).1 r (r.copy h).2 h' r b) (s : Act h' b h'' b') :
    resultView (r.copy h).1 (r.copy h).2 = resultView h r ∧ resultView h'' r = resultView h' r :=
  ⟨(C117_equal (run_allocated hr)).1, (C117_independent (run_allocated hr) t).2 _ _ s⟩

/-- Two recorded states that share an index tensor, and moments shared with the histories: the copy has the same
contents, and resampling the copy with its histories leaves the original alone. -/
example : resultView (res2a.copy heap2).1 (res2a.copy heap2).2 = resultView heap2 res2a ∧
    resultView ((res2a.copy heap2).2.resample (res2a.copy heap2).1 id true) res2a = resultView (res2a.copy heap2).1 res2a :=
  have ha : res2a.Allocated heap2 := ⟨by decide, by decide⟩
  ⟨(C117_equal ha).1, (C117_independent ha .refl).2 _ _ (.resample _ _ id true)⟩

/-- A copied run: the state is shared with the accumulator (C18) in the original and in the copy. -/
example : ∃ (h : Heap 2 ℤ) (r : Res) (i : Ideal 2 ℤ), Run h r i ∧ r.cells h = [2, 4, 5, 0, 1, 2, 3, 4, 5] ∧
    (r.copy h).2.cells (r.copy h).1 = [8, 6, 7, 9, 10, 8, 11, 6, 7] :=
  ⟨_, _, _, Run.start (heap1 ℤ 0 0 ![5, 6] 0 ![10, 20] 0) 0 none none (startable_heap1 0 0 ![5, 6] 0 ![10, 20] 0),
    rfl, rfl⟩

end Verif.Props
