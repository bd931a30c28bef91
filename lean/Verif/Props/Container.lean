import Verif.Lemmas.Container
import Verif.Spec.Container

/-!
# Properties C13-C16: named histories
-/

namespace Verif.Props

open Verif Container Spec

/-- Applying an operation of a user to the container: a refused operation leaves it as it was. -/
def apply {T : Type} (c : Container T) : Op T → Except PyErr (Container T)
  | .tuple n v => .ok (c.makeTuple n v)
  | .deque n v none => c.makeDeque n v .none
  | .deque n v (some k) => c.makeDeque n v (.int k)
  | .append n x => c.appendTo n x
  | .delete n => c.delitem n
  | .assign n v => c.setitem n v

/-- A list of operations, with which of them were accepted. -/
def applyAll {T : Type} (c : Container T) : List (Op T) → Container T × List Bool
  | [] => (c, [])
  | o :: os =>
    match apply c o with
    | .ok c' => let (c'', bs) := applyAll c' os; (c'', true :: bs)
    | .error _ => let (c'', bs) := applyAll c os; (c'', false :: bs)

theorem cut_eq_lastN {α : Type} (k : Option ℕ) (xs : List α) : Deq.cut k xs = lastN k xs := by
  cases k with
  | none => rfl
  | some k => simp [Deq.cut, lastN, List.take_reverse]

/-! ## C13 -/

/-- C13: a growing history with window `True`, `False`, an integer or nothing holds, after recording `xs`,
everything, the last entry, the last `k` entries, everything. -/
theorem C13_window {α : Type} (xs : List α) :
    (∃ d, makeDequeue α (.bool true) = .ok d ∧ (d.extend xs).items = xs) ∧
    (∃ d, makeDequeue α .none = .ok d ∧ (d.extend xs).items = xs) ∧
    (∃ d, makeDequeue α (.bool false) = .ok d ∧ (d.extend xs).items = lastN (some 1) xs) ∧
    (∀ k : ℕ, ∃ d, makeDequeue α (.int k) = .ok d ∧ (d.extend xs).items = lastN (some k) xs ∧
      (d.extend xs).items.length = min k xs.length) ∧
    (∀ k : ℤ, k < 0 → makeDequeue α (.int k) = .error .valueError) := by
  have key : ∀ m : Option ℕ, ((⟨m, []⟩ : Deq α).extend xs).items = lastN m xs := by
    intro m
    rw [extend_items _ _ (by cases m <;> simp [Deq.cut])]
    simpa using cut_eq_lastN m xs
  refine ⟨⟨_, rfl, key none⟩, ⟨_, rfl, key none⟩, ⟨_, rfl, key (some 1)⟩, fun k => ?_, fun k hk => ?_⟩
  · refine ⟨⟨some k, []⟩, by simp [makeDequeue], key (some k), ?_⟩
    rw [key]
    simp [lastN]
  · simp [makeDequeue, not_le.2 hk]

/-- Case for C13: three entries in a window of two. -/
example : lastN (some 2) [10, 20, 30] = [20, 30] := rfl

/-- C13 while recording one by one into a named history. -/
theorem C13_append {T : Type} (c : Container T) (n : List Char) (k : Option ℕ) (old : List T) (x : T)
    (ht : dictGet c.tuples n = none) (hd : dictGet c.deques n = some ⟨k, lastN k old⟩) :
    ∃ c', c.appendTo n x = .ok c' ∧ c'.getitem n = .ok (lastN k (old ++ [x])) := by
  refine ⟨{ c with deques := dictSet c.deques n ((⟨k, lastN k old⟩ : Deq T).append x) },
    by simp [appendTo, ht, hd], ?_⟩
  simp only [getitem, ht, dictGet_set_self, Deq.append]
  rw [← cut_eq_lastN, ← cut_eq_lastN, cut_cut_append]

/-- Case for C13_append. -/
example : dictGet (⟨[], [("m".toList, ⟨some 2, [20, 30]⟩)]⟩ : Container ℕ).deques "m".toList =
    some ⟨some 2, lastN (some 2) [10, 20, 30]⟩ := rfl

/-- The window that the argument of `make_deque` stands for. -/
def windowLen : Window → Option (Option ℕ)
  | .none => some none
  | .bool true => some none
  | .bool false => some (some 1)
  | .int k => if 0 ≤ k then some (some k.toNat) else none

/-- A history that is created with a window and some values and then recorded into keeps the last entries of all
that it was ever given. -/
theorem C13_recorded {T : Type} (c : Container T) (n : List Char) (values : List T) (w : Window) (k : Option ℕ)
    (hw : windowLen w = some k) (ht : dictGet c.tuples n = none) (xs : List T) :
    ∃ c₀ c', c.makeDeque n values w = .ok c₀ ∧ xs.foldlM (fun c x => c.appendTo n x) c₀ = .ok c' ∧
      c'.getitem n = .ok (lastN k (values ++ xs)) := by
  have hd : makeDequeue T w = .ok ⟨k, []⟩ := by
    cases w with
    | none => cases hw; rfl
    | bool b => cases b <;> cases hw <;> rfl
    | int j =>
      simp only [windowLen] at hw
      split_ifs at hw with hj
      cases hw
      lift j to ℕ using hj
      simp [makeDequeue]
  have key : ∀ (xs : List T) (c : Container T) (old : List T), dictGet c.tuples n = none →
      dictGet c.deques n = some ⟨k, lastN k old⟩ → ∃ c', xs.foldlM (fun c x => c.appendTo n x) c = .ok c' ∧
        c'.getitem n = .ok (lastN k (old ++ xs)) := by
    intro xs
    induction xs with
    | nil =>
      intro c old ht hd
      exact ⟨c, rfl, by simp [getitem, ht, hd]⟩
    | cons x xs ih =>
      intro c old ht hd
      have h1 : c.appendTo n x
          = .ok { c with deques := dictSet c.deques n ((⟨k, lastN k old⟩ : Deq T).append x) } := by
        simp [appendTo, ht, hd]
      obtain ⟨c', h2, h3⟩ := ih { c with deques := dictSet c.deques n ((⟨k, lastN k old⟩ : Deq T).append x) }
        (old ++ [x]) ht (by
          rw [dictGet_set_self, Deq.append, ← cut_eq_lastN, ← cut_eq_lastN, cut_cut_append])
      refine ⟨c', ?_, by rw [h3, List.append_assoc]; rfl⟩
      rw [List.foldlM_cons, h1]
      exact h2
  obtain ⟨c', h1, h2⟩ := key xs { c with deques := dictSet c.deques n ((⟨k, []⟩ : Deq T).extend values) } values ht
    (by
      rw [dictGet_set_self, extend_items _ _ (by cases k <;> simp [Deq.cut])]
      simp only [List.nil_append, cut_eq_lastN])
  refine ⟨_, c', ?_, h1, h2⟩
  unfold makeDeque
  rw [hd]
  rfl

/-- Case for C13_recorded: more values at creation than fit into the window. -/
example : ∃ c₀ c' : Container ℕ, (⟨[], []⟩ : Container ℕ).makeDeque "m".toList [1, 2, 3] (.int 2) = .ok c₀ ∧
    [4].foldlM (fun c x => c.appendTo "m".toList x) c₀ = .ok c' ∧ c'.getitem "m".toList = .ok [3, 4] :=
  C13_recorded ⟨[], []⟩ "m".toList [1, 2, 3] (.int 2) (some 2) rfl rfl [4]

/-! ## C14 -/

/-- The full claim C14: every container of histories whose entries can be stacked is restored. -/
def C14_claim : Prop :=
  ∀ (T : Type) (shape : T → List ℕ) (ops : List (Op T)) (sd : SavedDict T),
    (applyAll ({} : Container T) ops).1.stateDict shape = .ok sd →
    loadStateDict {} sd = ((applyAll ({} : Container T) ops).1, [], none)

/-- C14 where it holds: names do not contain `tensor_`, no name is both a fixed tuple and a growing
history. Then saving succeeds and loading into a fresh container gives the very same container (names,
order, entries and windows). Missing from the full claim: the other names, for which it is false, see
`C14_negation`. -/
theorem C14_round_trip_partial {T : Type} (shape : T → List ℕ) (c : Container T) (hc : Storable shape c) :
    ∃ sd, c.stateDict shape = .ok sd ∧ loadStateDict {} sd = (c, [], none) :=
  ⟨c.saved, stateDict_eq hc, load_saved hc⟩

/-- Case for C14: two names, one with underscores and the separator in it, a window of twelve. -/
example : Storable (fun _ : ℕ => []) (⟨[("time__x".toList, [1, 2])],
    [("_filter_means".toList, ⟨some 12, [3, 4, 5]⟩), ("".toList, ⟨none, []⟩)]⟩ : Container ℕ) where
  tuplesNodup := by decide
  dequesNodup := by decide
  disjoint := by decide
  names := by decide
  tupleShapes := by intro p _ x _ y _; rfl
  dequeShapes := by intro p _ x _ y _; rfl
  windows := by
    intro p hp k hk
    simp at hp
    rcases hp with rfl | rfl
    · simp at hk; subst hk; decide
    · simp at hk

/-- Containers produced by operations on distinct names without `tensor_` are covered: the parts of
`Storable` that are invariants of the container hold after every sequence of operations. -/
theorem C14_invariant {T : Type} (ops : List (Op T)) (c : Container T)
    (h : (c.tuples.map Prod.fst).Nodup ∧ (c.deques.map Prod.fst).Nodup ∧
      ∀ p ∈ c.deques, ∀ k, p.2.maxlen = some k → p.2.items.length ≤ k) :
    ((applyAll c ops).1.tuples.map Prod.fst).Nodup ∧ ((applyAll c ops).1.deques.map Prod.fst).Nodup ∧
      ∀ p ∈ (applyAll c ops).1.deques, ∀ k, p.2.maxlen = some k → p.2.items.length ≤ k := by
  have hset : ∀ (d : List (List Char × Deq T)) n v, (∀ p ∈ d, ∀ k, p.2.maxlen = some k → p.2.items.length ≤ k) →
      (∀ k, v.maxlen = some k → v.items.length ≤ k) →
      ∀ p ∈ dictSet d n v, ∀ k, p.2.maxlen = some k → p.2.items.length ≤ k := by
    intro d n v hd hv p hp
    induction d with
    | nil => simp [dictSet] at hp; subst hp; exact hv
    | cons q d ih =>
      simp only [dictSet] at hp
      split_ifs at hp
      · rcases List.mem_cons.1 hp with rfl | hp
        · exact hv
        · exact hd p (by simp [hp])
      · rcases List.mem_cons.1 hp with rfl | hp
        · exact hd _ (by simp)
        · exact ih (fun p hp => hd p (by simp [hp])) hp
  have hdel : ∀ (α : Type) (d : List (List Char × α)) n, ∀ p ∈ dictDel d n, p ∈ d := by
    intro α d n p hp
    induction d with
    | nil => simp [dictDel] at hp
    | cons q d ih =>
      simp only [dictDel] at hp
      split_ifs at hp
      · exact List.mem_cons_of_mem _ hp
      · rcases List.mem_cons.1 hp with rfl | hp
        · simp
        · exact List.mem_cons_of_mem _ (ih hp)
  have hdeln : ∀ (α : Type) (d : List (List Char × α)) n, (d.map Prod.fst).Nodup →
      ((dictDel d n).map Prod.fst).Nodup := by
    intro α d n hd
    rw [dictDel_keys]
    exact hd.erase n
  have hcut : ∀ (m : Option ℕ) (xs : List T) k, m = some k → (Deq.cut m xs).length ≤ k := by
    rintro m xs k rfl
    simp [Deq.cut]
    omega
  induction ops generalizing c with
  | nil => exact h
  | cons o os ih =>
    obtain ⟨h1, h2, h3⟩ := h
    have hstep : ∀ c', apply c o = .ok c' → (c'.tuples.map Prod.fst).Nodup ∧
        (c'.deques.map Prod.fst).Nodup ∧
        ∀ p ∈ c'.deques, ∀ k, p.2.maxlen = some k → p.2.items.length ≤ k := by
      intro c' hc'
      cases o with
      | tuple n v =>
        simp only [apply, makeTuple, Except.ok.injEq] at hc'
        subst hc'
        exact ⟨dictSet_nodup h1 _ _, h2, h3⟩
      | deque n v w =>
        have : ∃ m, c' = { c with deques := dictSet c.deques n ((⟨m, []⟩ : Deq T).extend v) } := by
          cases w with
          | none =>
            simp only [apply, makeDeque, makeDequeue, bind, Except.bind, pure, Except.pure,
              Except.ok.injEq] at hc'
            exact ⟨none, hc'.symm⟩
          | some k =>
            simp [apply, makeDeque, makeDequeue, bind, Except.bind, pure, Except.pure] at hc'
            exact ⟨some k, hc'.symm⟩
        obtain ⟨m, rfl⟩ := this
        refine ⟨h1, dictSet_nodup h2 _ _, hset _ _ _ h3 ?_⟩
        rw [extend_items _ _ (by cases m <;> simp [Deq.cut])]
        intro k hk
        exact hcut _ _ _ hk
      | append n x =>
        simp only [apply, appendTo] at hc'
        split at hc'
        · cases hc'
        · split at hc'
          · cases hc'
            exact ⟨h1, dictSet_nodup h2 _ _, hset _ _ _ h3 fun k hk => hcut _ _ _ hk⟩
          · cases hc'
      | delete n =>
        simp only [apply, delitem] at hc'
        split_ifs at hc'
        · cases hc'; exact ⟨hdeln _ _ _ h1, h2, h3⟩
        · cases hc'; exact ⟨h1, hdeln _ _ _ h2, fun p hp => h3 p (hdel _ _ _ _ hp)⟩
      | assign n v => cases hc'
    simp only [applyAll]
    cases hc' : apply c o with
    | ok c' => exact ih c' (hstep c' hc')
    | error e => exact ih c ⟨h1, h2, h3⟩

/-- C14 fails: a history called `my_tensor_x` comes back as `my_x`. -/
theorem C14_negation : ¬ C14_claim := by
  intro h
  have := h ℕ (fun _ => []) [.tuple "my_tensor_x".toList [1]] [("tensor_tuple__my_tensor_x".toList, [1])] rfl
  have h2 : (loadStateDict ({} : Container ℕ) [("tensor_tuple__my_tensor_x".toList, [1])]).1.tuples =
      [("my_x".toList, [1])] := rfl
  rw [this] at h2
  have h3 : (applyAll ({} : Container ℕ) [.tuple "my_tensor_x".toList [1]]).1.tuples =
      [("my_tensor_x".toList, [1])] := rfl
  rw [h3] at h2
  revert h2
  decide

/-- C14 fails in a second way: a growing history with the name of a fixed tuple is saved with the entries
of the tuple. -/
theorem C14_shadowed_history_lost :
    (⟨[("x".toList, [1])], [("x".toList, ⟨some 3, [7, 8]⟩)]⟩ : Container ℕ).stateDict (fun _ => []) =
      .ok [("tensor_tuple__x".toList, [1]), ("tensor_deque_3__x".toList, [1])] := by
  have : natStr 3 = ['3'] := by
    unfold natStr
    norm_num
    rfl
  simp [stateDict, saveTuples, saveDeques, getAsTensor, getitem, dictGet, stack, dictSet, tupleKey, dequeKey,
    maxlenStr, this, bind, Except.bind]

/-! ## C15 -/

/-- The full claim C15: after a load without exception, a second load of the same dictionary gives a second
fresh container the same content. -/
def C15_claim : Prop :=
  ∀ (T : Type) (sd : SavedDict T) (c : Container T) (sd' : SavedDict T),
    loadStateDict {} sd = (c, sd', none) → (loadStateDict {} sd').1 = c

theorem loadKeys_removes {T : Type} (ks : List (List Char)) : ∀ (c : Container T) (sd : SavedDict T) {c' sd'},
    (sd.map Prod.fst).Nodup → loadKeys ks c sd = (c', sd', none) →
    (sd'.map Prod.fst).Nodup ∧ (∀ k, k ∈ sd'.map Prod.fst ↔ k ∈ sd.map Prod.fst ∧ k ∉ ks) := by
  induction ks with
  | nil =>
    intro c sd c' sd' hn h
    simp only [loadKeys, Prod.mk.injEq] at h
    obtain ⟨-, rfl, -⟩ := h
    exact ⟨hn, by simp⟩
  | cons k ks ih =>
    intro c sd c' sd' hn h
    simp only [loadKeys] at h
    split at h
    · simp at h
    · split at h
      · obtain ⟨h1, h2⟩ := ih _ _ (by rw [dictDel_keys]; exact hn.erase k) h
        refine ⟨h1, fun k' => ?_⟩
        rw [h2, dictDel_keys, List.Nodup.mem_erase_iff hn, List.mem_cons, not_or]
        tauto
      · simp at h

/-- C15 fails in general: whenever a dictionary has been loaded without exception, loading it once more
restores nothing at all. -/
theorem C15_second_load_is_empty {T : Type} (sd sd' : SavedDict T) (c₀ c fresh : Container T)
    (hn : (sd.map Prod.fst).Nodup) (h : loadStateDict c₀ sd = (c, sd', none)) :
    loadStateDict fresh sd' = (fresh, sd', none) := by
  obtain ⟨-, h2⟩ := loadKeys_removes _ _ _ hn h
  have : (sd'.map Prod.fst).filter isOurKey = [] := by
    rw [List.filter_eq_nil_iff]
    intro k hk
    obtain ⟨hk1, hk2⟩ := (h2 k).1 hk
    intro ho
    exact hk2 (List.mem_filter.2 ⟨hk1, ho⟩)
  unfold loadStateDict
  rw [this]
  rfl

/-- The full claim C15 is false. -/
theorem C15_negation : ¬ C15_claim := by
  intro h
  have hs : Storable (fun _ : ℕ => []) (⟨[("x".toList, [1])], []⟩ : Container ℕ) := by
    refine ⟨by decide, by decide, by decide, by decide, ?_, ?_, ?_⟩
    · intro p _ x _ y _; rfl
    · intro p _ x _ y _; rfl
    · intro p hp; simp at hp
  have h1 := load_saved hs
  have h2 := h ℕ _ _ _ h1
  have h3 := congrArg Container.tuples h2
  revert h3
  decide

/-- C15 where it holds: a load consumes only the entries of its own histories, every other entry of the
shared dictionary keeps its value, and loading from a copy of the dictionary restores the container.
Missing from the full claim: reusing one dictionary for the same histories. -/
theorem C15_other_entries_kept_partial {T : Type} (shape : T → List ℕ) (c : Container T)
    (hc : Storable shape c) :
    (∀ (c₀ c' : Container T) (sd sd' : SavedDict T) (e : Option PyErr),
      loadStateDict c₀ sd = (c', sd', e) → ∀ k, isOurKey k = false → dictGet sd' k = dictGet sd k) ∧
    ∀ sd, c.stateDict shape = .ok sd → (loadStateDict {} sd).1 = c := by
  refine ⟨?_, fun sd h => ?_⟩
  · intro c₀ c' sd sd' e h k hk
    have key : ∀ (ks : List (List Char)) (c : Container T) (sd : SavedDict T), k ∉ ks →
        dictGet (loadKeys ks c sd).2.1 k = dictGet sd k := by
      intro ks
      induction ks with
      | nil => intro c sd _; rfl
      | cons k' ks ih =>
        intro c sd hk'
        simp only [List.mem_cons, not_or] at hk'
        simp only [loadKeys]
        split
        · rfl
        · split
          · rw [ih _ _ hk'.2, dictGet_del_ne _ hk'.1]
          · exact dictGet_del_ne _ hk'.1
    have := key ((sd.map Prod.fst).filter isOurKey) c₀ sd (by simp [hk])
    unfold loadStateDict at h
    rw [h] at this
    exact this
  · rw [stateDict_eq hc] at h
    cases h
    rw [load_saved hc]

/-- Case for C15: a foreign key beside a stored tuple. -/
example : loadStateDict ({} : Container ℕ) [("log_likelihood".toList, [5]), ("tensor_tuple__x".toList, [1, 2])] =
    (⟨[("x".toList, [1, 2])], []⟩, [("log_likelihood".toList, [5])], none) := rfl

/-! ## C16 -/

/-- What the container and the store of the specification have in common. -/
def Refines {T : Type} (c : Container T) (s : Store T) : Prop :=
  (c.tuples.map Prod.fst).Nodup ∧ (c.deques.map Prod.fst).Nodup ∧
  (∀ n, dictGet c.tuples n = s.fixed n) ∧
  (∀ n, dictGet c.deques n = (s.growing n).map fun p => ⟨p.1, lastN p.1 p.2⟩)

theorem refines_step {T : Type} {c : Container T} {s : Store T} (h : Refines c s) (o : Op T) :
    match apply c o with
    | .ok c' => Refines c' (s.step o).1 ∧ (s.step o).2 = true
    | .error _ => Refines c (s.step o).1 ∧ (s.step o).2 = false := by
  obtain ⟨h1, h2, h3, h4⟩ := h
  have upd : ∀ (α β : Type) (d : List (List Char × α)) (n : List Char) (v : α) (f : List Char → Option β)
      (g : β → α) (b : β), g b = v → (∀ m, dictGet d m = (f m).map g) →
      ∀ m, dictGet (dictSet d n v) m = (Function.update f n (some b) m).map g := by
    intro α β d n v f g b hb hd m
    by_cases hm : m = n
    · subst hm; simp [dictGet_set_self, hb]
    · rw [dictGet_set_ne _ _ hm, hd, Function.update_of_ne hm]
  have del : ∀ (α β : Type) (d : List (List Char × α)) (n : List Char) (f : List Char → Option β)
      (g : β → α), (d.map Prod.fst).Nodup → (∀ m, dictGet d m = (f m).map g) →
      ∀ m, dictGet (dictDel d n) m = (Function.update f n none m).map g := by
    intro α β d n f g hn hd m
    by_cases hm : m = n
    · subst hm; simp [dictGet_del_self hn]
    · rw [dictGet_del_ne _ hm, hd, Function.update_of_ne hm]
  have h3' : ∀ m, dictGet c.tuples m = (s.fixed m).map id := by simpa using h3
  cases o with
  | tuple n v =>
    refine ⟨⟨dictSet_nodup h1 _ _, h2, ?_, h4⟩, rfl⟩
    have := upd _ _ c.tuples n v s.fixed id v rfl h3'
    simpa [makeTuple, Store.step] using this
  | deque n v w =>
    have : apply c (.deque n v w) = .ok { c with deques := dictSet c.deques n ((⟨w, []⟩ : Deq T).extend v) } := by
      cases w <;> simp [apply, makeDeque, makeDequeue, bind, Except.bind, pure, Except.pure]
    rw [this]
    refine ⟨⟨h1, dictSet_nodup h2 _ _, h3, ?_⟩, rfl⟩
    refine upd _ _ c.deques n _ s.growing (fun p => ⟨p.1, lastN p.1 p.2⟩) (w, v) ?_ h4
    rw [extend_items _ _ (by cases w <;> simp [Deq.cut]), ← cut_eq_lastN]
    rfl
  | append n x =>
    simp only [apply, appendTo, h3 n, h4 n, Store.step]
    cases hf : s.fixed n with
    | some v => exact ⟨⟨h1, h2, h3, h4⟩, rfl⟩
    | none =>
      cases hg : s.growing n with
      | none => exact ⟨⟨h1, h2, h3, h4⟩, rfl⟩
      | some p =>
        refine ⟨⟨h1, dictSet_nodup h2 _ _, h3, ?_⟩, rfl⟩
        refine upd _ _ c.deques n _ s.growing (fun p => ⟨p.1, lastN p.1 p.2⟩) (p.1, p.2 ++ [x]) ?_ h4
        simp only [Deq.append]
        rw [← cut_eq_lastN, ← cut_eq_lastN, cut_cut_append]
  | delete n =>
    simp only [apply, delitem, h3 n, h4 n, Store.step]
    cases hf : s.fixed n with
    | some v =>
      refine ⟨⟨by rw [dictDel_keys]; exact h1.erase n, h2, ?_, h4⟩, rfl⟩
      simpa using del _ _ c.tuples n s.fixed id h1 h3'
    | none =>
      cases hg : s.growing n with
      | none => exact ⟨⟨h1, h2, h3, h4⟩, rfl⟩
      | some p =>
        refine ⟨⟨h1, by rw [dictDel_keys]; exact h2.erase n, h3, ?_⟩, rfl⟩
        exact del _ _ c.deques n s.growing (fun p => ⟨p.1, lastN p.1 p.2⟩) h2 h4
  | assign n v => exact ⟨⟨h1, h2, h3, h4⟩, rfl⟩

theorem refines_run {T : Type} (ops : List (Op T)) : ∀ {c : Container T} {s : Store T}, Refines c s →
    Refines (applyAll c ops).1 (s.run ops).1 ∧ (applyAll c ops).2 = (s.run ops).2 := by
  induction ops with
  | nil => intro c s h; exact ⟨h, rfl⟩
  | cons o os ih =>
    intro c s h
    have hs := refines_step h o
    simp only [applyAll, Store.run]
    cases ho : apply c o with
    | ok c' =>
      rw [ho] at hs
      obtain ⟨hr, hb⟩ := hs
      have := ih hr
      exact ⟨this.1, by simp [this.2, hb]⟩
    | error e =>
      rw [ho] at hs
      obtain ⟨hr, hb⟩ := hs
      have := ih hr
      exact ⟨this.1, by simp [this.2, hb]⟩

/-- C16: after every sequence of operations on a fresh container the accepted operations are those of a
map, lookup returns what the map holds (an unknown name raises), and membership, iteration and length
agree with lookup. -/
theorem C16_behaves_like_map {T : Type} (ops : List (Op T)) :
    let c := (applyAll ({} : Container T) ops).1
    let s := ((⟨fun _ => none, fun _ => none⟩ : Store T).run ops).1
    (applyAll ({} : Container T) ops).2 = ((⟨fun _ => none, fun _ => none⟩ : Store T).run ops).2 ∧
    (∀ n, c.getitem n = match s.look n with
      | some v => .ok v
      | none => .error (.exception "Could not find")) ∧
    (∀ n, c.contains n = (s.look n).isSome) ∧
    (∀ n, n ∈ c.iter ↔ (s.look n).isSome) ∧
    (∀ n, c.iter.count n = (if (s.fixed n).isSome then 1 else 0) + (if (s.growing n).isSome then 1 else 0)) ∧
    c.len = c.iter.length := by
  intro c s
  have h0 : Refines ({} : Container T) ⟨fun _ => none, fun _ => none⟩ :=
    ⟨List.nodup_nil, List.nodup_nil, fun _ => rfl, fun _ => rfl⟩
  obtain ⟨hr, hb⟩ := refines_run ops h0
  have hr' : Refines c s := hr
  obtain ⟨h1, h2, h3, h4⟩ := hr'
  refine ⟨hb, fun n => ?_, fun n => ?_, fun n => ?_, fun n => ?_, ?_⟩
  · simp only [getitem, h3 n, h4 n, Store.look]
    cases s.fixed n with
    | some v => rfl
    | none => cases s.growing n <;> rfl
  · simp only [contains, h3 n, h4 n, Store.look]
    cases s.fixed n <;> cases s.growing n <;> rfl
  · simp only [iter, List.mem_append, ← dictGet_isSome, h3 n, h4 n, Store.look]
    cases s.fixed n <;> cases s.growing n <;> simp
  · simp only [iter, List.count_append]
    rw [List.Nodup.count h1, List.Nodup.count h2]
    simp only [← dictGet_isSome, h3 n, h4 n]
    cases s.fixed n <;> cases s.growing n <;> rfl
  · simp [len, iter]

/-- Case for C16: a growing history, shadowed by a tuple of the same name, which is then deleted. -/
example : ((⟨fun _ => none, fun _ => none⟩ : Store ℕ).run
    [.deque "a".toList [1, 2] (some 2), .append "a".toList 3, .tuple "a".toList [9], .append "a".toList 4,
      .delete "a".toList]).1.look "a".toList = some [2, 3] := rfl

end Verif.Props
