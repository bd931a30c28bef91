import Verif.Model.Container
import Mathlib.Data.Nat.Digits.Lemmas
import Mathlib.Data.List.Basic

namespace Verif

/-! ### Deques -/

theorem cut_cut_append {α : Type} (m : Option ℕ) (xs : List α) (x : α) :
    Deq.cut m (Deq.cut m xs ++ [x]) = Deq.cut m (xs ++ [x]) := by
  cases m with
  | none => rfl
  | some m =>
    simp only [Deq.cut, List.length_append, List.length_drop, List.length_singleton]
    rw [List.drop_append, List.drop_append, List.drop_drop]
    rcases Nat.eq_zero_or_pos m with h | h
    · subst h
      simp
    · by_cases hl : xs.length ≤ m
      · have e : xs.length - m = 0 := by omega
        simp [e]
      · congr 2
        · omega
        · simp only [List.length_drop]; omega

theorem extend_items {α : Type} (d : Deq α) (xs : List α) (h : Deq.cut d.maxlen d.items = d.items) :
    d.extend xs = ⟨d.maxlen, Deq.cut d.maxlen (d.items ++ xs)⟩ := by
  induction xs generalizing d with
  | nil => cases d; simp_all [Deq.extend]
  | cons x xs ih =>
    have hc : ∀ m : Option ℕ, ∀ l : List α, Deq.cut m (Deq.cut m l) = Deq.cut m l := by
      intro m l
      cases m with
      | none => rfl
      | some m => simp [Deq.cut]; omega
    have := ih (d.append x) (hc _ _)
    simp only [Deq.extend, List.foldl_cons] at this ⊢
    rw [this]
    simp only [Deq.append, Deq.mk.injEq, true_and]
    clear this ih
    -- cut (cut (a ++ [x]) ++ xs) = cut (a ++ x :: xs)
    generalize d.items = l
    have key : ∀ (m : Option ℕ) (ys l : List α), Deq.cut m (Deq.cut m l ++ ys) = Deq.cut m (l ++ ys) := by
      intro m ys
      induction ys using List.reverseRecOn with
      | nil => intro l; simp [hc]
      | append_singleton ys y ih =>
        intro l
        rw [← List.append_assoc, ← cut_cut_append, ih, cut_cut_append, List.append_assoc]
    rw [key]
    simp

theorem cut_eq_self {α : Type} {m : Option ℕ} {xs : List α} (h : ∀ k, m = some k → xs.length ≤ k) :
    Deq.cut m xs = xs := by
  cases m with
  | none => rfl
  | some k =>
    have := h k rfl
    have e : xs.length - k = 0 := by omega
    simp [Deq.cut, e]

/-! ### Dictionaries -/

theorem dictGet_isSome {α : Type} (d : List (List Char × α)) (k : List Char) :
    (dictGet d k).isSome ↔ k ∈ d.map Prod.fst := by
  induction d with
  | nil => simp [dictGet]
  | cons p d ih =>
    obtain ⟨k', v⟩ := p
    simp only [dictGet, List.map_cons, List.mem_cons]
    split_ifs with h
    · simp [h]
    · rw [ih]; constructor
      · exact Or.inr
      · rintro (h' | h')
        · exact absurd h'.symm h
        · exact h'

theorem dictGet_eq_none {α : Type} {d : List (List Char × α)} {k : List Char}
    (h : k ∉ d.map Prod.fst) : dictGet d k = none := by
  rw [← Option.not_isSome_iff_eq_none, dictGet_isSome]
  exact h

theorem dictSet_new {α : Type} {d : List (List Char × α)} {k : List Char} (v : α)
    (h : k ∉ d.map Prod.fst) : dictSet d k v = d ++ [(k, v)] := by
  induction d with
  | nil => rfl
  | cons p d ih =>
    obtain ⟨k', v'⟩ := p
    simp only [List.map_cons, List.mem_cons, not_or] at h
    simp [dictSet, Ne.symm h.1, ih h.2]

theorem dictGet_set_self {α : Type} (d : List (List Char × α)) (k : List Char) (v : α) :
    dictGet (dictSet d k v) k = some v := by
  induction d with
  | nil => simp [dictSet, dictGet]
  | cons p d ih =>
    obtain ⟨k', v'⟩ := p
    simp only [dictSet]
    split_ifs with h
    · simp [dictGet]
    · simp [dictGet, h, ih]

theorem dictGet_set_ne {α : Type} (d : List (List Char × α)) {k k' : List Char} (v : α) (h : k' ≠ k) :
    dictGet (dictSet d k v) k' = dictGet d k' := by
  induction d with
  | nil => simp [dictSet, dictGet, Ne.symm h]
  | cons p d ih =>
    obtain ⟨k'', v'⟩ := p
    simp only [dictSet]
    split_ifs with h'
    · subst h'; simp [dictGet, Ne.symm h]
    · simp only [dictGet, ih]

theorem dictSet_keys {α : Type} (d : List (List Char × α)) (k : List Char) (v : α) :
    (dictSet d k v).map Prod.fst =
      if k ∈ d.map Prod.fst then d.map Prod.fst else d.map Prod.fst ++ [k] := by
  induction d with
  | nil => simp [dictSet]
  | cons p d ih =>
    obtain ⟨k', v'⟩ := p
    simp only [dictSet]
    split_ifs with h h' h'
    · subst h; simp
    · subst h; simp at h'
    · simp only [List.map_cons, ih]
      simp only [List.map_cons, List.mem_cons] at h'
      rw [if_pos (h'.resolve_left (Ne.symm h))]
    · simp only [List.map_cons, ih]
      simp only [List.map_cons, List.mem_cons, not_or] at h'
      rw [if_neg h'.2]; simp

theorem dictSet_nodup {α : Type} {d : List (List Char × α)} (h : (d.map Prod.fst).Nodup)
    (k : List Char) (v : α) : ((dictSet d k v).map Prod.fst).Nodup := by
  rw [dictSet_keys]
  split_ifs with hk
  · exact h
  · rw [List.nodup_append]
    refine ⟨h, by simp, ?_⟩
    intro a ha b hb
    simp at hb
    subst hb
    rintro rfl
    exact hk ha

theorem dictDel_keys {α : Type} (d : List (List Char × α)) (k : List Char) :
    (dictDel d k).map Prod.fst = (d.map Prod.fst).erase k := by
  induction d with
  | nil => rfl
  | cons p d ih =>
    obtain ⟨k', v'⟩ := p
    simp only [dictDel, List.map_cons, List.erase_cons]
    split_ifs with h h' h'
    · rfl
    · simp [h] at h'
    · simp at h'; exact absurd h' h
    · simp [ih]

theorem dictGet_del_self {α : Type} {d : List (List Char × α)} (h : (d.map Prod.fst).Nodup)
    (k : List Char) : dictGet (dictDel d k) k = none := by
  apply dictGet_eq_none
  rw [dictDel_keys]
  exact h.not_mem_erase

theorem dictGet_del_ne {α : Type} (d : List (List Char × α)) {k k' : List Char} (h : k' ≠ k) :
    dictGet (dictDel d k) k' = dictGet d k' := by
  induction d with
  | nil => rfl
  | cons p d ih =>
    obtain ⟨k'', v'⟩ := p
    simp only [dictDel]
    split_ifs with h'
    · subst h'; simp [dictGet, Ne.symm h]
    · simp only [dictGet, ih]

/-! ### Strings -/

theorem natStr_digits (n : ℕ) : ∀ c ∈ natStr n, ∃ d < 10, c = digitChar d := by
  intro c hc
  unfold natStr at hc
  split_ifs at hc with h
  · simp at hc; exact ⟨0, by norm_num, hc⟩
  · simp only [List.mem_map, List.mem_reverse] at hc
    obtain ⟨d, hd, rfl⟩ := hc
    exact ⟨d, Nat.digits_lt_base (by norm_num) hd, rfl⟩

theorem digitChar_isDigit {d : ℕ} (h : d < 10) : (digitChar d).isDigit = true := by
  interval_cases d <;> rfl

theorem digitChar_toNat {d : ℕ} (h : d < 10) : (digitChar d).toNat - 48 = d := by
  interval_cases d <;> rfl

theorem natStr_ne_nil (n : ℕ) : natStr n ≠ [] := by
  unfold natStr
  split_ifs with h
  · simp
  · simpa using Nat.digits_ne_nil_iff_ne_zero.2 h

theorem foldl_digits (l : List ℕ) (h : ∀ d ∈ l, d < 10) (a : ℕ) :
    (l.map digitChar).foldl (fun a c => 10 * a + (c.toNat - 48)) a =
      Nat.ofDigits 10 l.reverse + 10 ^ l.length * a := by
  induction l generalizing a with
  | nil => simp
  | cons d l ih =>
    have hd := h d (by simp)
    simp only [List.map_cons, List.foldl_cons]
    rw [ih (fun x hx => h x (by simp [hx])), digitChar_toNat hd]
    rw [List.reverse_cons, Nat.ofDigits_append, List.length_reverse, List.length_cons,
      Nat.ofDigits_singleton]
    ring

theorem parseInt_natStr (n : ℕ) : parseInt (natStr n) = .ok n := by
  have hall : (natStr n).all Char.isDigit = true := by
    rw [List.all_eq_true]
    intro c hc
    obtain ⟨d, hd, rfl⟩ := natStr_digits n c hc
    exact digitChar_isDigit hd
  unfold parseInt
  rw [if_pos ⟨natStr_ne_nil n, hall⟩]
  congr 1
  unfold natStr
  split_ifs with h
  · subst h; rfl
  · rw [foldl_digits]
    · simp [Nat.ofDigits_digits]
    · intro d hd
      exact Nat.digits_lt_base (by norm_num) (by simpa using hd)

theorem isInfix_cons {pat : List Char} {c : Char} {s : List Char} (h : isInfix pat (c :: s) = false) :
    pat.isPrefixOf (c :: s) = false ∧ isInfix pat s = false := by
  simpa [isInfix] using h

theorem remove_of_not_infix {pat : List Char} : ∀ {s : List Char}, isInfix pat s = false →
    remove pat s = s
  | [], _ => rfl
  | c :: s, h => by
    obtain ⟨h1, h2⟩ := isInfix_cons h
    unfold remove removeAux
    rw [if_neg (by simp [h1])]
    congr 1
    exact remove_of_not_infix h2

/-- Characters of a rendered window: digits or letters of `None`. -/
theorem maxlenStr_chars (m : Option ℕ) : ∀ c ∈ maxlenStr m, c ≠ 't' ∧ c ≠ '_' := by
  intro c hc
  cases m with
  | none => simp [maxlenStr] at hc; rcases hc with h | h | h | h <;> subst h <;> decide
  | some n =>
    obtain ⟨d, hd, rfl⟩ := natStr_digits n c hc
    interval_cases d <;> decide

theorem isInfix_append_of_chars {s name : List Char} (hs : ∀ c ∈ s, c ≠ 't')
    (hn : isInfix ['t', 'e', 'n', 's', 'o', 'r', '_'] name = false) : isInfix ['t', 'e', 'n', 's', 'o', 'r', '_'] (s ++ name) = false := by
  induction s with
  | nil => exact hn
  | cons c s ih =>
    have hc := hs c (by simp)
    rw [List.cons_append]
    unfold isInfix
    rw [ih (fun x hx => hs x (by simp [hx]))]
    simp [List.isPrefixOf, Ne.symm hc]

theorem splitOnce_append {s name : List Char} (hs : ∀ c ∈ s, c ≠ '_') :
    splitOnce ['_', '_'] (s ++ '_' :: '_' :: name) = some (s, name) := by
  induction s with
  | nil => simp [splitOnce]
  | cons c s ih =>
    have hc := hs c (by simp)
    rw [List.cons_append, splitOnce, ih (fun x hx => hs x (by simp [hx]))]
    rw [if_neg (by simp [Ne.symm hc])]
    rfl

theorem splitOnce_deque {s name : List Char} (hs : ∀ c ∈ s, c ≠ '_') (hne : s ≠ []) :
    splitOnce ['_', '_'] (['d', 'e', 'q', 'u', 'e', '_'] ++ s ++ ['_', '_'] ++ name) =
      some (['d', 'e', 'q', 'u', 'e', '_'] ++ s, name) := by
  obtain ⟨c, s', rfl⟩ := List.exists_cons_of_ne_nil hne
  have hc := hs c (by simp)
  have := splitOnce_append (name := name) hs
  simp only [List.cons_append, List.append_assoc, List.nil_append] at this ⊢
  simp only [splitOnce.eq_2 _ 'd', splitOnce.eq_2 _ 'e', splitOnce.eq_2 _ 'q', splitOnce.eq_2 _ 'u',
    splitOnce.eq_2 _ '_', this]
  simp [List.isPrefixOf, Ne.symm hc]

theorem splitOnce_none {s : List Char} (hs : ∀ c ∈ s, c ≠ '_') : splitOnce ['_'] s = none := by
  induction s with
  | nil => rfl
  | cons c s ih =>
    have hc := hs c (by simp)
    rw [splitOnce, ih (fun x hx => hs x (by simp [hx])), if_neg (by simp [Ne.symm hc])]
    rfl

/-- What loading makes of the key of a tuple. -/
theorem remove_tupleKey {name : List Char} (h : isInfix ['t', 'e', 'n', 's', 'o', 'r', '_'] name = false) :
    remove ['t', 'e', 'n', 's', 'o', 'r', '_'] (tupleKey name) = ['t', 'u', 'p', 'l', 'e'] ++ ['_', '_'] ++ name := by
  have hn : remove ['t', 'e', 'n', 's', 'o', 'r', '_'] name = name := remove_of_not_infix h
  have : remove ['t', 'e', 'n', 's', 'o', 'r', '_'] (tupleKey name) =
      't' :: 'u' :: 'p' :: 'l' :: 'e' :: '_' :: '_' :: remove ['t', 'e', 'n', 's', 'o', 'r', '_'] name := by
    simp [tupleKey, remove, removeAux]
  rw [this, hn]
  rfl

/-- What loading makes of the key of a deque. -/
theorem remove_dequeKey {m : Option ℕ} {name : List Char} (h : isInfix ['t', 'e', 'n', 's', 'o', 'r', '_'] name = false) :
    remove ['t', 'e', 'n', 's', 'o', 'r', '_'] (dequeKey m name) = ['d', 'e', 'q', 'u', 'e', '_'] ++ maxlenStr m ++ ['_', '_'] ++ name := by
  have h1 : isInfix ['t', 'e', 'n', 's', 'o', 'r', '_'] (maxlenStr m ++ (['_', '_'] ++ name)) = false := by
    apply isInfix_append_of_chars (fun c hc => (maxlenStr_chars m c hc).1)
    apply isInfix_append_of_chars _ h
    intro c hc; simp at hc; rw [hc]; decide
  have hn := remove_of_not_infix h1
  have : remove ['t', 'e', 'n', 's', 'o', 'r', '_'] (dequeKey m name) =
      'd' :: 'e' :: 'q' :: 'u' :: 'e' :: '_' ::
        remove ['t', 'e', 'n', 's', 'o', 'r', '_'] (maxlenStr m ++ (['_', '_'] ++ name)) := by
    simp [dequeKey, remove, removeAux]
  rw [this, hn]
  simp

namespace Container

variable {T : Type}

theorem loadKey_tuple {name : List Char} (h : isInfix ['t', 'e', 'n', 's', 'o', 'r', '_'] name = false)
    (c : Container T) (v : List T) : loadKey c (tupleKey name) v = .ok (c.makeTuple name v) := by
  have hs : splitOnce ['_', '_'] (['t', 'u', 'p', 'l', 'e'] ++ ['_', '_'] ++ name) =
      some (['t', 'u', 'p', 'l', 'e'], name) := by
    have := splitOnce_append (s := ['t', 'u', 'p', 'l', 'e']) (name := name) (by decide)
    simpa using this
  unfold loadKey
  rw [remove_tupleKey h, hs]
  simp

theorem maxlenStr_ne_nil (m : Option ℕ) : maxlenStr m ≠ [] := by
  cases m with
  | none => simp [maxlenStr]
  | some n => exact natStr_ne_nil n

theorem natStr_ne_None (n : ℕ) : natStr n ≠ ['N', 'o', 'n', 'e'] := by
  intro h
  have : 'N' ∈ natStr n := by rw [h]; simp
  obtain ⟨d, hd, he⟩ := natStr_digits n 'N' this
  interval_cases d <;> revert he <;> decide

theorem loadKey_deque {m : Option ℕ} {name : List Char} (h : isInfix ['t', 'e', 'n', 's', 'o', 'r', '_'] name = false)
    (c : Container T) (v : List T) (hv : ∀ k, m = some k → v.length ≤ k) :
    loadKey c (dequeKey m name) v = .ok { c with deques := dictSet c.deques name ⟨m, v⟩ } := by
  have hu : ∀ x ∈ maxlenStr m, x ≠ '_' := fun x hx => (maxlenStr_chars m x hx).2
  have hs := splitOnce_deque (name := name) hu (maxlenStr_ne_nil m)
  have hs2 : splitOnce ['_'] (['d', 'e', 'q', 'u', 'e', '_'] ++ maxlenStr m) = some (['d', 'e', 'q', 'u', 'e'], maxlenStr m) := by
    simp [splitOnce]
  have hext : (⟨m, []⟩ : Deq T).extend v = ⟨m, v⟩ := by
    rw [extend_items _ _ (by cases m <;> simp [Deq.cut])]
    simp only [List.nil_append]
    rw [cut_eq_self hv]
  unfold loadKey
  rw [remove_dequeKey h, hs]
  simp only [hs2, splitOnce_none hu]
  rw [if_neg (by simp), if_pos (by simp)]
  cases m with
  | none => simp [maxlenStr, makeDeque, makeDequeue, ← hext, bind, Except.bind, pure, Except.pure]
  | some k =>
    have : maxlenStr (some k) = natStr k := rfl
    have hN : natStr k ≠ ['N', 'o', 'n', 'e'] := natStr_ne_None k
    simp [this, hN, parseInt_natStr, makeDeque, makeDequeue, ← hext, bind, Except.bind, pure,
      Except.pure]

/-- The name encoded in a key. -/
def keyName (k : List Char) : Option (List Char × List Char) :=
  splitOnce ['_', '_'] (remove ['t', 'e', 'n', 's', 'o', 'r', '_'] k)

theorem keyName_tuple {name : List Char} (h : isInfix ['t', 'e', 'n', 's', 'o', 'r', '_'] name = false) :
    keyName (tupleKey name) = some (['t', 'u', 'p', 'l', 'e'], name) := by
  unfold keyName
  rw [remove_tupleKey h]
  have := splitOnce_append (s := ['t', 'u', 'p', 'l', 'e']) (name := name) (by decide)
  simpa using this

theorem keyName_deque {m : Option ℕ} {name : List Char} (h : isInfix ['t', 'e', 'n', 's', 'o', 'r', '_'] name = false) :
    keyName (dequeKey m name) = some (['d', 'e', 'q', 'u', 'e', '_'] ++ maxlenStr m, name) := by
  unfold keyName
  rw [remove_dequeKey h]
  exact splitOnce_deque (fun x hx => (maxlenStr_chars m x hx).2) (maxlenStr_ne_nil m)

theorem isInfix_prefix {pat s : List Char} (h : pat.isPrefixOf s = true) : isInfix pat s = true := by
  cases s with
  | nil => cases pat <;> simp_all [isInfix]
  | cons c s => simp only [isInfix, h, Bool.true_or]

theorem isOurKey_tuple (name : List Char) : isOurKey (tupleKey name) = true := by
  unfold isOurKey
  rw [isInfix_prefix (by simp [tupleKey])]
  rfl

theorem isOurKey_deque (m : Option ℕ) (name : List Char) : isOurKey (dequeKey m name) = true := by
  unfold isOurKey
  rw [Bool.or_eq_true]
  right
  apply isInfix_prefix
  simp [dequeKey]

/-! ### Saving -/

/-- All entries of the list have one shape. -/
def Homogeneous (shape : T → List ℕ) (xs : List T) : Prop := ∀ x ∈ xs, ∀ y ∈ xs, shape x = shape y

theorem stack_ok {shape : T → List ℕ} {xs : List T} (h : Homogeneous shape xs) :
    stack shape xs = .ok xs := by
  cases xs with
  | nil => rfl
  | cons x xs =>
    simp only [stack]
    rw [if_pos]
    rw [List.all_eq_true]
    intro y hy
    simp [h y (by simp [hy]) x (by simp)]

/-- Conditions on a container under which saving and loading is faithful. -/
structure Storable (shape : T → List ℕ) (c : Container T) : Prop where
  tuplesNodup : (c.tuples.map Prod.fst).Nodup
  dequesNodup : (c.deques.map Prod.fst).Nodup
  disjoint : ∀ k, k ∈ c.tuples.map Prod.fst → k ∉ c.deques.map Prod.fst
  names : ∀ k ∈ c.iter, isInfix ['t', 'e', 'n', 's', 'o', 'r', '_'] k = false
  tupleShapes : ∀ p ∈ c.tuples, Homogeneous shape p.2
  dequeShapes : ∀ p ∈ c.deques, Homogeneous shape p.2.items
  windows : ∀ p ∈ c.deques, ∀ k, p.2.maxlen = some k → p.2.items.length ≤ k

theorem dictGet_of_mem {α : Type} {d : List (List Char × α)} (hd : (d.map Prod.fst).Nodup)
    {k : List Char} {v : α} (h : (k, v) ∈ d) : dictGet d k = some v := by
  induction d with
  | nil => simp at h
  | cons p d ih =>
    obtain ⟨k', v'⟩ := p
    simp only [List.map_cons, List.nodup_cons] at hd
    simp only [dictGet]
    rcases List.mem_cons.1 h with h | h
    · cases h; simp
    · have : k' ≠ k := by
        rintro rfl
        exact hd.1 (List.mem_map.2 ⟨_, h, rfl⟩)
      rw [if_neg this, ih hd.2 h]

/-- The dictionary that a storable container is saved as. -/
def saved (c : Container T) : SavedDict T :=
  c.tuples.map (fun p => (tupleKey p.1, p.2)) ++
    c.deques.map (fun p => (dequeKey p.2.maxlen p.1, p.2.items))

theorem saveTuples_eq {shape : T → List ℕ} {c : Container T} (hc : Storable shape c)
    (done rest : List (List Char × List T)) (h : c.tuples = done ++ rest) :
    saveTuples shape c rest (done.map fun p => (tupleKey p.1, p.2)) =
      .ok (c.tuples.map fun p => (tupleKey p.1, p.2)) := by
  induction rest generalizing done with
  | nil => simp [saveTuples, h]
  | cons p rest ih =>
    obtain ⟨k, v⟩ := p
    have hmem : (k, v) ∈ c.tuples := by rw [h]; simp
    have hget : c.getAsTensor shape k = .ok v := by
      unfold getAsTensor getitem
      rw [dictGet_of_mem hc.tuplesNodup hmem]
      exact stack_ok (hc.tupleShapes _ hmem)
    have hnk : isInfix ['t', 'e', 'n', 's', 'o', 'r', '_'] k = false :=
      hc.names k (by unfold iter; exact List.mem_append_left _ (List.mem_map.2 ⟨_, hmem, rfl⟩))
    unfold saveTuples
    rw [hget]
    have hnew : tupleKey k ∉ (done.map fun p => (tupleKey p.1, p.2)).map Prod.fst := by
      intro hin
      simp only [List.map_map, List.mem_map, Function.comp] at hin
      obtain ⟨q, hq, he⟩ := hin
      have hnq : isInfix ['t', 'e', 'n', 's', 'o', 'r', '_'] q.1 = false :=
        hc.names q.1 (by
          unfold iter
          exact List.mem_append_left _ (List.mem_map.2 ⟨q, by rw [h]; simp [hq], rfl⟩))
      have := congrArg keyName he
      rw [keyName_tuple hnq, keyName_tuple hnk] at this
      have hqk : q.1 = k := by simpa using this
      have hnd := hc.tuplesNodup
      rw [h, List.map_append, List.nodup_append] at hnd
      exact hnd.2.2 q.1 (List.mem_map.2 ⟨q, hq, rfl⟩) k (by simp) hqk
    have := ih (done ++ [(k, v)]) (by rw [h]; simp)
    simp only [List.map_append, List.map_cons, List.map_nil] at this
    simpa [bind, Except.bind, dictSet_new _ hnew] using this

theorem saveDeques_eq {shape : T → List ℕ} {c : Container T} (hc : Storable shape c)
    (done rest : List (List Char × Deq T)) (h : c.deques = done ++ rest) :
    saveDeques shape c rest ((c.tuples.map fun p => (tupleKey p.1, p.2)) ++
      done.map fun p => (dequeKey p.2.maxlen p.1, p.2.items)) = .ok c.saved := by
  induction rest generalizing done with
  | nil => simp [saveDeques, h, saved]
  | cons p rest ih =>
    obtain ⟨k, d⟩ := p
    have hmem : (k, d) ∈ c.deques := by rw [h]; simp
    have hkd : k ∈ c.deques.map Prod.fst := List.mem_map.2 ⟨_, hmem, rfl⟩
    have hget : c.getAsTensor shape k = .ok d.items := by
      unfold getAsTensor getitem
      rw [dictGet_eq_none (d := c.tuples) (fun hin => hc.disjoint k hin hkd)]
      simp only [dictGet_of_mem hc.dequesNodup hmem]
      exact stack_ok (hc.dequeShapes _ hmem)
    have hnk : isInfix ['t', 'e', 'n', 's', 'o', 'r', '_'] k = false :=
      hc.names k (by unfold iter; exact List.mem_append_right _ hkd)
    unfold saveDeques
    rw [hget]
    have hnew : dequeKey d.maxlen k ∉ ((c.tuples.map fun p => (tupleKey p.1, p.2)) ++
        done.map fun p => (dequeKey p.2.maxlen p.1, p.2.items)).map Prod.fst := by
      intro hin
      simp only [List.map_append, List.map_map, List.mem_append, List.mem_map, Function.comp] at hin
      rcases hin with ⟨q, hq, he⟩ | ⟨q, hq, he⟩
      · have hnq : isInfix ['t', 'e', 'n', 's', 'o', 'r', '_'] q.1 = false :=
          hc.names q.1 (by unfold iter; exact List.mem_append_left _ (List.mem_map.2 ⟨q, hq, rfl⟩))
        have := congrArg keyName he
        rw [keyName_tuple hnq, keyName_deque hnk] at this
        simp at this
      · have hnq : isInfix ['t', 'e', 'n', 's', 'o', 'r', '_'] q.1 = false :=
          hc.names q.1 (by
            unfold iter
            exact List.mem_append_right _ (List.mem_map.2 ⟨q, by rw [h]; simp [hq], rfl⟩))
        have := congrArg keyName he
        rw [keyName_deque hnq, keyName_deque hnk] at this
        have hqk : q.1 = k := by
          have := (Option.some.inj this)
          exact congrArg Prod.snd this
        have hnd := hc.dequesNodup
        rw [h, List.map_append, List.nodup_append] at hnd
        exact hnd.2.2 q.1 (List.mem_map.2 ⟨q, hq, rfl⟩) k (by simp) hqk
    have := ih (done ++ [(k, d)]) (by rw [h]; simp)
    simp only [List.map_append, List.map_cons, List.map_nil] at this
    simpa [bind, Except.bind, dictSet_new _ hnew] using this

theorem stateDict_eq {shape : T → List ℕ} {c : Container T} (hc : Storable shape c) :
    c.stateDict shape = .ok c.saved := by
  unfold stateDict
  have h1 := saveTuples_eq hc [] c.tuples rfl
  simp only [List.map_nil] at h1
  rw [h1]
  have h2 := saveDeques_eq hc [] c.deques rfl
  simpa [bind, Except.bind] using h2

/-! ### Loading -/

theorem loadKeys_saved (entries : SavedDict T) (c : Container T) (f : Container T → List Char → List T → Container T)
    (hf : ∀ p ∈ entries, ∀ c, loadKey c p.1 p.2 = .ok (f c p.1 p.2)) :
    loadKeys (entries.map Prod.fst) c entries = (entries.foldl (fun c p => f c p.1 p.2) c, [], none) := by
  induction entries generalizing c with
  | nil => rfl
  | cons p entries ih =>
    obtain ⟨k, v⟩ := p
    simp only [List.map_cons, loadKeys, dictGet, if_true, List.foldl_cons, dictDel]
    rw [hf (k, v) (by simp) c]
    exact ih _ fun p hp => hf p (by simp [hp])

theorem filter_saved (c : Container T) :
    (c.saved.map Prod.fst).filter isOurKey = c.saved.map Prod.fst := by
  rw [List.filter_eq_self]
  intro k hk
  simp only [saved, List.map_append, List.map_map, List.mem_append, List.mem_map, Function.comp] at hk
  rcases hk with ⟨q, -, rfl⟩ | ⟨q, -, rfl⟩
  · exact isOurKey_tuple _
  · exact isOurKey_deque _ _

theorem foldl_makeTuple (l done : List (List Char × List T)) (ds : List (List Char × Deq T))
    (h : ((done ++ l).map Prod.fst).Nodup) :
    l.foldl (fun c p => c.makeTuple p.1 p.2) (⟨done, ds⟩ : Container T) = ⟨done ++ l, ds⟩ := by
  induction l generalizing done with
  | nil => simp
  | cons p l ih =>
    have hnew : p.1 ∉ done.map Prod.fst := by
      rw [List.map_append, List.nodup_append] at h
      intro hin
      exact h.2.2 _ hin p.1 (by simp) rfl
    simp only [List.foldl_cons, makeTuple, dictSet_new _ hnew]
    rw [show (done ++ [(p.1, p.2)]) = done ++ [p] from rfl]
    have := ih (done ++ [p]) (by simpa using h)
    simpa [makeTuple] using this

theorem foldl_setDeque (l done : List (List Char × Deq T)) (ts : List (List Char × List T))
    (h : ((done ++ l).map Prod.fst).Nodup) :
    l.foldl (fun c p => { c with deques := dictSet c.deques p.1 p.2 }) (⟨ts, done⟩ : Container T) =
      ⟨ts, done ++ l⟩ := by
  induction l generalizing done with
  | nil => simp
  | cons p l ih =>
    have hnew : p.1 ∉ done.map Prod.fst := by
      rw [List.map_append, List.nodup_append] at h
      intro hin
      exact h.2.2 _ hin p.1 (by simp) rfl
    simp only [List.foldl_cons, dictSet_new _ hnew]
    rw [show (done ++ [(p.1, p.2)]) = done ++ [p] from rfl]
    have := ih (done ++ [p]) (by simpa using h)
    simpa using this

/-- Loading entries one after the other, splitting the list. -/
theorem loadKeys_append (es1 es2 : SavedDict T) (c c1 : Container T)
    (h1 : ∀ tail, loadKeys ((es1 ++ tail).map Prod.fst) c (es1 ++ tail) =
      loadKeys (tail.map Prod.fst) c1 tail) :
    loadKeys ((es1 ++ es2).map Prod.fst) c (es1 ++ es2) = loadKeys (es2.map Prod.fst) c1 es2 := h1 es2

theorem loadKeys_tuples (l : List (List Char × List T)) (c : Container T) (tail : SavedDict T)
    (hn : ∀ p ∈ l, isInfix ['t', 'e', 'n', 's', 'o', 'r', '_'] p.1 = false) :
    loadKeys ((l.map (fun p => (tupleKey p.1, p.2)) ++ tail).map Prod.fst) c
        (l.map (fun p => (tupleKey p.1, p.2)) ++ tail) =
      loadKeys (tail.map Prod.fst) (l.foldl (fun c p => c.makeTuple p.1 p.2) c) tail := by
  induction l generalizing c with
  | nil => rfl
  | cons p l ih =>
    simp only [List.map_cons, List.cons_append, loadKeys, dictGet, if_true, dictDel, List.foldl_cons]
    rw [loadKey_tuple (hn p (by simp))]
    exact ih _ fun q hq => hn q (by simp [hq])

theorem loadKeys_deques (l : List (List Char × Deq T)) (c : Container T) (tail : SavedDict T)
    (hn : ∀ p ∈ l, isInfix ['t', 'e', 'n', 's', 'o', 'r', '_'] p.1 = false)
    (hw : ∀ p ∈ l, ∀ k, p.2.maxlen = some k → p.2.items.length ≤ k) :
    loadKeys ((l.map (fun p => (dequeKey p.2.maxlen p.1, p.2.items)) ++ tail).map Prod.fst) c
        (l.map (fun p => (dequeKey p.2.maxlen p.1, p.2.items)) ++ tail) =
      loadKeys (tail.map Prod.fst)
        (l.foldl (fun c p => { c with deques := dictSet c.deques p.1 p.2 }) c) tail := by
  induction l generalizing c with
  | nil => rfl
  | cons p l ih =>
    simp only [List.map_cons, List.cons_append, loadKeys, dictGet, if_true, dictDel, List.foldl_cons]
    rw [loadKey_deque (hn p (by simp)) _ _ (hw p (by simp))]
    exact ih _ (fun q hq => hn q (by simp [hq])) fun q hq => hw q (by simp [hq])

theorem load_saved {shape : T → List ℕ} {c : Container T} (hc : Storable shape c) :
    loadStateDict ⟨[], []⟩ c.saved = (c, [], none) := by
  unfold loadStateDict
  rw [filter_saved]
  unfold saved
  rw [loadKeys_tuples _ _ _ fun p hp => hc.names p.1 (by
    unfold iter; exact List.mem_append_left _ (List.mem_map.2 ⟨p, hp, rfl⟩))]
  rw [foldl_makeTuple _ [] [] (by simpa using hc.tuplesNodup)]
  have := loadKeys_deques c.deques ⟨[] ++ c.tuples, []⟩ [] (fun p hp => hc.names p.1 (by
    unfold iter; exact List.mem_append_right _ (List.mem_map.2 ⟨p, hp, rfl⟩))) hc.windows
  simp only [List.append_nil] at this
  rw [this, foldl_setDeque _ [] _ (by simpa using hc.dequesNodup)]
  simp [loadKeys]

end Container
end Verif
