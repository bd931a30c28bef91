import Verif.Model.Patch
import Mathlib.Data.List.Nodup
import Mathlib.Tactic.Ring

/-!
# C105, C106: patching distributions and moving priors to a device
-/

namespace Verif.Props

open Verif.Patch

variable {K M : Type} [DecidableEq K]

/-- The rules of Python's method resolution order that are used: a class comes first in its own, and once. -/
structure Resolves (mro : K → List K) : Prop where
  head : ∀ c, ∃ rest, mro c = c :: rest ∧ c ∉ rest

/-- A name that `patch` hands on. -/
def Public (name : String) : Prop := name.toList.head? ≠ some '_'

theorem lookup_own (mro : K → List K) (hm : Resolves mro) (w : World K M) (c : K) (n : String) :
    w.lookup mro c n = ((w.dict c).lookup n).or (((mro c).tail).findSome? fun c => (w.dict c).lookup n) := by
  obtain ⟨rest, e, -⟩ := hm.head c
  rw [World.lookup, e, List.findSome?_cons, List.tail_cons]
  cases (w.dict c).lookup n <;> rfl

theorem setattr_dict (w : World K M) (cls c : K) (n k : String) (v : M) :
    ((w.setattr cls n v).dict c).lookup k =
      ((w.dict c).lookup k).or (if c = cls ∧ k = n then some v else none) := by
  unfold World.setattr
  simp only
  by_cases hc : c = cls
  · rw [if_pos hc, List.lookup_append]
    by_cases hk : k = n
    · rw [if_pos ⟨hc, hk⟩, List.lookup_cons, hk]
      simp
    · rw [if_neg (fun h => hk h.2), List.lookup_cons, beq_false_of_ne hk]
      rfl
  · rw [if_neg hc, if_neg (fun h => hc h.1), Option.or_none]

open Classical in
/-- The methods that `patch` should hand on: the public ones that the class has not got, of those in `P`. -/
noncomputable def handedOn (mro : K → List K) (sub cls : K) (w : World K M) (P : String → Bool) (k : String) : Option M :=
  if P k = true ∧ Public k ∧ w.lookup mro cls k = none then (w.dict sub).lookup k else none

theorem handedOn_congr (mro : K → List K) (sub cls : K) (w : World K M) (P Q : String → Bool) (k : String)
    (h : P k = Q k) : handedOn mro sub cls w P k = handedOn mro sub cls w Q k := by
  unfold handedOn
  split_ifs with h1 h2 h2
  · rfl
  · exact absurd ⟨h ▸ h1.1, h1.2⟩ h2
  · exact absurd ⟨h ▸ h2.1, h2.2⟩ h1
  · rfl

/-- What a world looks like in the course of `patch`: only `cls` has gained names. -/
def Gained (cls : K) (w w' : World K M) (news : String → Option M) : Prop :=
  ∀ c k, (w'.dict c).lookup k = ((w.dict c).lookup k).or (if c = cls then news k else none)

theorem gained_findSome (cls : K) (w w' : World K M) (news : String → Option M) (h : Gained cls w w' news) (l : List K)
    (hl : cls ∉ l) (k : String) :
    (l.findSome? fun c => (w'.dict c).lookup k) = l.findSome? fun c => (w.dict c).lookup k := by
  induction l with
  | nil => rfl
  | cons c l ih =>
    rw [List.findSome?_cons, List.findSome?_cons, h c k, if_neg (fun e : c = cls => hl (e ▸ List.mem_cons_self ..)), Option.or_none,
      ih fun hm => hl (List.mem_cons_of_mem _ hm)]

theorem gained_lookup (mro : K → List K) (hm : Resolves mro) (sub cls : K) (w w' : World K M) (P : String → Bool)
    (h : Gained cls w w' (handedOn mro sub cls w P)) (k : String) :
    w'.lookup mro cls k = (w.lookup mro cls k).or (handedOn mro sub cls w P k) := by
  obtain ⟨rest, e, hr⟩ := hm.head cls
  have ht : (mro cls).tail = rest := by rw [e]; rfl
  rw [lookup_own mro hm w', ht, gained_findSome cls w w' _ h rest hr k, h cls k, if_pos rfl]
  have hw := lookup_own mro hm w cls k
  rw [ht] at hw
  cases hl : w.lookup mro cls k with
  | none =>
    rw [hl] at hw
    cases h1 : (w.dict cls).lookup k with
    | some m => rw [h1] at hw; exact nomatch hw
    | none =>
      rw [h1] at hw
      have hw' : (rest.findSome? fun c => (w.dict c).lookup k) = none := hw.symm
      rw [hw', Option.or_none]
  | some m =>
    have : handedOn mro sub cls w P k = none := if_neg fun hc => by rw [hl] at hc; exact nomatch hc.2.2
    rw [this, Option.or_none, ← hw, hl]
    rfl

theorem patch_step (mro : K → List K) (hm : Resolves mro) (sub cls : K) (w : World K M) (hne : sub ≠ cls)
    (n : String) (hn : ((w.dict sub).lookup n).isSome) (w' : World K M) (P : String → Bool)
    (h : Gained cls w w' (handedOn mro sub cls w P)) :
    Gained cls w (patchOne mro sub cls w' n) (handedOn mro sub cls w fun k => P k || k == n) := by
  have hl := gained_lookup mro hm sub cls w w' P h n
  have same : (¬ Public n ∨ w.lookup mro cls n ≠ none ∨ P n = true) →
      handedOn mro sub cls w (fun k => P k || k == n) = handedOn mro sub cls w P := by
    intro hc
    funext k
    by_cases hk : k = n
    · subst hk
      rcases hc with hc | hc | hc
      · unfold handedOn
        rw [if_neg fun a => hc a.2.1, if_neg fun a => hc a.2.1]
      · unfold handedOn
        rw [if_neg fun a => hc a.2.2, if_neg fun a => hc a.2.2]
      · exact handedOn_congr _ _ _ _ _ _ _ (by rw [hc, Bool.true_or])
    · exact handedOn_congr _ _ _ _ _ _ _ (by rw [beq_false_of_ne hk, Bool.or_false])
  unfold patchOne
  by_cases h1 : n.toList.head? = some '_' ∨ (w'.lookup mro cls n).isSome = true
  · rw [if_pos h1, same]
    · exact h
    · rcases h1 with h1 | h1
      · exact Or.inl fun hp => hp h1
      · by_contra hc
        push Not at hc
        rw [hl, hc.2.1] at h1
        unfold handedOn at h1
        rw [if_neg fun a => hc.2.2 a.1] at h1
        exact nomatch h1
  · rw [if_neg h1]
    push Not at h1
    obtain ⟨m, hsome⟩ := Option.isSome_iff_exists.1 hn
    have hsub : w'.lookup mro sub n = some m := by
      rw [lookup_own mro hm, h sub n, if_neg hne, Option.or_none, hsome]
      rfl
    have h2 : w.lookup mro cls n = none ∧ handedOn mro sub cls w P n = none := by
      rw [← Option.or_eq_none_iff, ← hl]
      simpa using h1.2
    have h3 : Public n := h1.1
    rw [hsub]
    intro c k
    simp only
    rw [setattr_dict, h c k]
    by_cases hc : c = cls
    · simp only [hc, true_and, if_true]
      by_cases hk : k = n
      · subst hk
        rw [h2.2, Option.or_none]
        congr 1
        unfold handedOn
        rw [if_pos rfl, if_pos ⟨by simp, h3, h2.1⟩, hsome]
      · rw [if_neg hk, Option.or_none]
        congr 1
        exact handedOn_congr _ _ _ _ _ _ _ (by rw [beq_false_of_ne hk, Bool.or_false])
    · simp only [hc, false_and, if_false, Option.or_none]

theorem patch_loop (mro : K → List K) (hm : Resolves mro) (sub cls : K) (w : World K M) (hne : sub ≠ cls)
    (names : List String) (hnames : ∀ n ∈ names, ((w.dict sub).lookup n).isSome)
    (w' : World K M) (P : String → Bool) (h : Gained cls w w' (handedOn mro sub cls w P)) :
    Gained cls w (names.foldl (patchOne mro sub cls) w')
      (handedOn mro sub cls w fun k => P k || names.contains k) := by
  induction names generalizing w' P with
  | nil => simpa using h
  | cons n names ih =>
    rw [List.foldl_cons]
    have := ih (fun k hk => hnames k (List.mem_cons_of_mem _ hk)) _ _
      (patch_step mro hm sub cls w hne n (hnames n (List.mem_cons_self ..)) w' P h)
    have e : (fun k => P k || (n :: names).contains k) = fun k => (P k || k == n) || names.contains k := by
      funext k
      rw [List.contains_cons, Bool.or_assoc]
    rw [e]
    exact this

theorem lookup_isSome (l : List (String × M)) (n : String) : (l.lookup n).isSome ↔ n ∈ l.map Prod.fst := by
  induction l with
  | nil => simp
  | cons a l ih =>
    rw [List.lookup_cons, List.map_cons, List.mem_cons]
    by_cases h : n = a.1
    · simp [h]
    · rw [beq_false_of_ne h]
      simp only [h, false_or]
      exact ih

/-- The claim: after `patch(sub, cls)` every public method of `sub` is found on `cls`. -/
def C105_claim : Prop :=
  ∀ (K M : Type) [DecidableEq K] (mro : K → List K), Resolves mro → ∀ (sub cls : K), sub ≠ cls → ∀ (w : World K M) (n : String),
    Public n → n ∈ (w.dict sub).map Prod.fst → ((patch mro sub cls w).lookup mro cls n).isSome

theorem patch_gained (mro : K → List K) (hm : Resolves mro) (sub cls : K) (hne : sub ≠ cls) (w : World K M)
    (hw : sub ∉ w.applied) :
    Gained cls w (patch mro sub cls w) (handedOn mro sub cls w fun _ => true) := by
  have h0 : Gained cls w w (handedOn mro sub cls w fun _ => false) := fun c k => by
    simp [handedOn]
  have := patch_loop mro hm sub cls w hne ((w.dict sub).map Prod.fst) (fun n hn => (lookup_isSome _ n).2 hn) w _ h0
  unfold patch
  rw [if_neg hw]
  intro c k
  have h1 := this c k
  simp only at h1 ⊢
  rw [h1]
  congr 2
  by_cases hk : k ∈ (w.dict sub).map Prod.fst
  · exact handedOn_congr _ _ _ _ _ _ _ (by rw [Bool.false_or]; exact List.contains_iff_mem.2 hk)
  · unfold handedOn
    have : (w.dict sub).lookup k = none := by
      rw [← Option.not_isSome_iff_eq_none, lookup_isSome]
      exact hk
    rw [this, ite_self, ite_self]

/-- **C105** (first patch). A name that the class had keeps its meaning; a public name that it had not means what it
means in `sub`; other names are still missing. Missing for the full claim: `sub` was applied before. -/
theorem C105_first_partial (mro : K → List K) (hm : Resolves mro) (sub cls : K) (hne : sub ≠ cls) (w : World K M)
    (hw : sub ∉ w.applied) (n : String) :
    (∀ m, w.lookup mro cls n = some m → (patch mro sub cls w).lookup mro cls n = some m) ∧
    (w.lookup mro cls n = none → Public n →
      (patch mro sub cls w).lookup mro cls n = (w.dict sub).lookup n) ∧
    (w.lookup mro cls n = none → ¬ Public n → (patch mro sub cls w).lookup mro cls n = none) := by
  have h := gained_lookup mro hm sub cls w _ _ (patch_gained mro hm sub cls hne w hw) n
  refine ⟨fun m hl => ?_, fun hl hp => ?_, fun hl hp => ?_⟩
  · rw [h, hl]; rfl
  · rw [h, hl, handedOn, if_pos ⟨rfl, hp, hl⟩]; rfl
  · rw [h, hl, handedOn, if_neg fun a => hp a.2.1]; rfl

/-- **C105** (other classes). A class without `cls` in its method resolution order is unaffected; one in which `cls` has
`before` in front of it and `after` behind it keeps the meaning of every name found in `before` or in `cls` itself. -/
theorem C105_others (mro : K → List K) (hm : Resolves mro) (sub cls : K) (hne : sub ≠ cls) (w : World K M)
    (hw : sub ∉ w.applied) (D : K) (n : String) :
    (cls ∉ mro D → (patch mro sub cls w).lookup mro D n = w.lookup mro D n) ∧
    (∀ before after, mro D = before ++ cls :: after → cls ∉ before → cls ∉ after →
      ((before ++ [cls]).findSome? fun c => (w.dict c).lookup n).isSome →
      (patch mro sub cls w).lookup mro D n = w.lookup mro D n) := by
  have h := patch_gained mro hm sub cls hne w hw
  refine ⟨fun hD => gained_findSome cls w _ _ h _ hD n, fun before after e hb ha hs => ?_⟩
  unfold World.lookup
  rw [e, List.findSome?_append, List.findSome?_append, gained_findSome cls w _ _ h before hb n,
    List.findSome?_cons, List.findSome?_cons, gained_findSome cls w _ _ h after ha n]
  cases hx : before.findSome? fun c => (w.dict c).lookup n with
  | some m => rfl
  | none =>
    rw [List.findSome?_append, hx, List.findSome?_cons] at hs
    cases hy : (w.dict cls).lookup n with
    | none => rw [hy] at hs; simp at hs
    | some m =>
      have := h cls n
      rw [hy] at this
      rw [this]
      rfl

/-- **C105** (once). A class that was applied, to whatever class, is never applied again. -/
theorem C105_once (mro : K → List K) (sub c c' : K) (w : World K M) :
    patch mro sub c' (patch mro sub c w) = patch mro sub c w := by
  have hin : sub ∈ (patch mro sub c w).applied := by
    unfold patch
    split
    · assumption
    · simp
  show (if sub ∈ (patch mro sub c w).applied then _ else _) = _
  rw [if_pos hin]

/-- Three unrelated classes: the methods `to` and `_secret` of class 0, and the method `sample` of the others. -/
def threeClasses : World (Fin 3) ℕ :=
  ⟨fun c => if c = 0 then [("to", 1), ("_secret", 2), ("sample", 3)] else [("sample", 4)], []⟩

theorem three_resolves : Resolves fun c : Fin 3 => [c] := ⟨fun _ => ⟨[], rfl, List.not_mem_nil⟩⟩

theorem public_to : Public "to" := by
  unfold Public
  decide

/-- Patching a second class does nothing. -/
theorem C105_negation : ¬ C105_claim := by
  intro h
  have := h (Fin 3) ℕ (fun c => [c]) three_resolves 0 2 (by decide)
    (patch (fun c => [c]) 0 1 threeClasses) "to" public_to (by decide)
  rw [C105_once] at this
  have e : (patch (fun c : Fin 3 => [c]) 0 1 threeClasses).lookup (fun c => [c]) 2 "to" = none := by
    rw [(C105_others (fun c : Fin 3 => [c]) three_resolves 0 1 (by decide) threeClasses (by decide) 2 "to").1 (by decide)]
    rfl
  rw [e] at this
  exact nomatch this

/-- Class 1 gains `to` and keeps its `sample`. -/
example : (patch (fun c : Fin 3 => [c]) 0 1 threeClasses).lookup (fun c => [c]) 1 "to" = some 1 ∧
    (patch (fun c : Fin 3 => [c]) 0 1 threeClasses).lookup (fun c => [c]) 1 "sample" = some 4 :=
  ⟨(C105_first_partial _ three_resolves 0 1 (by decide) threeClasses (by decide) "to").2.1 rfl public_to,
    (C105_first_partial _ three_resolves 0 1 (by decide) threeClasses (by decide) "sample").1 4 rfl⟩

/-! ### Moving a prior -/

variable {D V : Type}

/-- The distribution exists: it was constructed, and asked for an argument it was given, it returns it. -/
structure Constructed (d : Dist D V) : Prop where
  valid : construct d.family d.device d.args = .ok d
  nodup : (d.args.map Prod.fst).Nodup
  given : ∀ a ∈ d.args, d.family.compute d.args a.1 = some a.2

/-- The claim: `to` returns the same distribution on the device. -/
def C106_claim : Prop :=
  ∀ (D V : Type) (d : Dist D V) (device : D), Constructed d →
    ∃ d', d.to device = .ok d' ∧ d'.family = d.family ∧ d'.device = device ∧
      ∀ n ∈ d.family.argConstraints, d'.attr n = (d.attr n).map fun t => ⟨device, t.value⟩

theorem construct_ok {f : Family V} {device : D} {args : List (String × V)} {d : Dist D V}
    (h : construct f device args = .ok d) :
    (∀ a ∈ args, a.1 ∈ f.accepted) ∧ (∀ r ∈ f.required, r ∈ args.map Prod.fst) := by
  unfold construct at h
  split at h
  · exact nomatch h
  · rename_i h1
    split at h
    · exact nomatch h
    · rename_i h2
      exact ⟨not_not.1 h1, not_not.1 h2⟩

theorem to_eq (d : Dist D V) (device : D) :
    d.to device = construct d.family device
      (d.family.argConstraints.filterMap fun name => (d.family.compute d.args name).map fun v => (name, v)) := by
  have : (fun name => (d.attr name).map fun t => (name, t.value)) =
      fun name => (d.family.compute d.args name).map fun v => (name, v) := by
    funext name
    unfold Dist.attr
    rw [Option.map_map]
    rfl
  unfold Dist.to
  rw [this]

theorem mem_params (d : Dist D V) (n : String) (v : V) :
    (n, v) ∈ (d.family.argConstraints.filterMap fun name => (d.family.compute d.args name).map fun v => (name, v)) ↔
      n ∈ d.family.argConstraints ∧ d.family.compute d.args n = some v := by
  rw [List.mem_filterMap]
  constructor
  · rintro ⟨name, h1, h2⟩
    obtain ⟨v', h3, h4⟩ := Option.map_eq_some_iff.1 h2
    cases h4
    exact ⟨h1, h3⟩
  · rintro ⟨h1, h2⟩
    exact ⟨n, h1, by rw [h2]; rfl⟩

/-- **C106** (one parametrisation). If the arguments of the constructor are all required and are those of
`arg_constraints`, then `to` returns the same distribution on the device. Missing for the full claim: families with
several parametrisations and those with other arguments. -/
theorem C106_single_partial (d : Dist D V) (device : D) (hd : Constructed d) (hone : d.family.oneOf = [])
    (hacc : d.family.accepted = d.family.argConstraints) (hreq : d.family.required = d.family.argConstraints)
    (hcon : d.family.argConstraints.Nodup)
    (hext : ∀ a b, (a.map Prod.fst).Nodup → a.Perm b → d.family.compute a = d.family.compute b) :
    ∃ d', d.to device = .ok d' ∧ d'.family = d.family ∧ d'.device = device ∧ d'.args.Perm d.args ∧
      ∀ n ∈ d.family.argConstraints, d'.attr n = (d.attr n).map fun t => ⟨device, t.value⟩ := by
  obtain ⟨h1, h2⟩ := construct_ok hd.valid
  set params := d.family.argConstraints.filterMap fun name => (d.family.compute d.args name).map fun v => (name, v)
    with hp
  have hkey : ∀ n ∈ d.family.argConstraints, ∃ v, (n, v) ∈ d.args := fun n hn => by
    obtain ⟨a, ha, rfl⟩ := List.mem_map.1 (h2 n (hreq ▸ hn))
    exact ⟨a.2, ha⟩
  have hmem : ∀ a, a ∈ params ↔ a ∈ d.args := fun ⟨n, v⟩ => by
    rw [hp, mem_params]
    constructor
    · rintro ⟨hn, hv⟩
      obtain ⟨v', hv'⟩ := hkey n hn
      have := hd.given _ hv'
      rw [hv] at this
      cases this
      exact hv'
    · intro ha
      exact ⟨hacc ▸ h1 _ ha, hd.given _ ha⟩
  have hmapfst : params.map Prod.fst = d.family.argConstraints := by
    rw [hp, List.map_filterMap]
    conv_rhs => rw [← List.filterMap_some (l := d.family.argConstraints)]
    refine List.filterMap_congr fun n hn => ?_
    obtain ⟨v, hv⟩ := hkey n hn
    rw [hd.given _ hv]
    rfl
  have hnd : (params.map Prod.fst).Nodup := hmapfst ▸ hcon
  have hperm : params.Perm d.args :=
    (List.perm_ext_iff_of_nodup (List.Nodup.of_map _ hnd) (List.Nodup.of_map _ hd.nodup)).2 hmem
  refine ⟨⟨d.family, device, params⟩, ?_, rfl, rfl, hperm, fun n _ => ?_⟩
  · rw [to_eq, ← hp, construct, if_neg, if_neg, if_neg]
    · rintro ⟨h, -⟩
      exact h hone
    · rw [not_not, hmapfst, hreq]
      exact fun r hr => hr
    · rw [not_not]
      exact fun a ha => h1 a ((hmem a).1 ha)
  · unfold Dist.attr
    simp only
    rw [hext params d.args hnd hperm, Option.map_map]
    rfl

/-- **C106** (several parametrisations). If two attributes of which only one may be given are listed in
`arg_constraints` and can be computed, then `to` raises `ValueError` (or, for a constructor with other arguments,
`TypeError`). -/
theorem C106_several (d : Dist D V) (device : D) (a b : String) (hab : a ≠ b) (ha : a ∈ d.family.oneOf)
    (hb : b ∈ d.family.oneOf) (ha' : a ∈ d.family.argConstraints) (hb' : b ∈ d.family.argConstraints)
    (hca : (d.family.compute d.args a).isSome) (hcb : (d.family.compute d.args b).isSome) :
    d.to device = .error .value ∨ d.to device = .error .type := by
  obtain ⟨va, hva⟩ := Option.isSome_iff_exists.1 hca
  obtain ⟨vb, hvb⟩ := Option.isSome_iff_exists.1 hcb
  rw [to_eq]
  set params := d.family.argConstraints.filterMap fun name => (d.family.compute d.args name).map fun v => (name, v)
    with hp
  have hma : (a, va) ∈ params.filter fun x => x.1 ∈ d.family.oneOf :=
    List.mem_filter.2 ⟨(mem_params d a va).2 ⟨ha', hva⟩, by simpa using ha⟩
  have hmb : (b, vb) ∈ params.filter fun x => x.1 ∈ d.family.oneOf :=
    List.mem_filter.2 ⟨(mem_params d b vb).2 ⟨hb', hvb⟩, by simpa using hb⟩
  have hlen : (params.filter fun x => x.1 ∈ d.family.oneOf).length ≠ 1 := by
    intro h
    obtain ⟨x, hx⟩ := List.length_eq_one_iff.1 h
    rw [hx] at hma hmb
    have e1 := List.mem_singleton.1 hma
    have e2 := List.mem_singleton.1 hmb
    rw [← e2] at e1
    exact hab (congrArg Prod.fst e1)
  unfold construct
  split
  · right; rfl
  · split
    · right; rfl
    · left
      rw [if_pos ⟨fun h => (h ▸ ha : a ∈ []) |> List.not_mem_nil, hlen⟩]

/-- **C106** (other arguments). A constructor with a required argument that is not in `arg_constraints`, such as those
of `Independent` and `TransformedDistribution`, raises `TypeError`. -/
theorem C106_other (d : Dist D V) (device : D) (r : String) (hr : r ∈ d.family.required)
    (hc : r ∉ d.family.argConstraints) : d.to device = .error .type := by
  rw [to_eq]
  unfold construct
  split
  · rfl
  · rw [if_pos]
    intro h
    obtain ⟨⟨n, v⟩, h1, rfl⟩ := List.mem_map.1 (h r hr)
    exact hc ((mem_params d n v).1 h1).1

/-! ### Families of torch -/

/-- `Normal`. -/
def normalFamily (V : Type) : Family V where
  argConstraints := ["loc", "scale"]
  accepted := ["loc", "scale"]
  required := ["loc", "scale"]
  oneOf := []
  compute args n := args.lookup n

/-- `Independent`. -/
def independentFamily (V : Type) : Family V where
  argConstraints := []
  accepted := ["base_distribution", "reinterpreted_batch_ndims"]
  required := ["base_distribution", "reinterpreted_batch_ndims"]
  oneOf := []
  compute args n := args.lookup n

/-- `Bernoulli`: `logits` are computed from `probs`; `f` and `g` compute one from the other. -/
def bernoulliFamily {V : Type} (f g : V → V) : Family V where
  argConstraints := ["probs", "logits"]
  accepted := ["probs", "logits"]
  required := []
  oneOf := ["probs", "logits"]
  compute args n :=
    if n = "probs" then (args.lookup "probs").or ((args.lookup "logits").map g)
    else if n = "logits" then (args.lookup "logits").or ((args.lookup "probs").map f)
    else none

theorem C106_negation : ¬ C106_claim := by
  intro h
  obtain ⟨d', h1, -⟩ := h ℕ ℕ ⟨bernoulliFamily id id, 0, [("probs", 5)]⟩ 1
    ⟨rfl, by simp, by simp [bernoulliFamily]⟩
  rcases C106_several (⟨bernoulliFamily id id, 0, [("probs", 5)]⟩ : Dist ℕ ℕ) 1 "probs" "logits" (by decide)
    (by simp [bernoulliFamily]) (by simp [bernoulliFamily]) (by simp [bernoulliFamily]) (by simp [bernoulliFamily])
    (by simp [bernoulliFamily]) (by simp [bernoulliFamily]) with e | e
  · rw [e] at h1; exact nomatch h1
  · rw [e] at h1; exact nomatch h1

theorem lookup_perm {V : Type} (a b : List (String × V)) (h : (a.map Prod.fst).Nodup) (hp : a.Perm b) (n : String) :
    a.lookup n = b.lookup n := by
  have key : ∀ l : List (String × V), (l.map Prod.fst).Nodup → ∀ v, l.lookup n = some v ↔ (n, v) ∈ l := by
    intro l
    induction l with
    | nil => intro _ v; simp
    | cons x l ih =>
      intro hn v
      rw [List.map_cons, List.nodup_cons] at hn
      rw [List.lookup_cons, List.mem_cons]
      by_cases hx : n = x.1
      · have : (n, v) ∉ l := fun hm => hn.1 (hx ▸ List.mem_map.2 ⟨_, hm, rfl⟩)
        subst hx
        simp only [beq_self_eq_true, Option.some.injEq, this, or_false]
        constructor
        · rintro rfl; rfl
        · intro e; rw [← e]
      · rw [beq_false_of_ne hx]
        simp only
        rw [ih hn.2 v]
        constructor
        · exact Or.inr
        · rintro (e | e)
          · exact absurd (congrArg Prod.fst e) hx
          · exact e
  refine Option.ext fun v => ?_
  rw [key a h, key b ((hp.map Prod.fst).nodup_iff.1 h)]
  exact hp.mem_iff

/-- `Normal(scale=3, loc=2)` moves from device 0 to device 1; an independent prior does not. -/
example : (∃ d', (⟨normalFamily ℕ, 0, [("scale", 3), ("loc", 2)]⟩ : Dist ℕ ℕ).to 1 = .ok d' ∧ d'.device = 1 ∧
      d'.attr "loc" = some ⟨1, 2⟩) ∧
    (⟨independentFamily ℕ, 0, [("base_distribution", 3), ("reinterpreted_batch_ndims", 1)]⟩ : Dist ℕ ℕ).to 1
      = .error .type := by
  constructor
  · obtain ⟨d', h1, -, h2, -, h3⟩ := C106_single_partial
      (⟨normalFamily ℕ, 0, [("scale", 3), ("loc", 2)]⟩ : Dist ℕ ℕ) 1
      ⟨rfl, by decide, by simp [normalFamily, List.lookup]⟩ rfl rfl rfl (by simp [normalFamily])
      (fun a b h hp => funext fun n => lookup_perm a b h hp n)
    exact ⟨d', h1, h2, h3 "loc" (by simp [normalFamily])⟩
  · exact C106_other _ _ "base_distribution" (by simp [independentFamily]) (by simp [independentFamily])

end Verif.Props
