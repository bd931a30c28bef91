import Verif.Model.Pickle
import Verif.Lemmas.Container
import Verif.Spec.Pickle

/-!
# Lemmas for pickling contexts and parameters
-/

namespace Verif.Ctx.Graph

variable {α : Type}

/-- Every parameter object has its own storage. -/
structure Separate (w : World α) : Prop where
  lt : ∀ p, p < w.no → w.obj p < w.nc
  inj : ∀ p q, p < w.no → q < w.no → w.obj p = w.obj q → p = q

/-- Nothing that exists in `g` is changed in `g'`. -/
structure Ext (g g' : Graph α) : Prop where
  nc : g.w.nc ≤ g'.w.nc
  no : g.w.no ≤ g'.w.no
  nx : g.nx ≤ g'.nx
  obj : ∀ p, p < g.w.no → g'.w.obj p = g.w.obj p
  cell : ∀ a, a < g.w.nc → g'.w.cell a = g.w.cell a
  name : ∀ p, p < g.w.no → g'.name p = g.name p
  owner : ∀ p, p < g.w.no → g'.owner p = g.owner p
  grad : ∀ p, p < g.w.no → g'.grad p = g.grad p
  ctx : ∀ c, c < g.nx → g'.ctx c = g.ctx c
  new : ∀ p, g.w.no ≤ p → p < g'.w.no → g.w.nc ≤ g'.w.obj p

theorem Ext.refl (g : Graph α) : Ext g g :=
  ⟨le_rfl, le_rfl, le_rfl, fun _ _ => rfl, fun _ _ => rfl, fun _ _ => rfl, fun _ _ => rfl,
    fun _ _ => rfl, fun _ _ => rfl, fun _ h h' => absurd h' (by omega)⟩

theorem Ext.trans {g g' g'' : Graph α} (h : Ext g g') (h' : Ext g' g'') : Ext g g'' where
  nc := h.nc.trans h'.nc
  no := h.no.trans h'.no
  nx := h.nx.trans h'.nx
  obj p hp := (h'.obj p (lt_of_lt_of_le hp h.no)).trans (h.obj p hp)
  cell a ha := (h'.cell a (lt_of_lt_of_le ha h.nc)).trans (h.cell a ha)
  name p hp := (h'.name p (lt_of_lt_of_le hp h.no)).trans (h.name p hp)
  owner p hp := (h'.owner p (lt_of_lt_of_le hp h.no)).trans (h.owner p hp)
  grad p hp := (h'.grad p (lt_of_lt_of_le hp h.no)).trans (h.grad p hp)
  ctx c hc := (h'.ctx c (lt_of_lt_of_le hc h.nx)).trans (h.ctx c hc)
  new p hp hp' := by
    by_cases h1 : p < g'.w.no
    · rw [h'.obj p h1]; exact h.new p hp h1
    · exact h.nc.trans (h'.new p (by omega) hp')

theorem Ext.tensor {g g' : Graph α} (h : Ext g g') (hs : Separate g.w) {p : ℕ} (hp : p < g.w.no) :
    g'.w.tensor p = g.w.tensor p := by
  unfold World.tensor
  rw [h.obj p hp, h.cell _ (hs.lt p hp)]

/-- A new parameter object: the rest is kept, and the object has the given attributes. -/
theorem rebuild_ext (g : Graph α) (hs : Separate g.w) (t : Tens α) (b : Bool) (k : Option (List Char))
    (c : Option ℕ) :
    Ext g (g.rebuild t b k c).1 ∧ Separate (g.rebuild t b k c).1.w
      ∧ (g.rebuild t b k c).2 = g.w.no ∧ (g.rebuild t b k c).1.w.no = g.w.no + 1
      ∧ (g.rebuild t b k c).1.w.tensor g.w.no = t ∧ (g.rebuild t b k c).1.grad g.w.no = b
      ∧ (g.rebuild t b k c).1.name g.w.no = k ∧ (g.rebuild t b k c).1.owner g.w.no = c
      ∧ (g.rebuild t b k c).1.ctx = g.ctx ∧ (g.rebuild t b k c).1.nx = g.nx := by
  refine ⟨⟨?_, ?_, le_rfl, ?_, ?_, ?_, ?_, ?_, fun _ _ => rfl, ?_⟩, ⟨?_, ?_⟩, rfl, rfl, ?_, ?_, ?_, ?_, rfl, rfl⟩
  · exact Nat.le_succ _
  · exact Nat.le_succ _
  · intro p hp
    simp [rebuild, newPar, setName, setContext, World.newParam, Function.update_of_ne (Nat.ne_of_lt hp)]
  · intro a ha
    simp [rebuild, newPar, setName, setContext, World.newParam, Function.update_of_ne (Nat.ne_of_lt ha)]
  · intro p hp
    simp [rebuild, newPar, setName, setContext, Function.update_of_ne (Nat.ne_of_lt hp)]
  · intro p hp
    simp [rebuild, newPar, setName, setContext, Function.update_of_ne (Nat.ne_of_lt hp)]
  · intro p hp
    simp [rebuild, newPar, setName, setContext, Function.update_of_ne (Nat.ne_of_lt hp)]
  · intro p hp hp'
    have : p = g.w.no := by
      have : p < g.w.no + 1 := hp'
      omega
    subst this
    simp [rebuild, newPar, setName, setContext, World.newParam]
  · intro p hp
    have hp' : p < g.w.no + 1 := hp
    rcases Nat.lt_succ_iff_lt_or_eq.1 hp' with h | h
    · have := hs.lt p h
      simp only [rebuild, newPar, setName, setContext, World.newParam,
        Function.update_of_ne (Nat.ne_of_lt h)]
      omega
    · subst h
      simp [rebuild, newPar, setName, setContext, World.newParam]
  · intro p q hp hq h
    have hp' : p < g.w.no + 1 := hp
    have hq' : q < g.w.no + 1 := hq
    simp only [rebuild, newPar, setName, setContext, World.newParam] at h
    rcases Nat.lt_succ_iff_lt_or_eq.1 hp' with h1 | h1 <;>
      rcases Nat.lt_succ_iff_lt_or_eq.1 hq' with h2 | h2
    · rw [Function.update_of_ne (Nat.ne_of_lt h1), Function.update_of_ne (Nat.ne_of_lt h2)] at h
      exact hs.inj p q h1 h2 h
    · rw [Function.update_of_ne (Nat.ne_of_lt h1), h2, Function.update_self] at h
      exact absurd h (Nat.ne_of_lt (hs.lt p h1))
    · rw [Function.update_of_ne (Nat.ne_of_lt h2), h1, Function.update_self] at h
      exact absurd h.symm (Nat.ne_of_lt (hs.lt q h2))
    · omega
  · simp [rebuild, newPar, setName, setContext, World.newParam, World.tensor]
  · simp [rebuild, newPar, setName, setContext]
  · simp [rebuild, newPar, setName, setContext]
  · simp [rebuild, newPar, setName, setContext]

/-- Object `q` of `g` is the copy of object `p` of `g₀`, in context `d`. -/
structure Done (g₀ g : Graph α) (d p q : ℕ) : Prop where
  ge : g₀.w.no ≤ q
  lt : q < g.w.no
  tensor : g.w.tensor q = g₀.w.tensor p
  grad : g.grad q = g₀.grad p
  name : g.name q = g₀.name p
  owner : g.owner q = some d

theorem Done.ext {g₀ g g' : Graph α} {d p q : ℕ} (h : Done g₀ g d p q) (he : Ext g g')
    (hs : Separate g.w) : Done g₀ g' d p q where
  ge := h.ge
  lt := lt_of_lt_of_le h.lt he.no
  tensor := (he.tensor hs h.lt).trans h.tensor
  grad := (he.grad q h.lt).trans h.grad
  name := (he.name q h.lt).trans h.name
  owner := (he.owner q h.lt).trans h.owner

/-- While context `c` of `g₀` is being copied to context `d`. -/
structure Inv (g₀ : Graph α) (c d : ℕ) (g : Graph α) (m : Memo) : Prop where
  ext : Ext g₀ g
  sep : Separate g.w
  memo : m.ctx c = some d
  done : ∀ p q, m.par p = some q → Done g₀ g d p q
  inj : ∀ p p' q, m.par p = some q → m.par p' = some q → p = p'

theorem pickleParameter_inv {g₀ : Graph α} (h₀ : Separate g₀.w) {c d : ℕ} {g : Graph α} {m : Memo}
    (h : Inv g₀ c d g m) {p : ℕ} (hp : p < g₀.w.no) (hc : g₀.owner p = some c) (f : ℕ) :
    ∃ g' m' q, pickleParameter (f + 3) g m p = .ok (g', m', q) ∧ Inv g₀ c d g' m' ∧ Ext g g'
      ∧ m'.par p = some q ∧ (∀ x y, m.par x = some y → m'.par x = some y)
      ∧ (∀ x, x ≠ p → m'.par x = m.par x) ∧ m'.ctx = m.ctx ∧ g'.ctx = g.ctx ∧ g'.nx = g.nx := by
  unfold pickleParameter
  cases hm : m.par p with
  | some q =>
    exact ⟨g, m, q, rfl, h, Ext.refl g, hm, fun _ _ h => h, fun _ _ => rfl, rfl, rfl, rfl⟩
  | none =>
    have ho : g.owner p = some c := (h.ext.owner p hp).trans hc
    dsimp only
    unfold pickleOwner pickleContext
    rw [ho]
    simp only [h.memo, hm]
    obtain ⟨he, hs, h1, h2, h3, h4, h5, h6, h7, h8⟩ :=
      rebuild_ext g h.sep (g.w.tensor p) (g.grad p) (g.name p) (some d)
    refine ⟨_, _, _, rfl, ⟨h.ext.trans he, hs, h.memo, ?_, ?_⟩, he, ?_, ?_, ?_, rfl, h7, h8⟩
    · intro x y hxy
      dsimp only at hxy
      by_cases hx : x = p
      · subst hx
        rw [Function.update_self] at hxy
        have hy : y = g.w.no := by
          rw [h1] at hxy
          exact (Option.some.inj hxy).symm
        subst hy
        refine ⟨h.ext.no, by omega, ?_, ?_, ?_, h6⟩
        · rw [h3]; exact h.ext.tensor h₀ hp
        · rw [h4]; exact h.ext.grad _ hp
        · rw [h5]; exact h.ext.name _ hp
      · rw [Function.update_of_ne hx] at hxy
        exact (h.done x y hxy).ext he h.sep
    · intro x x' y hx hx'
      dsimp only at hx hx'
      by_cases h9 : x = p <;> by_cases h10 : x' = p
      · omega
      · subst h9
        rw [Function.update_self, h1] at hx
        rw [Function.update_of_ne h10] at hx'
        have := (h.done x' y hx').lt
        have := Option.some.inj hx
        omega
      · subst h10
        rw [Function.update_self, h1] at hx'
        rw [Function.update_of_ne h9] at hx
        have := (h.done x y hx).lt
        have := Option.some.inj hx'
        omega
      · rw [Function.update_of_ne h9] at hx
        rw [Function.update_of_ne h10] at hx'
        exact h.inj x x' y hx hx'
    · exact Function.update_self ..
    · intro x y hxy
      have : x ≠ p := by
        rintro rfl
        rw [hm] at hxy
        cases hxy
      exact (Function.update_of_ne this _ _).trans hxy
    · intro x hx
      exact Function.update_of_ne hx _ _

theorem pickleDict_inv {g₀ : Graph α} (h₀ : Separate g₀.w) {c d : ℕ} (f : ℕ) :
    ∀ (ps : List (List Char × ℕ)) {g : Graph α} {m : Memo}, Inv g₀ c d g m →
      (∀ e ∈ ps, e.2 < g₀.w.no ∧ g₀.owner e.2 = some c) →
      ∃ g' m' qs, pickleDict (f + 4) g m ps = .ok (g', m', qs) ∧ Inv g₀ c d g' m' ∧ Ext g g'
        ∧ List.Forall₂ (fun e e' : List Char × ℕ => e.1 = e'.1 ∧ m'.par e.2 = some e'.2) ps qs
        ∧ (∀ x y, m.par x = some y → m'.par x = some y)
        ∧ m'.ctx = m.ctx ∧ g'.ctx = g.ctx ∧ g'.nx = g.nx := by
  intro ps
  induction ps with
  | nil =>
    intro g m h _
    exact ⟨g, m, [], by unfold pickleDict; rfl, h, Ext.refl g, List.Forall₂.nil, fun _ _ h => h, rfl, rfl, rfl⟩
  | cons e rest ih =>
    intro g m h hb
    obtain ⟨k, p⟩ := e
    obtain ⟨hp, hc⟩ := hb (k, p) (List.mem_cons_self ..)
    obtain ⟨g1, m1, q, e1, i1, x1, a1, b1, _, c1, d1, n1⟩ := pickleParameter_inv h₀ h hp hc f
    obtain ⟨g2, m2, qs, e2, i2, x2, a2, b2, c2, d2, n2⟩ :=
      ih i1 fun e he => hb e (List.mem_cons_of_mem _ he)
    refine ⟨g2, m2, (k, q) :: qs, ?_, i2, x1.trans x2, List.Forall₂.cons ⟨rfl, b2 _ _ a1⟩ a2,
      fun x y h => b2 _ _ (b1 _ _ h), c2.trans c1, d2.trans d1, n2.trans n1⟩
    unfold pickleDict
    rw [e1]
    dsimp only
    rw [e2]

/-- The empty context that `__new__` creates. -/
theorem newCtx_ext (g : Graph α) : Ext g g.newCtx.1 :=
  ⟨le_rfl, le_rfl, Nat.le_succ _, fun _ _ => rfl, fun _ _ => rfl, fun _ _ => rfl, fun _ _ => rfl,
    fun _ _ => rfl, fun c hc => Function.update_of_ne (Nat.ne_of_lt hc) _ _,
    fun _ h h' => absurd h' (by have : g.newCtx.1.w.no = g.w.no := rfl; omega)⟩

theorem forall₂_get {m : Memo} :
    ∀ {ps qs : List (List Char × ℕ)},
      List.Forall₂ (fun e e' : List Char × ℕ => e.1 = e'.1 ∧ m.par e.2 = some e'.2) ps qs →
      ∀ k, (dictGet qs k) = (dictGet ps k).bind m.par := by
  intro ps qs h
  induction h with
  | nil => intro k; rfl
  | @cons e e' ps qs h _ ih =>
    intro k
    obtain ⟨k1, p⟩ := e
    obtain ⟨k2, q⟩ := e'
    obtain ⟨h1, h2⟩ := h
    dsimp only at h1 h2
    subst h1
    unfold dictGet
    by_cases hk : k1 = k
    · simp [hk, h2]
    · simp only [hk, if_false]
      exact ih k

theorem forall₂_keys {m : Memo} {ps qs : List (List Char × ℕ)}
    (h : List.Forall₂ (fun e e' : List Char × ℕ => e.1 = e'.1 ∧ m.par e.2 = some e'.2) ps qs) :
    qs.map Prod.fst = ps.map Prod.fst := by
  induction h with
  | nil => rfl
  | cons h _ ih => simp [h.1, ih]

/-- Pickling a context whose parameters refer to it. -/
theorem pickleContext_inv {g : Graph α} (h₀ : Separate g.w) {c : ℕ} {m : Memo}
    (hm : m.ctx c = none) (hp : ∀ x, m.par x = none)
    (hb : ∀ e ∈ (g.ctx c).params, e.2 < g.w.no ∧ g.owner e.2 = some c) (f : ℕ) :
    ∃ g' m', pickleContext (f + 5) g m c = .ok (g', m', g.nx) ∧ Inv g c g.nx g' m'
      ∧ g'.nx = g.nx + 1
      ∧ ∃ qs, g'.ctx g.nx = { g.ctx c with params := qs }
        ∧ List.Forall₂ (fun e e' : List Char × ℕ => e.1 = e'.1 ∧ m'.par e.2 = some e'.2)
          (g.ctx c).params qs := by
  have i : Inv g c g.nx g.newCtx.1 { m with ctx := Function.update m.ctx c (some g.nx) } := by
    refine ⟨newCtx_ext g, h₀, Function.update_self .., ?_, ?_⟩
    · intro p q h
      rw [show ({ m with ctx := Function.update m.ctx c (some g.nx) } : Memo).par p = m.par p from rfl,
        hp] at h
      cases h
    · intro p p' q h
      rw [show ({ m with ctx := Function.update m.ctx c (some g.nx) } : Memo).par p = m.par p from rfl,
        hp] at h
      cases h
  obtain ⟨g', m', qs, e1, i1, x1, a1, _, _, d1, n1⟩ := pickleDict_inv h₀ f (g.ctx c).params i hb
  refine ⟨{ g' with ctx := Function.update g'.ctx g.nx { g.ctx c with params := qs } }, m', ?_, ?_, ?_,
    qs, ?_, a1⟩
  · unfold pickleContext
    simp only [hm]
    rw [show g.newCtx.2 = g.nx from rfl, e1]
  · refine ⟨⟨i1.ext.nc, i1.ext.no, i1.ext.nx, i1.ext.obj, i1.ext.cell, i1.ext.name, i1.ext.owner,
      i1.ext.grad, ?_, i1.ext.new⟩, i1.sep, i1.memo, ?_, i1.inj⟩
    · intro x hx
      exact (Function.update_of_ne (Nat.ne_of_lt hx) _ _).trans (i1.ext.ctx x hx)
    · intro p q h
      have := i1.done p q h
      exact ⟨this.ge, this.lt, this.tensor, this.grad, this.name, this.owner⟩
  · exact n1
  · exact Function.update_self ..

/-- What holds in every reachable state. -/
structure WF (g : Graph α) : Prop where
  sep : Separate g.w
  bound : ∀ c, c < g.nx → ∀ e ∈ (g.ctx c).params,
    e.2 < g.w.no ∧ g.owner e.2 = some c ∧ g.name e.2 = some e.1
  prior : ∀ c, c < g.nx → ∀ e ∈ (g.ctx c).params, ∃ d, dictGet (g.ctx c).priors e.1 = some d
  keys : ∀ c, c < g.nx → ((g.ctx c).params.map Prod.fst).Nodup

theorem mem_of_dictGet {β : Type} {d : List (List Char × β)} {k : List Char} {v : β}
    (h : dictGet d k = some v) : (k, v) ∈ d := by
  induction d with
  | nil => cases h
  | cons e d ih =>
    obtain ⟨k', v'⟩ := e
    unfold dictGet at h
    by_cases hk : k' = k
    · simp only [hk, if_true, Option.some.injEq] at h
      subst h
      subst hk
      exact List.mem_cons_self ..
    · simp only [hk, if_false] at h
      exact List.mem_cons_of_mem _ (ih h)

/-- The new state when only contexts, or only values, are changed. -/
theorem WF.of_ext {g g' : Graph α} (h : WF g) (he : Ext g g') :
    ∀ c, c < g.nx → (∀ e ∈ (g'.ctx c).params,
      e.2 < g'.w.no ∧ g'.owner e.2 = some c ∧ g'.name e.2 = some e.1)
      ∧ (∀ e ∈ (g'.ctx c).params, ∃ d, dictGet (g'.ctx c).priors e.1 = some d)
      ∧ ((g'.ctx c).params.map Prod.fst).Nodup := by
  intro c hc
  rw [he.ctx c hc]
  refine ⟨?_, h.prior c hc, h.keys c hc⟩
  intro e hm
  obtain ⟨h1, h2, h3⟩ := h.bound c hc e hm
  exact ⟨lt_of_lt_of_le h1 he.no, (he.owner _ h1).trans h2, (he.name _ h1).trans h3⟩

/-- What pickling a context of a well-formed state gives. -/
theorem pickleContext_wf {g : Graph α} (h : WF g) {c : ℕ} (hc : c < g.nx) (f : ℕ) :
    ∃ g' m', pickleContext (f + 5) g Memo.empty c = .ok (g', m', g.nx) ∧ Inv g c g.nx g' m'
      ∧ g'.nx = g.nx + 1 ∧ WF g'
      ∧ ∃ qs, g'.ctx g.nx = { g.ctx c with params := qs }
        ∧ List.Forall₂ (fun e e' : List Char × ℕ => e.1 = e'.1 ∧ m'.par e.2 = some e'.2)
          (g.ctx c).params qs := by
  obtain ⟨g', m', e1, i1, n1, qs, h1, h2⟩ := pickleContext_inv h.sep (m := Memo.empty) rfl
    (fun _ => rfl) (fun e he => ⟨(h.bound c hc e he).1, (h.bound c hc e he).2.1⟩) f
  have hq : ∀ e' ∈ qs, ∃ e ∈ (g.ctx c).params, e.1 = e'.1 ∧ m'.par e.2 = some e'.2 := by
    intro e' he'
    obtain ⟨i, hi, rfl⟩ := List.getElem_of_mem he'
    have hl := h2.length_eq
    exact ⟨(g.ctx c).params[i], List.getElem_mem _, (List.forall₂_iff_get.1 h2).2 i (by omega) hi⟩
  refine ⟨g', m', e1, i1, n1, ⟨i1.sep, ?_, ?_, ?_⟩, qs, h1, h2⟩
  · intro x hx e he
    by_cases hx' : x < g.nx
    · exact (h.of_ext i1.ext x hx').1 e he
    · have : x = g.nx := by omega
      subst this
      rw [h1] at he
      obtain ⟨e0, he0, hk, hm⟩ := hq e he
      have hd := i1.done _ _ hm
      refine ⟨hd.lt, hd.owner, ?_⟩
      rw [hd.name, (h.bound c hc e0 he0).2.2, hk]
  · intro x hx e he
    by_cases hx' : x < g.nx
    · exact (h.of_ext i1.ext x hx').2.1 e he
    · have : x = g.nx := by omega
      subst this
      rw [h1] at he ⊢
      obtain ⟨e0, he0, hk, hm⟩ := hq e he
      rw [← hk]
      exact h.prior c hc e0 he0
  · intro x hx
    by_cases hx' : x < g.nx
    · exact (h.of_ext i1.ext x hx').2.2
    · have : x = g.nx := by omega
      subst this
      rw [h1]
      exact (forall₂_keys h2) ▸ h.keys c hc

/-- What pickling a registered parameter of a well-formed state gives: the context is pickled first. -/
theorem pickleParameter_wf {g : Graph α} (h : WF g) {c : ℕ} (hc : c < g.nx) {k : List Char} {p : ℕ}
    (hp : dictGet (g.ctx c).params k = some p) (f : ℕ) :
    ∃ g' m' q, pickleParameter (f + 7) g Memo.empty p = .ok (g', m', q) ∧ Inv g c g.nx g' m'
      ∧ m'.par p = some q ∧ g'.nx = g.nx + 1 ∧ WF g'
      ∧ ∃ qs, g'.ctx g.nx = { g.ctx c with params := qs }
        ∧ List.Forall₂ (fun e e' : List Char × ℕ => e.1 = e'.1 ∧ m'.par e.2 = some e'.2)
          (g.ctx c).params qs := by
  obtain ⟨g1, m1, e1, i1, n1, w1, qs, h1, h2⟩ := pickleContext_wf h hc f
  obtain ⟨hlt, ho, hn⟩ := h.bound c hc _ (mem_of_dictGet hp)
  dsimp only at hlt ho hn
  have hq : ∃ q, m1.par p = some q := by
    obtain ⟨i, hi, he⟩ := List.getElem_of_mem (mem_of_dictGet hp)
    have := ((List.forall₂_iff_get.1 h2).2 i hi (by have := h2.length_eq; omega)).2
    rw [List.get_eq_getElem, he] at this
    exact ⟨_, this⟩
  obtain ⟨q, hq⟩ := hq
  obtain ⟨he, hs, a1, a2, a3, a4, a5, a6, a7, a8⟩ :=
    rebuild_ext g1 i1.sep (g.w.tensor p) (g.grad p) (g.name p) (some g.nx)
  refine ⟨(g1.rebuild (g.w.tensor p) (g.grad p) (g.name p) (some g.nx)).1, m1, q, ?_,
    ⟨i1.ext.trans he, hs, i1.memo, fun x y hxy => (i1.done x y hxy).ext he i1.sep, i1.inj⟩, hq,
    a8.trans n1, ⟨hs, ?_, ?_, ?_⟩, qs, (by rw [a7]; exact h1), h2⟩
  · unfold pickleParameter
    rw [show Memo.empty.par p = none from rfl, ho]
    dsimp only
    unfold pickleOwner
    rw [e1]
    dsimp only
    rw [hq]
  · intro x hx
    exact (w1.of_ext he x (a8 ▸ hx)).1
  · intro x hx
    exact (w1.of_ext he x (a8 ▸ hx)).2.1
  · intro x hx
    exact (w1.of_ext he x (a8 ▸ hx)).2.2

/-- The two kinds of outcomes of `named_parameter`. -/
theorem named_cases (w : World α) (c : Context α) (k : List Char) (p : Prior α) (draw : ℕ → α) :
    ((c.named w k p draw).1 = w ∧ (c.named w k p draw).2.1.params = c.params
      ∧ ∀ k', (dictGet c.priors k').isSome → (dictGet (c.named w k p draw).2.1.priors k').isSome)
    ∨ (dictGet c.priors k = none ∧ ∃ v, (c.named w k p draw).1 = w.newParam v
      ∧ (c.named w k p draw).2.1.params = dictSet c.params k w.no
      ∧ (c.named w k p draw).2.1.priors = dictSet c.priors k p) := by
  have hset : ∀ k', (dictGet c.priors k').isSome → (dictGet (dictSet c.priors k p) k').isSome := by
    intro k' h'
    by_cases hk : k' = k
    · subst hk
      rw [dictGet_set_self]; rfl
    · rw [dictGet_set_ne _ _ hk]
      exact h'
  unfold Context.named
  cases hb : c.batch with
  | none => exact Or.inl ⟨rfl, rfl, fun _ h => h⟩
  | some b =>
    dsimp only
    cases hp : dictGet c.priors k with
    | some q =>
      left
      dsimp only
      split
      · exact ⟨rfl, rfl, fun _ h => h⟩
      · split <;> exact ⟨rfl, rfl, fun _ h => h⟩
    | none =>
      dsimp only
      split
      · exact Or.inl ⟨rfl, rfl, hset⟩
      · right
        refine ⟨rfl, ⟨b ++ p.eventShape, (List.range (b ++ p.eventShape).prod).map draw⟩, ?_⟩
        split
        · exact ⟨rfl, rfl, rfl⟩
        · exact ⟨rfl, rfl, rfl⟩

/-- Registering a parameter. -/
theorem register_wf {g : Graph α} (h : WF g) {c : ℕ} (hc : c < g.nx) (k : List Char) (p : Prior α)
    (draw : ℕ → α) : WF (g.register c k p draw).1 := by
  have hnew : ∀ v : Tens α, Separate (g.w.newParam v) := fun v =>
    (rebuild_ext g h.sep v false none none).2.1
  rcases named_cases g.w (g.ctx c) k p draw with ⟨h1, h2, h3⟩ | ⟨h0, v, h1, h2, h3⟩
  · have hno : ((g.ctx c).named g.w k p draw).1.no = g.w.no := by rw [h1]
    have er : (g.register c k p draw).1
        = { g with ctx := Function.update g.ctx c ((g.ctx c).named g.w k p draw).2.1 } := by
      simp only [register, if_true, h1]
    rw [er]
    have hpar : ∀ x, (Function.update g.ctx c ((g.ctx c).named g.w k p draw).2.1 x).params
        = (g.ctx x).params := by
      intro x
      by_cases hx : x = c
      · subst hx; rw [Function.update_self, h2]
      · rw [Function.update_of_ne hx]
    refine ⟨h.sep, ?_, ?_, ?_⟩
    · intro x hx e he
      dsimp only at he
      rw [hpar] at he
      exact h.bound x hx e he
    · intro x hx e he
      dsimp only at he ⊢
      rw [hpar] at he
      obtain ⟨d, hd⟩ := h.prior x hx e he
      by_cases hxc : x = c
      · subst hxc
        rw [Function.update_self]
        exact Option.isSome_iff_exists.1 (h3 e.1 (by rw [hd]; rfl))
      · rw [Function.update_of_ne hxc]
        exact ⟨d, hd⟩
    · intro x hx
      dsimp only
      rw [hpar]
      exact h.keys x hx
  · have hno : ((g.ctx c).named g.w k p draw).1.no ≠ g.w.no := by
      rw [h1]
      exact Nat.succ_ne_self _
    have er : (g.register c k p draw).1
        = { w := g.w.newParam v
            name := Function.update g.name g.w.no (some k)
            owner := Function.update g.owner g.w.no (some c)
            grad := Function.update g.grad g.w.no false
            ctx := Function.update g.ctx c ((g.ctx c).named g.w k p draw).2.1
            nx := g.nx } := by
      rw [h1] at hno
      simp only [register, h1, setContext, setName, if_neg hno]
    rw [er]
    have hk : k ∉ (g.ctx c).params.map Prod.fst := by
      intro hm
      obtain ⟨e, he, rfl⟩ := List.mem_map.1 hm
      obtain ⟨d, hd⟩ := h.prior c hc e he
      rw [h0] at hd
      cases hd
    have hset : dictSet (g.ctx c).params k g.w.no = (g.ctx c).params ++ [(k, g.w.no)] :=
      dictSet_new _ hk
    have hold : ∀ x, x < g.nx → ∀ e ∈ (g.ctx x).params,
        e.2 < g.w.no + 1 ∧ Function.update g.owner g.w.no (some c) e.2 = some x
          ∧ Function.update g.name g.w.no (some k) e.2 = some e.1 := by
      intro x hx e he
      obtain ⟨b1, b2, b3⟩ := h.bound x hx e he
      rw [Function.update_of_ne (Nat.ne_of_lt b1), Function.update_of_ne (Nat.ne_of_lt b1)]
      exact ⟨by omega, b2, b3⟩
    refine ⟨hnew v, ?_, ?_, ?_⟩
    · intro x hx e he
      dsimp only at he ⊢
      by_cases hxc : x = c
      · subst hxc
        rw [Function.update_self, h2, hset, List.mem_append] at he
        rcases he with he | he
        · exact hold x hx e he
        · rw [List.mem_singleton] at he
          subst he
          dsimp only
          rw [Function.update_self, Function.update_self]
          exact ⟨Nat.lt_succ_self _, rfl, rfl⟩
      · rw [Function.update_of_ne hxc] at he
        exact hold x hx e he
    · intro x hx e he
      dsimp only at he ⊢
      by_cases hxc : x = c
      · subst hxc
        rw [Function.update_self, h2, hset, List.mem_append] at he
        rw [Function.update_self, h3]
        by_cases hke : e.1 = k
        · rw [hke, dictGet_set_self]
          exact ⟨p, rfl⟩
        · rw [dictGet_set_ne _ _ hke]
          rcases he with he | he
          · exact h.prior x hx e he
          · rw [List.mem_singleton] at he
            subst he
            exact absurd rfl hke
      · rw [Function.update_of_ne hxc] at he ⊢
        exact h.prior x hx e he
    · intro x hx
      dsimp only
      by_cases hxc : x = c
      · subst hxc
        rw [Function.update_self, h2]
        exact dictSet_nodup (h.keys x hx) _ _
      · rw [Function.update_of_ne hxc]
        exact h.keys x hx

theorem wf_of_made {g : Graph α} (h : Spec.Made g) : WF g := by
  induction h with
  | empty g h1 h2 =>
    exact ⟨⟨fun p hp => absurd hp (by omega), fun p q hp => absurd hp (by omega)⟩,
      fun c hc => absurd hc (by omega), fun c hc => absurd hc (by omega),
      fun c hc => absurd hc (by omega)⟩
  | @newCtx g _ ih =>
    have key : ∀ c, c < g.newCtx.1.nx → c < g.nx ∨ (g.newCtx.1.ctx c).params = [] := by
      intro c hc
      have hc : c < g.nx + 1 := hc
      by_cases hx : c < g.nx
      · exact Or.inl hx
      · right
        have : c = g.nx := by omega
        subst this
        simp [Graph.newCtx]
    have hs : Separate g.newCtx.1.w := ih.sep
    refine ⟨hs, ?_, ?_, ?_⟩
    · intro c hc
      rcases key c hc with hx | hx
      · exact (ih.of_ext (newCtx_ext g) c hx).1
      · rw [hx]; intro e he; cases he
    · intro c hc
      rcases key c hc with hx | hx
      · exact (ih.of_ext (newCtx_ext g) c hx).2.1
      · rw [hx]; intro e he; cases he
    · intro c hc
      rcases key c hc with hx | hx
      · exact (ih.of_ext (newCtx_ext g) c hx).2.2
      · rw [hx]; exact List.nodup_nil
  | @setBatch g c b _ hc ih =>
    have h1 : ∀ x, ((g.setBatch c b).1.ctx x).params = (g.ctx x).params
        ∧ ((g.setBatch c b).1.ctx x).priors = (g.ctx x).priors := by
      intro x
      by_cases hx : x = c
      · subst hx
        simp only [Graph.setBatch, Function.update_self, Context.setBatchShape]
        split
        · exact ⟨rfl, rfl⟩
        · split <;> exact ⟨rfl, rfl⟩
      · simp only [Graph.setBatch, Function.update_of_ne hx, and_self]
    refine ⟨ih.sep, ?_, ?_, ?_⟩
    · intro x hx e he
      rw [(h1 x).1] at he
      exact ih.bound x hx e he
    · intro x hx e he
      rw [(h1 x).1] at he
      rw [(h1 x).2]
      exact ih.prior x hx e he
    · intro x hx
      rw [(h1 x).1]
      exact ih.keys x hx
  | register c k p draw _ hc ih => exact register_wf ih hc k p draw
  | write p data _ hp ih => exact ⟨⟨ih.sep.lt, ih.sep.inj⟩, ih.bound, ih.prior, ih.keys⟩
  | pickleContext f c d m _ hc hf he ih =>
    obtain ⟨f, rfl⟩ := Nat.exists_eq_add_of_le' hf
    obtain ⟨g1, m1, e1, _, _, w1, _⟩ := pickleContext_wf ih hc f
    rw [e1] at he
    cases he
    exact w1
  | pickleParameter f c k p q m _ hc hp hf he ih =>
    obtain ⟨f, rfl⟩ := Nat.exists_eq_add_of_le' hf
    obtain ⟨g1, m1, q1, e1, _, _, _, w1, _⟩ := pickleParameter_wf ih hc hp f
    rw [e1] at he
    cases he
    exact w1

end Verif.Ctx.Graph
