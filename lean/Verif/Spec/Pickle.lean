import Verif.Model.Pickle

/-!
# What a copy of a context or a parameter has to be

States that programs can reach, and what it means that a context (a parameter) of one state is a copy of
a context (a parameter) of another one.
-/

namespace Verif.Spec

open Verif.Ctx

variable {α : Type}

/-- The states reached by creating contexts, setting batch shapes, registering parameters, changing
values, and reading pickles of contexts and of registered parameters. -/
inductive Made : Graph α → Prop
  | empty (g : Graph α) : g.w.no = 0 → g.nx = 0 → Made g
  | newCtx {g : Graph α} : Made g → Made g.newCtx.1
  | setBatch {g : Graph α} (c : ℕ) (b : List ℕ) : Made g → c < g.nx → Made (g.setBatch c b).1
  | register {g : Graph α} (c : ℕ) (k : List Char) (p : Prior α) (draw : ℕ → α) : Made g → c < g.nx →
      Made (g.register c k p draw).1
  | write {g : Graph α} (p : ℕ) (data : List α) : Made g → p < g.w.no →
      Made { g with w := g.w.write p data }
  | pickleContext {g g' : Graph α} (f c d : ℕ) (m : Graph.Memo) : Made g → c < g.nx → 5 ≤ f →
      g.pickleContext f Graph.Memo.empty c = .ok (g', m, d) → Made g'
  | pickleParameter {g g' : Graph α} (f c : ℕ) (k : List Char) (p q : ℕ) (m : Graph.Memo) : Made g →
      c < g.nx → dictGet (g.ctx c).params k = some p → 7 ≤ f →
      g.pickleParameter f Graph.Memo.empty p = .ok (g', m, q) → Made g'

/-- Parameter `q` of `g'` is a new object with the values, the flag `requires_grad`, the name and the
prior of parameter `p` of `g`. -/
structure SamePar (g g' : Graph α) (p q : ℕ) : Prop where
  new : g.w.no ≤ q ∧ q < g'.w.no
  values : g'.w.tensor q = g.w.tensor p
  grad : g'.grad q = g.grad p
  name : g'.name q = g.name p
  prior : ∃ d, g.prior p = .ok (some d) ∧ g'.prior q = .ok (some d)

/-- Context `d` of `g'` is a new object with the settings of context `c` of `g`, and with a copy of every
parameter under the same name, which belongs to `d`. -/
structure SameCtx (g g' : Graph α) (c d : ℕ) : Prop where
  new : g.nx ≤ d ∧ d < g'.nx
  priors : (g'.ctx d).priors = (g.ctx c).priors
  shapes : (g'.ctx d).shapes = (g.ctx c).shapes
  ushapes : (g'.ctx d).ushapes = (g.ctx c).ushapes
  batch : (g'.ctx d).batch = (g.ctx c).batch
  verify : (g'.ctx d).verify = (g.ctx c).verify
  names : (g'.ctx d).params.map Prod.fst = (g.ctx c).params.map Prod.fst
  params : ∀ k p, dictGet (g.ctx c).params k = some p →
    ∃ q, dictGet (g'.ctx d).params k = some q ∧ SamePar g g' p q ∧ g'.owner q = some d

/-- Everything that existed in `g` is the same in `g'`. -/
structure Untouched (g g' : Graph α) : Prop where
  ctx : ∀ c, c < g.nx → g'.ctx c = g.ctx c
  values : ∀ p, p < g.w.no → g'.w.tensor p = g.w.tensor p
  name : ∀ p, p < g.w.no → g'.name p = g.name p
  owner : ∀ p, p < g.w.no → g'.owner p = g.owner p
  grad : ∀ p, p < g.w.no → g'.grad p = g.grad p

/-- Writing the values of one parameter changes no other one. -/
def OwnValues (g : Graph α) : Prop :=
  ∀ p q data, p < g.w.no → q < g.w.no → p ≠ q → (g.w.write p data).tensor q = g.w.tensor q

end Verif.Spec
