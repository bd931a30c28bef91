import Verif.Model.Resampling

/-!
# Specification of named histories

A store is two partial maps from names: fixed tuples, and growing histories with a window and
everything that was ever recorded. It does not use the model of the container.
-/

namespace Verif.Spec

/-- The last `k` entries, all of them without a window. -/
def lastN {α : Type} (k : Option ℕ) (xs : List α) : List α :=
  match k with
  | none => xs
  | some k => (xs.reverse.take k).reverse

/-- A store. -/
structure Store (T : Type) where
  fixed : List Char → Option (List T)
  growing : List Char → Option (Option ℕ × List T)

/-- What a user sees under a name. -/
def Store.look {T : Type} (s : Store T) (n : List Char) : Option (List T) :=
  (s.fixed n).or ((s.growing n).map fun p => lastN p.1 p.2)

/-- Operations of a user. -/
inductive Op (T : Type) where
  | tuple (name : List Char) (values : List T)
  | deque (name : List Char) (values : List T) (window : Option ℕ)
  | append (name : List Char) (x : T)
  | delete (name : List Char)
  | assign (name : List Char) (values : List T)

/-- Effect of an operation and whether it is accepted. -/
def Store.step {T : Type} (s : Store T) : Op T → Store T × Bool
  | .tuple n v => ({ s with fixed := Function.update s.fixed n (some v) }, true)
  | .deque n v w => ({ s with growing := Function.update s.growing n (some (w, v)) }, true)
  | .append n x =>
    match s.fixed n, s.growing n with
    | none, some (w, v) => ({ s with growing := Function.update s.growing n (some (w, v ++ [x])) }, true)
    | _, _ => (s, false)
  | .delete n =>
    match s.fixed n, s.growing n with
    | some _, _ => ({ s with fixed := Function.update s.fixed n none }, true)
    | none, some _ => ({ s with growing := Function.update s.growing n none }, true)
    | none, none => (s, false)
  | .assign _ _ => (s, false)

/-- Effects of a list of operations. -/
def Store.run {T : Type} (s : Store T) : List (Op T) → Store T × List Bool
  | [] => (s, [])
  | o :: os =>
    let (s', b) := s.step o
    let (s'', bs) := s'.run os
    (s'', b :: bs)

end Verif.Spec
