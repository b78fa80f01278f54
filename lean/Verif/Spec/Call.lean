import Verif.Spec.Basic
import Verif.Model.Call

/-! # Passing arguments

When a list of positional and a dictionary of keyword arguments fits a list of parameters that all have defaults,
and which parameter gets which value. -/

set_option autoImplicit false

namespace PyMarket

/-- The arguments fit: every positional argument has a parameter, and every keyword names a parameter after those. -/
def Spec.Accepts {α : Type} (params : List String) (args : List α) (kw : List (String × α)) : Prop :=
  args.length ≤ params.length ∧ ∀ k v, (k, v) ∈ kw → ∃ i, args.length ≤ i ∧ params[i]? = some k

/-- The parameter `k` gets the value `v`, by position or by name. -/
def Spec.Gets {α : Type} (params : List String) (args : List α) (kw : List (String × α)) (k : String) (v : α) : Prop :=
  (∃ i : ℕ, params[i]? = some k ∧ args[i]? = some v) ∨ (k, v) ∈ kw

/-- The keywords of the call. -/
def Spec.Named {α : Type} (kw : List (String × α)) (k : String) : Prop := ∃ v, (k, v) ∈ kw

/-- Keywords that clash with parameters of the functions between the caller and the algorithm. -/
def Spec.Clash {α : Type} (name : String) (kw : List (String × α)) : Prop :=
  Named kw "self" ∨ Named kw "algo" ∨ Named kw "bids" ∨ (name = "huang" ∧ Named kw "merge")

/-- The keywords that reach the algorithm. -/
def Spec.Rest {α : Type} (kw : List (String × α)) : List (String × α) := kw.filter (fun p => !(p.1 == "merge"))

/-- The truth value of a Python object: zero, `False` and `None` are false, other numbers, `True` and generators are
true. -/
inductive Spec.Truth : PyArg → Bool → Prop where
  | zero : Truth (.num 0) false
  | number (q : ℚ) (h : q ≠ 0) : Truth (.num q) true
  | no : Truth (.flag false) false
  | yes : Truth (.flag true) true
  | none : Truth .none false
  | generator (g : Gen) : Truth (.gen g) true
  | empty : Truth (.obj false) false
  | other : Truth (.obj true) true

/-- The objects one can compute with; `True` counts as 1 and `False` as 0. -/
inductive Spec.AsNumber : PyArg → ℚ → Prop where
  | number (q : ℚ) : AsNumber (.num q) q
  | yes : AsNumber (.flag true) 1
  | no : AsNumber (.flag false) 0

end PyMarket
