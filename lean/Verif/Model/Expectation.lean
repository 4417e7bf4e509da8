import Mathlib.Algebra.BigOperators.Ring.Finset
import Mathlib.Data.Real.Basic
import Mathlib.Algebra.BigOperators.Group.Finset.Sigma
import Mathlib.Tactic.Ring
import Verif.Model.Plate

/-!
# Sampling programs and expectations

The specification side of the statements about expectations.  A program draws discrete random variables one
after another.  Variable `d` is drawn once for every joint index of its plates `d.idx` (those larger than
one), independently given the variables drawn before; the law of an entry is a function of the values the
earlier variables have at that index.  `expect` is the expectation over everything that is drawn.
`expectOne` draws every variable once: it is the expectation in the statistical model that the program
samples from.
-/

namespace Storch

/-- A discrete random variable of the program.
No Python counterpart: the specification of what sampling/method.py:62-70 draws. -/
structure Decl (E V : Type _) where
  name : String
  /-- the plates of the variable that are larger than one, with their sizes -/
  idx : List (String × Nat)
  /-- the variables that its distribution is computed from -/
  deps : List String
  support : Finset V
  /-- the probability of a value, given the parameters and the values of the variables before -/
  mass : E → (String → V) → V → ℝ

/-- All drawn values: of each variable, at each joint index.
No Python counterpart: the specification of what sampling/method.py:62-70 draws. -/
abbrev Draws (V : Type _) := String → List Nat → V

/-- Independent draws of the entries `ks`.
No Python counterpart: specification of the average over the draws of sampling/method.py:70. -/
def expectEntries {V : Type _} (supp : Finset V) (law : List Nat → V → ℝ) :
    List (List Nat) → ((List Nat → V) → ℝ) → (List Nat → V) → ℝ
  | [], F, x => F x
  | k :: ks, F, x => ∑ v ∈ supp, law k v * expectEntries supp law ks F (Function.update x k v)

/-- The position given by a joint index; positions along other plates are zero.
No Python counterpart: specification side of the plates of tensor.py:24-37. -/
def posOf : List (String × Nat) → List Nat → String → Nat
  | (p, _) :: ps, i :: is, s => if s = p then i else posOf ps is s
  | _, _, _ => 0

variable {E V : Type _}

/-- The values the variables of the program have at a position.
No Python counterpart: specification side.  Checked against runs of sampling/method.py:121-150. -/
def trajectory (prog : List (Decl E V)) (ω : Draws V) (ι : String → Nat) (s : String) : V :=
  match prog.find? (fun d => d.name == s) with
  | some d => ω s (d.idx.map (fun p => ι p.1))
  | none => ω s []

/-- The expectation over all draws of `ds`; `prog` is the whole program.
No Python counterpart: specification of the average over the draws of sampling/method.py:70. -/
def expect (prog : List (Decl E V)) (θ : E) : List (Decl E V) → (Draws V → ℝ) → Draws V → ℝ
  | [], F, ω => F ω
  | d :: ds, F, ω =>
    expectEntries d.support (fun i v => d.mass θ (trajectory prog ω (posOf d.idx i)) v)
      (allIdx (d.idx.map Prod.snd))
      (fun x => expect prog θ ds F (Function.update ω d.name x)) (ω d.name)

/-- The expectation in the statistical model: every variable is drawn once.
No Python counterpart: specification side: the model a program of calls to method.py:93-193 describes. -/
def expectOne (mass : Decl E V → (String → V) → V → ℝ) :
    List (Decl E V) → ((String → V) → ℝ) → (String → V) → ℝ
  | [], F, ρ => F ρ
  | d :: ds, F, ρ => ∑ v ∈ d.support, mass d ρ v * expectOne mass ds F (Function.update ρ d.name v)

/-- A program: names are unique, every variable depends on earlier ones only and has their plates, and the
probabilities of its values sum to one.
No Python counterpart: specification side: the model a program of calls to method.py:93-193 describes. -/
structure Program (prog : List (Decl E V)) (θ : E) : Prop where
  names : (prog.map Decl.name).Nodup
  idx : ∀ d ∈ prog, (d.idx.map Prod.fst).Nodup
  earlier : ∀ l1 d l2, prog = l1 ++ d :: l2 → ∀ s ∈ d.deps, s ∈ l1.map Decl.name
  nested : ∀ d ∈ prog, ∀ d' ∈ prog, d'.name ∈ d.deps → ∀ p ∈ d'.idx, p ∈ d.idx
  local' : ∀ d ∈ prog, ∀ θ' ρ ρ' v, (∀ s ∈ d.deps, ρ s = ρ' s) → d.mass θ' ρ v = d.mass θ' ρ' v
  normal : ∀ d ∈ prog, ∀ ρ, ∑ v ∈ d.support, d.mass θ ρ v = 1

end Storch
