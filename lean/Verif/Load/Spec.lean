import Verif.Load.Model
/- What the modules needed by a program are, independently of the loader. -/
namespace Verif.Load
variable {P F : Type} [DecidableEq P]

/-- Module `p` exists, parses, and refers to `q`. -/
def Dep (find : P → FileResult P F) (p q : P) : Prop := ∃ f ds, find p = .ok f ds ∧ q ∈ ds

/-- `q` is needed, transitively, by `p`. -/
inductive Needs (find : P → FileResult P F) (p : P) : P → Prop where
  | refl : Needs find p p
  | step {q r} : Needs find p q → Dep find q r → Needs find p r

/-- `q` is needed by `p` through at least one reference. -/
inductive Needs1 (find : P → FileResult P F) (p : P) : P → Prop where
  | one {q} : Dep find p q → Needs1 find p q
  | step {q r} : Needs1 find p q → Dep find q r → Needs1 find p r

def Usable (find : P → FileResult P F) (p : P) : Prop := ∃ f ds, find p = .ok f ds

/-- Some needed module is missing or does not parse, or is part of a dependency cycle. -/
def Broken (find : P → FileResult P F) (root : P) : Prop :=
  ∃ p, Needs find root p ∧ (¬ Usable find p ∨ Needs1 find p p)

/-- Only finitely many modules are involved. -/
def FiniteFrom (find : P → FileResult P F) (root : P) : Prop :=
  ∃ univ : List P, ∀ p, Needs find root p → p ∈ univ

end Verif.Load
