import Verif.Types.Model
/-!
# What a type in the heap stands for

A type in the heap stands for a possibly infinite tree: a variable that has a value is the same as
its value, and an abstract type whose package is transparent is the same as the type inside.  Types
are the same if at every path from the root both trees have the same label, or both have nothing.
-/
namespace Verif.Types

/-- What can be seen at a place of a tree. -/
inductive Label where
  | data (datatype : DataKind) (names : List Name)
  | func
  | poly (kind : Option Kind)
  | polyApply
  | package (path : List Name)
  | abstract
  /-- a variable without value that is not bound in the tree -/
  | free (v : Ptr)
  /-- the variable of the `i`th enclosing `poly` -/
  | bound (i : Nat)
  | type
  deriving DecidableEq

/-- The label of a type, given the variables of the enclosing `poly`s. -/
def label (h : Heap) (binders : List Ptr) (p : Ptr) : Node → Label
  | .data dt fields => .data dt (fields.map (·.1))
  | .func _ _ => .func
  | .poly arg _ => .poly (match h[arg]? with
    | some (.var kind _) => some kind
    | _ => none)
  | .polyApply _ _ => .polyApply
  | .package path _ => .package path
  | .abstract _ _ => .abstract
  | .var _ _ => match binders.idxOf? p with
    | some i => .bound i
    | none => .free p
  | .type _ => .type

def Node.children : Node → List Ptr
  | .data _ fields => fields.map (·.2)
  | .func a r => [a, r]
  | .poly _ b => [b]
  | .polyApply p a => [p, a]
  | .package _ _ => []
  | .abstract p t => [p, t]
  | .var _ _ => []
  | .type t => [t]

def Node.binders : Node → List Ptr
  | .poly a _ => [a]
  | _ => []

/-- The type inferred for a variable. -/
def assigned (σ : Vars) (p : Ptr) : Option Ptr := (σ.find? (fun v => v.1 = p)).bind (·.2)

/-- A type that is neither a variable that stands for another type nor a transparent abstract
type. -/
structure Final (h : Heap) (σ : Vars) (p : Ptr) : Prop where
  node : ∃ n, h[p]? = some n
  noValue : ∀ k v, h[p]? ≠ some (.var k (some v))
  notInferred : ∀ k, h[p]? = some (.var k none) → assigned σ p = none
  opaq : ∀ q t path, h[p]? = some (.abstract q t) → h[q]? ≠ some (.package path false)

/-- The type at `t` stands for the type at `p`.  `σ` are the types inferred for variables. -/
inductive Is (h : Heap) (σ : Vars) (p : Ptr) : Ptr → Prop where
  | here : Final h σ p → Is h σ p p
  | value {t k v} : h[t]? = some (.var k (some v)) → Is h σ p v → Is h σ p t
  | inferred {t k v} : h[t]? = some (.var k none) → assigned σ t = some v → Is h σ p v → Is h σ p t
  | unwrap {t q u path} : h[t]? = some (.abstract q u) → h[q]? = some (.package path false) → Is h σ p u → Is h σ p t

/-- In the tree of `t` the label at the path is `l`. -/
inductive At (h : Heap) (σ : Vars) : List Ptr → Ptr → List Nat → Label → Prop where
  | root {ρ t p n} : Is h σ p t → h[p]? = some n → At h σ ρ t [] (label h ρ p n)
  | child {ρ t p n i c path l} : Is h σ p t → h[p]? = some n → n.children[i]? = some c →
      At h σ (n.binders ++ ρ) c path l → At h σ ρ t (i :: path) l

/-- The trees are the same. -/
def SameType (h : Heap) (σ : Vars) (a b : Ptr) : Prop := ∀ path l, At h σ [] a path l ↔ At h σ [] b path l

/-- A set of types that are not polymorphic, closed under the parts of types.  Every cycle of
variables and transparent abstract types contains some other type. -/
structure Mono (h : Heap) (σ : Vars) (S : Ptr → Prop) : Prop where
  node : ∀ {t}, S t → ∃ n, h[t]? = some n
  noPoly : ∀ {t a b}, S t → h[t]? ≠ some (.poly a b)
  noApply : ∀ {t a b}, S t → h[t]? ≠ some (.polyApply a b)
  child : ∀ {t n c}, S t → h[t]? = some n → c ∈ n.children → S c
  value : ∀ {t k v}, S t → h[t]? = some (.var k (some v)) → S v
  inferred : ∀ {t v}, S t → assigned σ t = some v → S v ∧ ∃ k, h[t]? = some (.var k none)
  package : ∀ {t q u}, S t → h[t]? = some (.abstract q u) → ∃ path opaq, h[q]? = some (.package path opaq)
  proper : ∀ {t}, S t → ∃ p, Is h σ p t

end Verif.Types
