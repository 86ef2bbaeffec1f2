import Verif.Unused.Model
/-
What the warnings should be: C21.
-/
namespace Verif.Unused
open Types (Name Kind DataKind)
open Elab

/-- The types given in a let. -/
def givenTypes : Binds → List Expr
  | .nil => []
  | .kind _ _ _ rest => givenTypes rest
  | .type t _ _ rest => t :: givenTypes rest

/-- The parts of an expression that have the same variables in scope. -/
def parts : Expr → List Expr
  | .typeOf e => [e]
  | .var _ => []
  | .letE bs _ => givenTypes bs
  | .dataType _ fields => fields.toList.map (·.2)
  | .dataAccess object _ => [object]
  | .structImplicit args => args.toList.map (·.2)
  | .structCopy src args => src :: args.toList.map (·.2)
  | .unionValue type _ arg => [type, arg]
  | .select condition choices default => condition :: (choices.toList.map (·.2) ++ default.toOption.toList)
  | .funcType arg rtype => [arg, rtype]
  | .func _ type _ => [type]
  | .polyValue _ _ _ => []
  | .polyApply poly arg => [poly, arg]
  | .list func args => func :: args.toList
  | .literal func _ => [func]
  | .modulePath _ => []
  | .packageType _ => []
  | .abstractCast package target value => [package, target, value]
  | .abstractAccess value => [value]
  | .apply misc args _ => misc :: args.toList

/-- Which binding of a let a name in its scope refers to. -/
def Bound (bs : List Binding) (i : Nat) (x : Name) : Prop :=
  (∃ b, bs[i]? = some b ∧ b.name = x) ∧ ∀ (j : Nat) b, i < j → bs[j]? = some b → b.name ≠ x

mutual
/-- The expression uses a variable `x` bound outside: not counting those bindings within it that are
not used themselves. -/
inductive Uses : Name → Expr → Prop where
  | var {x} : Uses x (.var x)
  | part {x e c} : c ∈ parts e → Uses x c → Uses x e
  | func {x y t b} : Uses x b → x ≠ y → Uses x (.func y t b)
  | poly {x y k b} : Uses x b → x ≠ y → Uses x (.polyValue y k b)
  | body {x bs b} : Uses x b → (∀ d ∈ bs.toList, d.name ≠ x) → Uses x (.letE bs b)
  | binding {x bs b i d} : BindingUsed bs.toList b i → bs.toList[i]? = some d → Uses x d.expr → (∀ d ∈ bs.toList, d.name ≠ x) → Uses x (.letE bs b)
/-- The binding of a let is used: its name begins with an underscore, or it is used by the body or by
a used binding. -/
inductive BindingUsed : List Binding → Expr → Nat → Prop where
  | underscore {bs b i d} : bs[i]? = some d → d.name.str.head? = some '_' → BindingUsed bs b i
  | body {bs b i x} : Uses x b → Bound bs i x → BindingUsed bs b i
  | binding {bs b i x j d} : BindingUsed bs b j → bs[j]? = some d → Uses x d.expr → Bound bs i x → BindingUsed bs b i
end

/-- The expression within an expression at a place, not counting those in unused bindings. -/
inductive At : Expr → List Nat → Expr → Prop where
  | here {e} : At e [] e
  | part {e k c p e'} : (parts e)[k]? = some c → At c p e' → At e (0 :: k :: p) e'
  | func {y t b p e'} : At b p e' → At (.func y t b) (1 :: p) e'
  | poly {y k b p e'} : At b p e' → At (.polyValue y k b) (1 :: p) e'
  | body {bs b p e'} : At b p e' → At (.letE bs b) (1 :: p) e'
  | binding {bs b i d p e'} : BindingUsed bs.toList b i → bs.toList[i]? = some d → At d.expr p e' → At (.letE bs b) (2 :: i :: p) e'

/-- There should be a warning. -/
def Unused (e : Expr) : Warning → Prop
  | .binding p i x => ∃ bs b d, At e p (.letE bs b) ∧ bs.toList[i]? = some d ∧ d.name = x ∧ ¬ BindingUsed bs.toList b i
  | .argument p x => ∃ t b, At e p (.func x t b) ∧ x.str.head? ≠ some '_' ∧ ¬ Uses x b

end Verif.Unused
