import Verif.Safe.Types
import Verif.Safe.Typed
import Verif.Elab.Named
/-
The typing rules of the language, for expressions as they are written.  Types are read in a heap `H`
in which all packages are opaque: an abstract type is the same only as one of the same package with the same
type inside.  Which abstract types may be looked into is said by the rules for casts and abstract access.
There is no rule for polymorphic values.
-/
namespace Verif.Elab
open Types

/-- Field names with types. -/
abbrev Fields := List (Name × Ptr)

/-- The names in scope with their types, the innermost first. -/
abbrev Ctx := List (VarName × Ptr)

/-- The type `T` is an abstract type of that package, with the type `A` inside. -/
structure IsAbstract (H : Heap) (T : Ptr) (path : List Name) (A : Ptr) : Prop where
  node : ∃ p, H[T]? = some (.abstract p A) ∧ H[p]? = some (.package path true)

/-- For a type variable the type of a type, of a type of types if the kind is higher; nothing is known of other variables. -/
inductive OfLevel (H : Heap) : Nat → Ptr → Prop
  | zero {T} : OfLevel H 0 T
  | succ {l T U} : IsNode H T (.type U) → OfLevel H l U → OfLevel H (l + 1) T

/-- The variables of a let. -/
def letCtx (bs : List Binding) (Ts : List Ptr) (Γ : Ctx) : Ctx := ((bs.map fun b => VarName.normal b.name).zip Ts).reverse ++ Γ

mutual
/-- In a module of the package or module path `M`, with the names of `Γ` in scope, the expression has the type. -/
inductive HasTy (M : List Name) (H : Heap) : Ctx → Expr → Ptr → Prop
  /-- Types can be replaced by the same types. -/
  | conv {Γ e T T'} : HasTy M H Γ e T → SameType H [] T T' → HasTy M H Γ e T'
  /-- A type expression has the type of its type. -/
  | type {Γ e T V} : IsTy M H Γ e T → IsNode H V (.type T) → HasTy M H Γ e V
  | var {Γ x T} : typeIn Γ (.normal x) = some T → HasTy M H Γ (.var x) T
  | modulePath {Γ p T} : typeIn Γ (.module p) = some T → HasTy M H Γ (.modulePath p) T
  /-- The definitions are in scope of each other and of the body. -/
  | letE {Γ bs body Ts Ts' T} : BindsTy M H Γ (letCtx bs.toList Ts Γ) bs.toList Ts → All2 (SameType H []) Ts Ts' →
      HasTy M H (letCtx bs.toList Ts' Γ) body T → HasTy M H Γ (.letE bs body) T
  | structImplicit {Γ as Ts T} : HasTys M H Γ (as.toList.map (·.2)) Ts → IsNode H T (.data .struct ((as.toList.map (·.1)).zip Ts)) → (as.toList.map (·.1)).Nodup →
      HasTy M H Γ (.structImplicit as) T
  | structCopy {Γ src as S fs} : HasTy M H Γ src S → IsNode H S (.data .struct fs) → SetsTy M H Γ fs as.toList → HasTy M H Γ (.structCopy src as) S
  | unionValue {Γ t x a T fs S} : IsTy M H Γ t T → IsNode H T (.data .union fs) → (x, S) ∈ fs → HasTy M H Γ a S → HasTy M H Γ (.unionValue t x a) T
  | select {Γ c cs C fs T} : HasTy M H Γ c C → IsNode H C (.data .union fs) → ChoicesTy M H Γ false fs cs.toList T → HasTy M H Γ (.select c cs .none) T
  | selectDefault {Γ c cs d C fs T} : HasTy M H Γ c C → IsNode H C (.data .union fs) → ChoicesTy M H Γ true fs cs.toList T → HasTy M H Γ d T →
      HasTy M H Γ (.select c cs (.some d)) T
  | func {Γ x t b A R F} : IsTy M H Γ t A → HasTy M H ((.normal x, A) :: Γ) b R → IsNode H F (.func A R) → HasTy M H Γ (.func x t b) F
  /-- Application of a package to a type: an abstract type. -/
  | abstractType {Γ p a P T A V path} : IsTy M H Γ p P → IsNode H P (.package path true) → IsTy M H Γ a A → IsAbstract H T path A → IsNode H V (.type T) →
      HasTy M H Γ (.polyApply p a) V
  | list {Γ f as F L R e} : HasTy M H Γ f F → IsNode H F (.func L R) → IsList H L e → HasTys M H Γ as.toList (as.toList.map fun _ => e) → HasTy M H Γ (.list f as) R
  /-- The word is spelled with the names of fields that have the unit type. -/
  | literal {Γ f w F L R e fs ls} : HasTy M H Γ f F → IsNode H F (.func L R) → IsList H L e → IsNode H e (.data .union fs) → Spells (fs.map (·.1)) w ls →
      (∀ l ∈ ls, ∃ x S, fs[l]? = some (x, S) ∧ IsNode H S (.data .struct [])) → HasTy M H Γ (.literal f w) R
  /-- Casts, where that is allowed: between types that would be the same if the abstract types of the package were the types inside. -/
  | abstractCast {Γ p t v P q path T V} : IsTy M H Γ p P → Is H [] q P → H[q]? = some (.package path true) → belongsToPackage M path = true → IsTy M H Γ t T → HasTy M H Γ v V →
      SameType (H.set q (.package path false)) [] V T → HasTy M H Γ (.abstractCast p t v) T
  | abstractAccess {Γ v V a path T} : HasTy M H Γ v V → SameType H [] V a → IsAbstract H a path T → belongsToPackage M path = true → HasTy M H Γ (.abstractAccess v) T
  | dataAccess {Γ o x O dt fs S} : HasTy M H Γ o O → IsNode H O (.data dt fs) → (x, S) ∈ fs → HasTy M H Γ (.dataAccess o x) S
  | apply {Γ f as b F T} : HasTy M H Γ f F → ArgsTy M H Γ F as.toList T → HasTy M H Γ (.apply f as b) T
  | structValue {Γ m as T fs} : IsTy M H Γ m T → IsNode H T (.data .struct fs) → HasTys M H Γ as.toList (fs.map (·.2)) → HasTy M H Γ (.apply m as false) T
  | abstractValue {Γ m as a P path T A} : IsTy M H Γ m P → IsNode H P (.package path true) → belongsToPackage M path = true → as.toList = [a] → HasTy M H Γ a A → IsAbstract H T path A →
      HasTy M H Γ (.apply m as false) T
/-- The expression stands for the type. -/
inductive IsTy (M : List Name) (H : Heap) : Ctx → Expr → Ptr → Prop
  | typeOf {Γ e T} : HasTy M H Γ e T → IsTy M H Γ (.typeOf e) T
  | dataType {Γ dt fs Ts T} : FieldsTy M H Γ fs.toList Ts → (fs.toList.map (·.1)).Nodup → IsNode H T (.data dt Ts) → IsTy M H Γ (.dataType dt fs) T
  | funcType {Γ a r A R T} : IsTy M H Γ a A → IsTy M H Γ r R → IsNode H T (.func A R) → IsTy M H Γ (.funcType a r) T
  | packageType {Γ path T} : IsNode H T (.package path true) → IsTy M H Γ (.packageType path) T
  /-- An expression whose type is the type of a type. -/
  | expr {Γ e V T} : HasTy M H Γ e V → IsNode H V (.type T) → IsTy M H Γ e T
/-- Expressions with their types. -/
inductive HasTys (M : List Name) (H : Heap) : Ctx → List Expr → List Ptr → Prop
  | nil {Γ} : HasTys M H Γ [] []
  | cons {Γ e es T Ts} : HasTy M H Γ e T → HasTys M H Γ es Ts → HasTys M H Γ (e :: es) (T :: Ts)
/-- The bindings of a let: annotations in the scope outside, definitions in the scope with the variables. -/
inductive BindsTy (M : List Name) (H : Heap) : Ctx → Ctx → List Binding → List Ptr → Prop
  | nil {Γ Δ} : BindsTy M H Γ Δ [] []
  /-- A kind is given; a type variable has the type of a type. -/
  | kind {Γ Δ k x e bs T Ts} : HasTy M H Δ e T → OfLevel H (kindLevel k) T → BindsTy M H Γ Δ bs Ts → BindsTy M H Γ Δ (⟨.inl k, x, e⟩ :: bs) (T :: Ts)
  /-- A type is given. -/
  | type {Γ Δ t x e bs T Ts} : IsTy M H Γ t T → HasTy M H Δ e T → BindsTy M H Γ Δ bs Ts → BindsTy M H Γ Δ (⟨.inr t, x, e⟩ :: bs) (T :: Ts)
/-- The fields of a data type. -/
inductive FieldsTy (M : List Name) (H : Heap) : Ctx → List (Name × Expr) → Fields → Prop
  | nil {Γ} : FieldsTy M H Γ [] []
  | cons {Γ x e es T Ts} : IsTy M H Γ e T → FieldsTy M H Γ es Ts → FieldsTy M H Γ ((x, e) :: es) ((x, T) :: Ts)
/-- New values for some of the fields of a struct, in order. -/
inductive SetsTy (M : List Name) (H : Heap) : Ctx → Fields → List (Name × Expr) → Prop
  | nil {Γ} : SetsTy M H Γ [] []
  | set {Γ x T fs e as} : HasTy M H Γ e T → SetsTy M H Γ fs as → SetsTy M H Γ ((x, T) :: fs) ((x, e) :: as)
  | keep {Γ x T fs as} : SetsTy M H Γ fs as → SetsTy M H Γ ((x, T) :: fs) as
/-- The choices for the fields of a union, in order; some are left out only if there is a default. -/
inductive ChoicesTy (M : List Name) (H : Heap) : Ctx → Bool → Fields → List (Name × Expr) → Ptr → Prop
  | nil {Γ d T} : ChoicesTy M H Γ d [] [] T
  | choice {Γ d x S fs e cs T} : HasTy M H Γ e T → ChoicesTy M H Γ d fs cs T → ChoicesTy M H Γ d ((x, S) :: fs) ((x, e) :: cs) T
  | default {Γ x S fs cs T} : ChoicesTy M H Γ true fs cs T → ChoicesTy M H Γ true ((x, S) :: fs) cs T
/-- Application of a value of some type to arguments, one after the other. -/
inductive ArgsTy (M : List Name) (H : Heap) : Ctx → Ptr → List Expr → Ptr → Prop
  | nil {Γ T} : ArgsTy M H Γ T [] T
  | cons {Γ F A R a as T} : IsNode H F (.func A R) → HasTy M H Γ a A → ArgsTy M H Γ R as T → ArgsTy M H Γ F (a :: as) T
end

theorem HasTys.length {M H Γ} : {es : List Expr} → {Ts : List Ptr} → HasTys M H Γ es Ts → es.length = Ts.length
  | _, _, .nil => rfl
  | _, _, .cons _ h => by simp [HasTys.length h]

theorem HasTys.conv {M H Γ} : {es : List Expr} → {Ts Us : List Ptr} → HasTys M H Γ es Ts → All2 (SameType H []) Ts Us → HasTys M H Γ es Us
  | _, _, _, .nil, .nil => .nil
  | _, _, _, .cons h1 h2, .cons h3 h4 => .cons (.conv h1 h3) (HasTys.conv h2 h4)

theorem ChoicesTy.conv {M H Γ d} : {fs : Fields} → {cs : List (Name × Expr)} → {T U : Ptr} → ChoicesTy M H Γ d fs cs T → SameType H [] T U → ChoicesTy M H Γ d fs cs U
  | _, _, _, _, .nil, _ => .nil
  | _, _, _, _, .choice h1 h2, h => .choice (.conv h1 h) (h2.conv h)
  | _, _, _, _, .default h1, h => .default (h1.conv h)

end Verif.Elab
