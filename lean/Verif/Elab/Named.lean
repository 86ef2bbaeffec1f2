import Verif.Elab.Expr
import Verif.Elab.Model
import Verif.Compile.Program
/-
What an expression means, by names: the specification for the output of the type checker.

`N` is an expression without its types: of a struct or union type the names of its fields are left.
Variables are looked up by name in an environment, the innermost first; fields are found by name.
There are no indices of variables, no lists of captured variables and no tables of branches.
-/
namespace Verif.Elab
open Types (Name Kind DataKind)
open Compile (Val St Res)

mutual
/-- An expression without its types. -/
inductive N where
  | typeVal
  | var (x : VarName)
  /-- A let; `recursive` says whether the variables may be used in the definitions. -/
  | letE (recursive : Bool) (names : List Name) (defs : Ns) (body : N)
  | struct (fields : Ns)
  /-- A copy of a struct with fields of these names. -/
  | copy (source : N) (names : List Name) (args : NTagged)
  | union (names : List Name) (field : Name) (arg : N)
  /-- A select of a union with fields of these names. -/
  | select (condition : N) (names : List Name) (choices : NTagged) (default : NDefault)
  | access (isUnion : Bool) (object : N) (names : List Name) (field : Name)
  | func (x : Name) (body : N)
  | apply (func arg : N)
  | list (items : Ns)
  /-- The letters are given by the positions of the fields. -/
  | literal (letters : List Nat)
inductive Ns where
  | nil
  | cons (t : N) (ts : Ns)
inductive NTagged where
  | nil
  | cons (x : Name) (t : N) (rest : NTagged)
inductive NDefault where
  | none
  | some (t : N)
end

mutual
/-- The size of an expression. -/
def N.size : N → Nat
  | .typeVal => 1
  | .var _ => 1
  | .letE _ _ ds b => 1 + ds.size + b.size
  | .struct fs => 1 + fs.size
  | .copy s _ as => 1 + s.size + as.size
  | .union _ _ a => 1 + a.size
  | .select c _ bs d => 1 + c.size + bs.size + d.size
  | .access _ o _ _ => 1 + o.size
  | .func _ b => 1 + b.size
  | .apply f a => 2 + f.size + a.size
  | .list is => 1 + is.size
  | .literal _ => 1
def Ns.size : Ns → Nat
  | .nil => 0
  | .cons t ts => 1 + t.size + ts.size
def NTagged.size : NTagged → Nat
  | .nil => 0
  | .cons _ t rest => 1 + t.size + rest.size
def NDefault.size : NDefault → Nat
  | .none => 0
  | .some t => 1 + t.size
end

def Ns.length : Ns → Nat
  | .nil => 0
  | .cons _ ts => ts.length + 1

/-- `f` of `f(a)(b)(c)`. -/
def N.head : N → N
  | .apply f _ => f.head
  | t => t

/-- The arguments of `f(a)(b)(c)`, the last one first: `c`, `b`, `a`. -/
def N.args : N → Ns
  | .apply f a => .cons a f.args
  | _ => .nil

theorem N.size_pos (t : N) : 1 ≤ t.size := by cases t <;> simp only [N.size] <;> omega

theorem N.head_size : (t : N) → t.head.size ≤ t.size
  | .apply f a => by
    have := N.head_size f
    simp only [N.head, N.size]; omega
  | .typeVal | .var _ | .letE .. | .struct _ | .copy .. | .union .. | .select .. | .access ..
  | .func .. | .list _ | .literal _ => Nat.le_refl _

theorem N.args_size : (t : N) → t.args.size < t.size
  | .apply f a => by
    have := N.args_size f
    simp only [N.args, Ns.size, N.size]; omega
  | .typeVal | .var _ | .letE .. | .struct _ | .copy .. | .union .. | .select .. | .access ..
  | .func .. | .list _ | .literal _ => by simp only [N.args, Ns.size]; exact N.size_pos _

/-- The expression given for a name. -/
def NTagged.find : NTagged → Name → Option N
  | .nil, _ => none
  | .cons y t rest, x => if y = x then some t else rest.find x

theorem NTagged.find_size : (cs : NTagged) → {x : Name} → {t : N} → cs.find x = some t → t.size < cs.size
  | .nil, _, _, h => by simp [NTagged.find] at h
  | .cons y t cs, x, u, h => by
    simp only [NTagged.find] at h
    simp only [NTagged.size]
    split at h
    · cases h; omega
    · have := NTagged.find_size cs h; omega

def NDefault.get : NDefault → Option N
  | .none => Option.none
  | .some t => Option.some t

/-- The choice for a name: the one given for it, or else the default. -/
def choose (cs : NTagged) (d : NDefault) (x : Name) : Option N := (cs.find x).or d.get

theorem choose_size {cs : NTagged} {d : NDefault} {x : Name} {t : N} (h : choose cs d x = some t) : t.size < cs.size + d.size + 1 := by
  unfold choose at h
  cases hf : cs.find x with
  | some u =>
    rw [hf] at h; cases h
    have := NTagged.find_size cs hf; omega
  | none =>
    rw [hf] at h
    cases d with
    | none => cases h
    | some u => cases h; simp only [NDefault.size]; omega

/-- A closure: a function with the environment it was made in; or a function implemented in C with the arguments it has so far,
which is to be called when it has `more` and one more. -/
inductive NFn where
  | clo (x : Name) (body : N) (env : List (VarName × Option (Val NFn)))
  | native (op more : Nat) (args : List (Val NFn))

abbrev NVal := Val NFn
abbrev NRes := Res NFn

/-- The variables in scope, the innermost first.  A variable that may not be used has no value. -/
abbrev NEnv := List (VarName × Option NVal)

/-- The value of the innermost variable of that name. -/
def lookupVal (ρ : NEnv) (x : VarName) : Option NVal := ((ρ.find? fun b => decide (b.1 = x)).map (·.2)).join

/-- With more variables in scope. -/
def bindAll (xs : List Name) (vs : List (Option NVal)) (ρ : NEnv) : NEnv := ((xs.map VarName.normal).zip vs).reverse ++ ρ

/-- Application to arguments, one at a time. -/
def applyAllN (app : NVal → NVal → St NFn → NRes NVal) : NVal → List NVal → St NFn → NRes NVal
  | f, [], s => .ok f s
  | f, a :: as, s => (app f a s).bind fun f s => applyAllN app f as s

/-- The position of a field. -/
def position (names : List Name) (x : Name) : Option Nat :=
  match names with
  | [] => none
  | y :: ys => if y = x then some 0 else (position ys x).map (· + 1)

mutual
/-- The value of an expression; `app` says what the application of a function value to an argument
gives.  The order of evaluation is that of `Compile.eval`. -/
def evalN (app : NVal → NVal → St NFn → NRes NVal) (t : N) (ρ : NEnv) (s : St NFn) : NRes NVal :=
  match t with
  | .typeVal => .ok .type s
  | .var x => match lookupVal ρ x with
    | some v => .ok v s
    | none => .wild
  | .letE false xs ds b =>
    (evalNs app ds (bindAll xs (xs.map fun _ => none) ρ) s).bind fun vs s => evalN app b (bindAll xs (vs.map some) ρ) s
  | .letE true xs ds b =>
    let rs := Compile.newRefs ds.length s
    (evalNs app ds (bindAll xs (rs.1.map some) ρ) rs.2).bind fun vs s =>
      (Compile.assignAll rs.1 vs s).bind fun _ s => evalN app b (bindAll xs (vs.map some) ρ) s
  | .struct fs => (evalNs app fs ρ s).bind fun vs s => .ok (.struct vs) s
  | .copy src xs as => (evalN app src ρ s).bind fun v s =>
      (evalCopy app v 0 xs as ρ s).bind fun vs s => .ok (.struct vs) s
  | .union xs x a => match position xs x with
    | some i => (evalN app a ρ s).bind fun v s => .ok (.union i v) s
    | none => .wild
  | .select c xs bs d => (evalN app c ρ s).bind fun v s => (Compile.unionTag v s).bind fun tag s =>
      match xs[tag]? with
      | none => .crash
      | some x => match _h : choose bs d x with
        | some b => evalN app b ρ s
        | none => .wild
  | .access isUnion o xs x => match position xs x with
    | some i => (evalN app o ρ s).bind fun v s => if isUnion then Compile.unionField v i s else Compile.structField v i s
    | none => .wild
  | .func x b => .ok (.fn (.clo x b ρ)) s
  | .apply f a => (evalN app f.head ρ s).bind fun h s =>
      (evalNs app (.cons a f.args) ρ s).bind fun vs s => applyAllN app h vs.reverse s
  | .list is => (evalNs app is ρ s).bind fun vs s => .ok (Compile.newList vs) s
  | .literal ls => .ok (Compile.newLiteral ls) s
termination_by (t.size, 0)
decreasing_by
  all_goals simp only [N.size, Ns.size]
  all_goals apply Prod.Lex.left
  all_goals first
    | omega
    | (have := N.head_size f; omega)
    | (have := N.args_size f; omega)
    | (have := choose_size (by assumption); omega)

/-- The values of expressions, in order. -/
def evalNs (app : NVal → NVal → St NFn → NRes NVal) (ts : Ns) (ρ : NEnv) (s : St NFn) : NRes (List NVal) :=
  match ts with
  | .nil => .ok [] s
  | .cons t ts => (evalN app t ρ s).bind fun v s => (evalNs app ts ρ s).bind fun vs s => .ok (v :: vs) s
termination_by (ts.size, 0)
decreasing_by all_goals simp only [Ns.size]; apply Prod.Lex.left; omega

/-- The fields of a struct copy, from field `i` on: the argument of that name, or else the field of
the source. -/
def evalCopy (app : NVal → NVal → St NFn → NRes NVal) (src : NVal) (i : Nat) (xs : List Name) (as : NTagged) (ρ : NEnv) (s : St NFn) :
    NRes (List NVal) :=
  match xs with
  | [] => .ok [] s
  | x :: xs =>
    (match _h : as.find x with
      | some t => evalN app t ρ s
      | none => Compile.structField src i s).bind fun v s =>
        (evalCopy app src (i + 1) xs as ρ s).bind fun vs s => .ok (v :: vs) s
termination_by (as.size, xs.length)
decreasing_by
  · apply Prod.Lex.left; exact NTagged.find_size as (by assumption)
  · apply Prod.Lex.right; simp
end

/-- Applying a function value to an argument: the body is evaluated with the argument, which costs one
unit of fuel as in `Compile.apply`. -/
def applyN (f a : NVal) (s : St NFn) : NRes NVal :=
  (Compile.strict s f).bind fun f _ =>
    match f with
    | .fn (.clo x (.func y b) ρ) => .ok (.fn (.clo y b ((.normal x, some a) :: ρ))) s
    | .fn (.clo x b ρ) =>
      if s.fuel = 0 then .oof
      else evalN (fun f a s' => if s'.fuel < s.fuel then applyN f a s' else .oof) b ((.normal x, some a) :: ρ) { s with fuel := s.fuel - 1 }
    | .fn (.native op more args) =>
      match more with
      | k + 1 => .ok (.fn (.native op k (args ++ [a]))) s
      | 0 => if s.fuel = 0 then .oof
        else Compile.callOut (fun op more => .native op more []) op (args ++ [a]) { s with fuel := s.fuel - 1 }
    | _ => .crash
termination_by s.fuel

/-! ### Expressions and what is left of them without types -/

/-- Field `i` with the name `x` is the longest that is a prefix of the word, and the first such. -/
structure Longest (names : List Name) (w : List Char) (i : Nat) (x : Name) : Prop where
  name : names[i]? = some x
  nonempty : x.str ≠ []
  isPrefix : x.str <+: w
  longest : ∀ y ∈ names, y.str <+: w → y.str.length ≤ x.str.length
  first : ∀ j < i, ∀ y, names[j]? = some y → y.str <+: w → y.str.length < x.str.length

/-- A word is spelled with the names of fields, given by position, up to the rest of the word: each is
the longest that is a prefix of what is left of the word. -/
inductive SpellsTo (names : List Name) : List Char → List Nat → List Char → Prop
  | nil {w} : SpellsTo names w [] w
  | cons {w i x ls rest} : Longest names (x.str ++ w) i x → SpellsTo names w ls rest → SpellsTo names (x.str ++ w) (i :: ls) rest

/-- The whole word is spelled. -/
abbrev Spells (names : List Name) (w : List Char) (ls : List Nat) : Prop := SpellsTo names w ls []

/-- The variables in scope where types are not left out: the innermost first, with whether it stands
for a type given to a polymorphic value. -/
abbrev Binders := List (VarName × Bool)

/-- Does the innermost variable of that name stand for a type given to a polymorphic value? -/
def isTypeVar (Γ : Binders) (x : VarName) : Option Bool := (Γ.find? fun b => decide (b.1 = x)).map (·.2)

/-- With more variables in scope. -/
def withNames (xs : List Name) (Γ : Binders) : Binders := (xs.map fun x => (VarName.normal x, false)).reverse ++ Γ

/-- What an expression is, as far as the names of fields are concerned. -/
inductive Role where
  /-- A value of a struct or union type with these fields. -/
  | object (k : DataKind)
  /-- A struct or union type with these fields, perhaps polymorphic. -/
  | type (k : DataKind)
  /-- A function of a list whose elements are of a union type with these fields. -/
  | letters
  /-- A package type. -/
  | package
  /-- A function, perhaps polymorphic. -/
  | function
  /-- Anything but a struct type. -/
  | notStruct

/-- Says what expressions are where these variables are in scope. -/
abbrev Roles := Binders → Role → Expr → List Name → Prop

section
variable (F : Roles)
mutual
/-- What is left of an expression without its types. -/
inductive Erases : Binders → Expr → N → Prop
  | typeOf {Γ e} : Erases Γ (.typeOf e) .typeVal
  | dataType {Γ dt fs} : Erases Γ (.dataType dt fs) .typeVal
  | funcType {Γ a r} : Erases Γ (.funcType a r) .typeVal
  | packageType {Γ p} : Erases Γ (.packageType p) .typeVal
  | var {Γ x} : isTypeVar Γ (.normal x) = some false → Erases Γ (.var x) (.var (.normal x))
  | typeVar {Γ x} : isTypeVar Γ (.normal x) = some true → Erases Γ (.var x) .typeVal
  | modulePath {Γ p} : isTypeVar Γ (.module p) = some false → Erases Γ (.modulePath p) (.var (.module p))
  | letE {Γ bs body r ds b} : ErasesAll (withNames (bs.toList.map (·.name)) Γ) (bs.toList.map (·.expr)) ds →
      Erases (withNames (bs.toList.map (·.name)) Γ) body b → Erases Γ (.letE bs body) (.letE r (bs.toList.map (·.name)) ds b)
  | structImplicit {Γ args ts} : ErasesAll Γ (args.toList.map (·.2)) ts → Erases Γ (.structImplicit args) (.struct ts)
  | structCopy {Γ src args t as xs} : F Γ (.object .struct) src xs → Erases Γ src t → ErasesTagged Γ args.toList as →
      (∀ a ∈ args.toList, a.1 ∈ xs) → Erases Γ (.structCopy src args) (.copy t xs as)
  | unionValue {Γ type x arg xs t} : F Γ (.type .union) type xs → Erases Γ arg t → Erases Γ (.unionValue type x arg) (.union xs x t)
  | select {Γ c cs d t bs dt xs} : F Γ (.object .union) c xs → Erases Γ c t → ErasesTagged Γ cs.toList bs → ErasesDefault Γ d dt →
      (∀ c ∈ cs.toList, c.1 ∈ xs) → Erases Γ (.select c cs d) (.select t xs bs dt)
  | access {Γ o x k t xs} : F Γ (.object k) o xs → Erases Γ o t → Erases Γ (.dataAccess o x) (.access (k == .union) t xs x)
  | func {Γ x type body b} : Erases ((.normal x, false) :: Γ) body b → Erases Γ (.func x type body) (.func x b)
  | polyValue {Γ x k body b} : Erases ((.normal x, true) :: Γ) body b → Erases Γ (.polyValue x k body) b
  | polyApply {Γ p a t} : Erases Γ p t → Erases Γ (.polyApply p a) t
  /-- The abstract type of a package. -/
  | abstractType {Γ p a} : F Γ .package p [] → Erases Γ (.polyApply p a) .typeVal
  | list {Γ f args t ts} : Erases Γ f t → ErasesAll Γ args.toList ts → Erases Γ (.list f args) (.apply t (.list ts))
  | literal {Γ f w t xs ls} : F Γ .letters f xs → Erases Γ f t → Spells xs w ls → Erases Γ (.literal f w) (.apply t (.literal ls))
  | abstractCast {Γ p ty v t} : Erases Γ v t → Erases Γ (.abstractCast p ty v) t
  | abstractAccess {Γ v t} : Erases Γ v t → Erases Γ (.abstractAccess v) t
  /-- The function applied to its arguments, one at a time. -/
  | apply {Γ f args bind t u} : (args.toList ≠ [] → F Γ .function f []) → (args.toList = [] → bind = true ∨ F Γ .notStruct f []) → Erases Γ f t → ErasesArgs Γ t args.toList u → Erases Γ (.apply f args bind) u
  /-- A struct value of a struct type. -/
  | structValue {Γ type args xs ts} : F Γ (.type .struct) type xs → xs.length = ts.length → ErasesAll Γ args.toList ts →
      Erases Γ (.apply type args false) (.struct ts)
  /-- An abstract value of a package. -/
  | abstractValue {Γ p arg t} : F Γ .package p [] → Erases Γ arg t → Erases Γ (.apply p (.cons arg .nil) false) t
inductive ErasesAll : Binders → List Expr → Ns → Prop
  | nil {Γ} : ErasesAll Γ [] .nil
  | cons {Γ e es t ts} : Erases Γ e t → ErasesAll Γ es ts → ErasesAll Γ (e :: es) (.cons t ts)
inductive ErasesTagged : Binders → List (Name × Expr) → NTagged → Prop
  | nil {Γ} : ErasesTagged Γ [] .nil
  | cons {Γ x e es t ts} : Erases Γ e t → ErasesTagged Γ es ts → ErasesTagged Γ ((x, e) :: es) (.cons x t ts)
inductive ErasesDefault : Binders → Default → NDefault → Prop
  | none {Γ} : ErasesDefault Γ .none .none
  | some {Γ e t} : Erases Γ e t → ErasesDefault Γ (.some e) (.some t)
/-- Application to arguments, one at a time. -/
inductive ErasesArgs : Binders → N → List Expr → N → Prop
  | nil {Γ t} : ErasesArgs Γ t [] t
  | cons {Γ t e es a u} : Erases Γ e a → ErasesArgs Γ (.apply t a) es u → ErasesArgs Γ t (e :: es) u
end
end

end Verif.Elab
