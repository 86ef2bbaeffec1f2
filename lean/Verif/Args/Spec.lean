import Verif.Args.Model
/-
What command line options mean.
-/
namespace Verif.Args

/-- An option on the command line, with the variable it is for. -/
inductive Item where
  | flag (name dest : String)
  | str (name dest : String) (v : Arg)
  | push (name dest : String) (v : Arg)
  | incl (v : Arg)                     -- -I v
  | inclJoined (c : Char) (v : Arg)    -- -Icv
  | package (long : Bool) (v : Arg)
  | module (long : Bool) (v : Arg)

/-- How an option is written. -/
def Item.encode : Item → List Arg
  | .flag n _ => [n.toList]
  | .str n _ v => [n.toList, v]
  | .push n _ v => [n.toList, v]
  | .incl v => ["-I".toList, v]
  | .inclJoined c v => ["-I".toList ++ c :: v]
  | .package l v => [if l then "--package".toList else "-p".toList, v]
  | .module l v => [if l then "--module".toList else "-m".toList, v]

/-- The program has the option. -/
def Item.Of (g : Program) : Item → Prop
  | .flag n d => P.bool n d ∈ g.lines
  | .str n d _ => P.str n d ∈ g.lines
  | .push n d _ => P.push n d ∈ g.lines
  | _ => P.module ∈ g.lines

/-- What an option does: it sets its variable, once only; `-I` and packages add to the search path,
where a package must exist; the module is set once only, and must be a module path. -/
def Item.effect (e : Env) (s : St) : Item → St
  | .flag _ d => { s with flags := setAt s.flags d true }
  | .str _ d v => if (s.strs d).isSome then { s with error := true } else { s with strs := setAt s.strs d (some v) }
  | .push _ d v => { s with lists := setAt s.lists d (s.lists d ++ [some v]) }
  | .incl v => { s with search := s.search ++ [v] }
  | .inclJoined c v => { s with search := s.search ++ [c :: v] }
  | .package _ v =>
    match e.find v with
    | some p => { s with search := s.search ++ [p] }
    | none => { s with error := true }
  | .module _ v =>
    if s.module.isSome then { s with error := true }
    else match e.parse v with
      | some p => { s with module := some p }
      | none => { s with error := true }

/-- What a list of options does: nothing is looked at after help, version or an error. -/
def effects (e : Env) : List Item → St → St
  | [], s => s
  | i :: is, s => if stop s then s else effects e is (i.effect e s)

/-- The same variables, though maybe not the same arguments left. -/
def Same (s t : St) : Prop :=
  s.flags = t.flags ∧ s.strs = t.strs ∧ s.lists = t.lists ∧ s.search = t.search ∧ s.module = t.module ∧
    s.error = t.error

/-- An argument is an option of the program. -/
def Recognised (g : Program) (a : Arg) : Prop :=
  ∃ p ∈ g.lines, match p with
    | .bool n _ => a = n.toList
    | .str n _ => a = n.toList
    | .push n _ => a = n.toList
    | .module => a.take 2 = "-I".toList ∨ a ∈ ["--package".toList, "-p".toList, "--module".toList, "-m".toList]
    | .invalid => False

end Verif.Args
