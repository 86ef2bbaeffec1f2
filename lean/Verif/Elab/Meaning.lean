import Verif.Elab.Named
/-
What a program means, by names: modules are found by their paths.
-/
namespace Verif.Elab
open Types (Name Kind DataKind)
open Compile (Val St Res)

/-- The modules known so far, as variables. -/
def moduleEnv (vals : List (List Name × NVal)) : NEnv := vals.map fun v => (.module v.1, some v.2)

/-- The values of the modules, by path, in order: each may use those before.  Evaluating a module
counts as entering a body. -/
def runNamed : List (List Name × N) → List (List Name × NVal) → St NFn → NRes (List (List Name × NVal))
  | [], vals, s => .ok vals s
  | m :: ms, vals, s =>
    if s.fuel = 0 then .oof
    else (evalN applyN m.2 (moduleEnv vals) { s with fuel := s.fuel - 1 }).bind fun v s => runNamed ms (vals ++ [(m.1, v)]) s

/-- The value of a program is the value of its last module. -/
def runNamedProgram (ms : List (List Name × N)) (fuel : Nat) (out : Compile.Outside := .silent) : NRes NVal :=
  if fuel = 0 then .oof
  else (runNamed ms [] ⟨fuel - 1, [], out⟩).bind fun vals s =>
    match vals.getLast? with
    | some v => .ok v.2 s
    | none => .wild

/-- The modules that may be referred to. -/
def withModules (ds : List (List Name)) : Binders := (ds.map fun d => (VarName.module d, false)).reverse

mutual
/-- Every select is of a union type with at least two fields and has a choice besides the default.
(On others the interpreter stops, see `Compile.C13_empty_select_violated`.) -/
def N.Tables : N → Prop
  | .typeVal => True
  | .var _ => True
  | .letE _ _ ds b => ds.Tables ∧ b.Tables
  | .struct fs => fs.Tables
  | .copy s _ as => s.Tables ∧ as.Tables
  | .union _ _ a => a.Tables
  | .select c xs bs d => c.Tables ∧ 2 ≤ xs.length ∧ bs ≠ .nil ∧ bs.Tables ∧ d.Tables
  | .access _ o _ _ => o.Tables
  | .func _ b => b.Tables
  | .apply f a => f.Tables ∧ a.Tables
  | .list is => is.Tables
  | .literal _ => True
def Ns.Tables : Ns → Prop
  | .nil => True
  | .cons t ts => t.Tables ∧ ts.Tables
def NTagged.Tables : NTagged → Prop
  | .nil => True
  | .cons _ t rest => t.Tables ∧ rest.Tables
def NDefault.Tables : NDefault → Prop
  | .none => True
  | .some t => t.Tables
end

end Verif.Elab
