import Verif.Compile.Source
/-
Expressions that make sense in a scope: what the type checker guarantees about its output (see C16).
-/
namespace Verif.Compile

/-- The variable has a value: there are `ns` captured variables, `na` arguments, and of the local
variables those marked. -/
def Var.Ok (ns na : Nat) (loc : List Bool) : Var → Prop
  | .static i => i < ns
  | .arg i => i < na
  | .loc i => loc[i]? = some true

/-- The tags of the branches are in increasing order (C17). -/
def Brs.sortedFrom : Nat → Brs → Prop
  | _, .nil => True
  | lo, .cons tag _ bs => lo ≤ tag ∧ bs.sortedFrom (tag + 1)

/-- The tags of the branches are less than `n`. -/
def Brs.tagsBelow (n : Nat) : Brs → Prop
  | .nil => True
  | .cons tag _ bs => tag < n ∧ bs.tagsBelow n

/-- The tags of the branches are in increasing order, they are tags of the type, and there is at least
one branch besides the default: the interpreter asserts it (see `C06_empty_table_violated`). -/
def Brs.Table (numTags : Nat) (bs : Brs) : Prop := bs.sortedFrom 0 ∧ bs ≠ .nil ∧ bs.tagsBelow numTags

mutual
/-- All variables of the expression have a value where they are used. -/
def Tc.Scoped (ns na : Nat) (loc : List Bool) : Tc → Prop
  | .typeVal => True
  | .var v => v.Ok ns na loc
  | .letE recursive ds b => ds.Scoped ns na (loc ++ List.replicate ds.length recursive) ∧
      b.Scoped ns na (loc ++ List.replicate ds.length true)
  | .struct fs => fs.Scoped ns na loc
  | .copy src fs => src.Scoped ns na loc ∧ fs.Scoped ns na loc
  | .union _ a => a.Scoped ns na loc
  | .select c nt bs d => c.Scoped ns na loc ∧ bs.Scoped ns na loc ∧ bs.Table nt ∧ d.Scoped ns na loc
  | .access _ o _ => o.Scoped ns na loc
  | .func scope b => (∀ v ∈ scope, v.Ok ns na loc) ∧ b.Scoped scope.length 1 []
  | .apply f a => f.Scoped ns na loc ∧ a.Scoped ns na loc
  | .list is => is.Scoped ns na loc
  | .literal _ => True
def Tcs.Scoped (ns na : Nat) (loc : List Bool) : Tcs → Prop
  | .nil => True
  | .cons t ts => t.Scoped ns na loc ∧ ts.Scoped ns na loc
def Flds.Scoped (ns na : Nat) (loc : List Bool) : Flds → Prop
  | .nil => True
  | .keep fs => fs.Scoped ns na loc
  | .set t fs => t.Scoped ns na loc ∧ fs.Scoped ns na loc
def Brs.Scoped (ns na : Nat) (loc : List Bool) : Brs → Prop
  | .nil => True
  | .cons _ t bs => t.Scoped ns na loc ∧ bs.Scoped ns na loc
end

theorem Tc.Scoped.head {ns na loc} : {t : Tc} → t.Scoped ns na loc → t.head.Scoped ns na loc
  | .apply f a, h => by
    simp only [Tc.Scoped] at h
    exact Tc.Scoped.head (t := f) h.1
  | .typeVal, h | .var _, h | .letE .., h | .struct _, h | .copy .., h | .union .., h | .select .., h | .access .., h
  | .func .., h | .list _, h | .literal _, h => h

theorem Tc.Scoped.args {ns na loc} : {t : Tc} → t.Scoped ns na loc → t.args.Scoped ns na loc
  | .apply f a, h => by
    simp only [Tc.Scoped] at h
    exact ⟨h.2, Tc.Scoped.args (t := f) h.1⟩
  | .typeVal, _ | .var _, _ | .letE .., _ | .struct _, _ | .copy .., _ | .union .., _ | .select .., _ | .access .., _
  | .func .., _ | .list _, _ | .literal _, _ => trivial

end Verif.Compile
