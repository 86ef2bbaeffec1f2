import Verif.Elab.Named
import Verif.Elab.Scopes
import Verif.Compile.Scoped
/-
How an expression by names and the output of the type checker correspond.
-/
namespace Verif.Elab
open Types
open Compile (Var Tc Tcs Flds Brs)

/-- The variables in scope, the innermost first: for those that have a value when the program runs,
where it is, and whether it may be used. -/
abbrev Cx := List (VarName × Option (Var × Bool))

/-- Where the value of the innermost variable of that name is, if it may be used. -/
def cxVar (cx : Cx) (x : VarName) : Option Var :=
  match cx.find? (fun b => decide (b.1 = x)) with
  | some (_, some (v, true)) => some v
  | _ => none

/-- The variables of a let. -/
def letEntries : Nat → Bool → List Name → Cx
  | _, _, [] => []
  | i, r, x :: xs => (.normal x, some (.loc i, r)) :: letEntries (i + 1) r xs

/-- The variables of a let in scope. -/
def letCx (i : Nat) (r : Bool) (xs : List Name) (cx : Cx) : Cx := (letEntries i r xs).reverse ++ cx

/-- The captured variables of a function. -/
def staticEntries : Nat → List VarName → Cx
  | _, [] => []
  | i, x :: xs => (x, some (.static i, true)) :: staticEntries (i + 1) xs

/-- The variables in scope in the body of a function. -/
def funCx (x : Name) (statics : List VarName) : Cx := (.normal x, some (.arg 0, true)) :: staticEntries 0 statics

mutual
/-- The second is the first with names of variables and fields resolved, where there are `nl` local
variables. -/
inductive Conv : Nat → Cx → N → Tc → Prop
  | typeVal {nl cx} : Conv nl cx .typeVal .typeVal
  | var {nl cx x v} : cxVar cx x = some v → Conv nl cx (.var x) (.var v)
  | letE {nl cx r xs ds b tds tb} : ds.length = xs.length → ConvAll (nl + xs.length) (letCx nl r xs cx) ds tds → Conv (nl + xs.length) (letCx nl true xs cx) b tb →
      Conv nl cx (.letE r xs ds b) (.letE r tds tb)
  | struct {nl cx ts tcs} : ConvAll nl cx ts tcs → Conv nl cx (.struct ts) (.struct tcs)
  | copy {nl cx t tc xs as fl} : Conv nl cx t tc → ConvCopy nl cx xs as fl → Conv nl cx (.copy t xs as) (.copy tc fl)
  | union {nl cx xs x i t tc} : position xs x = some i → Conv nl cx t tc → Conv nl cx (.union xs x t) (.union i tc)
  | select {nl cx c tc xs bs d brs dt du} : Conv nl cx c tc → (∀ x ∈ xs, choose bs d x ≠ none) →
      (∀ (i : Nat) x t, xs[i]? = some x → choose bs d x = some t → Conv nl cx t ((brs.find i).getD dt)) →
      brs.sortedFrom 0 → brs.tagsBelow xs.length → ConvBrs nl cx bs brs → Conv nl cx du dt → ((∃ x, bs.find x = some du) ∨ d = .some du) → (2 ≤ xs.length → bs ≠ .nil → brs ≠ .nil) → Conv nl cx (.select c xs bs d) (.select tc xs.length brs dt)
  | access {nl cx u t tc xs x i} : position xs x = some i → Conv nl cx t tc → Conv nl cx (.access u t xs x) (.access u tc i)
  | func {nl cx x b tb names scope} : All2 (fun x v => cxVar cx x = some v) names scope → Conv 0 (funCx x names) b tb → Conv nl cx (.func x b) (.func scope tb)
  | apply {nl cx f a tf ta} : Conv nl cx f tf → Conv nl cx a ta → Conv nl cx (.apply f a) (.apply tf ta)
  | list {nl cx ts tcs} : ConvAll nl cx ts tcs → Conv nl cx (.list ts) (.list tcs)
  | literal {nl cx ls} : Conv nl cx (.literal ls) (.literal ls)
inductive ConvAll : Nat → Cx → Ns → Tcs → Prop
  | nil {nl cx} : ConvAll nl cx .nil .nil
  | cons {nl cx t ts tc tcs} : Conv nl cx t tc → ConvAll nl cx ts tcs → ConvAll nl cx (.cons t ts) (.cons tc tcs)
inductive ConvCopy : Nat → Cx → List Name → NTagged → Flds → Prop
  | nil {nl cx as} : ConvCopy nl cx [] as .nil
  | keep {nl cx x xs as fl} : as.find x = none → ConvCopy nl cx xs as fl → ConvCopy nl cx (x :: xs) as (.keep fl)
  | set {nl cx x xs as t tc fl} : as.find x = some t → Conv nl cx t tc → ConvCopy nl cx xs as fl → ConvCopy nl cx (x :: xs) as (.set tc fl)
inductive ConvBrs : Nat → Cx → NTagged → Brs → Prop
  | nil {nl cx bs} : ConvBrs nl cx bs .nil
  | cons {nl cx bs i x t tc brs} : bs.find x = some t → Conv nl cx t tc → ConvBrs nl cx bs brs → ConvBrs nl cx bs (.cons i tc brs)
end

/-- More variables may be used. -/
def CxLe (cx cx' : Cx) : Prop := ∀ x v, cxVar cx x = some v → cxVar cx' x = some v

theorem CxLe.refl (cx : Cx) : CxLe cx cx := fun _ _ h => h

theorem cxVar_cons {b : VarName × Option (Var × Bool)} {cx : Cx} {x : VarName} :
    cxVar (b :: cx) x = if b.1 = x then (match b.2 with | some (v, true) => some v | _ => none) else cxVar cx x := by
  obtain ⟨y, o⟩ := b
  simp only [cxVar, List.find?_cons]
  by_cases h : y = x
  · simp only [h, decide_true, if_true]
    rcases o with _ | ⟨v, _ | _⟩ <;> rfl
  · simp [h]

theorem CxLe.cons {b : VarName × Option (Var × Bool)} {cx cx' : Cx} (h : CxLe cx cx') : CxLe (b :: cx) (b :: cx') := by
  intro x v hx
  rw [cxVar_cons] at hx ⊢
  split
  · rename_i he; rw [if_pos he] at hx; exact hx
  · rename_i he; rw [if_neg he] at hx; exact h x v hx

theorem CxLe.append : (l : Cx) → {cx cx' : Cx} → CxLe cx cx' → CxLe (l ++ cx) (l ++ cx')
  | [], _, _, h => h
  | _ :: l, _, _, h => (CxLe.append l h).cons

mutual
theorem Conv.mono {nl cx t tc} (h : Conv nl cx t tc) : ∀ {cx'}, CxLe cx cx' → Conv nl cx' t tc :=
  match h with
  | .typeVal => fun _ => .typeVal
  | .var h => fun hl => .var (hl _ _ h)
  | .letE h0 h1 h2 => fun hl => .letE h0 (ConvAll.mono h1 (hl.append _)) (Conv.mono h2 (hl.append _))
  | .struct h => fun hl => .struct (ConvAll.mono h hl)
  | .copy h1 h2 => fun hl => .copy (Conv.mono h1 hl) (ConvCopy.mono h2 hl)
  | .union h1 h2 => fun hl => .union h1 (Conv.mono h2 hl)
  | .select h1 h2 h3 h4 hb h5 h6 h7 h8 => fun hl => .select (Conv.mono h1 hl) h2 (fun i x t hi hx => Conv.mono (h3 i x t hi hx) hl) h4 hb (ConvBrs.mono h5 hl) (Conv.mono h6 hl) h7 h8
  | .access h1 h2 => fun hl => .access h1 (Conv.mono h2 hl)
  | .func h1 h2 => fun hl => .func (h1.mono fun _ _ h => hl _ _ h) h2
  | .apply h1 h2 => fun hl => .apply (Conv.mono h1 hl) (Conv.mono h2 hl)
  | .list h => fun hl => .list (ConvAll.mono h hl)
  | .literal => fun _ => .literal
termination_by structural h
theorem ConvAll.mono {nl cx t tc} (h : ConvAll nl cx t tc) : ∀ {cx'}, CxLe cx cx' → ConvAll nl cx' t tc :=
  match h with
  | .nil => fun _ => .nil
  | .cons h1 h2 => fun hl => .cons (Conv.mono h1 hl) (ConvAll.mono h2 hl)
termination_by structural h
theorem ConvCopy.mono {nl cx xs as fl} (h : ConvCopy nl cx xs as fl) : ∀ {cx'}, CxLe cx cx' → ConvCopy nl cx' xs as fl :=
  match h with
  | .nil => fun _ => .nil
  | .keep h1 h2 => fun hl => .keep h1 (ConvCopy.mono h2 hl)
  | .set h1 h2 h3 => fun hl => .set h1 (Conv.mono h2 hl) (ConvCopy.mono h3 hl)
termination_by structural h
theorem ConvBrs.mono {nl cx bs brs} (h : ConvBrs nl cx bs brs) : ∀ {cx'}, CxLe cx cx' → ConvBrs nl cx' bs brs :=
  match h with
  | .nil => fun _ => .nil
  | .cons h0 h1 h2 => fun hl => .cons h0 (Conv.mono h1 hl) (ConvBrs.mono h2 hl)
termination_by structural h
end

/-- The variables of a scope, as far as they are used. -/
def cxOf (vs : List V) : Cx := vs.map fun v => (v.name, v.var.map (·, v.used))

theorem cxVar_cxOf {x : VarName} {c : Var} : {vs : List V} → (cxVar (cxOf vs) x = some c ↔ ∃ v, first x vs = some v ∧ v.var = some c ∧ v.used = true)
  | [] => by simp [cxVar, cxOf, first]
  | w :: vs => by
    have ih := cxVar_cxOf (x := x) (c := c) (vs := vs)
    rw [first_cons]
    simp only [cxOf, List.map_cons]
    rw [cxVar_cons]
    simp only
    split
    · obtain ⟨wn, wt, wu, wv⟩ := w
      cases wv <;> cases wu <;> simp
    · exact ih

theorem FirstIs.cx {sc : Scope} {x : VarName} {c : Var} : FirstIs sc x c ↔ cxVar (cxOf sc.vars) x = some c := by
  rw [cxVar_cxOf]; rfl

theorem CxLe.of_ext {a b : Scope} (h : ScExt a b) : CxLe (cxOf a.vars) (cxOf b.vars) := by
  intro x v hx
  rw [← FirstIs.cx] at hx ⊢
  exact hx.ext h

end Verif.Elab
