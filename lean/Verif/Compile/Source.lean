import Verif.Compile.Value
/-
The output of the type checker (/repo/lib/tc.h) and what it means.

`Tc` models tc.h.  The meaning is a plain evaluator: environments, closures with one argument,
application of one argument at a time, recursive let by references that are assigned when the
definitions have been evaluated.  It knows nothing of code, slots, frames, merged functions or
partial application.
-/
namespace Verif.Compile

/-- FbleVar, /repo/lib/var.h:20-40. -/
inductive Var where
  | static (i : Nat)
  | arg (i : Nat)
  | loc (i : Nat)
deriving DecidableEq, Repr

mutual
/-- FbleTc, tc.h:36-278.  Names and source locations are left out.  A function value has exactly one
argument (typecheck.c:1563, 1598-1599).  The definitions of a let are numbered after the local
variables in scope. -/
inductive Tc where
  | typeVal
  | var (v : Var)
  | letE (recursive : Bool) (defs : Tcs) (body : Tc)
  | struct (fields : Tcs)
  | copy (source : Tc) (fields : Flds)
  | union (tag : Nat) (arg : Tc)
  | select (condition : Tc) (numTags : Nat) (targets : Brs) (default : Tc)
  | access (isUnion : Bool) (obj : Tc) (tag : Nat)
  | func (scope : List Var) (body : Tc)
  | apply (func arg : Tc)
  | list (items : Tcs)
  | literal (letters : List Nat)
/-- FbleTcV, tc.h:20-26. -/
inductive Tcs where
  | nil
  | cons (t : Tc) (ts : Tcs)
/-- The fields of a struct copy: a new value, or NULL for the field of the source. -/
inductive Flds where
  | nil
  | keep (fs : Flds)
  | set (t : Tc) (fs : Flds)
/-- FbleTcBranchTargetV. -/
inductive Brs where
  | nil
  | cons (tag : Nat) (t : Tc) (bs : Brs)
end

mutual
/-- The size of an expression. -/
def Tc.size : Tc → Nat
  | .typeVal => 1
  | .var _ => 1
  | .letE _ ds b => 1 + ds.size + b.size
  | .struct fs => 1 + fs.size
  | .copy s fs => 1 + s.size + fs.size
  | .union _ a => 1 + a.size
  | .select c nt bs d => 1 + c.size + bs.size + d.size
  | .access _ o _ => 1 + o.size
  | .func _ b => 1 + b.size
  | .apply f a => 2 + f.size + a.size
  | .list is => 1 + is.size
  | .literal _ => 1
def Tcs.size : Tcs → Nat
  | .nil => 0
  | .cons t ts => 1 + t.size + ts.size
def Flds.size : Flds → Nat
  | .nil => 0
  | .keep fs => 1 + fs.size
  | .set t fs => 1 + t.size + fs.size
def Brs.size : Brs → Nat
  | .nil => 0
  | .cons _ t bs => 1 + t.size + bs.size
end

def Tcs.length : Tcs → Nat
  | .nil => 0
  | .cons _ ts => ts.length + 1

/-- `f` of `f(a)(b)(c)`. -/
def Tc.head : Tc → Tc
  | .apply f _ => f.head
  | t => t

/-- The arguments of `f(a)(b)(c)`, the last one first: `c`, `b`, `a`. -/
def Tc.args : Tc → Tcs
  | .apply f a => .cons a f.args
  | _ => .nil

theorem Tc.size_pos (t : Tc) : 1 ≤ t.size := by cases t <;> simp only [Tc.size] <;> omega

theorem Tc.head_size : (t : Tc) → t.head.size ≤ t.size
  | .apply f a => by
    have := Tc.head_size f
    simp only [Tc.head, Tc.size]; omega
  | .typeVal | .var _ | .letE .. | .struct _ | .copy .. | .union .. | .select .. | .access ..
  | .func .. | .list _ | .literal _ => Nat.le_refl _

theorem Tc.args_size : (t : Tc) → t.args.size < t.size
  | .apply f a => by
    have := Tc.args_size f
    simp only [Tc.args, Tcs.size, Tc.size]; omega
  | .typeVal | .var _ | .letE .. | .struct _ | .copy .. | .union .. | .select .. | .access ..
  | .func .. | .list _ | .literal _ => by simp only [Tc.args, Tcs.size]; exact Tc.size_pos _

/-- A closure: the body of a function and the values of the variables it captured; or a function implemented in C with the
arguments it has so far, which is to be called when it has `more` and one more. -/
inductive SFn where
  | clo (body : Tc) (statics : List (Val SFn))
  | native (op more : Nat) (args : List (Val SFn))

abbrev SVal := Val SFn
abbrev SRes := Res SFn

/-- Where the variables of an expression find their values.  A variable of a let that is not
recursive has no value (`none`) within the definitions of the let. -/
structure Env where
  statics : List SVal
  args : List SVal
  locals : List (Option SVal)

def Env.get (env : Env) : Var → Option SVal
  | .static i => env.statics[i]?
  | .arg i => env.args[i]?
  | .loc i => (env.locals[i]?).join

/-- `n` new references. -/
def newRefs {F} : Nat → St F → List (Val F) × St F
  | 0, s => ([], s)
  | n + 1, s =>
    let (r, s) := newRef s
    let (rs, s) := newRefs n s
    (r :: rs, s)

/-- Assigns each reference its value, in order. -/
def assignAll {F} : List (Val F) → List (Val F) → St F → Res F Unit
  | r :: rs, v :: vs, s => (assignRef r v s).bind fun _ s => assignAll rs vs s
  | _, _, s => .ok () s

/-- Application to arguments, one at a time. -/
def applyAll (app : SVal → SVal → St SFn → SRes SVal) : SVal → List SVal → St SFn → SRes SVal
  | f, [], s => .ok f s
  | f, a :: as, s => (app f a s).bind fun f s => applyAll app f as s

/-- The branch for a tag. -/
def Brs.find : Brs → Nat → Option Tc
  | .nil, _ => none
  | .cons tag t bs, n => if n = tag then some t else bs.find n

theorem Brs.find_size : (bs : Brs) → {n : Nat} → {t : Tc} → bs.find n = some t → t.size < bs.size
  | .nil, _, _, h => by simp [Brs.find] at h
  | .cons tag t bs, n, u, h => by
    simp only [Brs.find] at h
    simp only [Brs.size]
    split at h
    · cases h; omega
    · have := Brs.find_size bs h; omega

/-- The values captured by a function: those of the listed variables. -/
def capture (env : Env) (scope : List Var) : Option (List SVal) := scope.mapM env.get

mutual
/-- The value of an expression; `app` says what the application of a function value to an argument
gives.  In `f(a)(b)` first `f` is evaluated, then `b`, then `a`; then the arguments are applied.
(The language leaves the order to the implementation, spec/fble.fbld:312.) -/
def eval (app : SVal → SVal → St SFn → SRes SVal) (t : Tc) (env : Env) (s : St SFn) : SRes SVal :=
  match t with
  | .typeVal => .ok .type s
  | .var v => match env.get v with
    | some w => .ok w s
    | none => .wild
  | .letE false ds b =>
    (evals app ds { env with locals := env.locals ++ List.replicate ds.length none } s).bind fun vs s =>
      eval app b { env with locals := env.locals ++ vs.map some } s
  | .letE true ds b =>
    let rs := newRefs ds.length s
    (evals app ds { env with locals := env.locals ++ rs.1.map some } rs.2).bind fun vs s =>
      (assignAll rs.1 vs s).bind fun _ s =>
        eval app b { env with locals := env.locals ++ vs.map some } s
  | .struct fs => (evals app fs env s).bind fun vs s => .ok (.struct vs) s
  | .copy src fs => (eval app src env s).bind fun v s =>
      (evalFlds app v 0 fs env s).bind fun vs s => .ok (.struct vs) s
  | .union tag a => (eval app a env s).bind fun v s => .ok (.union tag v) s
  | .select c nt bs d => (eval app c env s).bind fun v s => (tagBelow nt v s).bind fun tag s =>
      match _h : bs.find tag with
      | some b => eval app b env s
      | none => eval app d env s
  | .access false o i => (eval app o env s).bind fun v s => structField v i s
  | .access true o i => (eval app o env s).bind fun v s => unionField v i s
  | .func scope b => match capture env scope with
    | some vs => .ok (.fn (.clo b vs)) s
    | none => .wild
  | .apply f a => (eval app f.head env s).bind fun h s =>
      (evals app (.cons a f.args) env s).bind fun vs s => applyAll app h vs.reverse s
  | .list is => (evals app is env s).bind fun vs s => .ok (newList vs) s
  | .literal ls => .ok (newLiteral ls) s
termination_by t.size
decreasing_by
  all_goals simp only [Tc.size, Tcs.size]
  all_goals first
    | omega
    | (have := Tc.head_size f; omega)
    | (have := Tc.args_size f; omega)
    | (have := Brs.find_size _ (by assumption); omega)

/-- The values of expressions, in order. -/
def evals (app : SVal → SVal → St SFn → SRes SVal) (ts : Tcs) (env : Env) (s : St SFn) : SRes (List SVal) :=
  match ts with
  | .nil => .ok [] s
  | .cons t ts => (eval app t env s).bind fun v s => (evals app ts env s).bind fun vs s => .ok (v :: vs) s
termination_by ts.size
decreasing_by all_goals simp only [Tcs.size]; omega

/-- The fields of a struct copy, from field `i` on. -/
def evalFlds (app : SVal → SVal → St SFn → SRes SVal) (src : SVal) (i : Nat) (fs : Flds) (env : Env) (s : St SFn) :
    SRes (List SVal) :=
  match fs with
  | .nil => .ok [] s
  | .keep fs => (structField src i s).bind fun v s =>
      (evalFlds app src (i + 1) fs env s).bind fun vs s => .ok (v :: vs) s
  | .set t fs => (eval app t env s).bind fun v s =>
      (evalFlds app src (i + 1) fs env s).bind fun vs s => .ok (v :: vs) s
termination_by fs.size
decreasing_by all_goals simp only [Flds.size]; omega
end

/-- Applying a function value to an argument: the body is evaluated with the argument.  Entering a
body, or calling a function implemented in C, costs one unit of fuel, unless the body is itself a function, which is a value already. -/
def apply (f a : SVal) (s : St SFn) : SRes SVal :=
  (strict s f).bind fun f _ =>
    match f with
    | .fn (.clo (.func scope b) statics) =>
      match capture ⟨statics, [a], []⟩ scope with
      | some vs => .ok (.fn (.clo b vs)) s
      | none => .wild
    | .fn (.clo body statics) =>
      if s.fuel = 0 then .oof
      else eval (fun f a s' => if s'.fuel < s.fuel then apply f a s' else .oof) body ⟨statics, [a], []⟩
        { s with fuel := s.fuel - 1 }
    | .fn (.native op more args) =>
      match more with
      | k + 1 => .ok (.fn (.native op k (args ++ [a]))) s
      | 0 => if s.fuel = 0 then .oof
        else callOut (fun op more => .native op more []) op (args ++ [a]) { s with fuel := s.fuel - 1 }
    | _ => .crash
termination_by s.fuel

/-- The meaning of an expression with arguments `args` (a module's are the values of the modules it
imports), when at most `fuel` function bodies are entered. -/
def meaning (t : Tc) (args : List SVal) (s : St SFn) : SRes SVal := eval apply t ⟨[], args, []⟩ s

end Verif.Compile
