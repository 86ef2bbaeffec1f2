import Verif.Host.Thm
import Verif.Host.Streams
import Verif.Host.Values
/-
An example for C77: a program that copies a byte from its input to its output.
-/
namespace Verif.Host.Example
open Verif.Compile

/-- `(io)(args)(w) { i = io.in(w); o = io.out(i.1.just, i.0); (o.0, true) }`. -/
def copyByte : List Mod :=
  [⟨[], .func [] (.func [.arg 0] (.func [.static 0]
    (.letE false (.cons (.apply (.access false (.var (.static 0)) 0) (.var (.arg 0))) .nil)
      (.letE false (.cons (.apply (.apply (.access false (.var (.static 0)) 1) (.access true (.access false (.var (.loc 0)) 1) 0)) (.access false (.var (.loc 0)) 0)) .nil)
        (.struct (.cons (.access false (.var (.loc 1)) 0) (.cons (.union 0 (.struct .nil)) .nil)))))))⟩]

theorem copy_ok : copyByte ≠ [] ∧ progOk 0 copyByte := by
  simp [copyByte, progOk, Tc.Scoped, Tcs.Scoped, Var.Ok, Tcs.length]

theorem apply_func (scope : List Var) (b : Tc) (statics : List SVal) (a : SVal) (s : St SFn) :
    apply (.fn (.clo (.func scope b) statics)) a s = match capture ⟨statics, [a], []⟩ scope with | some vs => .ok (.fn (.clo b vs)) s | none => .wild := by
  rw [apply, strict_fn]; rfl

theorem apply_let (r : Bool) (ds : Tcs) (b : Tc) (statics : List SVal) (a : SVal) (n : Nat) (refs : List (Option SVal)) (out : Outside) :
    apply (.fn (.clo (.letE r ds b) statics)) a ⟨n + 1, refs, out⟩ =
      eval (fun f a s' => if s'.fuel < n + 1 then apply f a s' else .oof) (.letE r ds b) ⟨statics, [a], []⟩ ⟨n, refs, out⟩ := by
  rw [apply_body (g := .clo (.letE r ds b) statics) rfl (by simp)]
  simp [SFn.body, SFn.statics]

theorem apply_more (op k : Nat) (args : List SVal) (a : SVal) (s : St SFn) :
    apply (.fn (.native op (k + 1) args)) a s = .ok (.fn (.native op k (args ++ [a]))) s := by
  rw [apply, strict_fn]; rfl

theorem apply_call (op : Nat) (args : List SVal) (a : SVal) (n : Nat) (refs : List (Option SVal)) (out : Outside) :
    apply (.fn (.native op 0 args)) a ⟨n + 1, refs, out⟩ = callOut (fun op more => .native op more []) op (args ++ [a]) ⟨n, refs, out⟩ := by
  rw [apply, strict_fn]; rfl

theorem strict_struct {F} (s : St F) (fs : List (Val F)) : strict s (.struct fs) = .ok (.struct fs) s := by simp [strict, unwrap]
theorem strict_union {F} (s : St F) (t : Nat) (a : Val F) : strict s (.union t a) = .ok (.union t a) s := by simp [strict, unwrap]

/-- A world with some standard input and nothing else. -/
def world (stdin : List Nat) : World := ⟨stdin, fun _ => none, fun _ => false, fun _ => none⟩

theorem answer_in (b : Nat) (rest : List Nat) (v : View) : (world (b :: rest)).answer [⟨5, [v]⟩] = .value (result 0 (makeInt b)) := rfl

theorem make_ten : makeInt 10 = some (.union 2 (.union 1 (.union 2 (.union 1 (.union 0 (.struct [])))))) := by
  rw [makeInt, if_neg (by omega), if_neg (by omega), show (10 : Int).toNat = 10 from rfl]
  rw [makeIntP, makeIntP, makeIntP, makeIntP]; rfl

/-- The value of the byte. -/
def ten {F} : Val F := .union 2 (.union 1 (.union 2 (.union 1 (.union 0 (.struct [])))))

theorem read_ten {F} (refs : List (Option (Val F))) : readInt (view refs ten) = some 10 := by
  refine C78_read ?_ (by decide) (by decide)
  have h1 : ShowsP (view refs (.union 1 (.union 2 (.union 1 (.union 0 (.struct [])))))) 10 :=
    .even (x := 5) (view_union refs _ _) (by
      rw [sub_union]
      exact .odd (x := 2) (view_union refs _ _) (by
        rw [sub_union]
        exact .even (x := 1) (view_union refs _ _) (by
          rw [sub_union]
          exact .one (view_union refs _ _))))
  exact .p (view_union refs _ _) (by rw [ten, sub_union]; exact h1)

theorem answer_out {F} (refs : List (Option (Val F))) (v w : View) : (world [10]).answer [⟨6, [view refs ten, v]⟩, ⟨5, [w]⟩] =
    .value (.struct [.argument 1, .struct []]) := by
  have : (world [10]).after [⟨5, [w]⟩] = ⟨[[]], [[], []]⟩ := rfl
  simp only [World.answer, this, World.call, Op.ofCode, readingInt_some (read_ten refs)]
  rfl

theorem after_out {F} (refs : List (Option (Val F))) (v w : View) : ((world [10]).after [⟨6, [view refs ten, v]⟩, ⟨5, [w]⟩]).outputs = [[10], []] := by
  have : (world [10]).after [⟨5, [w]⟩] = ⟨[[]], [[], []]⟩ := rfl
  rw [World.after, this]
  simp only [World.call, Op.ofCode, readingInt_some (read_ten refs)]
  rfl

/-- The byte 10 is copied: the program calls the function of stdin, then that of stdout with the byte it got, and returns true. -/
theorem copies : ended 3 (meaningProcess copyByte (stdioHost []) 4 9 (world [10]).outside) =
    .value (.union 0 (.struct [])) [⟨6, [view [] (ten : SVal), view [] (.struct [] : SVal)]⟩, ⟨5, [view [] (.struct [] : SVal)]⟩] := by
  have h1 : ∀ v, (world [10]).answer [⟨5, [v]⟩] = .value (result 0 (makeInt 10)) := fun v => answer_in 10 [] v
  simp [meaningProcess, runProgram, copyByte, runMods, meaning, eval, capture, Env.get, Res.bind, runHost, stdioHost, stdioIO, list, makes, make, istream, ostream, enum, Op.code, applyAll, apply_func]
  rw [apply_let]
  simp [eval, evals, Env.get, Res.bind, Tc.head, Tc.args, structField, strict_struct, applyAll, Tcs.length]
  rw [apply_call]
  simp [callOut, World.outside, h1, result, make_ten, makes, make]
  simp [strict_struct, strict_union, unionField, Res.bind, applyAll, apply_more]
  rw [apply_call]
  have h2 := answer_out (F := SFn) [] (view [] (.struct [] : SVal)) (view [] (.struct [] : SVal))
  rw [ten] at h2
  simp [callOut, h2, makes, make, strict_struct, ended, observe]
  exact ⟨rfl, rfl⟩

/-- The program compiled and interpreted ends in the same way: with exit status 0, when it has written 10 to stdout and nothing to stderr. -/
theorem copies_interpreted : ∃ codes calls, compileAll copyByte = some codes ∧
    ended 3 (interpretedProcess copyByte codes (stdioHost []) 4 9 (world [10]).outside) = .value (.union 0 (.struct [])) calls ∧
    exitStatus (ended 3 (interpretedProcess copyByte codes (stdioHost []) 4 9 (world [10]).outside)) = some 0 ∧
    ((world [10]).after calls).outputs = [[10], []] := by
  obtain ⟨codes, h1, h2⟩ := meaning_interpreted copy_ok.1 copy_ok.2
  have h3 := (ended_rel (h2 (stdioHost []) 4 9 (world [10]).outside) 3).trans copies
  exact ⟨codes, _, h1, h3, by rw [h3]; rfl, after_out [] _ _⟩

end Verif.Host.Example
