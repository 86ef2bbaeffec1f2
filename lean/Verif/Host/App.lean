import Verif.Host.Streams
/-
pkgs/app/app.c: functions for drawings and events, and the part of FbleAppMain that runs the program.
-/
namespace Verif.Host
open Verif.Compile

instance : Monad Reading where
  pure := .ok
  bind := Reading.bind

/-- A computation whose behaviour is not defined if it overflows. -/
def Reading.ofOption {α} : Option α → Reading α
  | some a => .ok a
  | none => .fails

/-- The value of an `int` computation (32 bits); nothing if it overflows. -/
def i32 (x : Int) : Option Int := if -2147483648 ≤ x ∧ x < 2147483648 then some x else none

/-- Conversion of an `int64_t` to `int`, by the usual implementation. -/
def toInt (x : Int) : Int := Int.bmod x 4294967296

/-- FbleStructValueField, value.c:1292-1327: NULL (of which nothing can be seen) if the struct is not defined. -/
def readField (v : View) (i : Nat) : Reading View :=
  match v [] with
  | .struct k => if i < k then .ok (sub v i) else .wrong
  | .nothing => .ok fun _ => .nothing
  | _ => .wrong

structure Color where
  (r g b : Int)
deriving DecidableEq

/-- What is drawn with OpenGL: triangles with their three corners, and rectangles with two opposite corners. -/
inductive Prim where
  | triangle (x0 y0 x1 y1 x2 y2 : Int) (c : Color)
  | rect (x1 y1 x2 y2 : Int) (c : Color)

/-- `int x0 = ax * FbleIntValueAccess(x) + bx`, with arithmetic of 64 bits: pkgs/app/app.c:86-91. -/
noncomputable def readCoord (a b : Int) (v : View) : Reading Int := do
  let x ← readingInt v
  let y ← .ofOption (i64 (a * x))
  let z ← .ofOption (i64 (y + b))
  return toInt z

/-- `int axi = FbleIntValueAccess(a)`: pkgs/app/app.c:147-150. -/
noncomputable def readInt32 (v : View) : Reading Int := do
  let x ← readingInt v
  return toInt x

/-- `int * int + int`: pkgs/app/app.c:153. -/
def affine (a x b : Int) : Reading Int := do
  let y ← .ofOption (i32 (a * x))
  .ofOption (i32 (y + b))

/-- A point: its two fields, and the transformation. -/
noncomputable def readPoint (ax ay bx by' : Int) (v : View) : Reading (Int × Int) := do
  let x ← readCoord ax bx (← readField v 0)
  let y ← readCoord ay by' (← readField v 1)
  return (x, y)

/-- A color: pkgs/app/app.c:93-95 and 132-134. -/
noncomputable def readColor (v : View) : Reading Color := do
  let r ← readInt32 (← readField v 0)
  let g ← readInt32 (← readField v 1)
  let b ← readInt32 (← readField v 2)
  return ⟨r, g, b⟩

/-- `if (r.w < 0) { r.x += r.w; r.w = -r.w; }` and `r.x + r.w`: pkgs/app/app.c:122-130, 136. -/
def corners (x w : Int) : Reading (Int × Int) := do
  if w < 0 then
    let x ← .ofOption (i32 (x + w))
    let w ← .ofOption (i32 (-w))
    let z ← .ofOption (i32 (x + w))
    return (x, z)
  else
    let z ← .ofOption (i32 (x + w))
    return (x, z)

/-- Draw, pkgs/app/app.c:69-170, with a bound on the depth of the recursion: what it draws.  An assertion fails for a drawing that is not defined, whose tag is -1. -/
noncomputable def draw : Nat → Int → Int → Int → Int → View → Reading (List Prim)
  | 0, _, _, _, _, _ => .fails
  | n + 1, ax, ay, bx, by', v =>
    match v [] with
    | .union 0 => .ok []
    | .union 1 => do
      let t := sub v 0
      let a ← readPoint ax ay bx by' (← readField t 0)
      let b ← readPoint ax ay bx by' (← readField t 1)
      let c ← readPoint ax ay bx by' (← readField t 2)
      let color ← readColor (← readField t 3)
      return [.triangle a.1 a.2 b.1 b.2 c.1 c.2 color]
    | .union 2 => do
      let t := sub v 0
      let x ← readCoord ax bx (← readField t 0)
      let y ← readCoord ay by' (← readField t 1)
      let w ← readCoord ax 0 (← readField t 2)
      let h ← readCoord ay 0 (← readField t 3)
      let (x1, x2) ← corners x w
      let (y1, y2) ← corners y h
      let color ← readColor (← readField t 4)
      return [.rect x1 y1 x2 y2 color]
    | .union 3 => do
      let t := sub v 0
      let a ← readField t 0
      let b ← readField t 1
      let d ← readField t 2
      let axi ← readInt32 (← readField a 0)
      let ayi ← readInt32 (← readField a 1)
      let bxi ← readInt32 (← readField b 0)
      let byi ← readInt32 (← readField b 1)
      let ax' ← .ofOption (i32 (ax * axi))
      let ay' ← .ofOption (i32 (ay * ayi))
      let bx' ← affine ax bxi bx
      let by'' ← affine ay byi by'
      draw n ax' ay' bx' by'' d
    | .union 4 => do
      let t := sub v 0
      let below ← draw n ax ay bx by' (← readField t 0)
      let above ← draw n ax ay bx by' (← readField t 1)
      return below ++ above
    | .nothing => .fails
    | _ => .wrong

open Classical in
/-- Draw(surface, 1, 1, 0, 0, v), pkgs/app/app.c:364. -/
noncomputable def drawing (v : View) : Reading (List Prim) :=
  if h : ∃ n l, draw n 1 1 0 0 v = .ok l then .ok h.choose_spec.choose
  else if ∃ n, draw n 1 1 0 0 v = .wrong then .wrong
  else .fails

/-! ### Events -/

/-- SDL_SCANCODE_…, those that MakeKey knows and all others. -/
inductive Scancode where
  | A | D | H | J | K | L | Q | S | W | LEFT | RIGHT | UP | DOWN | SPACE | LSHIFT | RSHIFT
  | other (code : Nat)
deriving DecidableEq

/-- MakeKey, pkgs/app/app.c:184-211: the tag. -/
def makeKey : Scancode → Option Nat
  | .A => some 0
  | .D => some 1
  | .H => some 2
  | .J => some 3
  | .K => some 4
  | .L => some 5
  | .Q => some 6
  | .S => some 7
  | .W => some 8
  | .LEFT => some 9
  | .RIGHT => some 10
  | .UP => some 11
  | .DOWN => some 12
  | .SPACE => some 13
  | .LSHIFT => some 14
  | .RSHIFT => some 15
  | .other _ => none

/-- SDL_BUTTON_…: left is 1 and right is 3 in SDL_mouse.h.  MakeButton, pkgs/app/app.c:225-238. -/
def makeButton (button : Nat) : Option Nat := if button = 1 then some 0 else if button = 3 then some 1 else none

/-- An event of SDL, with what is read of it. -/
inductive SdlEvent where
  | user
  | keyDown (k : Scancode)
  | keyUp (k : Scancode)
  | mouseDown (button : Nat) (x y : Int32)
  | mouseUp (button : Nat) (x y : Int32)
  | resized (w h : Int32)
  | motion (x y dx dy : Int32)
  | other

/-- FbleNewIntValue of an `int`, which does not overflow (`makeInt32_eq`). -/
def makeInt32 (x : Int32) : Made := (makeInt x.toInt).getD (enum 1)

/-- The switch of EventImpl, pkgs/app/app.c:257-327: the value of type `Event@`, or nothing if there is none. -/
def makeEvent : SdlEvent → Option Made
  | .user => some (enum 0)
  | .keyDown k => (makeKey k).map fun k => .union 1 (enum k)
  | .keyUp k => (makeKey k).map fun k => .union 2 (enum k)
  | .mouseDown b x y => (makeButton b).map fun b => .union 3 (.struct [enum b, makeInt32 x, makeInt32 y])
  | .mouseUp b x y => (makeButton b).map fun b => .union 4 (.struct [enum b, makeInt32 x, makeInt32 y])
  | .resized w h => some (.union 5 (.struct [makeInt32 w, makeInt32 h]))
  | .motion x y dx dy => some (.union 6 (.struct [makeInt32 x, makeInt32 y, makeInt32 dx, makeInt32 dy]))
  | .other => none

/-- The loop of EventImpl, pkgs/app/app.c:254-328: events are taken until there is one with a value.  Nothing if it waits for ever. -/
def nextEvent : List SdlEvent → Option (Made × List SdlEvent)
  | [] => none
  | e :: es => match makeEvent e with
    | some m => some (m, es)
    | none => nextEvent es

/-! ### The process -/

/-- What there is outside of an app: that of FbleStdio, and the events that SDL_WaitEvent gives, one after the other.  Not modelled: whether SDL gives a user event for
a timer, and errors of SDL and OpenGL. -/
structure AppWorld where
  io : World
  events : List SdlEvent

structure AppState where
  streams : Streams
  /-- The events that have not been taken yet. -/
  events : List SdlEvent
  /-- What has been drawn: the pictures, one after the other. -/
  pictures : List (List Prim)
  /-- The ticks asked for. -/
  ticks : List Int

def AppWorld.start (w : AppWorld) : AppState := ⟨w.io.start, w.events, [], []⟩

/-- What one call does and returns.  Not modelled of EffectImpl: the time of the timers, and the histogram of frames. -/
noncomputable def AppWorld.call (w : AppWorld) (st : AppState) (c : Call) : AppState × Reply :=
  match Op.ofCode c.op, c.args with
  -- EventImpl, pkgs/app/app.c:246-330
  | .event, [_] => match nextEvent st.events with
    | some (m, rest) => ({ st with events := rest }, .value (.struct [.argument 0, m]))
    | none => (st, .stop)
  -- EffectImpl, pkgs/app/app.c:338-387
  | .effect, [e, _] =>
    let done : Reply := .value (.struct [.argument 1, .struct []])
    match e [] with
    | .union 0 => match readInt32 (sub e 0) with
      | .ok t => ({ st with ticks := st.ticks ++ [t] }, done)
      | .fails => (st, .stop)
      | .wrong => (st, .crash)
    | .union 1 => match drawing (sub e 0) with
      | .ok d => ({ st with pictures := st.pictures ++ [d] }, done)
      | .fails => (st, .stop)
      | .wrong => (st, .crash)
    | .union _ => (st, done)
    | .nothing => (st, done)
    | _ => (st, .crash)
  | .event, _ => (st, .crash)
  | .effect, _ => (st, .crash)
  | _, _ => let r := w.io.call st.streams c; ({ st with streams := r.1 }, r.2)

/-- The state after some calls, the last one first. -/
noncomputable def AppWorld.after (w : AppWorld) : List Call → AppState
  | [] => w.start
  | c :: cs => (w.call (w.after cs) c).1

/-- What the functions of pkgs/app/app.c and pkgs/core/stdio.fble.c return. -/
noncomputable def AppWorld.answer (w : AppWorld) : List Call → Reply
  | [] => .stop
  | c :: cs => (w.call (w.after cs) c).2

noncomputable def AppWorld.outside (w : AppWorld) : Outside := ⟨[], w.answer⟩

/-- FbleAppMain from FbleEval on, pkgs/app/app.c:573-637: `event` is a function of one argument, `effect` one of two; the program is applied to `stdioIO`, these, the size of the
window and the arguments, the computation to the world, and the second field of that is the result. -/
def appHost (width height : Int32) (args : List (List Nat)) : Program := fun vals =>
  match vals.length with
  | 1 => .apply 0 stdioIO [.function Op.event.code 0, .function Op.effect.code 1, makeInt32 width, makeInt32 height, list (args.map string)]
  | 2 => .apply 1 (.struct []) []
  | 3 => .field 2 1
  | _ => .finish 3

end Verif.Host
