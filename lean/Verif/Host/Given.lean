import Verif.Host.AppSafe
import Verif.Host.Draw
/-
What a program gets from the C program that runs it, in terms of the names in the types: the streams and the arguments (FbleStdio), the size of the window (FbleAppMain), the events, the
environment; and what becomes of its result.
-/
namespace Verif.Host
open Verif.Compile

/-! ### Specification -/

/-- A union value with the field of this name, of a type with these fields. -/
def HasTag (fields : List String) (name : String) (v : View) : Prop := ∃ tag, v [] = .union tag ∧ fields[tag]? = some name

/-- The field of a struct of this name is there and is such. -/
def HasField (fields : List String) (name : String) (P : View → Prop) (v : View) : Prop :=
  v [] = .struct fields.length ∧ ∃ i, fields[i]? = some name ∧ P (sub v i)

/-- A value of type `List@<String@>`: the strings in it, as FbleStringValueAccess reads them. -/
inductive ShowsStrings : View → List (List Nat) → Prop
  | nil {v} : HasTag ["cons", "nil"] "nil" v → ShowsStrings v []
  | cons {v s ss} : HasTag ["cons", "nil"] "cons" v → readString (sub (sub v 0) 0) = some s → ShowsStrings (sub (sub v 0) 1) ss → ShowsStrings v (s :: ss)

/-- The fields of StdioIO@, pkgs/core/Core/Stdio/IO.fble:24-31, which function each of them is, and how many arguments it has. -/
def stdioFields : List (String × Op × Nat) :=
  [("stdin", .istream 0, 1), ("stdout", .ostream 0, 2), ("stderr", .ostream 1, 2), ("read", .read, 2), ("write", .write, 2), ("getenv", .getenv, 2)]

/-- The value of type StdioIO@. -/
def stdioValue {F} (native : Nat → Nat → F) : Val F := .struct (stdioFields.map fun f => .fn (native f.2.1.code (f.2.2 - 1)))

/-- A character which is in the type Char@, or else `?`. -/
def shownChar (c : Nat) : Nat := if c ∈ chars then c else 63

/-- The fields of Event@. -/
def eventFields : List String := ["tick", "key_down", "key_up", "mouse_down", "mouse_up", "resize", "mouse_motion"]

/-- A value of type MouseButton@.  SDL_BUTTON_LEFT is 1 and SDL_BUTTON_RIGHT is 3. -/
structure ShowsButton (b : Nat) (x y : Int32) (v : View) : Prop where
  button : HasField ["button", "x", "y"] "button" (fun v => b = 1 ∧ HasTag ["left", "right"] "left" v ∨ b = 3 ∧ HasTag ["left", "right"] "right" v) v
  x : HasField ["button", "x", "y"] "x" (ShowsInt · x.toInt) v
  y : HasField ["button", "x", "y"] "y" (ShowsInt · y.toInt) v

/-- The value of type Event@ (pkgs/app/App/App.fble:17-49) for an event of SDL. -/
inductive ShowsEvent : SdlEvent → View → Prop
  | tick {v} : HasTag eventFields "tick" v → ShowsEvent .user v
  | keyDown {v k} : HasTag eventFields "key_down" v → HasTag keyFields k.name.toLower (sub v 0) → ShowsEvent (.keyDown k) v
  | keyUp {v k} : HasTag eventFields "key_up" v → HasTag keyFields k.name.toLower (sub v 0) → ShowsEvent (.keyUp k) v
  | mouseDown {v b x y} : HasTag eventFields "mouse_down" v → ShowsButton b x y (sub v 0) → ShowsEvent (.mouseDown b x y) v
  | mouseUp {v b x y} : HasTag eventFields "mouse_up" v → ShowsButton b x y (sub v 0) → ShowsEvent (.mouseUp b x y) v
  | resized {v w h} : HasTag eventFields "resize" v → HasField ["width", "height"] "width" (ShowsInt · w.toInt) (sub v 0) → HasField ["width", "height"] "height" (ShowsInt · h.toInt) (sub v 0) →
      ShowsEvent (.resized w h) v
  | motion {v x y dx dy} : HasTag eventFields "mouse_motion" v → (∀ f ∈ [("x", x), ("y", y), ("dx", dx), ("dy", dy)], HasField ["x", "y", "dx", "dy"] f.1 (ShowsInt · f.2.toInt) (sub v 0)) →
      ShowsEvent (.motion x y dx dy) v

/-! ### Proofs -/

section
variable {F : Type} (native : Nat → Nat → F) (args : List (Val F)) (refs : List (Option (Val F)))

theorem view_struct (fs : List (Val F)) : view refs (.struct fs) [] = .struct fs.length := by simp [view, unwrap]

theorem made_strings : (ss : List (List Nat)) → ∃ v, make native args (list (ss.map string)) = some v ∧ ShowsStrings (view refs v) (ss.map (·.map shownChar))
  | [] => ⟨.union 1 (.struct []), rfl, .nil ⟨1, view_union refs _ _, rfl⟩⟩
  | s :: ss => by
    obtain ⟨v, h1, h2⟩ := made_strings ss
    obtain ⟨w, g1, -, g2⟩ := C79_make native args refs s
    refine ⟨.union 0 (.struct [w, v]), by simp [list, make, makes, h1, g1], .cons ⟨0, view_union refs _ _, rfl⟩ ?_ ?_⟩
    · rw [sub_union, sub_struct refs _ 0 _ rfl]
      exact g2
    · rw [sub_union, sub_struct refs _ 1 _ rfl]
      exact h2

theorem made_int32 (x : Int32) : ∃ v, make native args (makeInt32 x) = some v ∧ ShowsInt (view refs v) x.toInt := by
  have h1 := x.le_toInt
  have h2 := x.toInt_lt
  obtain ⟨m, v, g1, g2, g3, -⟩ := C78_make native args refs (x := x.toInt) (by omega) (by omega)
  rw [makeInt32_eq] at g1
  cases g1
  exact ⟨v, g2, g3⟩

theorem made_button {b k : Nat} (h : makeButton b = some k) (x y : Int32) :
    ∃ v, make native args (.struct [enum k, makeInt32 x, makeInt32 y]) = some v ∧ ShowsButton b x y (view refs v) := by
  obtain ⟨vx, x1, x2⟩ := made_int32 native args refs x
  obtain ⟨vy, y1, y2⟩ := made_int32 native args refs y
  refine ⟨.struct [.union k (.struct []), vx, vy], by simp [make, makes, enum, x1, y1], ⟨view_struct refs _, 0, rfl, ?_⟩, ⟨view_struct refs _, 1, rfl, ?_⟩, ⟨view_struct refs _, 2, rfl, ?_⟩⟩
  · rw [sub_struct refs _ 0 _ rfl]
    unfold makeButton at h
    split at h
    · cases h
      exact .inl ⟨by assumption, 0, view_union refs _ _, rfl⟩
    · split at h
      · cases h
        exact .inr ⟨by assumption, 1, view_union refs _ _, rfl⟩
      · cases h
  · rw [sub_struct refs _ 1 _ rfl]
    exact x2
  · rw [sub_struct refs _ 2 _ rfl]
    exact y2

theorem made_key {k : Scancode} {t : Nat} (h : makeKey k = some t) : HasTag keyFields k.name.toLower (view refs (.union t (.struct []) : Val F)) :=
  ⟨t, view_union refs _ _, C85_keys k t h⟩

/-- C85, what an event is: the value of type Event@ which is made for an event of SDL says what it was, which key or button, and where, as given by the names of the fields. -/
theorem C85_values {e : SdlEvent} {m : Made} (h : makeEvent e = some m) : ∃ v, make native args m = some v ∧ ShowsEvent e (view refs v) := by
  cases e with
  | user =>
    cases h
    exact ⟨_, rfl, .tick ⟨0, view_union refs _ _, rfl⟩⟩
  | keyDown k =>
    obtain ⟨t, h1, rfl⟩ := Option.map_eq_some_iff.mp h
    refine ⟨.union 1 (.union t (.struct [])), rfl, .keyDown ⟨1, view_union refs _ _, rfl⟩ ?_⟩
    rw [sub_union]
    exact made_key refs h1
  | keyUp k =>
    obtain ⟨t, h1, rfl⟩ := Option.map_eq_some_iff.mp h
    refine ⟨.union 2 (.union t (.struct [])), rfl, .keyUp ⟨2, view_union refs _ _, rfl⟩ ?_⟩
    rw [sub_union]
    exact made_key refs h1
  | mouseDown b x y =>
    obtain ⟨t, h1, rfl⟩ := Option.map_eq_some_iff.mp h
    obtain ⟨v, g1, g2⟩ := made_button native args refs h1 x y
    refine ⟨.union 3 v, by rw [make, g1]; rfl, .mouseDown ⟨3, view_union refs _ _, rfl⟩ ?_⟩
    rw [sub_union]
    exact g2
  | mouseUp b x y =>
    obtain ⟨t, h1, rfl⟩ := Option.map_eq_some_iff.mp h
    obtain ⟨v, g1, g2⟩ := made_button native args refs h1 x y
    refine ⟨.union 4 v, by rw [make, g1]; rfl, .mouseUp ⟨4, view_union refs _ _, rfl⟩ ?_⟩
    rw [sub_union]
    exact g2
  | resized w h' =>
    cases h
    obtain ⟨vx, x1, x2⟩ := made_int32 native args refs w
    obtain ⟨vy, y1, y2⟩ := made_int32 native args refs h'
    refine ⟨.union 5 (.struct [vx, vy]), by simp [make, makes, x1, y1], .resized ⟨5, view_union refs _ _, rfl⟩ ?_ ?_⟩
    · rw [sub_union]
      exact ⟨view_struct refs _, 0, rfl, by rw [sub_struct refs _ 0 _ rfl]; exact x2⟩
    · rw [sub_union]
      exact ⟨view_struct refs _, 1, rfl, by rw [sub_struct refs _ 1 _ rfl]; exact y2⟩
  | other => cases h
  | motion x y dx dy =>
    cases h
    obtain ⟨v0, a0, b0⟩ := made_int32 native args refs x
    obtain ⟨v1, a1, b1⟩ := made_int32 native args refs y
    obtain ⟨v2, a2, b2⟩ := made_int32 native args refs dx
    obtain ⟨v3, a3, b3⟩ := made_int32 native args refs dy
    refine ⟨.union 6 (.struct [v0, v1, v2, v3]), by simp [make, makes, a0, a1, a2, a3], .motion ⟨6, view_union refs _ _, rfl⟩ ?_⟩
    rw [sub_union]
    intro f hf
    simp only [List.mem_cons, List.not_mem_nil, or_false] at hf
    rcases hf with rfl | rfl | rfl | rfl
    · exact ⟨view_struct refs _, 0, rfl, by rw [sub_struct refs _ 0 _ rfl]; exact b0⟩
    · exact ⟨view_struct refs _, 1, rfl, by rw [sub_struct refs _ 1 _ rfl]; exact b1⟩
    · exact ⟨view_struct refs _, 2, rfl, by rw [sub_struct refs _ 2 _ rfl]; exact b2⟩
    · exact ⟨view_struct refs _, 3, rfl, by rw [sub_struct refs _ 3 _ rfl]; exact b3⟩

/-- C85, no event is lost that the type has: only keys without a field in Key@, other buttons and other events of SDL are skipped. -/
theorem C85_skipped {e : SdlEvent} : makeEvent e = none ↔ match e with
    | .keyDown k | .keyUp k => k.name.toLower ∉ keyFields
    | .mouseDown b _ _ | .mouseUp b _ _ => b ≠ 1 ∧ b ≠ 3
    | .other => True
    | _ => False := by
  have hk : ∀ k : Scancode, makeKey k = none ↔ k.name.toLower ∉ keyFields := by
    intro k
    cases k with
    | other c => simp only [makeKey, Scancode.name, true_iff]; decide +kernel
    | _ => decide +kernel
  have hb : ∀ b, makeButton b = none ↔ b ≠ 1 ∧ b ≠ 3 := by
    intro b
    unfold makeButton
    split <;> simp_all
  cases e <;> simp [makeEvent, hk, hb]

/-- C82, what FbleStdio does with a program: it is applied to the standard streams and functions, each in the field of StdioIO@ with its name, and to the list of the arguments, in order (with `?` for a
character that Char@ does not have); what comes of it is applied to the world, and the second field of that, in which IO@ has the result, is the result. -/
theorem C82_given (call : Val F → List (Val F) → St F → Res F (Val F)) (strings : List (List Nat)) (main : Val F) (s : St F) (n : Nat) : ∃ list,
    (∀ refs, ShowsStrings (view refs list) (strings.map (·.map shownChar))) ∧
    runHost native call (stdioHost strings) (n + 4) [main] s =
      (call main [stdioValue native, list] s).bind fun io s => (call io [.struct []] s).bind fun r s => structField r 1 s := by
  have hall : ∃ v, make native [main] (list (strings.map string)) = some v ∧ ∀ refs, ShowsStrings (view refs v) (strings.map (·.map shownChar)) := by
    obtain ⟨v, h1, -⟩ := made_strings native [main] [] strings
    refine ⟨v, h1, fun refs => ?_⟩
    obtain ⟨w, g1, g2⟩ := made_strings native [main] refs strings
    rw [h1] at g1
    cases g1
    exact g2
  obtain ⟨v, h1, h2⟩ := hall
  refine ⟨v, h2, ?_⟩
  have e1 : makes native [main] [stdioIO, list (strings.map string)] = some [stdioValue native, v] := by
    simp only [makes, h1]
    rfl
  rw [runHost]
  simp only [stdioHost, List.length_map, List.length_cons, List.length_nil, Nat.zero_add, List.getElem?_cons_zero, e1]
  congr 1
  funext io s
  rw [runHost]
  simp only [List.map_append, List.map_cons, List.map_nil, List.cons_append, List.nil_append, show ∀ a b, stdioHost strings [a, b] = .apply 1 (.struct []) [] from fun _ _ => rfl, List.getElem?_cons_succ, List.getElem?_cons_zero, makes, make, Option.map_some, Option.bind_some]
  congr 1
  funext r s
  rw [runHost]
  simp only [List.map_append, List.map_cons, List.map_nil, List.cons_append, List.nil_append, show ∀ a b c, stdioHost strings [a, b, c] = .field 2 1 from fun _ _ _ => rfl, List.getElem?_cons_succ, List.getElem?_cons_zero]
  cases hr : structField r 1 s with
  | ok w s =>
    simp only [Res.bind]
    rw [runHost]
    simp only [List.map_append, List.map_cons, List.map_nil, List.cons_append, List.nil_append, show ∀ a b c d, stdioHost strings [a, b, c, d] = .finish 3 from fun _ _ _ _ => rfl, List.getElem?_cons_succ, List.getElem?_cons_zero]
  | _ => rfl

/-- C83, what FbleAppMain does with a program: as C82, with the functions for events and effects and the width and height of the window before the arguments. -/
theorem C83_given (call : Val F → List (Val F) → St F → Res F (Val F)) (width height : Int32) (strings : List (List Nat)) (main : Val F) (s : St F) (n : Nat) : ∃ w h list,
    (∀ refs, ShowsInt (view refs w) width.toInt ∧ ShowsInt (view refs h) height.toInt ∧ ShowsStrings (view refs list) (strings.map (·.map shownChar))) ∧
    runHost native call (appHost width height strings) (n + 4) [main] s =
      (call main [stdioValue native, .fn (native Op.event.code 0), .fn (native Op.effect.code 1), w, h, list] s).bind fun io s => (call io [.struct []] s).bind fun r s => structField r 1 s := by
  have hall : ∃ v, make native [main] (list (strings.map string)) = some v ∧ ∀ refs, ShowsStrings (view refs v) (strings.map (·.map shownChar)) := by
    obtain ⟨v, h1, -⟩ := made_strings native [main] [] strings
    refine ⟨v, h1, fun refs => ?_⟩
    obtain ⟨w, g1, g2⟩ := made_strings native [main] refs strings
    rw [h1] at g1
    cases g1
    exact g2
  have hint : ∀ x : Int32, ∃ v, make native [main] (makeInt32 x) = some v ∧ ∀ refs, ShowsInt (view refs v) x.toInt := by
    intro x
    obtain ⟨v, h1, -⟩ := made_int32 native [main] [] x
    refine ⟨v, h1, fun refs => ?_⟩
    obtain ⟨w, g1, g2⟩ := made_int32 native [main] refs x
    rw [h1] at g1
    cases g1
    exact g2
  obtain ⟨v, h1, h2⟩ := hall
  obtain ⟨vw, w1, w2⟩ := hint width
  obtain ⟨vh, k1, k2⟩ := hint height
  refine ⟨vw, vh, v, fun refs => ⟨w2 refs, k2 refs, h2 refs⟩, ?_⟩
  have e1 : makes native [main] [stdioIO, .function Op.event.code 0, .function Op.effect.code 1, makeInt32 width, makeInt32 height, list (strings.map string)] =
      some [stdioValue native, .fn (native Op.event.code 0), .fn (native Op.effect.code 1), vw, vh, v] := by
    simp only [makes, h1, w1, k1]
    rfl
  rw [runHost]
  simp only [appHost, List.length_map, List.length_cons, List.length_nil, Nat.zero_add, List.getElem?_cons_zero, e1]
  congr 1
  funext io s
  rw [runHost]
  simp only [List.map_append, List.map_cons, List.map_nil, List.cons_append, List.nil_append, show ∀ a b, appHost width height strings [a, b] = .apply 1 (.struct []) [] from fun _ _ => rfl, List.getElem?_cons_succ, List.getElem?_cons_zero, makes, make, Option.map_some, Option.bind_some]
  congr 1
  funext r s
  rw [runHost]
  simp only [List.map_append, List.map_cons, List.map_nil, List.cons_append, List.nil_append, show ∀ a b c, appHost width height strings [a, b, c] = .field 2 1 from fun _ _ _ => rfl, List.getElem?_cons_succ, List.getElem?_cons_zero]
  cases hr : structField r 1 s with
  | ok w s =>
    simp only [Res.bind]
    rw [runHost]
    simp only [List.map_append, List.map_cons, List.map_nil, List.cons_append, List.nil_append, show ∀ a b c d, appHost width height strings [a, b, c, d] = .finish 3 from fun _ _ _ _ => rfl, List.getElem?_cons_succ, List.getElem?_cons_zero]
  | _ => rfl

/-- C80, getenv: the value of the variable, and nothing if there is none; nothing is read or written. -/
theorem C80_getenv (w : World) (cs : List Call) (name v : View) {n : List Nat} (hn : readString name = some n) :
    w.after (⟨Op.getenv.code, [name, v]⟩ :: cs) = w.after cs ∧
    (w.env n = none → w.answer (⟨Op.getenv.code, [name, v]⟩ :: cs) = .value (.struct [.argument 1, enum 1])) ∧
    ∀ value, w.env n = some value → ∃ m, w.answer (⟨Op.getenv.code, [name, v]⟩ :: cs) = .value (.struct [.argument 1, .union 0 m]) ∧
      ∃ r, make native args m = some r ∧ readString (view refs r) = some (value.map shownChar) := by
  have h : w.call (w.after cs) ⟨Op.getenv.code, [name, v]⟩ = (w.after cs, .value (result 1 ((w.env n).map string))) := by
    simp only [World.call, Op.ofCode_code, readingString_some hn]
  refine ⟨by rw [World.after, h], fun he => by rw [World.answer, h, he]; rfl, fun value he => ⟨string value, by rw [World.answer, h, he]; rfl, ?_⟩⟩
  obtain ⟨r, g1, -, g2⟩ := C79_make native args refs value
  exact ⟨r, g1, g2⟩
end

/-- The ticks that a call asks for. -/
noncomputable def ticksOf (c : Call) : Option Int :=
  match Op.ofCode c.op, c.args with
  | .effect, [e, _] => (match e [], readInt32 (sub e 0) with
    | .union 0, .ok t => some t
    | _, _ => none)
  | _, _ => none

/-- C85, ticks: those asked for are those of the calls of `effect`, in order. -/
theorem C85_ticks (w : AppWorld) : (cs : List Call) → (w.after cs).ticks = cs.reverse.filterMap ticksOf
  | [] => rfl
  | c :: cs => by
    have h : (w.call (w.after cs) c).1.ticks = (w.after cs).ticks ++ (ticksOf c).toList := by
      unfold AppWorld.call ticksOf
      split
      · rename_i e1 e2
        simp only [e1]
        split <;> simp
      · rename_i e1 e2
        simp only [e1, e2]
        split
        · rename_i he
          simp only [he]
          split <;> rename_i ht <;> simp [ht]
        · rename_i he
          simp only [he]
          split <;> simp
        · rename_i tag h0 h1 he
          split
          · rename_i h _; rw [he] at h; exact absurd (Node.union.inj h) h0
          · simp
        · rename_i he
          simp [he]
        · rename_i h0 h1 h2 h3
          split
          · rename_i h _; exact absurd h h0
          · simp
      · rename_i h e
        simp [h]
      · rename_i h e
        simp only [h]
        split
        · rename_i e1 e2; exact absurd e2 (e _ _)
        · simp
      · rename_i h0 h1 h2 h3
        split
        · rename_i e1 e2; exact absurd e1 (by assumption)
        · simp
    rw [AppWorld.after, h, C85_ticks w cs]
    cases hd : ticksOf c <;> simp [hd]

/-- C86, the exit status: 0 for `true` and 1 for `false` in the result of type Bool@ (pkgs/core/Core/Bool.fble:7), and 3 if there is no result.  (It is -1, seen as 255, for a result that is
not defined.) -/
theorem C86_status (depth : Nat) {F : Type} :
    (∀ (v : Val F) s, HasTag ["true", "false"] "true" (view s.refs v) → exitStatus (ended (depth + 1) (.ok v s)) = some 0) ∧
    (∀ (v : Val F) s, HasTag ["true", "false"] "false" (view s.refs v) → exitStatus (ended (depth + 1) (.ok v s)) = some 1) ∧
    (∀ (v : Val F) s r, unwrap s.refs (s.refs.length + 1) v = some (.ref r) → exitStatus (ended (depth + 1) (.ok v s)) = some (-1)) ∧
    exitStatus (ended (F := F) (depth + 1) .abort) = some 3 := by
  have key : ∀ (v : Val F) (s : St F) tag, view s.refs v [] = .union tag → exitStatus (ended (depth + 1) (.ok v s)) = some (tag : Int) := by
    intro v s tag h
    simp only [ended, observe]
    rw [view] at h
    split at h <;> cases h
    rename_i hu
    rw [hu]
    rfl
  have two : ∀ tag name, ["true", "false"][tag]? = some name → (name = "true" ∧ tag = 0) ∨ (name = "false" ∧ tag = 1) := by
    intro tag name h
    match tag, h with
    | 0, h => cases h; exact .inl ⟨rfl, rfl⟩
    | 1, h => cases h; exact .inr ⟨rfl, rfl⟩
  refine ⟨?_, ?_, ?_, rfl⟩
  · rintro v s ⟨tag, h1, h2⟩
    rcases two _ _ h2 with ⟨-, rfl⟩ | ⟨h, -⟩
    · exact key v s 0 h1
    · exact absurd h (by decide)
  · rintro v s ⟨tag, h1, h2⟩
    rcases two _ _ h2 with ⟨h, -⟩ | ⟨-, rfl⟩
    · exact absurd h (by decide)
    · exact key v s 1 h1
  · intro v s r h
    simp only [ended, observe, h]
    rfl

end Verif.Host
