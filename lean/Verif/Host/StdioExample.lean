import Verif.Host.AppSafe
import Verif.Safe.Cast
/-
Examples for C82 and C83: the program that copies a byte, and one that draws, with their types.
-/
namespace Verif.Host
open Verif.Compile
open Verif.Elab (IsNode openAll atEnd tcProgram Module Monomorphic Expr Tagged Binds Exprs)
open Verif.Types (Ptr Heap SameType DataKind Is)

/-! ### Finding the types of `Main@` in a heap -/

/-- The end of a chain of definitions. -/
def resolve (h : Heap) : Nat → Ptr → Option Ptr
  | 0, _ => none
  | n + 1, t =>
    match h[t]? with
    | none => none
    | some (.var _ (some v)) => resolve h n v
    | some (.abstract q u) =>
      match h[q]? with
      | some (.package _ false) => resolve h n u
      | _ => none
    | some (.var _ none) => none
    | some _ => some t

theorem resolve_is {h : Heap} : (n : Nat) → {t q : Ptr} → resolve h n t = some q → Is h [] q t
  | 0, _, _, hp => by simp [resolve] at hp
  | n + 1, t, q, hp => by
    simp only [resolve] at hp
    split at hp
    · cases hp
    · rename_i hg
      exact .value hg (resolve_is n hp)
    · rename_i hg
      split at hp
      · rename_i hq
        exact .unwrap hg hq (resolve_is n hp)
      · cases hp
    · cases hp
    · rename_i h1 h2 h3 hg
      cases hp
      exact .here (Types.final_normal hg (fun k v e => h1 k v e) rfl fun q t path e => absurd e (h2 q t))

def nodeOf (h : Heap) (T : Ptr) : Option Types.Node := (resolve h 9 T).bind fun q => h[q]?

theorem nodeOf_is {h : Heap} {T : Ptr} {n : Types.Node} (hn : nodeOf h T = some n) : IsNode h T n := by
  obtain ⟨q, h1, h2⟩ := Option.bind_eq_some_iff.mp hn
  exact ⟨q, resolve_is 9 h1, h2⟩

def sameB (h : Heap) (a b : Ptr) : Bool := (resolve h 9 a).isSome && resolve h 9 a == resolve h 9 b

theorem sameB_same {h : Heap} {a b : Ptr} (hs : sameB h a b = true) : SameType h [] a b := by
  simp only [sameB, Bool.and_eq_true, beq_iff_eq] at hs
  obtain ⟨q, hq⟩ := Option.isSome_iff_exists.mp hs.1
  have h1 := resolve_is 9 hq
  have h2 := resolve_is 9 (hs.2 ▸ hq)
  exact Elab.same_of_is fun r => ⟨fun hr => by rw [hr.unique h1]; exact h2, fun hr => by rw [hr.unique h2]; exact h1⟩

def sameAllB (h : Heap) : List (Types.Name × Ptr) → List Ptr → Bool
  | [], [] => true
  | f :: fs, S :: Ss => sameB h f.2 S && sameAllB h fs Ss
  | _, _ => false

theorem sameAllB_same {h : Heap} : {fs : List (Types.Name × Ptr)} → {Ss : List Ptr} → sameAllB h fs Ss = true → All2 (fun f S => SameType h [] f.2 S) fs Ss
  | [], [], _ => .nil
  | f :: fs, S :: Ss, hs => by
    simp only [sameAllB, Bool.and_eq_true] at hs
    exact .cons (sameB_same hs.1) (sameAllB_same hs.2)
  | [], _ :: _, hs => by simp [sameAllB] at hs
  | _ :: _, [], hs => by simp [sameAllB] at hs

def fieldsB (h : Heap) (k : DataKind) (T : Ptr) (Ss : List Ptr) : Bool :=
  match nodeOf h T with
  | some (.data k' fields) => k' = k && sameAllB h fields Ss
  | _ => false

theorem fieldsB_fields {h : Heap} {k : DataKind} {T : Ptr} {Ss : List Ptr} (hb : fieldsB h k T Ss = true) : Fields h k T Ss := by
  unfold fieldsB at hb
  split at hb
  · rename_i k' fields hn
    simp only [Bool.and_eq_true, decide_eq_true_eq] at hb
    exact ⟨fields, hb.1 ▸ nodeOf_is hn, sameAllB_same hb.2⟩
  · cases hb

def funcB (h : Heap) (T A R : Ptr) : Bool :=
  match nodeOf h T with
  | some (.func a r) => sameB h a A && sameB h r R
  | _ => false

theorem funcB_func {h : Heap} {T A R : Ptr} (hb : funcB h T A R = true) : Func h T A R := by
  unfold funcB at hb
  split at hb
  · rename_i a r hn
    simp only [Bool.and_eq_true] at hb
    exact ⟨a, r, nodeOf_is hn, sameB_same hb.1, sameB_same hb.2⟩
  · cases hb

/-- A part of a type: a field, or argument (0) and result (1). -/
def part (h : Heap) (T : Ptr) (i : Nat) : Ptr :=
  match nodeOf h T with
  | some (.data _ fields) => ((fields[i]?).map (·.2)).getD 0
  | some (.func a r) => if i = 0 then a else r
  | _ => 0

/-- Whether these are the types `StdioIO@`, `List@<String@>`, `Unit@` and `R@<Bool@>`. -/
def ioB (h : Heap) (io strings unit rBool : Ptr) : Bool :=
  let p := part h
  let bool := p rBool 1
  let stringsCons := p strings 0; let string := p stringsCons 0; let stringCons := p string 0; let char := p stringCons 0
  let istream := p io 0; let ostream := p io 1; let read := p io 3; let write := p io 4; let getenv := p io 5
  let int := p ostream 0; let intp := p int 0; let ostream' := p ostream 1; let rUnit := p ostream' 1
  let rMaybeInt := p istream 1; let maybeInt := p rMaybeInt 1
  let read' := p read 1; let rMaybeIstream := p read' 1; let maybeIstream := p rMaybeIstream 1
  let write' := p write 1; let rMaybeOstream := p write' 1; let maybeOstream := p rMaybeOstream 1
  let getenv' := p getenv 1; let rMaybeString := p getenv' 1; let maybeString := p rMaybeString 1
  fieldsB h .struct unit [] && (fieldsB h .union intp [unit, intp, intp] && (fieldsB h .union int [intp, unit, intp] && (fieldsB h .union char (List.replicate 98 unit) &&
  (fieldsB h .union string [stringCons, unit] && (fieldsB h .struct stringCons [char, string] && (fieldsB h .union strings [stringsCons, unit] && (fieldsB h .struct stringsCons [string, strings] &&
  (fieldsB h .union bool [unit, unit] && (fieldsB h .union maybeInt [int, unit] && (fieldsB h .union maybeIstream [istream, unit] && (fieldsB h .union maybeOstream [ostream, unit] &&
  (fieldsB h .union maybeString [string, unit] && (fieldsB h .struct rMaybeInt [unit, maybeInt] && (fieldsB h .struct rMaybeIstream [unit, maybeIstream] &&
  (fieldsB h .struct rMaybeOstream [unit, maybeOstream] && (fieldsB h .struct rMaybeString [unit, maybeString] && (fieldsB h .struct rUnit [unit, unit] && (fieldsB h .struct rBool [unit, bool] &&
  (funcB h istream unit rMaybeInt && (funcB h ostream int ostream' && (funcB h ostream' unit rUnit && (funcB h read string read' && (funcB h read' unit rMaybeIstream && (funcB h write string write' &&
  (funcB h write' unit rMaybeOstream && (funcB h getenv string getenv' && (funcB h getenv' unit rMaybeString && fieldsB h .struct io [istream, ostream, ostream, read, write, getenv])))))))))))))))))))))))))))

theorem ioB_types {h : Heap} {io strings unit rBool : Ptr} (hb : ioB h io strings unit rBool = true) :
    ∃ S : IoTypes h, S.io = io ∧ S.strings = strings ∧ S.unit = unit ∧ S.rBool = rBool ∧ S.int = part h (part h io 1) 0 ∧ S.rUnit = part h (part h (part h io 1) 1) 1 := by
  simp only [ioB, Bool.and_eq_true] at hb
  obtain ⟨a1, a2, a3, a4, a5, a6, a7, a8, a9, a10, a11, a12, a13, a14, a15, a16, a17, a18, a19, a20, a21, a22, a23, a24, a25, a26, a27, a28, a29⟩ := hb
  refine ⟨⟨_, _, _, _, _, _, _, _, _, _, _, _, _, _, _, _, _, _, _, _, _, _, _, _, _, _, _, _, _,
    fieldsB_fields a1, fieldsB_fields a2, fieldsB_fields a3, fieldsB_fields a4, fieldsB_fields a5, fieldsB_fields a6, fieldsB_fields a7, fieldsB_fields a8, fieldsB_fields a9, fieldsB_fields a10,
    fieldsB_fields a11, fieldsB_fields a12, fieldsB_fields a13, fieldsB_fields a14, fieldsB_fields a15, fieldsB_fields a16, fieldsB_fields a17, fieldsB_fields a18, fieldsB_fields a19,
    funcB_func a20, funcB_func a21, funcB_func a22, funcB_func a23, funcB_func a24, funcB_func a25, funcB_func a26, funcB_func a27, funcB_func a28, fieldsB_fields a29⟩, rfl, rfl, rfl, rfl, rfl, rfl⟩

/-- Whether it is the type `Main@` of /Core/Stdio/IO%. -/
def stdioB (h : Heap) (main : Ptr) : Bool :=
  let p := part h
  let io := p main 0; let main' := p main 1; let strings := p main' 0; let main'' := p main' 1; let unit := p main'' 0; let rBool := p main'' 1
  ioB h io strings unit rBool && (funcB h main io main' && (funcB h main' strings main'' && funcB h main'' unit rBool))

theorem stdioB_types {h : Heap} {main : Ptr} (hb : stdioB h main = true) : Nonempty (StdioTypes h main) := by
  simp only [stdioB, Bool.and_eq_true] at hb
  obtain ⟨a1, a2, a3, a4⟩ := hb
  obtain ⟨S, e1, e2, e3, e4, _, _⟩ := ioB_types a1
  refine ⟨{ S with main' := part h main 1, main'' := part h (part h main 1) 1, hMain := ?_, hMain' := ?_, hMain'' := ?_ }⟩
  · rw [e1]; exact funcB_func a2
  · rw [e2]; exact funcB_func a3
  · rw [e3, e4]; exact funcB_func a4

/-- Whether it is the type `Main@` of /App/IO%. -/
def appB (h : Heap) (main : Ptr) : Bool :=
  let p := part h
  let io := p main 0; let main1 := p main 1; let getEvent := p main1 0; let main2 := p main1 1; let doEffect := p main2 0; let main3 := p main2 1; let main4 := p main3 1; let main5 := p main4 1
  let strings := p main5 0; let main6 := p main5 1; let unit := p main6 0; let rBool := p main6 1
  let int := p (p io 1) 0; let rUnit := p (p (p io 1) 1) 1
  let rEvent := p getEvent 1; let event := p rEvent 1; let key := p event 1; let mouseButton := p event 3; let button := p mouseButton 0; let resize := p event 5; let mouseMotion := p event 6
  let effect := p doEffect 0; let doEffect' := p doEffect 1; let drawing := p effect 1; let triangle := p drawing 1; let rect := p drawing 2; let transformed := p drawing 3; let over := p drawing 4
  let point := p triangle 0; let color := p triangle 3
  ioB h io strings unit rBool && (fieldsB h .union key (List.replicate 16 unit) && (fieldsB h .union button [unit, unit] && (fieldsB h .struct mouseButton [button, int, int] &&
  (fieldsB h .struct resize [int, int] && (fieldsB h .struct mouseMotion [int, int, int, int] && (fieldsB h .union event [unit, key, key, mouseButton, mouseButton, resize, mouseMotion] &&
  (fieldsB h .struct color [int, int, int] && (fieldsB h .struct point [int, int] && (fieldsB h .struct triangle [point, point, point, color] && (fieldsB h .struct rect [int, int, int, int, color] &&
  (fieldsB h .struct transformed [point, point, drawing] && (fieldsB h .struct over [drawing, drawing] && (fieldsB h .union drawing [unit, triangle, rect, transformed, over] &&
  (fieldsB h .union effect [int, drawing] && (fieldsB h .struct rEvent [unit, event] && (funcB h getEvent unit rEvent && (funcB h doEffect effect doEffect' && (funcB h doEffect' unit rUnit &&
  (funcB h main io main1 && (funcB h main1 getEvent main2 && (funcB h main2 doEffect main3 && (funcB h main3 int main4 && (funcB h main4 int main5 && (funcB h main5 strings main6 &&
  funcB h main6 unit rBool))))))))))))))))))))))))

theorem appB_types {h : Heap} {main : Ptr} (hb : appB h main = true) : Nonempty (AppTypes h main) := by
  simp only [appB, Bool.and_eq_true] at hb
  obtain ⟨a1, a2, a3, a4, a5, a6, a7, a8, a9, a10, a11, a12, a13, a14, a15, a16, a17, a18, a19, a20, a21, a22, a23, a24, a25, a26⟩ := hb
  obtain ⟨S, e1, e2, e3, e4, e5, e6⟩ := ioB_types a1
  clear a1
  generalize part h (part h (part h main 0) 1) 0 = int at *
  generalize part h (part h (part h (part h main 0) 1) 1) 1 = rUnit at *
  generalize part h main 0 = io at *
  generalize part h (part h (part h (part h (part h (part h (part h main 1) 1) 1) 1) 1) 1) 0 = unit at *
  generalize part h (part h (part h (part h (part h (part h (part h main 1) 1) 1) 1) 1) 1) 1 = rBool at *
  generalize part h (part h (part h (part h (part h (part h main 1) 1) 1) 1) 1) 0 = strings at *
  subst e1 e2 e3 e4 e5 e6
  exact ⟨⟨S, _, _, _, _, _, _, _, _, _, _, _, _, _, _, _, _, _, _, _, _, _, _, _, _, fieldsB_fields a2, fieldsB_fields a3, fieldsB_fields a4, fieldsB_fields a5, fieldsB_fields a6, fieldsB_fields a7,
    fieldsB_fields a8, fieldsB_fields a9, fieldsB_fields a10, fieldsB_fields a11, fieldsB_fields a12, fieldsB_fields a13, fieldsB_fields a14, fieldsB_fields a15, fieldsB_fields a16,
    funcB_func a17, funcB_func a18, funcB_func a19, funcB_func a20, funcB_func a21, funcB_func a22, funcB_func a23, funcB_func a24, funcB_func a25, funcB_func a26⟩⟩

/-! ### The program -/

namespace Example
open Elab.Example (tn vn)

def tv (x : String) : Expr := .var (tn x)
def vv (x : String) : Expr := .var (vn x)

def fields : List (String × Expr) → Tagged
  | [] => .nil
  | (x, e) :: fs => .cons (vn x) e (fields fs)

def exprs : List Expr → Exprs
  | [] => .nil
  | e :: es => .cons e (exprs es)

def structT (fs : List (String × Expr)) : Expr := .dataType .struct (fields fs)
def unionT (fs : List (String × Expr)) : Expr := .dataType .union (fields fs)

def types : List (String × Expr) → Binds
  | [] => .nil
  | (x, e) :: bs => .kind (.basic 1) (tn x) e (types bs)

/-- The types of /Core/Stdio/IO% and those they use, written out for a single module, /Main%. -/
def stdioTypes : List (String × Expr) :=
  [("World", .polyApply (.packageType [vn "Main"]) (tv "Unit")),
   ("IntP", unionT [("1", tv "Unit"), ("2p0", tv "IntP"), ("2p1", tv "IntP")]),
   ("Int", unionT [("n", tv "IntP"), ("0", tv "Unit"), ("p", tv "IntP")]),
   ("Char", unionT (charFields.map fun c => (c, tv "Unit"))),
   ("StringCons", structT [("head", tv "Char"), ("tail", tv "String")]),
   ("String", unionT [("cons", tv "StringCons"), ("nil", tv "Unit")]),
   ("StringsCons", structT [("head", tv "String"), ("tail", tv "Strings")]),
   ("Strings", unionT [("cons", tv "StringsCons"), ("nil", tv "Unit")]),
   ("Bool", unionT [("true", tv "Unit"), ("false", tv "Unit")]),
   ("MaybeInt", unionT [("just", tv "Int"), ("nothing", tv "Unit")]),
   ("RMaybeInt", structT [("s", tv "World"), ("x", tv "MaybeInt")]),
   ("RUnit", structT [("s", tv "World"), ("x", tv "Unit")]),
   ("RBool", structT [("s", tv "World"), ("x", tv "Bool")]),
   ("IStream", .funcType (tv "World") (tv "RMaybeInt")),
   ("OStream", .funcType (tv "Int") (.funcType (tv "World") (tv "RUnit"))),
   ("MaybeIStream", unionT [("just", tv "IStream"), ("nothing", tv "Unit")]),
   ("MaybeOStream", unionT [("just", tv "OStream"), ("nothing", tv "Unit")]),
   ("MaybeString", unionT [("just", tv "String"), ("nothing", tv "Unit")]),
   ("RMaybeIStream", structT [("s", tv "World"), ("x", tv "MaybeIStream")]),
   ("RMaybeOStream", structT [("s", tv "World"), ("x", tv "MaybeOStream")]),
   ("RMaybeString", structT [("s", tv "World"), ("x", tv "MaybeString")]),
   ("StdioIO", structT [("stdin", tv "IStream"), ("stdout", tv "OStream"), ("stderr", tv "OStream"),
     ("read", .funcType (tv "String") (.funcType (tv "World") (tv "RMaybeIStream"))),
     ("write", .funcType (tv "String") (.funcType (tv "World") (tv "RMaybeOStream"))),
     ("getenv", .funcType (tv "String") (.funcType (tv "World") (tv "RMaybeString")))])]

/-- ```
(StdioIO@ io) { (Strings@ args) { (World@ w) {
  RMaybeInt@ r = io.stdin(w);
  r.x.?(
    just: { RUnit@ o = io.stdout(r.x.just, r.s); RBool@(o.s, Bool@(true: Unit@())); },
    nothing: RBool@(r.s, Bool@(false: Unit@())));
}; }; };
``` -/
def copyMain : Module := ⟨[vn "Main"], [], .letE (.kind (.basic 1) (tn "Unit") (.dataType .struct .nil) .nil) (.letE (types stdioTypes)
  (.func (vn "io") (tv "StdioIO") (.func (vn "args") (tv "Strings") (.func (vn "w") (tv "World")
    (.letE (.type (tv "RMaybeInt") (vn "r") (.apply (.dataAccess (vv "io") (vn "stdin")) (exprs [vv "w"]) false) .nil)
      (.select (.dataAccess (vv "r") (vn "x"))
        (fields [("just", .letE (.type (tv "RUnit") (vn "o") (.apply (.dataAccess (vv "io") (vn "stdout")) (exprs [.dataAccess (.dataAccess (vv "r") (vn "x")) (vn "just"), .dataAccess (vv "r") (vn "s")]) false) .nil)
            (.apply (tv "RBool") (exprs [.dataAccess (vv "o") (vn "s"), .unionValue (tv "Bool") (vn "true") (.apply (tv "Unit") .nil false)]) false)),
          ("nothing", .apply (tv "RBool") (exprs [.dataAccess (vv "r") (vn "s"), .unionValue (tv "Bool") (vn "false") (.apply (tv "Unit") .nil false)]) false)]) .none))))))⟩

def isOk : Types.R (Option (List Tc)) → Bool
  | .ok (some _) => true
  | _ => false

def isStdio : Types.R (Heap × List (Option Ptr)) → Bool
  | .ok (h, types) => (match types.getLast? with | some (some t) => stdioB (openAll h) t | _ => false)
  | _ => false

theorem isOk_of : ∀ {r : Types.R (Option (List Tc))}, isOk r = true → ∃ tcs, r = .ok (some tcs)
  | .ok (some tcs), _ => ⟨tcs, rfl⟩

theorem isStdio_of {r : Types.R (Heap × List (Option Ptr))} (hr : isStdio r = true) : ∀ hf types t, r = .ok (hf, types ++ [some t]) → Nonempty (StdioTypes (openAll hf) t) := by
  rintro hf types t rfl
  simp only [isStdio, List.getLast?_append, List.getLast?_singleton, Option.some_or] at hr
  exact stdioB_types hr

theorem checks : isOk (tcProgram 300 [copyMain]) = true := by decide +kernel

theorem typesOk : isStdio (atEnd 300 [] [] [copyMain] []) = true := by decide +kernel

theorem mono : Monomorphic 300 [copyMain] := by
  unfold Monomorphic
  exact Or.inl (by decide +kernel)

/-- It meets the hypotheses of C82. -/
theorem copyMain_ok : (∃ tcs, tcProgram 300 [copyMain] = .ok (some tcs)) ∧ Monomorphic 300 [copyMain] ∧
    ∀ hf types t, atEnd 300 [] [] [copyMain] [] = .ok (hf, types ++ [some t]) → Nonempty (StdioTypes (openAll hf) t) :=
  ⟨isOk_of checks, mono, isStdio_of typesOk⟩

/-! ### An app -/

/-- The types of /App/App% and /App/Drawing%. -/
def appTypes : List (String × Expr) := stdioTypes ++
  [("Key", unionT (["a", "d", "h", "j", "k", "l", "q", "s", "w", "left", "right", "up", "down", "space", "lshift", "rshift"].map fun k => (k, tv "Unit"))),
   ("Button", unionT [("left", tv "Unit"), ("right", tv "Unit")]),
   ("MouseButton", structT [("button", tv "Button"), ("x", tv "Int"), ("y", tv "Int")]),
   ("Resize", structT [("width", tv "Int"), ("height", tv "Int")]),
   ("MouseMotion", structT [("x", tv "Int"), ("y", tv "Int"), ("dx", tv "Int"), ("dy", tv "Int")]),
   ("Event", unionT [("tick", tv "Unit"), ("down", tv "Key"), ("up", tv "Key"), ("mouse_down", tv "MouseButton"), ("mouse_up", tv "MouseButton"), ("resized", tv "Resize"), ("mouse_motion", tv "MouseMotion")]),
   ("Color", structT [("r", tv "Int"), ("g", tv "Int"), ("b", tv "Int")]),
   ("Point", structT [("x", tv "Int"), ("y", tv "Int")]),
   ("Triangle", structT [("a", tv "Point"), ("b", tv "Point"), ("c", tv "Point"), ("color", tv "Color")]),
   ("Rect", structT [("x", tv "Int"), ("y", tv "Int"), ("w", tv "Int"), ("h", tv "Int"), ("color", tv "Color")]),
   ("Transformed", structT [("a", tv "Point"), ("b", tv "Point"), ("d", tv "Drawing")]),
   ("Over", structT [("a", tv "Drawing"), ("b", tv "Drawing")]),
   ("Drawing", unionT [("", tv "Unit"), ("triangle", tv "Triangle"), ("rect", tv "Rect"), ("transformed", tv "Transformed"), ("over", tv "Over")]),
   ("Effect", unionT [("tick", tv "Int"), ("draw", tv "Drawing")]),
   ("REvent", structT [("s", tv "World"), ("x", tv "Event")])]

/-- ```
(StdioIO@ io) { ((World@) { REvent@; } event) { ((Effect@) { (World@) { RUnit@; }; } effect) { (Int@ width) { (Int@ height) { (Strings@ args) { (World@ w) {
  REvent@ e = event(w);
  Drawing@ d = Drawing@(rect: Rect@(width, height, width, height, Color@(width, width, width)));
  RUnit@ o = effect(Effect@(draw: Drawing@(over: Over@(d, d))), e.s);
  RBool@(o.s, Bool@(true: Unit@()));
}; }; }; }; }; }; };
``` -/
def drawMain : Module := ⟨[vn "Main"], [], .letE (.kind (.basic 1) (tn "Unit") (.dataType .struct .nil) .nil) (.letE (types appTypes)
  (.func (vn "io") (tv "StdioIO") (.func (vn "event") (.funcType (tv "World") (tv "REvent")) (.func (vn "effect") (.funcType (tv "Effect") (.funcType (tv "World") (tv "RUnit")))
    (.func (vn "width") (tv "Int") (.func (vn "height") (tv "Int") (.func (vn "args") (tv "Strings") (.func (vn "w") (tv "World")
    (.letE (.type (tv "REvent") (vn "e") (.apply (vv "event") (exprs [vv "w"]) false) .nil)
    (.letE (.type (tv "Drawing") (vn "d") (.unionValue (tv "Drawing") (vn "rect") (.apply (tv "Rect") (exprs [vv "width", vv "height", vv "width", vv "height",
      .apply (tv "Color") (exprs [vv "width", vv "width", vv "width"]) false]) false)) .nil)
    (.letE (.type (tv "RUnit") (vn "o") (.apply (vv "effect") (exprs [.unionValue (tv "Effect") (vn "draw") (.unionValue (tv "Drawing") (vn "over") (.apply (tv "Over") (exprs [vv "d", vv "d"]) false)),
      .dataAccess (vv "e") (vn "s")]) false) .nil)
    (.apply (tv "RBool") (exprs [.dataAccess (vv "o") (vn "s"), .unionValue (tv "Bool") (vn "true") (.apply (tv "Unit") .nil false)]) false))))))))))))⟩

def isApp : Types.R (Heap × List (Option Ptr)) → Bool
  | .ok (h, types) => (match types.getLast? with | some (some t) => appB (openAll h) t | _ => false)
  | _ => false

theorem isApp_of {r : Types.R (Heap × List (Option Ptr))} (hr : isApp r = true) : ∀ hf types t, r = .ok (hf, types ++ [some t]) → Nonempty (AppTypes (openAll hf) t) := by
  rintro hf types t rfl
  simp only [isApp, List.getLast?_append, List.getLast?_singleton, Option.some_or] at hr
  exact appB_types hr

theorem drawChecks : isOk (tcProgram 300 [drawMain]) = true := by decide +kernel

theorem drawTypesOk : isApp (atEnd 300 [] [] [drawMain] []) = true := by decide +kernel

theorem drawMono : Monomorphic 300 [drawMain] := by
  unfold Monomorphic
  exact Or.inl (by decide +kernel)

/-- It meets the hypotheses of C83. -/
theorem drawMain_ok : (∃ tcs, tcProgram 300 [drawMain] = .ok (some tcs)) ∧ Monomorphic 300 [drawMain] ∧
    ∀ hf types t, atEnd 300 [] [] [drawMain] [] = .ok (hf, types ++ [some t]) → Nonempty (AppTypes (openAll hf) t) :=
  ⟨isOk_of drawChecks, drawMono, isApp_of drawTypesOk⟩

end Example
end Verif.Host
