import Verif.Parse.File
/-
C98: the types in error messages.  Model of /repo/lib/type.c:893-920 `FblePrintKind` and
/repo/lib/type.c:1126-1238 `FblePrintType`.
-/
namespace Verif.Parse.PrintType
open Text (Token Byte Str ch toCStr printName printPath)
open Text.Spec (Lexes Lexeme Blank WordChar White Punct)
open Types (Kind)
open Elab (Expr Tagged)
open Parse (SExpr SStmt astName astPath P)

/-! ### Types -/

mutual
/-- lib/type.h:22-183: a type, as far as it is printed.  Of a type variable only the name is looked
at, so that printing goes over a tree. -/
inductive Ty where
  | struct (fields : Fields)
  | union (fields : Fields)
  | func (arg rtype : Ty)
  /-- `kind`: the kind of the argument, raised by one level (type.c:1165-1167); `x`: the argument,
  which is a type variable. -/
  | poly (kind : Kind) (x : Text.Name) (body : Ty)
  | apply (poly arg : Ty)
  | package (path : Text.Path)
  | abstract (package : Text.Path) (type : Ty)
  | var (x : Text.Name)
  | type (t : Ty)
/-- lib/type.h:60-67: the fields of a data type. -/
inductive Fields where
  | nil
  | cons (t : Ty) (x : Text.Name) (rest : Fields)
end

/-! ### How they are printed -/

/-- The bytes of a text of the program. -/
def str (s : String) : Str := s.toList.map ch

/-- The text for a level (type.c:896-904). -/
def levelText : Nat → Str
  | 0 => str "%"
  | 1 => str "@"
  | n => str "@" ++ str (toString n)

/-- type.c:893-920 `FblePrintKind`.  `more`: in the loop of type.c:908-916, after its first step;
the recursive call in the loop and the one after it are joined in one function. -/
def printKind (more : Bool) : Kind → Str
  | .basic level => (if more then str ">" else []) ++ levelText level
  | .poly arg rkind => (if more then str ", " else str "<") ++ printKind false arg ++ printKind true rkind

/-- Where the printer is: at the start of `FblePrintType`, in one of the loops of
type.c:1146-1152 and type.c:1161-1175 after the first step, or at the head of an application
(type.c:1186-1200; the arguments that have been collected there are printed after it in the order in
which they are applied, which is done here on the way back). -/
inductive Mode where
  | plain
  | func
  | poly
  | head

/-- What is printed when a loop ends (type.c:1153, 1176). -/
def enter : Mode → Str
  | .plain => []
  | .func => str ") { "
  | .poly => str "> { "
  | .head => []

/-- What is printed after the type with which a loop ended (type.c:1155, 1178, 1193). -/
def leave : Mode → Str
  | .plain => []
  | .func => str "; }"
  | .poly => str "; }"
  | .head => str "<"

mutual
/-- type.c:1126-1238 `FblePrintType`. -/
def print : Mode → Ty → Str
  -- type.c:1129-1142
  | m, .struct fs => enter m ++ str "*(" ++ printFields true fs ++ str ")" ++ leave m
  | m, .union fs => enter m ++ str "+(" ++ printFields true fs ++ str ")" ++ leave m
  -- type.c:1144-1157
  | .func, .func a r => str ", " ++ print .plain a ++ print .func r
  | m, .func a r => enter m ++ str "(" ++ print .plain a ++ print .func r ++ leave m
  -- type.c:1159-1180
  | .poly, .poly k x b => str ", " ++ printKind false k ++ str " " ++ printName x ++ print .poly b
  | m, .poly k x b => enter m ++ str "<" ++ printKind false k ++ str " " ++ printName x ++ print .poly b ++ leave m
  -- type.c:1182-1203
  | .head, .apply p a => print .head p ++ print .plain a ++ str ", "
  | m, .apply p a => enter m ++ print .head p ++ print .plain a ++ str ">" ++ leave m
  -- type.c:1205-1211
  | m, .package p => enter m ++ str "%(" ++ printPath p ++ str ")" ++ leave m
  -- type.c:1213-1220
  | m, .abstract p t => enter m ++ str "%(" ++ printPath p ++ str ")" ++ str "<" ++ print .plain t ++ str ">" ++ leave m
  -- type.c:1222-1226
  | m, .var x => enter m ++ printName x ++ leave m
  -- type.c:1228-1234
  | m, .type t => enter m ++ str "@<" ++ print .plain t ++ str ">" ++ leave m
/-- The loop of type.c:1132-1139; `first`: `comma` is "". -/
def printFields (first : Bool) : Fields → Str
  | .nil => []
  | .cons t x rest => (if first then [] else str ", ") ++ print .plain t ++ str " " ++ printName x ++ printFields false rest
end

/-- type.c:1126-1238 `FblePrintType`. -/
def FblePrintType (t : Ty) : Str := print .plain t

/-! ### The specification -/

mutual
/-- The type as an expression of the language: what the parser would have to return. -/
def Ty.ast : Ty → Expr
  | .struct fs => .dataType .struct fs.ast
  | .union fs => .dataType .union fs.ast
  | .func a r => .funcType a.ast r.ast
  | .poly k x b => .polyValue (astName x) k b.ast
  | .apply p a => .polyApply p.ast a.ast
  | .package p => .packageType (astPath p)
  | .abstract p t => .polyApply (.packageType (astPath p)) t.ast
  | .var x => .var (astName x)
  | .type t => .typeOf t.ast
def Fields.ast : Fields → Tagged
  | .nil => .nil
  | .cons t x rest => .cons (astName x) t.ast rest.ast
end

/-- A name that a program can contain. -/
def Word (x : Text.Name) : Prop := x.str ≠ [] ∧ (0 : Byte) ∉ x.str

/-- The kinds of types that can be written: all of level one. -/
def TypeKind : Kind → Prop
  | .basic level => level = 1
  | .poly a r => TypeKind a ∧ TypeKind r

/-- A module path, not empty, of plain words. -/
def PlainPath (p : Text.Path) : Prop := p ≠ [] ∧ ∀ n ∈ p, n.space = .normal ∧ n.str ≠ [] ∧ ∀ b ∈ n.str, WordChar b

mutual
/-- The types of programs: the names are words, unions have a field, the arguments of polymorphic
types are types, packages are not applied as polymorphic types.  Moreover the package paths are
plain and not that of the root package. -/
def Ty.Wf : Ty → Prop
  | .struct fs => fs.Wf
  | .union fs => fs.Wf ∧ fs ≠ .nil
  | .func a r => a.Wf ∧ r.Wf
  | .poly k x b => TypeKind k ∧ Word x ∧ b.Wf
  | .apply p a => p.Wf ∧ a.Wf ∧ ∀ q, p ≠ .package q
  | .package p => PlainPath p
  | .abstract p t => PlainPath p ∧ t.Wf
  | .var x => Word x
  | .type t => t.Wf
def Fields.Wf : Fields → Prop
  | .nil => True
  | .cons t x rest => t.Wf ∧ Word x ∧ rest.Wf
end

/-! ### Reading pieces of text -/

def Safe (b : Byte) : Prop := ¬ WordChar b ∧ b ≠ ch '\''

instance (b : Byte) : Decidable (Safe b) := inferInstanceAs (Decidable (_ ∧ _))

/-- The text is read as these tokens, whatever follows. -/
structure Ends (s : Str) (ts : List Token) : Prop where
  lex : ∀ rest ts' r, Lexes rest ts' r → Lexes (s ++ rest) (ts ++ ts') r

/-- The text is read as these tokens, unless something follows that continues a word. -/
structure Spells (s : Str) (ts : List Token) : Prop where
  lex : ∀ rest ts' r, (∀ b ∈ rest.head?, Safe b) → Lexes rest ts' r → Lexes (s ++ rest) (ts ++ ts') r

theorem Ends.nil : Ends [] [] := ⟨fun _ _ _ h => h⟩

theorem lexes_space {s ts r} (h : Lexes s ts r) : Lexes (ch ' ' :: s) ts r := by
  cases h with
  | stop h1 h2 => exact .stop (.space (by decide) h1) h2
  | next h1 h2 h3 h4 => exact .next (.space (by decide) h1) h2 h3 h4

theorem Ends.space {s ts} (h : Ends s ts) : Ends (ch ' ' :: s) ts :=
  ⟨fun rest ts' r h' => lexes_space (h.lex rest ts' r h')⟩

theorem Ends.punct {s ts b} (hb : Punct b) (hw : ¬ White b ∧ b ≠ ch '#') (h : Ends s ts) : Ends (b :: s) (.punct b :: ts) :=
  ⟨fun rest ts' r h' => .next (blank_none hw) (.punct hb) (by simp) (h.lex rest ts' r h')⟩

theorem Ends.append {s ts s' ts'} (h : Ends s ts) (h' : Ends s' ts') : Ends (s ++ s') (ts ++ ts') := by
  refine ⟨fun rest t r hr => ?_⟩
  rw [List.append_assoc, List.append_assoc]
  exact h.lex _ _ _ (h'.lex _ _ _ hr)

theorem Ends.spells {s ts} (h : Ends s ts) : Spells s ts := ⟨fun rest t r _ hr => h.lex rest t r hr⟩

theorem Ends.appendS {s ts s' ts'} (h : Ends s ts) (h' : Spells s' ts') : Spells (s ++ s') (ts ++ ts') := by
  refine ⟨fun rest t r hs hr => ?_⟩
  rw [List.append_assoc, List.append_assoc]
  exact h.lex _ _ _ (h'.lex _ _ _ hs hr)

/-- The text starts with a character that ends a word. -/
def Stops (s : Str) : Prop := ∃ b t, s = b :: t ∧ Safe b

theorem Stops.append {s : Str} (h : Stops s) (t : Str) : Stops (s ++ t) := by
  obtain ⟨b, u, rfl, hb⟩ := h
  exact ⟨b, u ++ t, rfl, hb⟩

theorem Spells.append {s ts s' ts'} (h : Spells s ts) (hs : Stops s') (h' : Spells s' ts') : Spells (s ++ s') (ts ++ ts') := by
  refine ⟨fun rest t r hr hl => ?_⟩
  rw [List.append_assoc, List.append_assoc]
  refine h.lex _ _ _ ?_ (h'.lex _ _ _ hr hl)
  obtain ⟨b, u, rfl, hb⟩ := hs
  rintro c ⟨⟩
  exact hb

theorem Spells.appendE {s ts s' ts'} (h : Spells s ts) (hs : Stops s') (h' : Ends s' ts') : Ends (s ++ s') (ts ++ ts') := by
  refine ⟨fun rest t r hl => ?_⟩
  rw [List.append_assoc, List.append_assoc]
  refine h.lex _ _ _ ?_ (h'.lex _ _ _ hl)
  obtain ⟨b, u, rfl, hb⟩ := hs
  rintro c ⟨⟩
  exact hb

theorem ends_name {x : Text.Name} (hx : Word x) : ∃ n : SName, n.ast = astName x ∧ Spells (printName x) n.toks := by
  obtain ⟨w, sp⟩ := x
  obtain ⟨hne, h0⟩ := hx
  have hc := Text.toCStr_eq h0
  cases sp with
  | normal =>
    refine ⟨.normal w, by simp only [SName.ast, SName.name]; rw [hc], ⟨fun rest ts' r hr hl => ?_⟩⟩
    have := Text.lexeme_printed w rest hne hr
    have e : printName ⟨w, .normal⟩ ++ rest = (if !Text.isPlainWord w then [ch '\''] else []) ++ Text.printChars w ++ (if !Text.isPlainWord w then [ch '\''] else []) ++ rest := by
      simp [printName]
    rw [e]
    exact .next (.done this.2) this.1 (by simp) hl
  | type =>
    refine ⟨.type w, by simp only [SName.ast, SName.name]; rw [hc], ⟨fun rest ts' r hr hl => ?_⟩⟩
    have := Text.lexeme_printed w (ch '@' :: rest) hne (by rintro b ⟨⟩; decide)
    have e : printName ⟨w, .type⟩ ++ rest = (if !Text.isPlainWord w then [ch '\''] else []) ++ Text.printChars w ++ (if !Text.isPlainWord w then [ch '\''] else []) ++ ch '@' :: rest := by
      simp [printName]
    rw [e]
    exact .next (.done this.2) this.1 (by simp) ((Ends.nil.punct (by decide) (by decide)).lex _ _ _ hl)

theorem ends_path {p : Text.Path} (hp : PlainPath p) : ∃ q : SPath, q.path = p ∧ Ends (printPath p) q.toks := by
  obtain ⟨hne, hp⟩ := hp
  cases p with
  | nil => exact absurd rfl hne
  | cons n p =>
    refine ⟨written n p, ?_, ?_⟩
    · rw [written_path]
      conv => rhs; rw [← List.map_id (n :: p)]
      apply List.map_congr_left
      intro m hm
      obtain ⟨h1, -, h3⟩ := hp m hm
      rw [Text.toCStr_eq fun h => (h3 0 h).1 rfl]
      cases m
      simp_all
    · have h2 : (written n p).toks = ((n :: p).flatMap fun n => [P '/', .word n.str]) ++ [P '%'] := by
        simp [SPath.toks, written_inner]
      have h3 : printPath (n :: p) = (n :: p).flatMap (fun n => ch '/' :: n.str) ++ [ch '%'] := by simp [printPath]
      rw [h2, h3]
      generalize n :: p = l at hp
      induction l with
      | nil => exact Ends.nil.punct (by decide) (by decide)
      | cons n p ih =>
        have ih := ih fun m hm => hp m (by simp [hm])
        obtain ⟨-, hne, hw⟩ := hp n (by simp)
        simp only [List.flatMap_cons, List.cons_append, List.append_assoc, List.nil_append]
        refine Ends.punct (by decide) (by decide) ⟨fun rest ts' r hl => ?_⟩
        have := ih.lex _ _ _ hl
        rw [List.append_assoc, List.cons_append]
        refine .next (.done ?_) (.plain hne hw ?_) (by simp) this
        · intro b hb
          cases hs : n.str with
          | nil => exact absurd hs hne
          | cons b' w =>
            rw [hs] at hb
            cases hb
            have := hw b (by simp [hs])
            exact ⟨this.2.1, this.2.2.2.2⟩
        · cases p with
          | nil => rintro b ⟨⟩; decide
          | cons n' p => rintro b ⟨⟩; decide

/-! ### The punctuation -/

section
set_option hygiene false
local macro "punctuation" : tactic => `(tactic| (
  repeat first
    | exact Ends.nil
    | apply Ends.space
    | refine Ends.punct (by decide) (by decide) ?_))

theorem e_pct : Ends (str "%") [P '%'] := by rw [show str "%" = [ch '%'] by decide +kernel]; punctuation
theorem e_at : Ends (str "@") [P '@'] := by rw [show str "@" = [ch '@'] by decide +kernel]; punctuation
theorem e_lt : Ends (str "<") [P '<'] := by rw [show str "<" = [ch '<'] by decide +kernel]; punctuation
theorem e_gt : Ends (str ">") [P '>'] := by rw [show str ">" = [ch '>'] by decide +kernel]; punctuation
theorem e_lp : Ends (str "(") [P '('] := by rw [show str "(" = [ch '('] by decide +kernel]; punctuation
theorem e_rp : Ends (str ")") [P ')'] := by rw [show str ")" = [ch ')'] by decide +kernel]; punctuation
theorem e_comma : Ends (str ", ") [P ','] := by rw [show str ", " = [ch ',', ch ' '] by decide +kernel]; punctuation
theorem e_space : Ends (str " ") [] := by rw [show str " " = [ch ' '] by decide +kernel]; punctuation
theorem e_func : Ends (str ") { ") [P ')', P '{'] := by rw [show str ") { " = [ch ')', ch ' ', ch '{', ch ' '] by decide +kernel]; punctuation
theorem e_poly : Ends (str "> { ") [P '>', P '{'] := by rw [show str "> { " = [ch '>', ch ' ', ch '{', ch ' '] by decide +kernel]; punctuation
theorem e_close : Ends (str "; }") [P ';', P '}'] := by rw [show str "; }" = [ch ';', ch ' ', ch '}'] by decide +kernel]; punctuation
theorem e_struct : Ends (str "*(") [P '*', P '('] := by rw [show str "*(" = [ch '*', ch '('] by decide +kernel]; punctuation
theorem e_union : Ends (str "+(") [P '+', P '('] := by rw [show str "+(" = [ch '+', ch '('] by decide +kernel]; punctuation
theorem e_package : Ends (str "%(") [P '%', P '('] := by rw [show str "%(" = [ch '%', ch '('] by decide +kernel]; punctuation
theorem e_type : Ends (str "@<") [P '@', P '<'] := by rw [show str "@<" = [ch '@', ch '<'] by decide +kernel]; punctuation
theorem e_semi : Ends (str ";") [P ';'] := by rw [show str ";" = [ch ';'] by decide +kernel]; punctuation
end

theorem s_gt : Stops (str ">") := ⟨ch '>', [], by decide +kernel, by decide⟩
theorem s_lt : Stops (str "<") := ⟨ch '<', [], by decide +kernel, by decide⟩
theorem s_rp : Stops (str ")") := ⟨ch ')', [], by decide +kernel, by decide⟩
theorem s_comma : Stops (str ", ") := ⟨ch ',', [ch ' '], by decide +kernel, by decide⟩
theorem s_space : Stops (str " ") := ⟨ch ' ', [], by decide +kernel, by decide⟩
theorem s_func : Stops (str ") { ") := ⟨ch ')', [ch ' ', ch '{', ch ' '], by decide +kernel, by decide⟩
theorem s_poly : Stops (str "> { ") := ⟨ch '>', [ch ' ', ch '{', ch ' '], by decide +kernel, by decide⟩
theorem s_close : Stops (str "; }") := ⟨ch ';', [ch ' ', ch '}'], by decide +kernel, by decide⟩
theorem s_semi : Stops (str ";") := ⟨ch ';', [], by decide +kernel, by decide⟩

/-! ### Kinds -/

theorem kind_stops (k : Kind) : Stops (printKind true k) := by
  cases k with
  | basic l => simp only [printKind, if_pos]; exact s_gt.append _
  | poly a r => simp only [printKind, if_pos, List.append_assoc]; exact s_comma.append _

theorem spells_kind : ∀ (k : Kind), TypeKind k →
    (∃ s : STKind, s.ast = k ∧ Ends (printKind false k) s.toks) ∧
    (∀ as : STKinds, ∃ (s : STKind) (ts : List Token), s.ast = as.ast.foldr .poly k ∧ s.toks = P '<' :: as.toks ++ ts ∧ Ends (printKind true k) ts)
  | .basic l, h => by
    have h : l = 1 := h
    subst h
    refine ⟨⟨.basic, rfl, ?_⟩, fun as => ⟨.poly as .basic, [P '>', P '@'], rfl, by simp [STKind.toks], ?_⟩⟩
    · simp only [printKind, levelText, STKind.toks]
      exact e_at
    · simp only [printKind, levelText, if_pos]
      exact e_gt.append e_at
  | .poly a r, h => by
    obtain ⟨ha, hr⟩ := h
    obtain ⟨sa, ea, la⟩ := (spells_kind a ha).1
    have ihr := (spells_kind r hr).2
    refine ⟨?_, fun as => ?_⟩
    · obtain ⟨s, ts, h1, h2, h3⟩ := ihr (.one sa)
      refine ⟨s, by rw [h1]; simp [STKinds.ast, ea], ?_⟩
      rw [h2]
      simp only [printKind, STKinds.toks, Bool.false_eq_true, if_false]
      simpa using (e_lt.append la).append h3
    · obtain ⟨s, ts, h1, h2, h3⟩ := ihr (.more as sa)
      refine ⟨s, P ',' :: sa.toks ++ ts, by rw [h1]; simp [STKinds.ast, ea], by rw [h2]; simp [STKinds.toks], ?_⟩
      simp only [printKind, if_pos]
      simpa using (e_comma.append la).append h3

/-! ### Types -/

/-- What is to be shown for a type: for each place from which it is printed. -/
structure Good (t : Ty) : Prop where
  plain : ∃ e : SExpr, e.ast = some t.ast ∧ Spells (print .plain t) e.toks
  func : ∀ (as : SExprs) (l : List Expr), as.ast = some l → ∃ (b : SBlock) (ts : List Token), b.ast = some (l.foldr .funcType t.ast) ∧
    b.toks = P '(' :: as.toks ++ ts ∧ Ends (print .func t) ts
  poly : ∀ (as : STaggedKinds), ∃ (b : SBlock) (ts : List Token), b.ast = some (as.ast.foldr (fun a b => .polyValue a.2 a.1 b) t.ast) ∧
    b.toks = P '<' :: as.toks ++ ts ∧ Ends (print .poly t) ts
  head : (∀ q, t ≠ .package q) → ∃ ts, Ends (print .head t) ts ∧ ∀ (a : SExpr) (x : Expr), a.ast = some x →
    ∃ (f : SExpr) (as : SExprs) (g : Expr) (l : List Expr), f.ast = some g ∧ as.ast = some l ∧
      l.foldl .polyApply g = .polyApply t.ast x ∧ ts ++ a.toks = f.toks ++ P '<' :: as.toks

theorem func_stops (t : Ty) : Stops (print .func t) := by
  cases t <;> simp only [print, enter, List.append_assoc] <;> first | exact s_comma.append _ | exact s_func.append _

theorem poly_stops (t : Ty) : Stops (print .poly t) := by
  cases t <;> simp only [print, enter, List.append_assoc] <;> first | exact s_comma.append _ | exact s_poly.append _

/-- The text of a type that is not of the form a loop is looking for. -/
structure Leaves (t : Ty) : Prop where
  func : print .func t = str ") { " ++ print .plain t ++ str "; }"
  poly : print .poly t = str "> { " ++ print .plain t ++ str "; }"
  head : print .head t = print .plain t ++ str "<"

/-- Apart from the loops. -/
theorem good_func {t : Ty} {e : SExpr} (h1 : e.ast = some t.ast) (h2 : Spells (print .plain t) e.toks)
    (h : print .func t = str ") { " ++ print .plain t ++ str "; }") (as : SExprs) (l : List Expr) (hl : as.ast = some l) :
    ∃ (b : SBlock) (ts : List Token), b.ast = some (l.foldr .funcType t.ast) ∧ b.toks = P '(' :: as.toks ++ ts ∧ Ends (print .func t) ts := by
  refine ⟨.funcType as (.braces (.expr e)), [P ')', P '{'] ++ e.toks ++ [P ';', P '}'], ?_, ?_, ?_⟩
  · simp [SBlock.ast, SStmt.ast, h1, hl]
  · simp [SBlock.toks, SStmt.toks]
  · rw [h]
    exact (e_func.appendS h2).appendE s_close e_close

theorem good_poly {t : Ty} {e : SExpr} (h1 : e.ast = some t.ast) (h2 : Spells (print .plain t) e.toks)
    (h : print .poly t = str "> { " ++ print .plain t ++ str "; }") (as : STaggedKinds) :
    ∃ (b : SBlock) (ts : List Token), b.ast = some (as.ast.foldr (fun a b => .polyValue a.2 a.1 b) t.ast) ∧ b.toks = P '<' :: as.toks ++ ts ∧ Ends (print .poly t) ts := by
  refine ⟨.poly as (.braces (.expr e)), [P '>', P '{'] ++ e.toks ++ [P ';', P '}'], ?_, ?_, ?_⟩
  · simp [SBlock.ast, SStmt.ast, h1]
  · simp [SBlock.toks, SStmt.toks]
  · rw [h]
    exact (e_poly.appendS h2).appendE s_close e_close

theorem good_head {t : Ty} {e : SExpr} (h1 : e.ast = some t.ast) (h2 : Spells (print .plain t) e.toks)
    (h : print .head t = print .plain t ++ str "<") : ∃ ts, Ends (print .head t) ts ∧ ∀ (a : SExpr) (x : Expr), a.ast = some x →
    ∃ (f : SExpr) (as : SExprs) (g : Expr) (l : List Expr), f.ast = some g ∧ as.ast = some l ∧
      l.foldl .polyApply g = .polyApply t.ast x ∧ ts ++ a.toks = f.toks ++ P '<' :: as.toks := by
  refine ⟨e.toks ++ [P '<'], ?_, fun a x hx => ⟨e, .one a, _, [x], h1, by simp [SExprs.ast, hx], by simp, by simp [SExprs.toks]⟩⟩
  rw [h]
  exact h2.appendE s_lt e_lt

theorem good_leaf {t : Ty} {e : SExpr} (h1 : e.ast = some t.ast) (h2 : Spells (print .plain t) e.toks) (h : Leaves t) : Good t :=
  ⟨⟨e, h1, h2⟩, good_func h1 h2 h.func, good_poly h1 h2 h.poly, fun _ => good_head h1 h2 h.head⟩

/-- What is to be shown for fields. -/
structure GoodFields (fs : Fields) : Prop where
  first : fs ≠ .nil → ∃ (ts : STypes) (l : List (Types.Name × Expr)), ts.ast = some l ∧ toTagged l = fs.ast ∧ Spells (printFields true fs) ts.toks
  more : ∀ (ts : STypes) (l : List (Types.Name × Expr)), ts.ast = some l → ∃ (us : STypes) (l' : List (Types.Name × Expr)) (toks : List Token),
    us.ast = some (l ++ l') ∧ toTagged l' = fs.ast ∧ us.toks = ts.toks ++ toks ∧ Spells (printFields false fs) toks ∧ (printFields false fs = [] ∧ toks = [] ∨ Stops (printFields false fs))

mutual
theorem good : ∀ (t : Ty), t.Wf → Good t
  | .struct fs, h => by
    have ih := goodFields fs h
    by_cases hn : fs = .nil
    · subst hn
      refine good_leaf (e := .structType .none) ?_ ?_ ⟨?_, ?_, ?_⟩
      · simp [SExpr.ast, STypes0.ast, toTagged, Ty.ast, Fields.ast]
      · simp only [print, enter, leave, printFields, SExpr.toks, STypes0.toks, List.append_nil, List.nil_append]
        exact (e_struct.append e_rp).spells
      all_goals simp [print, enter, leave]
    · obtain ⟨ts, l, h1, h2, h3⟩ := ih.first hn
      refine good_leaf (e := .structType (.some ts)) ?_ ?_ ⟨?_, ?_, ?_⟩
      · simp [SExpr.ast, STypes0.ast, h1, h2, Ty.ast]
      · simp only [print, enter, leave, SExpr.toks, STypes0.toks, List.append_nil, List.nil_append]
        exact ((e_struct.appendS h3).appendE s_rp e_rp).spells
      all_goals simp [print, enter, leave]
  | .union fs, h => by
    obtain ⟨ts, l, h1, h2, h3⟩ := (goodFields fs h.1).first h.2
    refine good_leaf (e := .unionType ts) ?_ ?_ ⟨?_, ?_, ?_⟩
    · simp [SExpr.ast, h1, h2, Ty.ast]
    · simp only [print, enter, leave, SExpr.toks, List.append_nil, List.nil_append]
      exact ((e_union.appendS h3).appendE s_rp e_rp).spells
    all_goals simp [print, enter, leave]
  | .func a r, h => by
    obtain ⟨ha, hr⟩ := h
    obtain ⟨ea, ha1, ha2⟩ := (good a ha).plain
    have ihr := (good r hr).func
    have hp : ∃ e : SExpr, e.ast = some (Ty.func a r).ast ∧ Spells (print .plain (.func a r)) e.toks := by
      obtain ⟨b, ts, h1, h2, h3⟩ := ihr (.one ea) [a.ast] (by simp [SExprs.ast, ha1])
      refine ⟨.block b, by simp [SExpr.ast, h1, Ty.ast], ?_⟩
      simp only [print, enter, leave, SExpr.toks, List.append_nil, List.nil_append, h2]
      simpa [SExprs.toks] using ((e_lp.appendS ha2).appendE (func_stops r) h3).spells
    obtain ⟨e, he1, he2⟩ := hp
    refine ⟨⟨e, he1, he2⟩, fun as l hl => ?_, good_poly he1 he2 (by simp [print, enter, leave]), fun _ => good_head he1 he2 (by simp [print, enter, leave])⟩
    obtain ⟨b, ts, h1, h2, h3⟩ := ihr (.more as ea) (l ++ [a.ast]) (by simp [SExprs.ast, ha1, hl])
    refine ⟨b, P ',' :: ea.toks ++ ts, by simp [h1, Ty.ast], by simp [h2, SExprs.toks], ?_⟩
    simp only [print]
    simpa using (e_comma.appendS ha2).appendE (func_stops r) h3
  | .poly k x b, h => by
    obtain ⟨hk, hx, hb⟩ := h
    obtain ⟨sk, hk1, hk2⟩ := (spells_kind k hk).1
    obtain ⟨n, hn1, hn2⟩ := ends_name hx
    have ihb := (good b hb).poly
    have hp : ∃ e : SExpr, e.ast = some (Ty.poly k x b).ast ∧ Spells (print .plain (.poly k x b)) e.toks := by
      obtain ⟨c, ts, h1, h2, h3⟩ := ihb (.one (.t sk) n)
      refine ⟨.block c, by simp [SExpr.ast, h1, Ty.ast, STaggedKinds.ast, SKind.ast, hk1, hn1], ?_⟩
      simp only [print, enter, leave, SExpr.toks, List.append_nil, List.nil_append, h2]
      simpa [STaggedKinds.toks, SKind.toks] using ((((e_lt.append hk2).append e_space).appendS hn2).appendE (poly_stops b) h3).spells
    obtain ⟨e, he1, he2⟩ := hp
    refine ⟨⟨e, he1, he2⟩, good_func he1 he2 (by simp [print, enter, leave]), fun as => ?_, fun _ => good_head he1 he2 (by simp [print, enter, leave])⟩
    obtain ⟨c, ts, h1, h2, h3⟩ := ihb (.more as (.t sk) n)
    refine ⟨c, P ',' :: sk.toks ++ n.toks ++ ts, by simp [h1, Ty.ast, STaggedKinds.ast, SKind.ast, hk1, hn1], by simp [h2, STaggedKinds.toks, SKind.toks], ?_⟩
    simp only [print]
    simpa using (((e_comma.append hk2).append e_space).appendS hn2).appendE (poly_stops b) h3
  | .apply p a, h => by
    obtain ⟨hp, ha, hq⟩ := h
    obtain ⟨ea, ha1, ha2⟩ := (good a ha).plain
    obtain ⟨ts, ht, hh⟩ := (good p hp).head hq
    obtain ⟨f, as, g, l, h1, h2, h3, h4⟩ := hh ea _ ha1
    have he1 : (SExpr.polyApply f as).ast = some (Ty.apply p a).ast := by simp [SExpr.ast, h1, h2, h3, Ty.ast]
    have he2 : Spells (print .plain (.apply p a)) (SExpr.polyApply f as).toks := by
      simp only [print, enter, leave, SExpr.toks, List.append_nil, List.nil_append]
      have := ((ht.appendS ha2).appendE s_gt e_gt).spells
      rw [h4] at this
      simpa using this
    refine ⟨⟨_, he1, he2⟩, good_func he1 he2 (by simp [print, enter, leave]), good_poly he1 he2 (by simp [print, enter, leave]), fun _ => ?_⟩
    refine ⟨ts ++ ea.toks ++ [P ','], ?_, fun b x hx => ⟨f, .more as b, g, l ++ [x], h1, by simp [SExprs.ast, h2, hx], by simp [h3, Ty.ast], ?_⟩⟩
    · simp only [print]
      exact (ht.appendS ha2).appendE s_comma e_comma
    · rw [h4]; simp [SExprs.toks]
  | .package p, h => by
    obtain ⟨q, h1, h2⟩ := ends_path h
    refine good_leaf (e := .package q) ?_ ?_ ⟨?_, ?_, ?_⟩
    · simp [SExpr.ast, h1, Ty.ast]
    · simp only [print, enter, leave, SExpr.toks, List.append_nil, List.nil_append]
      exact ((e_package.append h2).append e_rp).spells
    all_goals simp [print, enter, leave]
  | .abstract p t, h => by
    obtain ⟨q, h1, h2⟩ := ends_path h.1
    obtain ⟨e, h3, h4⟩ := (good t h.2).plain
    refine good_leaf (e := .polyApply (.package q) (.one e)) ?_ ?_ ⟨?_, ?_, ?_⟩
    · simp [SExpr.ast, SExprs.ast, h1, h3, Ty.ast]
    · simp only [print, enter, leave, SExpr.toks, SExprs.toks, List.append_nil, List.nil_append]
      have := (((((e_package.append h2).append e_rp).append e_lt).appendS h4).appendE s_gt e_gt).spells
      simpa using this
    all_goals simp [print, enter, leave]
  | .var x, h => by
    obtain ⟨n, h1, h2⟩ := ends_name h
    refine good_leaf (e := .var n) ?_ ?_ ⟨?_, ?_, ?_⟩
    · simp [SExpr.ast, h1, Ty.ast]
    · simp only [print, enter, leave, SExpr.toks, List.append_nil, List.nil_append]
      exact h2
    all_goals simp [print, enter, leave]
  | .type t, h => by
    obtain ⟨e, h1, h2⟩ := (good t h).plain
    refine good_leaf (e := .typeOf e) ?_ ?_ ⟨?_, ?_, ?_⟩
    · simp [SExpr.ast, h1, Ty.ast]
    · simp only [print, enter, leave, SExpr.toks, List.append_nil, List.nil_append]
      exact ((e_type.appendS h2).appendE s_gt e_gt).spells
    all_goals simp [print, enter, leave]
theorem goodFields : ∀ (fs : Fields), fs.Wf → GoodFields fs
  | .nil, _ => ⟨fun h => absurd rfl h, fun ts l hl => ⟨ts, [], [], by simpa using hl, rfl, by simp, Ends.nil.spells, .inl ⟨rfl, rfl⟩⟩⟩
  | .cons t x rest, h => by
    obtain ⟨ht, hx, hr⟩ := h
    obtain ⟨e, he1, he2⟩ := (good t ht).plain
    obtain ⟨n, hn1, hn2⟩ := ends_name hx
    have ih := (goodFields rest hr).more
    have hfield : Spells (print .plain t ++ str " " ++ printName x) (e.toks ++ n.toks) := by
      have := (he2.appendE s_space e_space).appendS hn2
      simpa using this
    have tail : ∀ toks, Spells (printFields false rest) toks → (printFields false rest = [] ∧ toks = [] ∨ Stops (printFields false rest)) →
        Spells (print .plain t ++ str " " ++ printName x ++ printFields false rest) (e.toks ++ n.toks ++ toks) := by
      intro toks h1 h2
      rcases h2 with ⟨h2, rfl⟩ | h2
      · rw [h2]; simpa using hfield
      · exact hfield.append h2 h1
    refine ⟨fun _ => ?_, fun ts l hl => ?_⟩
    · obtain ⟨us, l', toks, h1, h2, h3, h4, h5⟩ := ih (.one (.mk e n)) [(astName x, t.ast)] (by simp [STypes.ast, SType.ast, he1, hn1])
      refine ⟨us, _, h1, by simp [toTagged, h2, Fields.ast], ?_⟩
      rw [h3]
      simpa [printFields, STypes.toks, SType.toks] using tail _ h4 h5
    · obtain ⟨us, l', toks, h1, h2, h3, h4, h5⟩ := ih (.more ts (.mk e n)) (l ++ [(astName x, t.ast)]) (by simp [STypes.ast, SType.ast, he1, hn1, hl])
      refine ⟨us, (astName x, t.ast) :: l', P ',' :: (e.toks ++ n.toks) ++ toks, by simpa using h1, by simp [toTagged, h2, Fields.ast], by simp [h3, STypes.toks, SType.toks], ?_, .inr ?_⟩
      · have := e_comma.appendS (tail _ h4 h5)
        simpa [printFields] using this
      · simp only [printFields, Bool.false_eq_true, if_false, List.append_assoc]
        exact s_comma.append _
end

/-! ### C98 -/

/-- The text of a type, made a program, is read as the program that consists of the type. -/
theorem program_of_type {t : Ty} (h : t.Wf) : ∃ e : SExpr, e.ast = some t.ast ∧ Lexes (FblePrintType t) e.toks [] ∧
    Lexes (FblePrintType t ++ str ";") (SStmt.expr e).toks [] := by
  obtain ⟨e, h1, h2⟩ := (good t h).plain
  refine ⟨e, h1, ?_, ?_⟩
  · have := h2.lex [] [] [] (by simp) (.stop (t := []) (.done (by simp)) .eof)
    simpa [FblePrintType] using this
  · have := (h2.appendE s_semi e_semi).lex [] [] [] (.stop (t := []) (.done (by simp)) .eof)
    simpa [FblePrintType, SStmt.toks] using this

/-- C98. A type in an error message is written in the language: the text and a `;` spell a program, that program is the type, and
there is no other way to read it. -/
theorem C98_syntax {t : Ty} (h : t.Wf) : ∃ p : SStmt, Lexes (FblePrintType t ++ str ";") p.toks [] ∧ p.ast = some t.ast ∧
    ∀ p' r, Lexes (FblePrintType t ++ str ";") p'.toks r → p' = p := by
  obtain ⟨e, h1, -, h2⟩ := program_of_type h
  exact ⟨.expr e, h2, by simpa [SStmt.ast] using h1, fun p' r h' => C67_one_program h' h2⟩

/-- C98. Parsing the text of a type (made a program by a `;`) without an error gives that type and no module dependencies; the parser can refuse
it only if it is nested too deeply for the parser's stack. -/
theorem C98_parse {t : Ty} (h : t.Wf) {result deps} (hp : FbleParseFile (FblePrintType t ++ str ";") result deps true) : result = some t.ast := by
  obtain ⟨p, r, e, h1, h2, -, rfl, -⟩ := (C67_file _ _ _).mp hp
  obtain ⟨q, h3, h4, h5⟩ := C98_syntax h
  rw [h5 p r h1, h4] at h2
  exact h2.symm

theorem C98_parse_exists {t : Ty} (h : t.Wf) : ∃ p : SStmt, Lexes (FblePrintType t ++ str ";") p.toks [] ∧
    (p.height < 9998 → FbleParseFile (FblePrintType t ++ str ";") (some t.ast) (firsts p.mods) true) := by
  obtain ⟨p, h1, h2, -⟩ := C98_syntax h
  exact ⟨p, h1, fun hh => (C67_file _ _ _).mpr ⟨p, [], t.ast, h1, h2, hh, rfl, rfl⟩⟩

/-! ### Types that are printed alike -/

theorem char_injective {a b : Byte} (h : Char.ofNat a.toNat = Char.ofNat b.toNat) : a = b := by
  have ha := a.toNat_lt
  have hb := b.toNat_lt
  have e : ∀ n : Nat, n < 256 → (Char.ofNat n).toNat = n := by
    intro n hn
    have hv : n.isValidChar := .inl (by omega)
    unfold Char.ofNat
    rw [dif_pos hv]
    simp [Char.ofNatAux, Char.toNat]
  have := congrArg Char.toNat h
  rw [e _ (by simpa using ha), e _ (by simpa using hb)] at this
  exact UInt8.toNat_inj.mp this

theorem chars_injective {a b : Str} (h : chars a = chars b) : a = b :=
  (List.map_inj_right (fun _ _ h => char_injective h)).mp h

theorem astName_injective {a b : Text.Name} (h : astName a = astName b) : a = b := by
  obtain ⟨w, s⟩ := a
  obtain ⟨v, u⟩ := b
  simp only [astName, Types.Name.mk.injEq] at h
  obtain ⟨h1, h2⟩ := h
  rw [chars_injective h1]
  cases s <;> cases u <;> simp_all

theorem astPath_injective {a b : Text.Path} (h : astPath a = astPath b) : a = b :=
  (List.map_inj_right (fun _ _ h => astName_injective h)).mp h

mutual
theorem ast_injective : ∀ (t u : Ty), t.Wf → u.Wf → t.ast = u.ast → t = u
  | .struct fs, u, h, h', e => by
    cases u <;> simp only [Ty.ast, Expr.dataType.injEq, reduceCtorEq, false_and] at e
    rw [fields_injective _ _ h h' e.2]
  | .union fs, u, h, h', e => by
    cases u <;> simp only [Ty.ast, Expr.dataType.injEq, reduceCtorEq, false_and] at e
    rw [fields_injective _ _ h.1 h'.1 e.2]
  | .func a r, u, h, h', e => by
    cases u <;> simp only [Ty.ast, Expr.funcType.injEq, reduceCtorEq] at e
    rw [ast_injective _ _ h.1 h'.1 e.1, ast_injective _ _ h.2 h'.2 e.2]
  | .poly k x b, u, h, h', e => by
    cases u <;> simp only [Ty.ast, Expr.polyValue.injEq, reduceCtorEq] at e
    obtain ⟨e1, e2, e3⟩ := e
    rw [astName_injective e1, e2, ast_injective _ _ h.2.2 h'.2.2 e3]
  | .apply p a, u, h, h', e => by
    cases u <;> simp only [Ty.ast, Expr.polyApply.injEq, reduceCtorEq] at e
    · rw [ast_injective _ _ h.1 h'.1 e.1, ast_injective _ _ h.2.1 h'.2.1 e.2]
    · rename_i q v
      cases p <;> simp only [Ty.ast, reduceCtorEq, false_and] at e
      exact absurd rfl (h.2.2 _)
  | .package p, u, h, h', e => by
    cases u <;> simp only [Ty.ast, Expr.packageType.injEq, reduceCtorEq] at e
    rw [astPath_injective e]
  | .abstract p t, u, h, h', e => by
    cases u <;> simp only [Ty.ast, Expr.polyApply.injEq, reduceCtorEq, Expr.packageType.injEq] at e
    · rename_i q v
      cases q <;> simp only [Ty.ast, reduceCtorEq, false_and] at e
      exact absurd rfl (h'.2.2 _)
    · rw [astPath_injective e.1, ast_injective _ _ h.2 h'.2 e.2]
  | .var x, u, h, h', e => by
    cases u <;> simp only [Ty.ast, Expr.var.injEq, reduceCtorEq] at e
    rw [astName_injective e]
  | .type t, u, h, h', e => by
    cases u <;> simp only [Ty.ast, Expr.typeOf.injEq, reduceCtorEq] at e
    rename_i u
    rw [ast_injective t u h h' e]
theorem fields_injective : ∀ (fs gs : Fields), fs.Wf → gs.Wf → fs.ast = gs.ast → fs = gs
  | .nil, gs, _, _, e => by
    cases gs <;> simp only [Fields.ast, reduceCtorEq] at e
    rfl
  | .cons t x rest, gs, h, h', e => by
    cases gs <;> simp only [Fields.ast, Tagged.cons.injEq, reduceCtorEq] at e
    obtain ⟨e1, e2, e3⟩ := e
    rw [astName_injective e1, ast_injective _ _ h.1 h'.1 e2, fields_injective _ _ h.2.2 h'.2.2 e3]
end

/-- C98. Types with the same text are the same, up to which variables their names stand for. -/
theorem C98_apart {t u : Ty} (h : t.Wf) (h' : u.Wf) (e : FblePrintType t = FblePrintType u) : t = u := by
  obtain ⟨p, h1, h2, -⟩ := C98_syntax h
  obtain ⟨q, h3, h4, -⟩ := C98_syntax h'
  rw [e] at h1
  rw [C67_one_program h1 h3, h4] at h2
  exact ast_injective _ _ h h' (Option.some.inj h2.symm)

/-! ### Kinds -/

/-- type.c:893-920 `FblePrintKind`. -/
def FblePrintKind (k : Kind) : Str := printKind false k

/-- The kinds of values that can be written. -/
def ValueKind : Kind → Prop
  | .basic level => level = 0
  | .poly a r => TypeKind a ∧ ValueKind r

theorem spells_nkind : ∀ (k : Kind), ValueKind k →
    (∃ s : SNKind, s.ast = k ∧ Ends (printKind false k) s.toks) ∧
    (∀ as : STKinds, ∃ (s : SNKind) (ts : List Token), s.ast = as.ast.foldr .poly k ∧ s.toks = P '<' :: as.toks ++ ts ∧ Ends (printKind true k) ts)
  | .basic l, h => by
    have h : l = 0 := h
    subst h
    refine ⟨⟨.basic, rfl, ?_⟩, fun as => ⟨.poly as .basic, [P '>', P '%'], rfl, by simp [SNKind.toks], ?_⟩⟩
    · simp only [printKind, levelText, SNKind.toks]
      exact e_pct
    · simp only [printKind, levelText, if_pos]
      exact e_gt.append e_pct
  | .poly a r, h => by
    obtain ⟨ha, hr⟩ := h
    obtain ⟨sa, ea, la⟩ := (spells_kind a ha).1
    have ihr := (spells_nkind r hr).2
    refine ⟨?_, fun as => ?_⟩
    · obtain ⟨s, ts, h1, h2, h3⟩ := ihr (.one sa)
      refine ⟨s, by rw [h1]; simp [STKinds.ast, ea], ?_⟩
      rw [h2]
      simp only [printKind, STKinds.toks, Bool.false_eq_true, if_false]
      simpa using (e_lt.append la).append h3
    · obtain ⟨s, ts, h1, h2, h3⟩ := ihr (.more as sa)
      refine ⟨s, P ',' :: sa.toks ++ ts, by rw [h1]; simp [STKinds.ast, ea], by rw [h2]; simp [STKinds.toks], ?_⟩
      simp only [printKind, if_pos]
      simpa using (e_comma.append la).append h3

/-- C98. The kinds of values and of types are written in the language too, in a way that can be read only as this kind. -/
theorem C98_kind {k : Kind} (h : ValueKind k ∨ TypeKind k) : ∃ s : SKind, Lexes (FblePrintKind k) s.toks [] ∧ s.ast = k ∧
    ∀ s' r, Lexes (FblePrintKind k) (SKind.toks s') r → s' = s := by
  have : ∃ s : SKind, Ends (printKind false k) s.toks ∧ s.ast = k := by
    rcases h with h | h
    · obtain ⟨s, h1, h2⟩ := (spells_nkind k h).1
      exact ⟨.n s, h2, h1⟩
    · obtain ⟨s, h1, h2⟩ := (spells_kind k h).1
      exact ⟨.t s, h2, h1⟩
  obtain ⟨s, h1, h2⟩ := this
  have hl := h1.lex [] [] [] (.stop (t := []) (.done (by simp)) .eof)
  simp only [List.append_nil] at hl
  refine ⟨s, hl, h2, fun s' r h' => ?_⟩
  have ht := (lexes_det h' hl).1
  let prog (k : SKind) : SStmt := .letE (.kind k (.normal []) (.var (.normal []))) (.expr (.var (.normal [])))
  have he : (prog s').toks = (prog s).toks := by simp [prog, SStmt.toks, SBinds.toks, ht]
  have := (C67_unambiguous (toks := (prog s).toks) (rest := []) (rest' := []) (s := prog s') (s' := prog s) ⟨by rw [← he]; simp, by simp⟩ ⟨by simp, by simp⟩).1
  simpa [prog] using this

/-! ### What goes wrong -/

/-- The package types of different packages can have the same text: that of a package whose name is the word `A/B`, and that of `B` in `A`. -/
theorem C98_violated : ∃ p q : Text.Path, p ≠ q ∧ (∀ n ∈ p ++ q, n.space = .normal ∧ Word n) ∧ FblePrintType (.package p) = FblePrintType (.package q) :=
  ⟨[⟨str "A/B", .normal⟩], [⟨str "A", .normal⟩, ⟨str "B", .normal⟩], by decide +kernel, by
    have e1 : str "A/B" = [ch 'A', ch '/', ch 'B'] := by decide +kernel
    have e2 : str "A" = [ch 'A'] := by decide +kernel
    have e3 : str "B" = [ch 'B'] := by decide +kernel
    rw [e1, e2, e3]
    intro n hn
    simp only [List.cons_append, List.nil_append, List.mem_cons, List.not_mem_nil, or_false] at hn
    rcases hn with rfl | rfl | rfl <;> exact ⟨rfl, by simp, by decide⟩, by decide +kernel⟩

/-- The type of the root package is written `%()`, but printed as `%(/%)`. -/
theorem C98_root_violated : FblePrintType (.package []) = str "%(/%)" ∧
    Lexes (FblePrintType (.package []) ++ str ";") [P '%', P '(', P '/', P '%', P ')', P ';'] [] ∧
    FbleParse [P '%', P '(', P '/', P '%', P ')', P ';'] none [] false := by
  have h : FblePrintType (.package []) = str "%(/%)" := by decide +kernel
  refine ⟨h, ?_, ?_⟩
  · rw [h]
    have e : str "%(/%)" ++ str ";" = [ch '%', ch '(', ch '/', ch '%', ch ')', ch ';'] := by decide +kernel
    rw [e]
    have : Ends [ch '%', ch '(', ch '/', ch '%', ch ')', ch ';'] [P '%', P '(', P '/', P '%', P ')', P ';'] := by
      repeat first
        | exact Ends.nil
        | refine Ends.punct (by decide) (by decide) ?_
    simpa using this.lex [] [] [] (.stop (t := []) (.done (by simp)) .eof)
  · refine ⟨.syntaxError ⟨none, []⟩, _, ⟨_, .head rfl (.head rfl (.head rfl (.head rfl (.refl _)))), ?_⟩, rfl, rfl, rfl, rfl⟩
    rfl

/-! ### Example -/

/-- `<@ T@, <@>@ F@> { (T@, F@<T@>) { *(+(T@ 'a b') x, %(/A/B%)<T@> y); }; }` -/
def exampleType : Ty :=
  let T : Text.Name := ⟨[ch 'T'], .type⟩
  let F : Text.Name := ⟨[ch 'F'], .type⟩
  .poly (.basic 1) T (.poly (.poly (.basic 1) (.basic 1)) F
    (.func (.var T) (.func (.apply (.var F) (.var T))
      (.struct (.cons (.union (.cons (.var T) ⟨[ch 'a', ch ' ', ch 'b'], .normal⟩ .nil)) ⟨[ch 'x'], .normal⟩
        (.cons (.abstract [⟨[ch 'A'], .normal⟩, ⟨[ch 'B'], .normal⟩] (.var T)) ⟨[ch 'y'], .normal⟩ .nil))))))

example : FblePrintType exampleType = str "<@ T@, <@>@ F@> { (T@, F@<T@>) { *(+(T@ 'a b') x, %(/A/B%)<T@> y); }; }" := by decide +kernel

example : exampleType.Wf := by
  simp only [exampleType, Ty.Wf, Fields.Wf, TypeKind, Word, PlainPath, ne_eq, reduceCtorEq, not_false_eq_true, implies_true, and_true, true_and]
  decide +kernel

end Verif.Parse.PrintType
