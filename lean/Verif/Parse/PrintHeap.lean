import Verif.Parse.PrintType
import Verif.Types.Kind
/-
C98, types in the heap: what `FblePrintType` prints for a pointer is what it prints for the tree that
the pointer stands for.
-/
namespace Verif.Parse.PrintType
open Text (Byte Str ch printName printPath)
open Types (Kind Heap Ptr Node R get getKind levelAdjusted)

/-- A name of the model of types as bytes (the inverse of `astName` for names made of bytes). -/
def textName (n : Types.Name) : Text.Name := ⟨n.str.map ch, if n.isType then .type else .normal⟩

def textPath (p : List Types.Name) : Text.Path := p.map textName

/-- type.c:1165-1167: the kind printed for the argument of a polymorphic type. -/
def argKind (n : Nat) (h : Heap) (arg : Ptr) : R Kind := do
  levelAdjusted (← getKind n h arg) 1

/-- The loop of type.c:1132-1139, with the printer of types as a parameter. -/
def fieldsText (pr : Ptr → R Str) (first : Bool) : List (Types.Name × Ptr) → R Str
  | [] => .ok []
  | (x, t) :: rest => do
    let s ← pr t
    let u ← fieldsText pr false rest
    return (if first then [] else str ", ") ++ s ++ str " " ++ printName (textName x) ++ u

/-- type.c:1126-1238 `FblePrintType` on the heap, cut off after `n` nested steps; `names`: the names
of the type variables, which the model of the heap leaves out.  That the argument of a polymorphic
type is a type variable and the package of an abstract type a package type, which the code has from
their constructors, is asked for here. -/
def printHeap (h : Heap) (names : Ptr → Text.Name) : Nat → Mode → Ptr → R Str
  | 0, _, _ => .more
  | n + 1, m, p =>
    match get h p with
    | .fail => .fail
    | .more => .more
    -- type.c:1129-1142
    | .ok (.data dt fs) => do
      let s ← fieldsText (printHeap h names n .plain) true fs
      return enter m ++ (match dt with | .struct => str "*(" | .union => str "+(") ++ s ++ str ")" ++ leave m
    -- type.c:1144-1157
    | .ok (.func a r) => do
      let s ← printHeap h names n .plain a
      let u ← printHeap h names n .func r
      match m with
      | .func => return str ", " ++ s ++ u
      | m => return enter m ++ str "(" ++ s ++ u ++ leave m
    -- type.c:1159-1180
    | .ok (.poly a b) => do
      let k ← argKind n h a
      match get h a with
      | .ok (.var _ _) => do
        let u ← printHeap h names n .poly b
        match m with
        | .poly => return str ", " ++ printKind false k ++ str " " ++ printName (names a) ++ u
        | m => return enter m ++ str "<" ++ printKind false k ++ str " " ++ printName (names a) ++ u ++ leave m
      | _ => .fail
    -- type.c:1182-1203
    | .ok (.polyApply f a) => do
      let s ← printHeap h names n .head f
      let u ← printHeap h names n .plain a
      match m with
      | .head => return s ++ u ++ str ", "
      | m => return enter m ++ s ++ u ++ str ">" ++ leave m
    -- type.c:1205-1211
    | .ok (.package path _) => return enter m ++ str "%(" ++ printPath (textPath path) ++ str ")" ++ leave m
    -- type.c:1213-1220
    | .ok (.abstract q t) =>
      match get h q with
      | .ok (.package path _) => do
        let s ← printHeap h names n .plain t
        return enter m ++ str "%(" ++ printPath (textPath path) ++ str ")" ++ str "<" ++ s ++ str ">" ++ leave m
      | _ => .fail
    -- type.c:1222-1226
    | .ok (.var _ _) => return enter m ++ printName (names p) ++ leave m
    -- type.c:1228-1234
    | .ok (.type t) => do
      let s ← printHeap h names n .plain t
      return enter m ++ str "@<" ++ s ++ str ">" ++ leave m

/-! ### The tree a pointer stands for -/

/-- The kind of a type whose values have the given kind: the result is one level higher. -/
def raised : Kind → Kind
  | .basic level => .basic (level + 1)
  | .poly a r => .poly a (raised r)

mutual
/-- The pointer stands for the tree: variables are looked at for their names only. -/
inductive Shows (h : Heap) (names : Ptr → Text.Name) : Ptr → Ty → Prop where
  | struct {p fs ts} : get h p = .ok (.data .struct fs) → ShowsFields h names fs ts → Shows h names p (.struct ts)
  | union {p fs ts} : get h p = .ok (.data .union fs) → ShowsFields h names fs ts → Shows h names p (.union ts)
  | func {p a r s t} : get h p = .ok (.func a r) → Shows h names a s → Shows h names r t → Shows h names p (.func s t)
  | poly {p a b kind value t} : get h p = .ok (.poly a b) → get h a = .ok (.var kind value) →
      Shows h names b t → Shows h names p (.poly (raised kind) (names a) t)
  | apply {p f a s t} : get h p = .ok (.polyApply f a) → Shows h names f s → Shows h names a t → Shows h names p (.apply s t)
  | package {p path o} : get h p = .ok (.package path o) → Shows h names p (.package (textPath path))
  | abstract {p q path o a t} : get h p = .ok (.abstract q a) → get h q = .ok (.package path o) → Shows h names a t →
      Shows h names p (.abstract (textPath path) t)
  | var {p kind value} : get h p = .ok (.var kind value) → Shows h names p (.var (names p))
  | type {p a t} : get h p = .ok (.type a) → Shows h names a t → Shows h names p (.type t)
inductive ShowsFields (h : Heap) (names : Ptr → Text.Name) : List (Types.Name × Ptr) → Fields → Prop where
  | nil : ShowsFields h names [] .nil
  | cons {x a rest t ts} : Shows h names a t → ShowsFields h names rest ts → ShowsFields h names ((x, a) :: rest) (.cons t (textName x) ts)
end

theorem adjusted_one (k : Kind) : levelAdjusted k 1 = .ok (raised k) := by
  induction k with
  | basic l => rw [levelAdjusted, if_pos (by omega)]; simp only [raised, R.ok.injEq, Kind.basic.injEq]; omega
  | poly a r _ ih => rw [levelAdjusted, ih]; rfl

theorem argKind_var {n : Nat} {h : Heap} {a : Ptr} {kind : Kind} {value : Option Ptr} (ha : get h a = .ok (.var kind value)) :
    argKind (n + 1) h a = .ok (raised kind) := by
  rw [argKind, getKind, ha]
  exact adjusted_one kind

theorem fields_shown {h : Heap} {names : Ptr → Text.Name} {pr : Ptr → R Str}
    (ih : ∀ a s, pr a = .ok s → ∃ t, Shows h names a t ∧ s = print .plain t) :
    ∀ (fs : List (Types.Name × Ptr)) (first : Bool) (s : Str), fieldsText pr first fs = .ok s → ∃ ts, ShowsFields h names fs ts ∧ s = printFields first ts
  | [], _, _, e => by cases e; exact ⟨.nil, .nil, rfl⟩
  | (x, a) :: rest, first, s, e => by
    rw [fieldsText] at e
    obtain ⟨s1, e1, e⟩ := R.bind_eq_ok.mp e
    obtain ⟨s2, e2, e⟩ := R.bind_eq_ok.mp e
    cases e
    obtain ⟨t, ht, rfl⟩ := ih _ _ e1
    obtain ⟨ts, hts, rfl⟩ := fields_shown ih rest _ _ e2
    exact ⟨_, .cons ht hts, by simp [printFields]⟩

/-- Whatever is printed is the text of the tree that the pointer stands for. -/
theorem C98_shown {h : Heap} {names : Ptr → Text.Name} : ∀ (n : Nat) (m : Mode) (p : Ptr) (s : Str), printHeap h names n m p = .ok s →
    ∃ t, Shows h names p t ∧ s = print m t
  | 0, _, _, _, e => by cases e
  | n + 1, m, p, s, e => by
    have ih := fun m p s => C98_shown (h := h) (names := names) n m p s
    rw [printHeap] at e
    split at e
    · cases e
    · cases e
    · rename_i dt fs hg
      obtain ⟨s1, e1, e⟩ := R.bind_eq_ok.mp e
      cases e
      obtain ⟨ts, hts, rfl⟩ := fields_shown (fun a s => ih .plain a s) _ _ _ e1
      cases dt with
      | struct => exact ⟨_, .struct hg hts, by cases m <;> simp [print]⟩
      | union => exact ⟨_, .union hg hts, by cases m <;> simp [print]⟩
    · rename_i a r hg
      obtain ⟨s1, e1, e⟩ := R.bind_eq_ok.mp e
      obtain ⟨s2, e2, e⟩ := R.bind_eq_ok.mp e
      obtain ⟨t, ht, rfl⟩ := ih _ _ _ e1
      obtain ⟨u, hu, rfl⟩ := ih _ _ _ e2
      refine ⟨_, .func hg ht hu, ?_⟩
      cases m <;> cases e <;> simp [print]
    · rename_i a b hg
      obtain ⟨k, e1, e⟩ := R.bind_eq_ok.mp e
      split at e
      · rename_i kind value ha
        obtain ⟨s2, e2, e⟩ := R.bind_eq_ok.mp e
        obtain ⟨u, hu, rfl⟩ := ih _ _ _ e2
        have hk : k = raised kind := by
          cases n with
          | zero => rw [argKind, getKind] at e1; cases e1
          | succ n => rw [argKind_var ha] at e1; cases e1; rfl
        subst hk
        refine ⟨_, .poly hg ha hu, ?_⟩
        cases m <;> cases e <;> simp [print]
      · cases e
    · rename_i f a hg
      obtain ⟨s1, e1, e⟩ := R.bind_eq_ok.mp e
      obtain ⟨s2, e2, e⟩ := R.bind_eq_ok.mp e
      obtain ⟨t, ht, rfl⟩ := ih _ _ _ e1
      obtain ⟨u, hu, rfl⟩ := ih _ _ _ e2
      refine ⟨_, .apply hg ht hu, ?_⟩
      cases m <;> cases e <;> simp [print]
    · rename_i path o hg
      cases e
      exact ⟨_, .package hg, by cases m <;> simp [print]⟩
    · rename_i q a hg
      split at e
      · rename_i path o hq
        obtain ⟨s1, e1, e⟩ := R.bind_eq_ok.mp e
        cases e
        obtain ⟨t, ht, rfl⟩ := ih _ _ _ e1
        exact ⟨_, .abstract hg hq ht, by cases m <;> simp [print]⟩
      · cases e
    · rename_i kind value hg
      cases e
      exact ⟨_, .var hg, by cases m <;> simp [print]⟩
    · rename_i a hg
      obtain ⟨s1, e1, e⟩ := R.bind_eq_ok.mp e
      cases e
      obtain ⟨t, ht, rfl⟩ := ih _ _ _ e1
      exact ⟨_, .type hg ht, by cases m <;> simp [print]⟩

/-- C98. Whatever text is printed for a pointer to a type: if the type is one of a program, the text and a `;` spell a program in exactly one way, and that
program is the type. -/
theorem C98_heap {h : Heap} {names : Ptr → Text.Name} {n p s} (e : printHeap h names n .plain p = .ok s) :
    ∃ t, Shows h names p t ∧ (t.Wf → ∃ q : SStmt, Text.Spec.Lexes (s ++ str ";") q.toks [] ∧ q.ast = some t.ast ∧
      ∀ q' r, Text.Spec.Lexes (s ++ str ";") q'.toks r → q' = q) := by
  obtain ⟨t, ht, rfl⟩ := C98_shown n .plain p s e
  exact ⟨t, ht, fun hw => C98_syntax hw⟩

/-! ### Printing ends -/

/-- With enough steps the tree is printed, from every mode. -/
def Prints (h : Heap) (names : Ptr → Text.Name) (t : Ty) (p : Ptr) : Prop :=
  ∃ n0, ∀ n, n0 ≤ n → ∀ m, printHeap h names n m p = .ok (print m t)

theorem Prints.mk {h : Heap} {names : Ptr → Text.Name} {t : Ty} {p : Ptr} (n0 : Nat)
    (e : ∀ n, n0 ≤ n → ∀ m, printHeap h names (n + 1) m p = .ok (print m t)) : Prints h names t p := by
  refine ⟨n0 + 1, fun n hn m => ?_⟩
  obtain ⟨k, rfl⟩ : ∃ k, n = k + 1 := ⟨n - 1, by omega⟩
  exact e k (by omega) m

mutual
theorem prints {h : Heap} {names : Ptr → Text.Name} : ∀ (t : Ty) (p : Ptr), Shows h names p t → Prints h names t p
  | .struct ts, p, hs => by
    cases hs with
    | struct hg hf =>
      obtain ⟨n0, e⟩ := printsFields ts _ hf
      exact .mk n0 fun n hn m => by rw [printHeap, hg]; simp only [e n hn, R.ok_bind, R.pure_eq]; cases m <;> simp [print]
  | .union ts, p, hs => by
    cases hs with
    | union hg hf =>
      obtain ⟨n0, e⟩ := printsFields ts _ hf
      exact .mk n0 fun n hn m => by rw [printHeap, hg]; simp only [e n hn, R.ok_bind, R.pure_eq]; cases m <;> simp [print]
  | .func s t, p, hs => by
    cases hs with
    | func hg h1 h2 =>
      obtain ⟨n1, e1⟩ := prints s _ h1
      obtain ⟨n2, e2⟩ := prints t _ h2
      exact .mk (n1 + n2) fun n hn m => by
        rw [printHeap, hg]; simp only [e1 n (by omega), e2 n (by omega), R.ok_bind, R.pure_eq]; cases m <;> simp [print]
  | .poly k x t, p, hs => by
    cases hs with
    | poly hg ha h1 =>
      obtain ⟨n1, e1⟩ := prints t _ h1
      exact .mk (1 + n1) fun n hn m => by
        obtain ⟨n, rfl⟩ : ∃ k, n = k + 1 := ⟨n - 1, by omega⟩
        rw [printHeap, hg]; simp only [argKind_var ha, ha, e1 (n + 1) (by omega), R.ok_bind, R.pure_eq]; cases m <;> simp [print]
  | .apply s t, p, hs => by
    cases hs with
    | apply hg h1 h2 =>
      obtain ⟨n1, e1⟩ := prints s _ h1
      obtain ⟨n2, e2⟩ := prints t _ h2
      exact .mk (n1 + n2) fun n hn m => by
        rw [printHeap, hg]; simp only [e1 n (by omega), e2 n (by omega), R.ok_bind, R.pure_eq]; cases m <;> simp [print]
  | .package q, p, hs => by
    cases hs with
    | package hg => exact .mk 0 fun n hn m => by rw [printHeap, hg]; simp only [R.pure_eq]; cases m <;> simp [print]
  | .abstract q t, p, hs => by
    cases hs with
    | abstract hg hq h1 =>
      obtain ⟨n1, e1⟩ := prints t _ h1
      exact .mk n1 fun n hn m => by rw [printHeap, hg]; simp only [hq, e1 n hn, R.ok_bind, R.pure_eq]; cases m <;> simp [print]
  | .var x, p, hs => by
    cases hs with
    | var hg => exact .mk 0 fun n hn m => by rw [printHeap, hg]; simp only [R.pure_eq]; cases m <;> simp [print]
  | .type t, p, hs => by
    cases hs with
    | type hg h1 =>
      obtain ⟨n1, e1⟩ := prints t _ h1
      exact .mk n1 fun n hn m => by rw [printHeap, hg]; simp only [e1 n hn, R.ok_bind, R.pure_eq]; cases m <;> simp [print]
theorem printsFields {h : Heap} {names : Ptr → Text.Name} : ∀ (ts : Fields) (fs : List (Types.Name × Ptr)), ShowsFields h names fs ts →
    ∃ n0, ∀ n, n0 ≤ n → ∀ first, fieldsText (printHeap h names n .plain) first fs = .ok (printFields first ts)
  | .nil, fs, hs => by
    cases hs
    exact ⟨0, fun n _ first => rfl⟩
  | .cons t x ts, fs, hs => by
    cases hs with
    | cons h1 h2 =>
      obtain ⟨n1, e1⟩ := prints t _ h1
      obtain ⟨n2, e2⟩ := printsFields ts _ h2
      exact ⟨n1 + n2, fun n hn first => by
        rw [fieldsText]; simp only [e1 n (by omega), e2 n (by omega), R.ok_bind, R.pure_eq, printFields]⟩
end

/-- C98. Printing ends exactly for the pointers that stand for a tree (cycles are only reached through type variables), whatever else is in the heap. -/
theorem C98_ends {h : Heap} {names : Ptr → Text.Name} {p : Ptr} :
    (∃ n s, printHeap h names n .plain p = .ok s) ↔ ∃ t, Shows h names p t := by
  constructor
  · rintro ⟨n, s, e⟩
    obtain ⟨t, ht, -⟩ := C98_shown n .plain p s e
    exact ⟨t, ht⟩
  · rintro ⟨t, ht⟩
    obtain ⟨n, e⟩ := prints t p ht
    exact ⟨n, _, e n (Nat.le_refl n) .plain⟩

/-- The recursive type `L@ = *(L@ x, T@ y)` of `<@ T@> { *(L@ x, T@ y); }`: the text goes through the cycle once. -/
example : printHeap [.var (.basic 0) (some 1), .data .struct [(⟨['x'], false⟩, 0), (⟨['y'], false⟩, 2)], .var (.basic 0) none, .poly 2 1]
    (fun p => if p = 0 then ⟨[ch 'L'], .type⟩ else ⟨[ch 'T'], .type⟩) 4 .plain 3 = .ok (str "<@ T@> { *(L@ x, T@ y); }") := by decide +kernel

end Verif.Parse.PrintType
