import Verif.Host.Safe
import Verif.Host.Streams
/-
C82: a program of the type that FbleStdio needs does not go wrong when it is run by FbleStdio.
-/
namespace Verif.Host
open Verif.Compile
open Verif.Elab (Natives NativesOk VT StoreOk MadeTy MadesTy Arrows Takes IsNode openAll atEnd tcProgram linkMods Module Monomorphic ErasesModule sameType_refl)
open Verif.Types (Ptr Heap SameType DataKind)
open Verif.Backend (compileC compileA NamesFor)

/-! ### Specification: the types of /Core/Stdio/IO% -/

/-- `T` is a struct or union type with fields of these types. -/
def Fields (H : Heap) (k : DataKind) (T : Ptr) (Ss : List Ptr) : Prop :=
  ∃ fields, IsNode H T (.data k fields) ∧ All2 (fun f S => SameType H [] f.2 S) fields Ss

/-- `T` is the type of functions from `A` to `R`. -/
def Func (H : Heap) (T A R : Ptr) : Prop := ∃ a r, IsNode H T (.func a r) ∧ SameType H [] a A ∧ SameType H [] r R

/-- The types that pkgs/core/Core/Stdio/IO.fble:12-33 is made of, up to `StdioIO@` (`io`), where `World@` (pkgs/core/Core/Monad/IO.fble:6)
stands for `*()`.  `Char@` has 98 fields (C79_table). -/
structure IoTypes (H : Heap) where
  (unit intp int char string stringCons strings stringsCons bool : Ptr)
  (maybeInt maybeIstream maybeOstream maybeString : Ptr)
  (rMaybeInt rMaybeIstream rMaybeOstream rMaybeString rUnit rBool : Ptr)
  (istream ostream ostream' read read' write write' getenv getenv' io : Ptr)
  hUnit : Fields H .struct unit []
  hIntp : Fields H .union intp [unit, intp, intp]
  hInt : Fields H .union int [intp, unit, intp]
  hChar : Fields H .union char (List.replicate 98 unit)
  hString : Fields H .union string [stringCons, unit]
  hStringCons : Fields H .struct stringCons [char, string]
  hStrings : Fields H .union strings [stringsCons, unit]
  hStringsCons : Fields H .struct stringsCons [string, strings]
  hBool : Fields H .union bool [unit, unit]
  hMaybeInt : Fields H .union maybeInt [int, unit]
  hMaybeIstream : Fields H .union maybeIstream [istream, unit]
  hMaybeOstream : Fields H .union maybeOstream [ostream, unit]
  hMaybeString : Fields H .union maybeString [string, unit]
  hRMaybeInt : Fields H .struct rMaybeInt [unit, maybeInt]
  hRMaybeIstream : Fields H .struct rMaybeIstream [unit, maybeIstream]
  hRMaybeOstream : Fields H .struct rMaybeOstream [unit, maybeOstream]
  hRMaybeString : Fields H .struct rMaybeString [unit, maybeString]
  hRUnit : Fields H .struct rUnit [unit, unit]
  hRBool : Fields H .struct rBool [unit, bool]
  hIstream : Func H istream unit rMaybeInt
  hOstream : Func H ostream int ostream'
  hOstream' : Func H ostream' unit rUnit
  hRead : Func H read string read'
  hRead' : Func H read' unit rMaybeIstream
  hWrite : Func H write string write'
  hWrite' : Func H write' unit rMaybeOstream
  hGetenv : Func H getenv string getenv'
  hGetenv' : Func H getenv' unit rMaybeString
  hIo : Fields H .struct io [istream, ostream, ostream, read, write, getenv]

/-- `main` is the type `Main@` of pkgs/core/Core/Stdio/IO.fble:48. -/
structure StdioTypes (H : Heap) (main : Ptr) extends IoTypes H where
  (main' main'' : Ptr)
  hMain : Func H main io main'
  hMain' : Func H main' strings main''
  hMain'' : Func H main'' unit rBool

/-! ### Proofs -/

section
variable {H : Heap} [N : Natives]

mutual
theorem MadeTy.conv {As : List Ptr} : (m : Made) → {T T' : Ptr} → MadeTy H As m T → SameType H [] T T' → MadeTy H As m T'
  | .argument i, _, _, ⟨S, h1, h2⟩, hs => ⟨S, h1, h2.trans hs⟩
  | .struct ms, _, _, ⟨fields, h1, h2⟩, hs => by
    obtain ⟨gs, h3, h4⟩ := Elab.same_data hs h1
    refine ⟨gs, h3, MadesTy.conv ms h2 ?_⟩
    clear h1 h2 h3
    induction h4 with
    | nil => exact .nil
    | cons h _ ih => exact .cons h.2 ih
  | .union tag m, _, _, ⟨fields, x, S, h1, h2, h3⟩, hs => by
    obtain ⟨gs, h4, h5⟩ := Elab.same_data hs h1
    obtain ⟨hlt, e⟩ := List.getElem?_eq_some_iff.mp h2
    have hlt' : tag < gs.length := by rw [← h5.length_eq]; exact hlt
    have := h5.get tag hlt hlt'
    rw [e] at this
    exact ⟨gs, gs[tag].1, gs[tag].2, h4, List.getElem?_eq_getElem hlt', MadeTy.conv m h3 this.2⟩
  | .function op more, _, _, ⟨T0, h1, h2, h3⟩, hs => ⟨T0, h1, h2.trans hs, h3.conv _ hs⟩
theorem MadesTy.conv {As : List Ptr} : (ms : List Made) → {Ts Ts' : List Ptr} → MadesTy H As ms Ts → All2 (SameType H []) Ts Ts' → MadesTy H As ms Ts'
  | [], _, _, h, hs => by
    cases h
    cases hs
    rfl
  | m :: ms, _, _, ⟨T, Ts, e, h1, h2⟩, hs => by
    subst e
    cases hs with
    | cons h hs => exact ⟨_, _, rfl, MadeTy.conv m h1 h, MadesTy.conv ms h2 hs⟩
end

theorem fields_same {fields : List (Types.Name × Ptr)} {Ss : List Ptr} (h : All2 (fun f S => SameType H [] f.2 S) fields Ss) : All2 (SameType H []) Ss (fields.map (·.2)) := by
  induction h with
  | nil => exact .nil
  | cons h _ ih => exact .cons h.symm ih

theorem Fields.made {As Ss : List Ptr} {T : Ptr} {ms : List Made} (h : Fields H .struct T Ss) (hm : MadesTy H As ms Ss) : MadeTy H As (.struct ms) T := by
  obtain ⟨fields, h1, h2⟩ := h
  exact ⟨fields, h1, MadesTy.conv ms hm (fields_same h2)⟩

theorem Fields.madeUnion {As Ss : List Ptr} {T S : Ptr} {tag : Nat} {m : Made} (h : Fields H .union T Ss) (hS : Ss[tag]? = some S) (hm : MadeTy H As m S) : MadeTy H As (.union tag m) T := by
  obtain ⟨fields, h1, h2⟩ := h
  obtain ⟨f, h3, h4⟩ := Elab.all2_getElem?_right h2 hS
  exact ⟨fields, f.1, f.2, h1, h3, MadeTy.conv m hm h4.symm⟩

theorem Fields.enum {As Ss : List Ptr} {T S : Ptr} {tag : Nat} (h : Fields H .union T Ss) (hS : Ss[tag]? = some S) (hu : Fields H .struct S []) : MadeTy H As (enum tag) T :=
  h.madeUnion hS (hu.made rfl)

theorem Func.arrows {T A R A' : Ptr} {As : List Ptr} {R' : Ptr} (h : Func H T A R) (ha : Arrows H T (A' :: As) R') : SameType H [] A' A ∧ ∃ R0, SameType H [] R R0 ∧ Arrows H R0 As R' := by
  obtain ⟨a, r, h1, h2, h3⟩ := h
  cases ha with
  | cons g1 g2 g3 =>
    cases g1.unique h1
    exact ⟨g2.trans h2, _, h3.symm, g3⟩

theorem Func.conv {T T' A R : Ptr} (h : Func H T A R) (hs : SameType H [] T T') : Func H T' A R := by
  obtain ⟨a, r, h1, h2, h3⟩ := h
  obtain ⟨a', r', h4, h5, h6⟩ := Elab.same_func hs h1
  exact ⟨a', r', h4, h5.symm.trans h2, h6.symm.trans h3⟩

theorem Func.takes {T A R : Ptr} {n : Nat} (h : Func H T A R) (hR : Takes H n R) : Takes H (n + 1) T := by
  obtain ⟨a, r, h1, h2, h3⟩ := h
  exact ⟨a, r, h1, hR.conv n h3.symm⟩

/-- Functions of one argument. -/
theorem arrows_one {T A R X R' : Ptr} (h : Func H T A R) (ha : Arrows H T [X] R') : SameType H [] X A ∧ SameType H [] R R' := by
  obtain ⟨h1, R0, h2, h3⟩ := h.arrows ha
  cases h3 with
  | nil h => exact ⟨h1, h2.trans h⟩

/-- Functions of two arguments. -/
theorem arrows_two {T A T' B R X Y R' : Ptr} (h : Func H T A T') (h' : Func H T' B R) (ha : Arrows H T [X, Y] R') : SameType H [] X A ∧ SameType H [] Y B ∧ SameType H [] R R' := by
  obtain ⟨h1, R0, h2, h3⟩ := h.arrows ha
  obtain ⟨h4, h5⟩ := arrows_one (h'.conv h2) h3
  exact ⟨h1, h4, h5⟩
end

/-! ### Values of the types, seen by functions implemented in C -/

section
variable {H : Heap} [N : Natives] {Γ : List Ptr} {refs : List (Option SVal)}

theorem sub_of_unwrap {v : SVal} {tag : Nat} {a : SVal} (h : unwrap refs (refs.length + 1) v = some (.union tag a)) : sub (view refs v) 0 = view refs a := by
  funext p; simp [sub, view, h]

/-- A value of a union type: it is not defined, or it has a tag of the type and an argument of its type. -/
theorem union_view {v : SVal} {T : Ptr} {Ss : List Ptr} (hs : StoreOk H Γ refs) (hv : VT H Γ v T) (hT : Fields H .union T Ss) :
    view refs v [] = .nothing ∨ ∃ tag S a, view refs v [] = .union tag ∧ Ss[tag]? = some S ∧ VT H Γ a S ∧ sub (view refs v) 0 = view refs a := by
  obtain ⟨fields, hO, hf⟩ := hT
  obtain ⟨u, h1, hu, _⟩ := hs.unwrap hv
  cases hu with
  | @union tag a _ fields' x S k1 k2 k3 =>
    cases k1.unique hO
    obtain ⟨hlt, e⟩ := List.getElem?_eq_some_iff.mp k2
    have hlt' : tag < Ss.length := by rw [← hf.length_eq]; exact hlt
    have := hf.get tag hlt hlt'
    rw [e] at this
    exact .inr ⟨tag, Ss[tag], a, by simp [view, h1], List.getElem?_eq_getElem hlt', k3.conv this, sub_of_unwrap h1⟩
  | ref => exact .inl (by simp [view, h1])
  | type h => cases h.unique hO
  | struct h => cases h.unique hO
  | fn h => cases h.unique hO
  | native _ _ h =>
    obtain ⟨_, _, h, _⟩ := h
    cases h.unique hO

/-- A value of a struct type: it is not defined, or has the fields of the type. -/
theorem struct_view {v : SVal} {T : Ptr} {Ss : List Ptr} (hs : StoreOk H Γ refs) (hv : VT H Γ v T) (hT : Fields H .struct T Ss) :
    view refs v [] = .nothing ∨ (view refs v [] = .struct Ss.length ∧ ∀ (i : Nat) S, Ss[i]? = some S → ∃ a, VT H Γ a S ∧ sub (view refs v) i = view refs a) := by
  obtain ⟨fields, hO, hf⟩ := hT
  obtain ⟨u, h1, hu, _⟩ := hs.unwrap hv
  cases hu with
  | @struct vs _ fields' k1 k2 k3 =>
    cases k1.unique hO
    refine .inr ⟨by simp [view, h1, k2, hf.length_eq], fun i S hS => ?_⟩
    obtain ⟨f, g1, g2⟩ := Elab.all2_getElem?_right hf hS
    obtain ⟨hlt, e⟩ := List.getElem?_eq_some_iff.mp g1
    have hlt' : i < vs.length := by rw [k2]; exact hlt
    exact ⟨vs[i], (k3 i _ f (List.getElem?_eq_getElem hlt') g1).conv g2, by funext p; simp [sub, view, h1, List.getElem?_eq_getElem hlt']⟩
  | ref => exact .inl (by simp [view, h1])
  | type h => cases h.unique hO
  | union h => cases h.unique hO
  | fn h => cases h.unique hO
  | native _ _ h =>
    obtain ⟨_, _, h, _⟩ := h
    cases h.unique hO

theorem IoTypes.intp_like (S : IoTypes H) (hs : StoreOk H Γ refs) : (n : Nat) → {v : SVal} → VT H Γ v S.intp → intPLike n (view refs v) = true
  | 0, _, _ => rfl
  | n + 1, v, hv => by
    rw [intPLike]
    rcases union_view hs hv S.hIntp with h | ⟨tag, T, a, h, hT, ha, he⟩
    · rw [h]
    · rw [h]
      match tag, hT with
      | 0, _ => rfl
      | 1, hT => cases hT; simp only [he]; exact S.intp_like hs n ha
      | 2, hT => cases hT; simp only [he]; exact S.intp_like hs n ha

theorem IoTypes.int_like (S : IoTypes H) (hs : StoreOk H Γ refs) {v : SVal} (hv : VT H Γ v S.int) (n : Nat) : intLike n (view refs v) = true := by
  rw [intLike]
  rcases union_view hs hv S.hInt with h | ⟨tag, T, a, h, hT, ha, he⟩
  · rw [h]
  · rw [h]
    match tag, hT with
    | 0, hT => cases hT; simp only [he]; exact S.intp_like hs n ha
    | 1, _ => rfl
    | 2, hT => cases hT; simp only [he]; exact S.intp_like hs n ha

theorem IoTypes.char_like (S : IoTypes H) (hs : StoreOk H Γ refs) {v : SVal} (hv : VT H Γ v S.char) : charLike (view refs v) = true := by
  rw [charLike]
  rcases union_view hs hv S.hChar with h | ⟨tag, T, a, h, hT, ha, he⟩
  · rw [h]
  · rw [h]
    obtain ⟨hlt, _⟩ := List.getElem?_eq_some_iff.mp hT
    simpa using hlt

theorem IoTypes.string_like (S : IoTypes H) (hs : StoreOk H Γ refs) : (n : Nat) → {v : SVal} → VT H Γ v S.string → stringLike n (view refs v) = true
  | 0, _, _ => rfl
  | n + 1, v, hv => by
    rw [stringLike]
    rcases union_view hs hv S.hString with h | ⟨tag, T, a, h, hT, ha, he⟩
    · rw [h]
    · rw [h]
      match tag, hT with
      | 0, hT =>
        cases hT
        simp only [he]
        rcases struct_view hs ha S.hStringCons with h' | ⟨h', hf⟩
        · rw [h']
        · obtain ⟨c, hc, ec⟩ := hf 0 _ rfl
          obtain ⟨t, ht, et⟩ := hf 1 _ rfl
          rw [h', ec, et]
          simp [S.char_like hs hc, S.string_like hs n ht]
      | 1, _ => rfl

theorem IoTypes.readingInt (S : IoTypes H) (hs : StoreOk H Γ refs) {v : SVal} {T : Ptr} (hv : VT H Γ v T) (hT : SameType H [] T S.int) : Host.readingInt (view refs v) ≠ .wrong := by
  unfold Host.readingInt
  split
  · simp
  · rw [if_pos (S.int_like hs (hv.conv hT))]; simp

theorem IoTypes.readingString (S : IoTypes H) (hs : StoreOk H Γ refs) {v : SVal} {T : Ptr} (hv : VT H Γ v T) (hT : SameType H [] T S.string) : Host.readingString (view refs v) ≠ .wrong := by
  unfold Host.readingString
  split
  · simp
  · rw [if_pos fun n => S.string_like hs n (hv.conv hT)]; simp
end

/-! ### The functions of pkgs/core/stdio.fble.c -/

section
variable {H : Heap} (S : IoTypes H)

/-- The types of the functions of pkgs/core/stdio.fble.c. -/
def IoTypes.sig (op n : Nat) (T : Ptr) : Prop :=
  match Op.ofCode op with
  | .istream _ => n = 1 ∧ SameType H [] S.istream T
  | .ostream _ => n = 2 ∧ SameType H [] S.ostream T
  | .read => n = 2 ∧ SameType H [] S.read T
  | .write => n = 2 ∧ SameType H [] S.write T
  | .getenv => n = 2 ∧ SameType H [] S.getenv T
  | .event => False
  | .effect => False

theorem IoTypes.unit_made [N : Natives] {As : List Ptr} : MadeTy H As (.struct []) S.unit := S.hUnit.made rfl

theorem IoTypes.intp_made [N : Natives] {As : List Ptr} (x : Nat) : MadeTy H As (makeIntP x) S.intp := by
  induction x using Nat.strongRecOn with
  | _ x ih =>
    rw [makeIntP]
    split
    · exact S.hIntp.enum (tag := 0) rfl S.hUnit
    · have := ih (x / 2) (by omega)
      rcases Nat.mod_two_eq_zero_or_one x with h | h
      · rw [h]; exact S.hIntp.madeUnion (tag := 1) rfl this
      · rw [h]; exact S.hIntp.madeUnion (tag := 2) rfl this

theorem IoTypes.int_made [N : Natives] {As : List Ptr} {x : Int} {m : Made} (h : makeInt x = some m) : MadeTy H As m S.int := by
  unfold makeInt at h
  split at h
  · obtain ⟨y, _, rfl⟩ := Option.map_eq_some_iff.mp h
    exact S.hInt.madeUnion (tag := 0) rfl (S.intp_made _)
  · split at h
    · cases h; exact S.hInt.enum (tag := 1) rfl S.hUnit
    · cases h; exact S.hInt.madeUnion (tag := 2) rfl (S.intp_made _)

theorem list_made [N : Natives] {As : List Ptr} {L C E unit : Ptr} (hL : Fields H .union L [C, unit]) (hC : Fields H .struct C [E, L]) (hu : Fields H .struct unit []) :
    (ms : List Made) → (∀ m ∈ ms, MadeTy H As m E) → MadeTy H As (list ms) L
  | [], _ => hL.enum (tag := 1) rfl hu
  | m :: ms, h => hL.madeUnion (tag := 0) rfl (hC.made ⟨_, _, rfl, h m (by simp), _, _, rfl, list_made hL hC hu ms fun m hm => h m (by simp [hm]), rfl⟩)

theorem IoTypes.string_made [N : Natives] {As : List Ptr} (s : List Nat) : MadeTy H As (Host.string s) S.string := by
  refine list_made S.hString S.hStringCons S.hUnit _ fun m hm => ?_
  obtain ⟨c, _, rfl⟩ := List.mem_map.mp hm
  exact S.hChar.enum (S := S.unit) (by rw [List.getElem?_replicate, if_pos (by have := charTag_lt c; omega)]) S.hUnit

section
variable [N : Natives] (hN : ∀ op n T, S.sig op n T → N.sig op n T)
include hN

theorem IoTypes.istream_made {As : List Ptr} (i : Nat) : MadeTy H As (Host.istream i) S.istream := by
  refine ⟨S.istream, hN _ _ _ ?_, sameType_refl, S.hIstream.takes trivial⟩
  rw [IoTypes.sig, Op.ofCode_code]
  exact ⟨rfl, sameType_refl⟩

theorem IoTypes.ostream_made {As : List Ptr} (i : Nat) : MadeTy H As (Host.ostream i) S.ostream := by
  refine ⟨S.ostream, hN _ _ _ ?_, sameType_refl, S.hOstream.takes (S.hOstream'.takes trivial)⟩
  rw [IoTypes.sig, Op.ofCode_code]
  exact ⟨rfl, sameType_refl⟩

theorem IoTypes.io_made {As : List Ptr} : MadeTy H As stdioIO S.io := by
  have hf : ∀ (op : Op) (T T' : Ptr) {A B R}, S.sig op.code 2 T → Func H T A T' → Func H T' B R → MadeTy H As (.function op.code 1) T :=
    fun op T T' _ _ _ h1 h2 h3 => ⟨T, hN _ _ _ h1, sameType_refl, h2.takes (h3.takes trivial)⟩
  have hr : S.sig Op.read.code 2 S.read := by rw [IoTypes.sig, Op.ofCode_code]; exact ⟨rfl, sameType_refl⟩
  have hw : S.sig Op.write.code 2 S.write := by rw [IoTypes.sig, Op.ofCode_code]; exact ⟨rfl, sameType_refl⟩
  have hg : S.sig Op.getenv.code 2 S.getenv := by rw [IoTypes.sig, Op.ofCode_code]; exact ⟨rfl, sameType_refl⟩
  exact S.hIo.made ⟨_, _, rfl, S.istream_made hN _, _, _, rfl, S.ostream_made hN _, _, _, rfl, S.ostream_made hN _, _, _, rfl, hf .read _ _ hr S.hRead S.hRead',
    _, _, rfl, hf .write _ _ hw S.hWrite S.hWrite', _, _, rfl, hf .getenv _ _ hg S.hGetenv S.hGetenv', rfl⟩
end

theorem IoTypes.args_made [N : Natives] {As : List Ptr} (args : List (List Nat)) : MadeTy H As (list (args.map Host.string)) S.strings := by
  refine list_made S.hStrings S.hStringsCons S.hUnit _ fun m hm => ?_
  obtain ⟨s, _, rfl⟩ := List.mem_map.mp hm
  exact S.string_made s

theorem result_made [N : Natives] {As : List Ptr} {W M X unit R W0 : Ptr} {i : Nat} {x : Option Made} (hR : Fields H .struct R [W, M]) (hM : Fields H .union M [X, unit]) (hu : Fields H .struct unit [])
    (hW : As[i]? = some W0) (hs : SameType H [] W0 W) (hx : ∀ m, x = some m → MadeTy H As m X) : MadeTy H As (result i x) R := by
  refine hR.made ⟨_, _, rfl, ⟨W0, hW, hs⟩, _, _, rfl, ?_, rfl⟩
  cases x with
  | none => exact hM.enum (tag := 1) rfl hu
  | some m => exact hM.madeUnion (tag := 0) rfl (hx m rfl)

theorem two_args [N : Natives] {Γ : List Ptr} {refs : List (Option SVal)} {args : List SVal} {As : List Ptr} (ha : All2 (VT H Γ) args As) {x y : View} (e : args.map (view refs) = [x, y]) :
    ∃ a b A B, args = [a, b] ∧ As = [A, B] ∧ view refs a = x ∧ view refs b = y ∧ VT H Γ a A ∧ VT H Γ b B := by
  cases ha with
  | nil => cases e
  | cons h1 ha =>
    cases ha with
    | nil => cases e
    | cons h2 ha =>
      cases ha with
      | cons => cases e
      | nil =>
        cases e
        exact ⟨_, _, _, _, rfl, rfl, rfl, rfl, h1, h2⟩

theorem one_arg [N : Natives] {Γ : List Ptr} {refs : List (Option SVal)} {args : List SVal} {As : List Ptr} (ha : All2 (VT H Γ) args As) {x : View} (e : args.map (view refs) = [x]) :
    ∃ a A, args = [a] ∧ As = [A] ∧ view refs a = x ∧ VT H Γ a A := by
  cases ha with
  | nil => cases e
  | cons h1 ha =>
    cases ha with
    | cons => cases e
    | nil =>
      cases e
      exact ⟨_, _, rfl, rfl, rfl, h1⟩

/-- What a call may answer. -/
def Answers [N : Natives] (H : Heap) (As : List Ptr) (R : Ptr) (r : Reply) : Prop := r ≠ .crash ∧ ∀ m, r = .value m → MadeTy H As m R

theorem Answers.value [N : Natives] {As : List Ptr} {R R' : Ptr} {m : Made} (h : MadeTy H As m R) (hs : SameType H [] R R') : Answers H As R' (.value m) :=
  ⟨by simp, fun m' e => by cases e; exact MadeTy.conv m h hs⟩

theorem Answers.stop [N : Natives] {As : List Ptr} {R : Ptr} : Answers H As R .stop := ⟨by simp, by simp⟩

/-- The functions keep to their types. -/
theorem IoTypes.call_ok [N : Natives] (hN : ∀ op n T, S.sig op n T → N.sig op n T) (w : World) (st : Streams) {op : Nat} {T : Ptr} {As : List Ptr} {R : Ptr} (hop : S.sig op As.length T) (har : Arrows H T As R)
    {Γ : List Ptr} {refs : List (Option SVal)} {args : List SVal} (hs : StoreOk H Γ refs) (ha : All2 (VT H Γ) args As) :
    Answers H As R (w.call st ⟨op, args.map (view refs)⟩).2 := by
  unfold IoTypes.sig at hop
  unfold World.call
  simp only
  split
  · rename_i i v e ev
    rw [e] at hop
    obtain ⟨a, X, rfl, rfl, _, hX⟩ := one_arg ha ev
    obtain ⟨h1, h2⟩ := arrows_one (S.hIstream.conv hop.2) har
    split
    · exact .value (result_made S.hRMaybeInt S.hMaybeInt S.hUnit rfl h1 fun m hm => S.int_made hm) h2
    · exact .value (result_made S.hRMaybeInt S.hMaybeInt S.hUnit rfl h1 (by simp)) h2
    · exact .stop
  · rename_i i b v e ev
    rw [e] at hop
    obtain ⟨a, c, X, Y, rfl, rfl, rfl, rfl, hX, hY⟩ := two_args ha ev
    obtain ⟨h0, h1, h2⟩ := arrows_two (S.hOstream.conv hop.2) S.hOstream' har
    have := S.readingInt hs hX h0
    split
    · exact .value (S.hRUnit.made ⟨_, _, rfl, ⟨Y, rfl, h1⟩, _, _, rfl, S.unit_made, rfl⟩) h2
    · rename_i h; exact absurd h this
    · exact .stop
  · rename_i name v e ev
    rw [e] at hop
    obtain ⟨a, c, X, Y, rfl, rfl, rfl, rfl, hX, hY⟩ := two_args ha ev
    obtain ⟨h0, h1, h2⟩ := arrows_two (S.hRead.conv hop.2) S.hRead' har
    have := S.readingString hs hX h0
    split
    · split
      · exact .value (result_made S.hRMaybeIstream S.hMaybeIstream S.hUnit rfl h1 fun m hm => by cases hm; exact S.istream_made hN _) h2
      · exact .value (result_made S.hRMaybeIstream S.hMaybeIstream S.hUnit rfl h1 (by simp)) h2
    · exact .stop
    · rename_i h; exact absurd h this
  · rename_i name v e ev
    rw [e] at hop
    obtain ⟨a, c, X, Y, rfl, rfl, rfl, rfl, hX, hY⟩ := two_args ha ev
    obtain ⟨h0, h1, h2⟩ := arrows_two (S.hWrite.conv hop.2) S.hWrite' har
    have := S.readingString hs hX h0
    split
    · split
      · exact .value (result_made S.hRMaybeOstream S.hMaybeOstream S.hUnit rfl h1 fun m hm => by cases hm; exact S.ostream_made hN _) h2
      · exact .value (result_made S.hRMaybeOstream S.hMaybeOstream S.hUnit rfl h1 (by simp)) h2
    · exact .stop
    · rename_i h; exact absurd h this
  · rename_i name v e ev
    rw [e] at hop
    obtain ⟨a, c, X, Y, rfl, rfl, rfl, rfl, hX, hY⟩ := two_args ha ev
    obtain ⟨h0, h1, h2⟩ := arrows_two (S.hGetenv.conv hop.2) S.hGetenv' har
    have := S.readingString hs hX h0
    split
    · refine .value (result_made S.hRMaybeString S.hMaybeString S.hUnit rfl h1 fun m hm => ?_) h2
      obtain ⟨s, _, rfl⟩ := Option.map_eq_some_iff.mp hm
      exact S.string_made s
    · exact .stop
    · rename_i h; exact absurd h this
  · rename_i k1 k2 k3 k4 k5
    exfalso
    have hl : (args.map (view refs)).length = As.length := by simpa using ha.length_eq
    generalize args.map (view refs) = vs at k1 k2 k3 k4 k5 hl
    cases ho : Op.ofCode op with
    | istream i =>
      rw [ho] at hop
      match vs, hl.trans hop.1 with
      | [v], _ => exact k1 i v ho rfl
    | ostream i =>
      rw [ho] at hop
      match vs, hl.trans hop.1 with
      | [v, u], _ => exact k2 i v u ho rfl
    | read =>
      rw [ho] at hop
      match vs, hl.trans hop.1 with
      | [v, u], _ => exact k3 v u ho rfl
    | write =>
      rw [ho] at hop
      match vs, hl.trans hop.1 with
      | [v, u], _ => exact k4 v u ho rfl
    | getenv =>
      rw [ho] at hop
      match vs, hl.trans hop.1 with
      | [v, u], _ => exact k5 v u ho rfl
    | event => rw [ho] at hop; exact hop
    | effect => rw [ho] at hop; exact hop
end

section
variable {H : Heap} {main : Ptr} (S : StdioTypes H main)

/-- The functions of pkgs/core/stdio.fble.c with their types, in some world. -/
noncomputable def StdioTypes.natives (w : World) : Natives := ⟨S.sig, w.answer⟩

theorem StdioTypes.nativesOk (w : World) : NativesOk (N := S.natives w) H := by
  intro op T As R hop har Γ refs args calls hs ha
  letI := S.natives w
  exact S.call_ok (fun _ _ _ h => h) w (w.after calls) hop har hs ha

/-- FbleStdio uses the program as its type allows. -/
theorem StdioTypes.hostTy (w : World) (args : List (List Nat)) (n : Nat) : HostTy (N := S.natives w) H (stdioHost args) n [main] := by
  letI := S.natives w
  have hlen : ∀ {Γ refs} {vals : List SVal} {Ts : List Ptr}, All2 (VT H Γ) vals Ts → (vals.map (view refs)).length = Ts.length := fun h => by simpa using h.length_eq
  have hio : MadeTy H [main] stdioIO S.io := S.io_made fun _ _ _ h => h
  have hargs : MadeTy H [main] (list (args.map Host.string)) S.strings := S.args_made args
  obtain ⟨a1, r1, m1, m2, m3⟩ := S.hMain
  obtain ⟨a2, r2, p1, p2, p3⟩ := S.hMain'.conv m3.symm
  obtain ⟨a3, r3, q1, q2, q3⟩ := S.hMain''.conv p3.symm
  obtain ⟨fields, b1, b2⟩ := S.hRBool
  obtain ⟨gs, c1, c2⟩ := Elab.same_data q3.symm b1
  match n with
  | 0 => trivial
  | n + 1 =>
    intro Γ refs vals _ hv
    simp only [stdioHost, hlen hv, List.length_cons, List.length_nil]
    refine ⟨main, [S.io, S.strings], r2, rfl, ⟨_, _, rfl, hio, _, _, rfl, hargs, rfl⟩, .cons m1 m2.symm (.cons p1 p2.symm (.nil sameType_refl)), ?_⟩
    match n with
    | 0 => trivial
    | n + 1 =>
      intro Γ refs vals _ hv
      simp only [stdioHost, hlen hv, List.length_cons, List.length_nil, List.length_append]
      refine ⟨r2, [S.unit], r3, rfl, ⟨_, _, rfl, S.unit_made, rfl⟩, .cons q1 q2.symm (.nil sameType_refl), ?_⟩
      match n with
      | 0 => trivial
      | n + 1 =>
        intro Γ refs vals _ hv
        simp only [stdioHost, hlen hv, List.length_cons, List.length_nil, List.length_append]
        have hl : gs.length = 2 := by rw [← c2.length_eq, b2.length_eq]; rfl
        refine ⟨r3, gs, gs[1], rfl, c1, List.getElem?_eq_getElem (by omega), ?_⟩
        match n with
        | 0 => trivial
        | n + 1 =>
          intro Γ refs vals _ hv
          simp only [stdioHost, hlen hv, List.length_cons, List.length_nil, List.length_append]
          omega
end

/-- C82: a program without polymorphic definitions that type checks and whose last module has the type `Main@`, run by FbleStdio, with any arguments and any files and environment: no assertion fails and nothing is accessed that is not there, when it is interpreted, compiled to C or
compiled to assembly; all of them make the same calls and end in the same way as the source says. -/
theorem C82_stdio {sg : Bool} {n : Nat} {program : List Module} {tcs : List Tc} (h : tcProgram n program = .ok (some tcs)) (hne : program ≠ []) (hm : Monomorphic n program) :
    ∃ ts, All2 ErasesModule program ts ∧ ((∀ t ∈ ts, t.Tables) → ∃ mds codes hf types t, linkMods [] program tcs = some mds ∧ compileAll mds = some codes ∧
      atEnd n [] [] program [] = .ok (hf, types ++ [some t]) ∧ ∀ names, All2 (NamesFor sg) mds names → ∀ locs, ∃ cmods amods, compileC sg mds names = some cmods ∧ compileA sg mds names locs = some amods ∧
      (Nonempty (StdioTypes (openAll hf) t) → ∀ (w : World) args steps fuel depth profiling,
        let source := ended depth (namedProcess ((program.map (·.path)).zip ts) (stdioHost args) steps fuel w.outside)
        Safe source ∧
        ended depth (interpretedProcess mds codes (stdioHost args) steps fuel w.outside) = source ∧
        ended depth (cProcess mds cmods (stdioHost args) steps fuel w.outside) = source ∧
        ended depth (a64Process mds amods profiling (stdioHost args) steps fuel w.outside) = source)) := by
  obtain ⟨ts, h1, h2⟩ := C81_safe (sg := sg) h hne hm
  refine ⟨ts, h1, fun ht => ?_⟩
  obtain ⟨mds, codes, hf, types, t, g1, g2, g3, g4⟩ := h2 ht
  refine ⟨mds, codes, hf, types, t, g1, g2, g3, fun names hn locs => ?_⟩
  obtain ⟨cmods, amods, e1, e2, e3⟩ := g4 names hn locs
  refine ⟨cmods, amods, e1, e2, fun ⟨S⟩ w args steps fuel depth profiling => ?_⟩
  exact e3 (S.natives w) (S.nativesOk w) (stdioHost args) steps (S.hostTy w args steps) fuel depth profiling

end Verif.Host
