import Verif.Host.App
import Verif.Host.StdioSafe
/-
C83: a program of the type that FbleAppMain needs does not go wrong when it is run by FbleAppMain.
-/
namespace Verif.Host
open Verif.Compile
open Verif.Elab (Natives NativesOk VT StoreOk MadeTy MadesTy Arrows Takes IsNode openAll atEnd tcProgram linkMods Module Monomorphic ErasesModule sameType_refl)
open Verif.Types (Ptr Heap SameType DataKind)
open Verif.Backend (compileC compileA NamesFor)

/-! ### Specification: the types of /App/IO%, /App/App% and /App/Drawing% -/

/-- `main` is the type `Main@` of pkgs/app/App/IO.fble:21-23, and these are the types it is made of: pkgs/app/App/App.fble:17-67 and pkgs/app/App/Drawing.fble:14-55. -/
structure AppTypes (H : Heap) (main : Ptr) extends IoTypes H where
  (key button mouseButton resize mouseMotion event : Ptr)
  (color point drawing triangle rect transformed over effect : Ptr)
  (rEvent getEvent doEffect doEffect' : Ptr)
  (main1 main2 main3 main4 main5 main6 : Ptr)
  hKey : Fields H .union key (List.replicate 16 unit)
  hButton : Fields H .union button [unit, unit]
  hMouseButton : Fields H .struct mouseButton [button, int, int]
  hResize : Fields H .struct resize [int, int]
  hMouseMotion : Fields H .struct mouseMotion [int, int, int, int]
  hEvent : Fields H .union event [unit, key, key, mouseButton, mouseButton, resize, mouseMotion]
  hColor : Fields H .struct color [int, int, int]
  hPoint : Fields H .struct point [int, int]
  hTriangle : Fields H .struct triangle [point, point, point, color]
  hRect : Fields H .struct rect [int, int, int, int, color]
  hTransformed : Fields H .struct transformed [point, point, drawing]
  hOver : Fields H .struct over [drawing, drawing]
  hDrawing : Fields H .union drawing [unit, triangle, rect, transformed, over]
  hEffect : Fields H .union effect [int, drawing]
  hREvent : Fields H .struct rEvent [unit, event]
  hGetEvent : Func H getEvent unit rEvent
  hDoEffect : Func H doEffect effect doEffect'
  hDoEffect' : Func H doEffect' unit rUnit
  hMain : Func H main io main1
  hMain1 : Func H main1 getEvent main2
  hMain2 : Func H main2 doEffect main3
  hMain3 : Func H main3 int main4
  hMain4 : Func H main4 int main5
  hMain5 : Func H main5 strings main6
  hMain6 : Func H main6 unit rBool

/-! ### Proofs -/

theorem makeInt32_eq (x : Int32) : makeInt x.toInt = some (makeInt32 x) := by
  have h1 := x.le_toInt
  have h2 := x.toInt_lt
  unfold makeInt32
  cases h : makeInt x.toInt with
  | some m => rfl
  | none =>
    unfold makeInt at h
    split at h
    · rw [i64_eq (by omega) (by omega)] at h
      cases h
    · split at h <;> cases h

/-- Reading a value of the type does not go wrong: what is read is as it should be. -/
def Reading.Good {α} (P : α → Prop) : Reading α → Prop
  | .ok a => P a
  | .fails => True
  | .wrong => False

theorem Reading.Good.bind {α β} {P : α → Prop} {Q : β → Prop} {r : Reading α} {k : α → Reading β} (h : r.Good P) (hk : ∀ a, P a → (k a).Good Q) : (r >>= k).Good Q := by
  cases r with
  | ok a => exact hk a h
  | fails => trivial
  | wrong => exact h

theorem Reading.good_option {α} (o : Option α) : (Reading.ofOption o).Good fun _ => True := by
  cases o <;> trivial

theorem Reading.Good.ne {α} {P : α → Prop} {r : Reading α} (h : r.Good P) : r ≠ .wrong := by
  rintro rfl
  exact h

section
variable {H : Heap} [N : Natives] {Γ : List Ptr} {refs : List (Option SVal)}

/-- What is seen is of a value of the type, or of NULL. -/
def Sees (H : Heap) (Γ : List Ptr) (refs : List (Option SVal)) (T : Ptr) (v : View) : Prop :=
  (∃ a, VT H Γ a T ∧ v = view refs a) ∨ v = fun _ => .nothing

theorem Sees.field {T : Ptr} {Ss : List Ptr} {v : View} (hs : StoreOk H Γ refs) (h : Sees H Γ refs T v) (hT : Fields H .struct T Ss) {i : Nat} {S : Ptr} (hS : Ss[i]? = some S) :
    (readField v i).Good (Sees H Γ refs S) := by
  unfold readField
  rcases h with ⟨a, ha, rfl⟩ | rfl
  · rcases struct_view hs ha hT with h | ⟨h, hf⟩
    · rw [h]; exact .inr rfl
    · obtain ⟨b, hb, e⟩ := hf i S hS
      obtain ⟨hlt, _⟩ := List.getElem?_eq_some_iff.mp hS
      rw [h]
      simp only [if_pos hlt]
      exact .inl ⟨b, hb, e⟩
  · exact .inr rfl

theorem nothing_int : readingInt (fun _ => .nothing) = .fails := by
  have h1 : readInt (fun _ => Node.nothing) = none := rfl
  unfold readingInt
  rw [h1]
  exact if_pos fun n => rfl

theorem IoTypes.good_int (S : IoTypes H) (hs : StoreOk H Γ refs) {v : View} (h : Sees H Γ refs S.int v) : (Host.readingInt v).Good fun _ => True := by
  rcases h with ⟨a, ha, rfl⟩ | rfl
  · have := S.readingInt hs ha sameType_refl
    cases h : Host.readingInt (view refs a) with
    | ok => trivial
    | fails => trivial
    | wrong => exact this h
  · rw [nothing_int]; trivial

theorem IoTypes.good_int32 (S : IoTypes H) (hs : StoreOk H Γ refs) {v : View} (h : Sees H Γ refs S.int v) : (readInt32 v).Good fun _ => True :=
  (S.good_int hs h).bind fun _ _ => trivial

theorem IoTypes.good_coord (S : IoTypes H) (hs : StoreOk H Γ refs) {v : View} (h : Sees H Γ refs S.int v) (a b : Int) : (readCoord a b v).Good fun _ => True :=
  (S.good_int hs h).bind fun _ _ => (Reading.good_option _).bind fun _ _ => (Reading.good_option _).bind fun _ _ => trivial

theorem good_affine (a x b : Int) : (affine a x b).Good fun _ => True :=
  (Reading.good_option _).bind fun _ _ => Reading.good_option _

theorem good_corners (x w : Int) : (corners x w).Good fun _ => True := by
  unfold corners
  split
  · exact (Reading.good_option _).bind fun _ _ => (Reading.good_option _).bind fun _ _ => (Reading.good_option _).bind fun _ _ => trivial
  · exact (Reading.good_option _).bind fun _ _ => trivial

variable {main : Ptr} (S : AppTypes H main) (hs : StoreOk H Γ refs)
include hs

theorem AppTypes.good_point {v : View} (h : Sees H Γ refs S.point v) (ax ay bx by' : Int) : (readPoint ax ay bx by' v).Good fun _ => True :=
  (h.field hs S.hPoint (i := 0) rfl).bind fun _ h0 => (S.good_coord hs h0 _ _).bind fun _ _ =>
  (h.field hs S.hPoint (i := 1) rfl).bind fun _ h1 => (S.good_coord hs h1 _ _).bind fun _ _ => trivial

theorem AppTypes.good_color {v : View} (h : Sees H Γ refs S.color v) : (readColor v).Good fun _ => True :=
  (h.field hs S.hColor (i := 0) rfl).bind fun _ h0 => (S.good_int32 hs h0).bind fun _ _ =>
  (h.field hs S.hColor (i := 1) rfl).bind fun _ h1 => (S.good_int32 hs h1).bind fun _ _ =>
  (h.field hs S.hColor (i := 2) rfl).bind fun _ h2 => (S.good_int32 hs h2).bind fun _ _ => trivial

theorem AppTypes.good_draw : (n : Nat) → {v : View} → Sees H Γ refs S.drawing v → (ax ay bx by' : Int) → (draw n ax ay bx by' v).Good fun _ => True
  | 0, _, _, _, _, _, _ => trivial
  | n + 1, v, h, ax, ay, bx, by' => by
    rcases h with ⟨a, ha, rfl⟩ | rfl
    · rw [draw]
      rcases union_view hs ha S.hDrawing with h | ⟨tag, T, b, h, hT, hb, he⟩
      · rw [h]; trivial
      · rw [h]
        have hb : Sees H Γ refs T (sub (view refs a) 0) := .inl ⟨b, hb, he⟩
        match tag, hT with
        | 0, _ => trivial
        | 1, hT =>
          cases hT
          exact (hb.field hs S.hTriangle (i := 0) rfl).bind fun _ h0 => (S.good_point hs h0 _ _ _ _).bind fun _ _ =>
            (hb.field hs S.hTriangle (i := 1) rfl).bind fun _ h1 => (S.good_point hs h1 _ _ _ _).bind fun _ _ =>
            (hb.field hs S.hTriangle (i := 2) rfl).bind fun _ h2 => (S.good_point hs h2 _ _ _ _).bind fun _ _ =>
            (hb.field hs S.hTriangle (i := 3) rfl).bind fun _ h3 => (S.good_color hs h3).bind fun _ _ => trivial
        | 2, hT =>
          cases hT
          exact (hb.field hs S.hRect (i := 0) rfl).bind fun _ h0 => (S.good_coord hs h0 _ _).bind fun _ _ =>
            (hb.field hs S.hRect (i := 1) rfl).bind fun _ h1 => (S.good_coord hs h1 _ _).bind fun _ _ =>
            (hb.field hs S.hRect (i := 2) rfl).bind fun _ h2 => (S.good_coord hs h2 _ _).bind fun _ _ =>
            (hb.field hs S.hRect (i := 3) rfl).bind fun _ h3 => (S.good_coord hs h3 _ _).bind fun _ _ =>
            (good_corners _ _).bind fun _ _ => (good_corners _ _).bind fun _ _ =>
            (hb.field hs S.hRect (i := 4) rfl).bind fun _ h4 => (S.good_color hs h4).bind fun _ _ => trivial
        | 3, hT =>
          cases hT
          exact (hb.field hs S.hTransformed (i := 0) rfl).bind fun _ h0 => (hb.field hs S.hTransformed (i := 1) rfl).bind fun _ h1 =>
            (hb.field hs S.hTransformed (i := 2) rfl).bind fun _ h2 =>
            (h0.field hs S.hPoint (i := 0) rfl).bind fun _ g => (S.good_int32 hs g).bind fun _ _ =>
            (h0.field hs S.hPoint (i := 1) rfl).bind fun _ g => (S.good_int32 hs g).bind fun _ _ =>
            (h1.field hs S.hPoint (i := 0) rfl).bind fun _ g => (S.good_int32 hs g).bind fun _ _ =>
            (h1.field hs S.hPoint (i := 1) rfl).bind fun _ g => (S.good_int32 hs g).bind fun _ _ =>
            (Reading.good_option _).bind fun _ _ => (Reading.good_option _).bind fun _ _ => (good_affine _ _ _).bind fun _ _ => (good_affine _ _ _).bind fun _ _ =>
            AppTypes.good_draw n h2 _ _ _ _
        | 4, hT =>
          cases hT
          exact (hb.field hs S.hOver (i := 0) rfl).bind fun _ h0 => (AppTypes.good_draw n h0 _ _ _ _).bind fun _ _ =>
            (hb.field hs S.hOver (i := 1) rfl).bind fun _ h1 => (AppTypes.good_draw n h1 _ _ _ _).bind fun _ _ => trivial
    · rw [draw]; trivial

theorem AppTypes.good_drawing {v : View} (h : Sees H Γ refs S.drawing v) : Host.drawing v ≠ .wrong := by
  unfold Host.drawing
  split
  · simp
  · split
    · rename_i hw
      obtain ⟨n, hw⟩ := hw
      exact absurd hw (S.good_draw hs n h _ _ _ _).ne
    · simp
end

section
variable {H : Heap} {main : Ptr} (S : AppTypes H main)

theorem AppTypes.int32_made [N : Natives] {As : List Ptr} (x : Int32) : MadeTy H As (makeInt32 x) S.int := S.int_made (makeInt32_eq x)

theorem AppTypes.button_made [N : Natives] {As : List Ptr} {b k : Nat} (h : makeButton b = some k) : MadeTy H As (enum k) S.button := by
  unfold makeButton at h
  split at h
  · cases h; exact S.hButton.enum (tag := 0) rfl S.hUnit
  · split at h
    · cases h; exact S.hButton.enum (tag := 1) rfl S.hUnit
    · cases h

theorem makeKey_lt {c : Scancode} {k : Nat} (h : makeKey c = some k) : k < 16 := by
  cases c <;> cases h <;> decide

theorem AppTypes.key_made [N : Natives] {As : List Ptr} {c : Scancode} {k : Nat} (h : makeKey c = some k) : MadeTy H As (enum k) S.key :=
  S.hKey.enum (S := S.unit) (by rw [List.getElem?_replicate, if_pos (makeKey_lt h)]) S.hUnit

theorem AppTypes.event_made [N : Natives] {As : List Ptr} {e : SdlEvent} {m : Made} (h : makeEvent e = some m) : MadeTy H As m S.event := by
  cases e with
  | user => cases h; exact S.hEvent.enum (tag := 0) rfl S.hUnit
  | keyDown k =>
    obtain ⟨k, hk, rfl⟩ := Option.map_eq_some_iff.mp h
    exact S.hEvent.madeUnion (tag := 1) rfl (S.key_made hk)
  | keyUp k =>
    obtain ⟨k, hk, rfl⟩ := Option.map_eq_some_iff.mp h
    exact S.hEvent.madeUnion (tag := 2) rfl (S.key_made hk)
  | mouseDown b x y =>
    obtain ⟨k, hk, rfl⟩ := Option.map_eq_some_iff.mp h
    exact S.hEvent.madeUnion (tag := 3) rfl (S.hMouseButton.made ⟨_, _, rfl, S.button_made hk, _, _, rfl, S.int32_made x, _, _, rfl, S.int32_made y, rfl⟩)
  | mouseUp b x y =>
    obtain ⟨k, hk, rfl⟩ := Option.map_eq_some_iff.mp h
    exact S.hEvent.madeUnion (tag := 4) rfl (S.hMouseButton.made ⟨_, _, rfl, S.button_made hk, _, _, rfl, S.int32_made x, _, _, rfl, S.int32_made y, rfl⟩)
  | resized w h' =>
    cases h
    exact S.hEvent.madeUnion (tag := 5) rfl (S.hResize.made ⟨_, _, rfl, S.int32_made w, _, _, rfl, S.int32_made h', rfl⟩)
  | motion x y dx dy =>
    cases h
    exact S.hEvent.madeUnion (tag := 6) rfl (S.hMouseMotion.made ⟨_, _, rfl, S.int32_made x, _, _, rfl, S.int32_made y, _, _, rfl, S.int32_made dx, _, _, rfl, S.int32_made dy, rfl⟩)
  | other => cases h

theorem nextEvent_made : (es : List SdlEvent) → {m : Made} → {rest : List SdlEvent} → nextEvent es = some (m, rest) → ∃ e, makeEvent e = some m
  | [], _, _, h => by cases h
  | e :: es, m, rest, h => by
    rw [nextEvent] at h
    cases he : makeEvent e with
    | some m' => rw [he] at h; cases h; exact ⟨e, he⟩
    | none => rw [he] at h; exact nextEvent_made es h

/-- The types of the functions of pkgs/app/app.c and pkgs/core/stdio.fble.c. -/
def AppTypes.sig (op n : Nat) (T : Ptr) : Prop :=
  S.toIoTypes.sig op n T ∨ (Op.ofCode op = .event ∧ n = 1 ∧ SameType H [] S.getEvent T) ∨ (Op.ofCode op = .effect ∧ n = 2 ∧ SameType H [] S.doEffect T)

noncomputable def AppTypes.natives (w : AppWorld) : Natives := ⟨S.sig, w.answer⟩

/-- The functions keep to their types. -/
theorem AppTypes.nativesOk (w : AppWorld) : NativesOk (N := S.natives w) H := by
  intro op T As R hop har Γ refs args calls hs ha
  letI := S.natives w
  have hN : ∀ op n T, S.toIoTypes.sig op n T → (S.natives w).sig op n T := fun _ _ _ h => .inl h
  show Answers H As R (w.call (w.after calls) ⟨op, args.map (view refs)⟩).2
  generalize w.after calls = st
  rcases hop with hop | ⟨ho, hl, hop⟩ | ⟨ho, hl, hop⟩
  · have key := S.toIoTypes.call_ok hN w.io st.streams hop har hs ha
    have h1 : Op.ofCode op ≠ .event := by intro e; rw [IoTypes.sig, e] at hop; exact hop
    have h2 : Op.ofCode op ≠ .effect := by intro e; rw [IoTypes.sig, e] at hop; exact hop
    unfold AppWorld.call
    split
    · rename_i e _; exact absurd e h1
    · rename_i e _; exact absurd e h2
    · rename_i e _; exact absurd e h1
    · rename_i e _; exact absurd e h2
    · exact key
  · have hl : args.length = 1 := ha.length_eq.trans hl
    obtain ⟨a, rfl⟩ := List.length_eq_one_iff.mp hl
    obtain ⟨a', X, e, rfl, _, hX⟩ := one_arg (refs := refs) ha rfl
    obtain ⟨h1, h2⟩ := arrows_one (S.hGetEvent.conv hop) har
    simp only [AppWorld.call, ho, List.map_cons, List.map_nil]
    cases hn : nextEvent st.events with
    | none => exact .stop
    | some r =>
      obtain ⟨m, rest⟩ := r
      obtain ⟨ev, hm⟩ := nextEvent_made _ hn
      exact .value (S.hREvent.made ⟨_, _, rfl, ⟨X, rfl, h1⟩, _, _, rfl, S.event_made hm, rfl⟩) h2
  · have hl : args.length = 2 := ha.length_eq.trans hl
    obtain ⟨a, b, rfl⟩ : ∃ a b, args = [a, b] := by
      match args, hl with
      | [a, b], _ => exact ⟨a, b, rfl⟩
    obtain ⟨a', b', X, Y, e, rfl, _, _, hX, hY⟩ := two_args (refs := refs) ha rfl
    cases e
    obtain ⟨h0, h1, h2⟩ := arrows_two (S.hDoEffect.conv hop) S.hDoEffect' har
    have done : Answers H [X, Y] R (.value (.struct [.argument 1, .struct []])) :=
      .value (S.hRUnit.made ⟨_, _, rfl, ⟨Y, rfl, h1⟩, _, _, rfl, S.unit_made, rfl⟩) h2
    simp only [AppWorld.call, ho, List.map_cons, List.map_nil]
    rcases union_view hs (hX.conv h0) S.hEffect with h | ⟨tag, T', c, h, hT, hc, he⟩
    · rw [h]; exact done
    · rw [h]
      have hc : Sees H Γ refs T' (sub (view refs a) 0) := .inl ⟨c, hc, he⟩
      match tag, hT with
      | 0, hT =>
        cases hT
        have := (S.good_int32 hs hc).ne
        simp only
        split
        · exact done
        · exact .stop
        · rename_i hw; exact absurd hw this
      | 1, hT =>
        cases hT
        have := S.good_drawing hs hc
        simp only
        split
        · exact done
        · exact .stop
        · rename_i hw; exact absurd hw this

/-- FbleAppMain uses the program as its type allows. -/
theorem AppTypes.hostTy (w : AppWorld) (width height : Int32) (args : List (List Nat)) (n : Nat) : HostTy (N := S.natives w) H (appHost width height args) n [main] := by
  letI := S.natives w
  have hN : ∀ op n T, S.toIoTypes.sig op n T → (S.natives w).sig op n T := fun _ _ _ h => .inl h
  have hlen : ∀ {Γ refs} {vals : List SVal} {Ts : List Ptr}, All2 (VT H Γ) vals Ts → (vals.map (view refs)).length = Ts.length := fun h => by simpa using h.length_eq
  have hio : MadeTy H [main] stdioIO S.io := S.io_made hN
  have hargs : MadeTy H [main] (list (args.map Host.string)) S.strings := S.args_made args
  have hev : MadeTy H [main] (.function Op.event.code 0) S.getEvent := ⟨S.getEvent, .inr (.inl ⟨rfl, rfl, sameType_refl⟩), sameType_refl, S.hGetEvent.takes trivial⟩
  have hef : MadeTy H [main] (.function Op.effect.code 1) S.doEffect :=
    ⟨S.doEffect, .inr (.inr ⟨rfl, rfl, sameType_refl⟩), sameType_refl, S.hDoEffect.takes (S.hDoEffect'.takes trivial)⟩
  obtain ⟨a1, r1, m1, m2, m3⟩ := S.hMain
  obtain ⟨a2, r2, p1, p2, p3⟩ := S.hMain1.conv m3.symm
  obtain ⟨a3, r3, q1, q2, q3⟩ := S.hMain2.conv p3.symm
  obtain ⟨a4, r4, s1, s2, s3⟩ := S.hMain3.conv q3.symm
  obtain ⟨a5, r5, t1, t2, t3⟩ := S.hMain4.conv s3.symm
  obtain ⟨a6, r6, u1, u2, u3⟩ := S.hMain5.conv t3.symm
  obtain ⟨a7, r7, v1, v2, v3⟩ := S.hMain6.conv u3.symm
  obtain ⟨fields, b1, b2⟩ := S.hRBool
  obtain ⟨gs, c1, c2⟩ := Elab.same_data v3.symm b1
  match n with
  | 0 => trivial
  | n + 1 =>
    intro Γ refs vals _ hv
    simp only [appHost, hlen hv, List.length_cons, List.length_nil]
    refine ⟨main, [S.io, S.getEvent, S.doEffect, S.int, S.int, S.strings], r6, rfl,
      ⟨_, _, rfl, hio, _, _, rfl, hev, _, _, rfl, hef, _, _, rfl, S.int32_made width, _, _, rfl, S.int32_made height, _, _, rfl, hargs, rfl⟩,
      .cons m1 m2.symm (.cons p1 p2.symm (.cons q1 q2.symm (.cons s1 s2.symm (.cons t1 t2.symm (.cons u1 u2.symm (.nil sameType_refl)))))), ?_⟩
    match n with
    | 0 => trivial
    | n + 1 =>
      intro Γ refs vals _ hv
      simp only [appHost, hlen hv, List.length_cons, List.length_nil, List.length_append]
      refine ⟨r6, [S.unit], r7, rfl, ⟨_, _, rfl, S.unit_made, rfl⟩, .cons v1 v2.symm (.nil sameType_refl), ?_⟩
      match n with
      | 0 => trivial
      | n + 1 =>
        intro Γ refs vals _ hv
        simp only [appHost, hlen hv, List.length_cons, List.length_nil, List.length_append]
        have hl : gs.length = 2 := by rw [← c2.length_eq, b2.length_eq]; rfl
        refine ⟨r7, gs, gs[1], rfl, c1, List.getElem?_eq_getElem (by omega), ?_⟩
        match n with
        | 0 => trivial
        | n + 1 =>
          intro Γ refs vals _ hv
          simp only [appHost, hlen hv, List.length_cons, List.length_nil, List.length_append]
          omega
end

/-- C83: a program without polymorphic definitions that type checks and whose last module has the type `Main@` of /App/IO%, run by FbleAppMain, with any arguments, files, environment, events and
size of the window: nothing is used as a value of another type, no assertion about types fails and nothing is accessed that is not there, when it is interpreted, compiled to C or
compiled to assembly; all of them make the same calls and end in the same way as the source says. -/
theorem C83_app {sg : Bool} {n : Nat} {program : List Module} {tcs : List Tc} (h : tcProgram n program = .ok (some tcs)) (hne : program ≠ []) (hm : Monomorphic n program) :
    ∃ ts, All2 ErasesModule program ts ∧ ((∀ t ∈ ts, t.Tables) → ∃ mds codes hf types t, linkMods [] program tcs = some mds ∧ compileAll mds = some codes ∧
      atEnd n [] [] program [] = .ok (hf, types ++ [some t]) ∧ ∀ names, All2 (NamesFor sg) mds names → ∀ locs, ∃ cmods amods, compileC sg mds names = some cmods ∧ compileA sg mds names locs = some amods ∧
      (Nonempty (AppTypes (openAll hf) t) → ∀ (w : AppWorld) width height args steps fuel depth profiling,
        let source := ended depth (namedProcess ((program.map (·.path)).zip ts) (appHost width height args) steps fuel w.outside)
        Safe source ∧
        ended depth (interpretedProcess mds codes (appHost width height args) steps fuel w.outside) = source ∧
        ended depth (cProcess mds cmods (appHost width height args) steps fuel w.outside) = source ∧
        ended depth (a64Process mds amods profiling (appHost width height args) steps fuel w.outside) = source)) := by
  obtain ⟨ts, h1, h2⟩ := C81_safe (sg := sg) h hne hm
  refine ⟨ts, h1, fun ht => ?_⟩
  obtain ⟨mds, codes, hf, types, t, g1, g2, g3, g4⟩ := h2 ht
  refine ⟨mds, codes, hf, types, t, g1, g2, g3, fun names hn locs => ?_⟩
  obtain ⟨cmods, amods, e1, e2, e3⟩ := g4 names hn locs
  refine ⟨cmods, amods, e1, e2, fun ⟨S⟩ w width height args steps fuel depth profiling => ?_⟩
  exact e3 (S.natives w) (S.nativesOk w) (appHost width height args) steps (S.hostTy w width height args steps) fuel depth profiling

end Verif.Host
