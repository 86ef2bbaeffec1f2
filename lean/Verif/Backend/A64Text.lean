import Verif.Backend.A64Valid
/-
The text of the labels of the emitted assembly: different labels have different texts.
-/
namespace Verif.Backend
open Verif.Compile
open Verif.Text (Byte Str ch)

/-- `%zi` of a number that is not negative. -/
def dec (n : Nat) : Str :=
  if n < 10 then [UInt8.ofNat (48 + n)] else dec (n / 10) ++ [UInt8.ofNat (48 + n % 10)]

/-- The bytes of an ASCII word. -/
def word (s : String) : Str := s.toList.map ch

/-- Pieces separated by dots. -/
def dots : List Str → Str
  | [] => []
  | [s] => s
  | s :: ss => s ++ ch '.' :: dots ss

/-- The labels of an assembly file. -/
inductive Label where
  /-- A label of the code of a function. -/
  | code (block : Nat) (l : Lbl)
  /-- The name of a source file. -/
  | source (s : Str)
  /-- A message. -/
  | msg (m : Msg)
  /-- The format string. -/
  | format
  /-- The end of a function. -/
  | high (block : Nat)
  /-- A run function, from the name of the block and the block. -/
  | run (name : Str) (block : Nat)
  /-- A static object. -/
  | object (id : Nat)
deriving DecidableEq

/-- The part after the function: aarch64.c:535-587, 616-617, 659-689, 706-795, 826-882, 912-1004, 1063-1068. -/
def Lbl.rest : Lbl → List Str
  | .at pc => [dec pc]
  | .exit => [word "exit"]
  | .pp pc => [dec pc, word "pp"]
  | .sub pc k => [dec pc, dec k]
  | .exe pc => [dec pc, word "exe"]
  | .letters pc => [dec pc, word "letters"]
  | .p pc => [dec pc, word "p"]
  | .u pc => [dec pc, word "u"]
  | .bt pc => [dec pc, word "bt"]
  | .abort pc => [dec pc, word "abort"]
  | .v pc => [dec pc, word "v"]

/-- `.Lr` for code in line, `.Lo` for the rest. -/
def Lbl.section : Lbl → Str
  | .p _ | .u _ | .bt _ | .abort _ | .v _ => word "Lo"
  | _ => word "Lr"

/-- aarch64.c:1212-1224. -/
def Msg.label : Msg → Str
  | .calleeAborted => word "CalleeAborted"
  | .undefinedStructValue => word "UndefinedStructValue"
  | .undefinedUnionValue => word "UndefinedUnionValue"
  | .undefinedUnionSelect => word "UndefinedUnionSelect"
  | .wrongUnionTag => word "WrongUnionTag"
  | .undefinedFunctionValue => word "UndefinedFunctionValue"
  | .vacuousValue => word "VacuousValue"

/-- The pieces of the text of a label; `none` where SanitizeString overruns a buffer.  Labels of
code: see `Lbl.rest`; source files: aarch64.c:440, 1231; aarch64.c:436, 1210; messages: aarch64.c:954-1004; the end of a
function: aarch64.c:1081; run functions: aarch64.c:717-722, 1033-1036; objects: aarch64.c:26. -/
def Label.pieces (sg : Bool) : Label → Option (List Str)
  | .code block l => some ([] :: l.section :: Gen.hexPad 4 block :: l.rest)
  | .source s => (Gen.sanitize sg s).map fun x => [[], word "L", word "loc", x]
  | .msg m => some [[], word "L", m.label]
  | .format => some [[], word "L", word "ErrorFormatString"]
  | .high block => some [[], word "L", Gen.hexPad 4 block, word "high_pc"]
  | .run name block => (Gen.sanitize sg name).map fun x => [x, Gen.hexPad 4 block]
  | .object id => some [[], word "Lx" ++ Gen.hex id]

/-- The text of a label. -/
def Label.text (sg : Bool) (l : Label) : Option Str := (l.pieces sg).map dots

/-! ### Proofs -/

def undec (s : Str) : Nat := s.foldl (fun a b => 10 * a + (b.toNat - 48)) 0

theorem undec_dec (n : Nat) : undec (dec n) = n := by
  fun_induction dec n with
  | case1 n h =>
    simp [undec]
    omega
  | case2 n h ih =>
    have : undec (dec (n / 10) ++ [UInt8.ofNat (48 + n % 10)]) = 10 * undec (dec (n / 10)) + ((UInt8.ofNat (48 + n % 10)).toNat - 48) := by
      simp [undec]
    rw [this, ih]
    simp
    omega

theorem dec_inj {n m : Nat} (h : dec n = dec m) : n = m := by
  have := congrArg undec h
  rwa [undec_dec, undec_dec] at this

/-- Digits only. -/
theorem dec_digits (n : Nat) : ∀ b ∈ dec n, 48 ≤ b.toNat ∧ b.toNat ≤ 57 := by
  fun_induction dec n with
  | case1 n h => simp; omega
  | case2 n h ih =>
    intro b hb
    rcases List.mem_append.mp hb with hb | hb
    · exact ih b hb
    · rw [List.mem_singleton] at hb
      subst hb
      simp
      omega

theorem dec_ne (n : Nat) : dec n ≠ [] := by
  unfold dec
  split <;> simp

theorem dec_word {n : Nat} {s : Str} (hs : ∀ b, s.head? = some b → 57 < b.toNat) : dec n ≠ s := by
  intro e
  cases h : s with
  | nil => exact dec_ne n (e.trans h)
  | cons b t =>
    have h1 := hs b (by rw [h]; rfl)
    have h2 := dec_digits n b (by rw [e, h]; exact List.mem_cons_self ..)
    omega

/-- No dot in it. -/
def NoDot (s : Str) : Prop := ch '.' ∉ s

theorem split_dot : {a b : Str} → {r t : Str} → NoDot a → NoDot b → a ++ ch '.' :: r = b ++ ch '.' :: t → a = b ∧ r = t
  | [], [], r, t, _, _, h => by simpa using h
  | [], y :: b, r, t, _, hb, h => by
    simp at h
    exact absurd (h.1 ▸ List.mem_cons_self ..) hb
  | x :: a, [], r, t, ha, _, h => by
    simp at h
    exact absurd (h.1 ▸ List.mem_cons_self ..) ha
  | x :: a, y :: b, r, t, ha, hb, h => by
    simp only [List.cons_append, List.cons.injEq] at h
    obtain ⟨h1, h2⟩ := split_dot (fun hm => ha (List.mem_cons_of_mem _ hm)) (fun hm => hb (List.mem_cons_of_mem _ hm)) h.2
    exact ⟨by rw [h.1, h1], h2⟩

theorem dots_inj : {xs ys : List Str} → xs ≠ [] → ys ≠ [] → (∀ s ∈ xs, NoDot s) → (∀ s ∈ ys, NoDot s) → dots xs = dots ys → xs = ys
  | [], _, h, _, _, _, _ => absurd rfl h
  | _, [], _, h, _, _, _ => absurd rfl h
  | [x], [y], _, _, _, _, h => by rw [show x = y from h]
  | [x], y :: z :: ys, _, _, hx, _, h => by
    rw [dots, dots] at h
    · exact absurd (h ▸ List.mem_append_right _ (List.mem_cons_self ..)) (hx x (List.mem_cons_self ..))
    all_goals simp
  | x :: z :: xs, [y], _, _, _, hy, h => by
    rw [dots, dots] at h
    · exact absurd (h ▸ List.mem_append_right _ (List.mem_cons_self ..)) (hy y (List.mem_cons_self ..))
    all_goals simp
  | x :: w :: xs, y :: z :: ys, _, _, hx, hy, h => by
    rw [dots.eq_3 x (w :: xs) (by simp), dots.eq_3 y (z :: ys) (by simp)] at h
    · obtain ⟨h1, h2⟩ := split_dot (hx x (List.mem_cons_self ..)) (hy y (List.mem_cons_self ..)) h
      rw [h1, dots_inj (xs := w :: xs) (ys := z :: ys) (by simp) (by simp) (fun s hs => hx s (List.mem_cons_of_mem _ hs)) (fun s hs => hy s (List.mem_cons_of_mem _ hs)) h2]

theorem dec_noDot (n : Nat) : NoDot (dec n) := fun h => by
  have := dec_digits n _ h
  revert this
  decide

theorem hexPad_noDot (w n : Nat) : NoDot (Gen.hexPad w n) := fun h => (Gen.hexPad_chars w n _ h).2.2 rfl
theorem hex_noDot (n : Nat) : NoDot (Gen.hex n) := fun h => (Gen.hex_chars n _ h).2.2 rfl

theorem sanitize_eq {sg : Bool} {s x : Str} (h : Gen.sanitize sg s = some x) : x = s.flatMap (Gen.translate sg) := by
  by_cases hf : ∀ b ∈ s, Gen.Fits sg b
  · rw [Gen.sanitize_some sg s hf] at h
    exact (Option.some.inj h).symm
  · unfold Gen.sanitize at h
    rw [Gen.appendChars_none _ _ _ _ hf] at h
    cases h

theorem translate_noDot (sg : Bool) (b : Byte) : NoDot (Gen.translate sg b) := by
  intro h
  have := Gen.translate_ident sg b _ h
  revert this
  unfold Gen.Spec.Letter Gen.Spec.Digit
  decide

theorem sanitize_noDot {sg : Bool} {s x : Str} (h : Gen.sanitize sg s = some x) : NoDot x := by
  rw [sanitize_eq h]
  intro hm
  obtain ⟨b, _, hb⟩ := List.mem_flatMap.mp hm
  exact translate_noDot sg b hb

theorem sanitize_inj {sg : Bool} {s t x : Str} (h1 : Gen.sanitize sg s = some x) (h2 : Gen.sanitize sg t = some x) : s = t :=
  Gen.translate_inj ((sanitize_eq h1).symm.trans (sanitize_eq h2))

theorem rest_noDot (l : Lbl) : ∀ s ∈ l.rest, NoDot s := by
  cases l <;> simp [Lbl.rest, dec_noDot] <;> unfold NoDot <;> decide

theorem rest_ne (l : Lbl) : l.rest ≠ [] := by cases l <;> simp [Lbl.rest]

theorem section_noDot (l : Lbl) : NoDot l.section := by
  have h : l.section = word "Lr" ∨ l.section = word "Lo" := by cases l <;> simp [Lbl.section]
  rcases h with h | h <;> rw [h] <;> unfold NoDot <;> decide

theorem pieces_ok {sg : Bool} {l : Label} {xs} (h : l.pieces sg = some xs) : xs ≠ [] ∧ ∀ s ∈ xs, NoDot s := by
  have hn : NoDot [] := by simp [NoDot]
  cases l with
  | code block l =>
    cases h
    refine ⟨by simp, ?_⟩
    simp only [List.forall_mem_cons]
    exact ⟨hn, section_noDot l, hexPad_noDot 4 block, rest_noDot l⟩
  | source s =>
    simp only [Label.pieces, Option.map_eq_some_iff] at h
    obtain ⟨x, h1, rfl⟩ := h
    refine ⟨by simp, ?_⟩
    simp only [List.forall_mem_cons]
    exact ⟨hn, by unfold NoDot; decide, by unfold NoDot; decide, sanitize_noDot h1, by simp⟩
  | msg m =>
    cases h
    refine ⟨by simp, ?_⟩
    simp only [List.forall_mem_cons]
    exact ⟨hn, by unfold NoDot; decide, by cases m <;> (unfold NoDot; decide), by simp⟩
  | format =>
    cases h
    unfold NoDot
    decide
  | high block =>
    cases h
    refine ⟨by simp, ?_⟩
    simp only [List.forall_mem_cons]
    exact ⟨hn, by unfold NoDot; decide, hexPad_noDot 4 block, by unfold NoDot; decide, by simp⟩
  | run name block =>
    simp only [Label.pieces, Option.map_eq_some_iff] at h
    obtain ⟨x, h1, rfl⟩ := h
    refine ⟨by simp, ?_⟩
    simp only [List.forall_mem_cons]
    exact ⟨sanitize_noDot h1, hexPad_noDot 4 block, by simp⟩
  | object id =>
    cases h
    refine ⟨by simp, ?_⟩
    simp only [List.forall_mem_cons]
    refine ⟨hn, fun hm => ?_, by simp⟩
    rcases List.mem_append.mp hm with hm | hm
    · revert hm; decide
    · exact hex_noDot id hm

theorem hex_all {P : Byte → Prop} (hp : ∀ d < 16, P (Gen.hexDigit d)) (n : Nat) : ∀ b ∈ Gen.hex n, P b := by
  fun_induction Gen.hex n with
  | case1 n h => simpa using hp n h
  | case2 n h ih =>
    intro b hb
    rcases List.mem_append.mp hb with hb | hb
    · exact ih b hb
    · rw [List.mem_singleton.mp hb]
      exact hp _ (Nat.mod_lt _ (by omega))

theorem hexPad_all {P : Byte → Prop} (hp : ∀ d < 16, P (Gen.hexDigit d)) (w n : Nat) : ∀ b ∈ Gen.hexPad w n, P b := by
  intro b hb
  rcases List.mem_append.mp hb with hb | hb
  · rw [(List.mem_replicate.mp hb).2]
    exact hp 0 (by omega)
  · exact hex_all hp n b hb

theorem hex_inj {n m : Nat} (h : Gen.hex n = Gen.hex m) : n = m := by
  have := congrArg Gen.unhex h
  rwa [Gen.unhex_hex, Gen.unhex_hex] at this

theorem rest_inj {l l' : Lbl} (h : l.rest = l'.rest) : l = l' := by
  have hd : ∀ n, dec n ≠ word "exit" ∧ dec n ≠ word "pp" ∧ dec n ≠ word "exe" ∧ dec n ≠ word "letters" ∧ dec n ≠ word "p" ∧ dec n ≠ word "u" ∧ dec n ≠ word "bt" ∧
      dec n ≠ word "abort" ∧ dec n ≠ word "v" := by
    intro n
    refine ⟨?_, ?_, ?_, ?_, ?_, ?_, ?_, ?_, ?_⟩ <;> exact dec_word (by decide)
  cases l <;> cases l' <;> simp only [Lbl.rest, List.cons.injEq, and_true, reduceCtorEq, and_false] at h
  all_goals first
    | rfl
    | (rw [dec_inj h]; done)
    | (rw [dec_inj h.1, dec_inj h.2]; done)
    | (rw [dec_inj h.1]; done)
    | exact absurd h (hd _).1
    | exact absurd h.symm (hd _).1
    | (exfalso; have h := h.2; revert h; decide)
    | (exfalso; have h := h.2; revert h; simp [hd]; done)
    | (exfalso; have h := h.2.symm; revert h; simp [hd]; done)

theorem msg_inj {m m' : Msg} (h : m.label = m'.label) : m = m' := by
  cases m <;> cases m' <;> first | rfl | (revert h; decide)

theorem msg_format {m : Msg} : m.label ≠ word "ErrorFormatString" := by cases m <;> decide

/-- The labels of an assembly file have different texts. -/
theorem text_inj {sg : Bool} {a b : Label} {t} (ha : a.text sg = some t) (hb : b.text sg = some t) : a = b := by
  simp only [Label.text, Option.map_eq_some_iff] at ha hb
  obtain ⟨xs, ha, rfl⟩ := ha
  obtain ⟨ys, hb, e⟩ := hb
  obtain ⟨a1, a2⟩ := pieces_ok ha
  obtain ⟨b1, b2⟩ := pieces_ok hb
  have e := dots_inj b1 a1 b2 a2 e
  subst e
  have hL : ∀ {w n}, ∀ b ∈ Gen.hexPad w n, b ≠ ch 'L' ∧ b ≠ ch 'l' := fun {w n} => hexPad_all (P := fun b => b ≠ ch 'L' ∧ b ≠ ch 'l') (by decide) w n
  have hsec : ∀ l : Lbl, l.section ≠ word "L" := by
    intro l
    have h : l.section = word "Lr" ∨ l.section = word "Lo" := by cases l <;> simp [Lbl.section]
    rcases h with h | h <;> rw [h] <;> decide
  have hlen : ∀ l : Lbl, l.rest.length ≠ 0 := fun l h => rest_ne l (List.length_eq_zero_iff.mp h)
  have hloc : ∀ {w n}, Gen.hexPad w n ≠ word "loc" := fun {w n} e => (hL (w := w) (n := n) (ch 'l') (by rw [e]; decide)).2 rfl
  have hobj : ∀ {w n id}, Gen.hexPad w n ≠ word "Lx" ++ Gen.hex id := fun {w n id} e =>
    (hL (w := w) (n := n) (ch 'L') (by rw [e]; exact List.mem_append_left _ (by decide))).1 rfl
  cases a <;> cases b <;> simp only [Label.pieces] at ha hb
  all_goals
    first
      | (simp only [Option.map_eq_some_iff] at ha; obtain ⟨x, hx, ha⟩ := ha)
      | (have ha := Option.some.inj ha)
    first
      | (simp only [Option.map_eq_some_iff] at hb; obtain ⟨y, hy, hb⟩ := hb)
      | (have hb := Option.some.inj hb)
    have e := ha.trans hb.symm
    clear a1 a2 b1 b2
    simp only [List.cons.injEq, and_true, true_and, reduceCtorEq, and_false] at e
  case code.code => rw [Gen.hexPad_inj e.2.1, rest_inj e.2.2]
  case source.source =>
    subst e
    rw [sanitize_inj hx hy]
  case msg.msg => rw [msg_inj e]
  case format.format => rfl
  case high.high => rw [Gen.hexPad_inj e]
  case run.run =>
    obtain ⟨rfl, e⟩ := e
    rw [sanitize_inj hx hy, Gen.hexPad_inj e]
  case object.object => rw [hex_inj (List.append_cancel_left e)]
  case code.source => exact absurd e.1 (hsec _)
  case code.msg => exact absurd e.1 (hsec _)
  case code.high => exact absurd e.1 (hsec _)
  case source.code => exact absurd e.1.symm (hsec _)
  case msg.code => exact absurd e.1.symm (hsec _)
  case code.format => exact absurd e.1 (hsec _)
  case format.code => exact absurd e.1.symm (hsec _)
  case msg.format => exact absurd e msg_format
  case format.msg => exact absurd e.symm msg_format
  case high.code => exact absurd e.1.symm (hsec _)
  all_goals first
    | exact absurd e hloc
    | exact absurd e.symm hloc
    | exact absurd e.1 hloc
    | exact absurd e.1.symm hloc
    | exact absurd e.2 hobj
    | exact absurd e.2.symm hobj
    | exact absurd e.2.symm (rest_ne _)
    | exact absurd e.2 (rest_ne _)

/-! ### All labels of a file -/

/-- The messages. -/
def messages : List Msg := [.calleeAborted, .undefinedStructValue, .undefinedUnionValue, .undefinedUnionSelect, .wrongUnionTag, .undefinedFunctionValue, .vacuousValue]

/-- The labels of the function for a block: aarch64.c:1033-1081. -/
def funLabels (names : List Str) (b : Nat) (f : AFun) : List Label :=
  .run (names[b]?.getD []) b :: (labs f.body).map (.code b) ++ [.high b]

/-- The labels an assembly file defines, without those of the description of the module and of debug
information: aarch64.c:1209-1244.  `blocks` are the blocks of the functions. -/
def fileLabels (names sources : List Str) (blocks : List Nat) (m : AModule) : List Label :=
  .format :: messages.map .msg ++ sources.map .source ++ (blocks.zip m.funs).flatMap fun x => funLabels names x.1 x.2

/-- The block a label belongs to. -/
def Label.block? : Label → Option Nat
  | .code b _ | .high b | .run _ b => some b
  | _ => none

theorem funLabels_block {b f} : ∀ l ∈ funLabels names b f, l.block? = some b := by
  intro l hl
  simp only [funLabels, List.cons_append, List.mem_cons, List.mem_append, List.mem_map, List.not_mem_nil, or_false] at hl
  rcases hl with rfl | ⟨_, _, rfl⟩ | rfl <;> rfl

theorem funLabels_nodup {b f} (h : (labs f.body).Nodup) : (funLabels names b f).Nodup := by
  rw [funLabels, List.cons_append, List.nodup_cons, List.nodup_append]
  refine ⟨by simp, (List.pairwise_map.mpr (h.imp fun h e => h (by cases e; rfl))), by simp, fun a ha b hb e => ?_⟩
  subst e
  obtain ⟨_, _, rfl⟩ := List.mem_map.mp ha
  simp at hb

theorem allFun_nodup : {blocks : List Nat} → {funs : List AFun} → blocks.Pairwise (· < ·) → (∀ f ∈ funs, (labs f.body).Nodup) →
    ((blocks.zip funs).flatMap fun x => funLabels names x.1 x.2).Nodup
  | [], _, _, _ => by simp
  | _ :: _, [], _, _ => by simp
  | b :: blocks, f :: funs, hb, hf => by
    rw [List.zip_cons_cons, List.flatMap_cons, List.nodup_append]
    rw [List.pairwise_cons] at hb
    refine ⟨funLabels_nodup (hf f (List.mem_cons_self ..)), allFun_nodup hb.2 fun g hg => hf g (List.mem_cons_of_mem _ hg), fun a ha c hc e => ?_⟩
    subst e
    obtain ⟨⟨b', f'⟩, hm, hc⟩ := List.mem_flatMap.mp hc
    have h1 := funLabels_block a ha
    have h2 := funLabels_block a hc
    rw [h1] at h2
    have := hb.1 b' (List.of_mem_zip hm).1
    cases h2
    omega

theorem fileLabels_nodup {sources : List Str} {blocks : List Nat} {m : AModule} (h : m.Valid sources) (hb : blocks.Pairwise (· < ·)) :
    (fileLabels names sources blocks m).Nodup := by
  have hm : ∀ l ∈ messages.map Label.msg ++ sources.map Label.source, l.block? = none ∧ l ≠ .format := by
    intro l hl
    rcases List.mem_append.mp hl with hl | hl <;> obtain ⟨_, _, rfl⟩ := List.mem_map.mp hl <;> exact ⟨rfl, by simp⟩
  have hf : ∀ l ∈ (blocks.zip m.funs).flatMap (fun x => funLabels names x.1 x.2), l.block? ≠ none := by
    intro l hl e
    obtain ⟨x, _, hl⟩ := List.mem_flatMap.mp hl
    rw [funLabels_block l hl] at e
    cases e
  rw [fileLabels, List.append_assoc, List.cons_append, ← List.append_assoc, List.nodup_cons, List.nodup_append]
  refine ⟨fun hl => ?_, ?_, allFun_nodup hb fun f hf => (h.funs f hf).once, fun a ha b hb e => hf b hb (e ▸ (hm a ha).1)⟩
  · rcases List.mem_append.mp hl with hl | hl
    · exact (hm _ hl).2 rfl
    · exact hf _ hl rfl
  · rw [List.nodup_append]
    refine ⟨by decide, List.pairwise_map.mpr (h.once.imp fun h e => h (by cases e; rfl)), fun a ha b hb e => ?_⟩
    subst e
    obtain ⟨_, _, rfl⟩ := List.mem_map.mp ha
    obtain ⟨_, _, h⟩ := List.mem_map.mp hb
    cases h

/-- Labels whose names have characters that fit have a text. -/
theorem text_some {sg : Bool} {l : Label} (h1 : ∀ s, l = .source s → ∀ b ∈ s, Gen.Fits sg b) (h2 : ∀ s b, l = .run s b → ∀ x ∈ s, Gen.Fits sg x) : ∃ t, l.text sg = some t := by
  cases l with
  | source s => exact ⟨_, by simp only [Label.text, Label.pieces, Gen.sanitize_some sg s (h1 s rfl), Option.map_some]; rfl⟩
  | run s b => exact ⟨_, by simp only [Label.text, Label.pieces, Gen.sanitize_some sg s (h2 s b rfl), Option.map_some]; rfl⟩
  | _ => exact ⟨_, rfl⟩

theorem texts_nodup {sg : Bool} : {ls : List Label} → ls.Nodup → (∀ l ∈ ls, ∃ t, l.text sg = some t) → ∃ ts, ls.mapM (Label.text sg) = some ts ∧ ts.Nodup
  | [], _, _ => ⟨[], rfl, .nil⟩
  | l :: ls, hn, hs => by
    rw [List.nodup_cons] at hn
    obtain ⟨t, ht⟩ := hs l (List.mem_cons_self ..)
    obtain ⟨ts, h1, h2⟩ := texts_nodup hn.2 fun x hx => hs x (List.mem_cons_of_mem _ hx)
    refine ⟨t :: ts, by rw [List.mapM_cons, ht, h1]; rfl, ?_⟩
    rw [List.nodup_cons]
    refine ⟨fun hm => ?_, h2⟩
    obtain ⟨l', hl', ht'⟩ := (mapM_mem h1).1 t hm
    exact hn.1 (text_inj ht ht' ▸ hl')

theorem mapM_length {α β : Type} {f : α → Option β} : {xs : List α} → {ys : List β} → xs.mapM f = some ys → ys.length = xs.length
  | [], ys, h => by cases h; rfl
  | x :: xs, ys, h => by
    rw [List.mapM_cons] at h
    cases h0 : f x with
    | none => rw [h0] at h; cases h
    | some y =>
      cases h1 : xs.mapM f with
      | none => rw [h0, h1] at h; cases h
      | some ys' =>
        rw [h0, h1] at h
        cases h
        rw [List.length_cons, List.length_cons, mapM_length h1]

/-- C65. The assembly of every module of a program whose expressions are in scope is well formed: in
a function no label is defined twice and the labels used are defined; functions have different names
and those used are defined; the names of source files are defined once, and those used are defined.
And the labels of the file, in all functions, have different texts. -/
theorem C65_a64_valid {ms : List Mod} {names : List (List Str)} (locs : Nat → Nat → Nat → SrcLoc) (h : progOk 0 ms) (hnames : All2 (NamesFor sg) ms names) {mods}
    (hc : compileA sg ms names locs = some mods) (hl : ∀ m b pc, ∀ x ∈ (locs m b pc).source, Gen.Fits sg x) :
    ∃ codes, compileAll ms = some codes ∧ mods.length = codes.length ∧ ∀ (k : Nat) md code ns, mods[k]? = some md → codes[k]? = some code → names[k]? = some ns →
      md.Valid (moduleLocs (locs k) code) ∧ md.funs.length = (collectBlocks 0 code).length ∧
      ∃ texts, (fileLabels ns (moduleLocs (locs k) code) ((collectBlocks 0 code).map (·.1)) md).mapM (Label.text sg) = some texts ∧ texts.Nodup := by
  obtain ⟨codes, mods', g1, g2, g3, g4, g5, _⟩ := compileA_ok ms 0 0 h names locs hnames
  rw [hc] at g2
  cases g2
  refine ⟨codes, g1, g3, fun k md code ns h1 h2 h3 => ?_⟩
  obtain ⟨hok, md', h4, h5⟩ := g5 k ns code (by rw [List.getElem?_zip_eq_some]; exact ⟨h3, h2⟩)
  rw [h1] at h4
  cases h4
  have hv := hok.validA h5
  have hsrc : ∀ s ∈ moduleLocs (locs k) code, ∀ x ∈ s, Gen.Fits sg x := by
    intro s hs x hx
    rcases (collectLocs_ok (locs := locs k) 0 [] code).only s hs with h | ⟨b, pc, rfl⟩
    · cases h
    · exact hl k b pc x hx
  have hlen : md.funs.length = (collectBlocks 0 code).length := by
    simp only [generateA, Option.bind_eq_some_iff, Option.map_eq_some_iff] at h5
    obtain ⟨fs, hfs, _, _, rfl⟩ := h5
    exact mapM_length hfs
  refine ⟨hv, hlen, texts_nodup (fileLabels_nodup hv hok.inc.1) fun l hl => ?_⟩
  refine text_some (fun s e x hx => ?_) fun s b e x hx => ?_
  · subst e
    simp only [fileLabels, List.cons_append, List.mem_cons, List.mem_append, List.mem_map, List.mem_flatMap] at hl
    rcases hl with hl | (⟨_, _, hl⟩ | ⟨_, hm, hl⟩) | ⟨_, _, hl⟩
    · cases hl
    · cases hl
    · cases hl
      exact hsrc s hm x hx
    · cases funLabels_block _ hl
  · subst e
    simp only [fileLabels, List.cons_append, List.mem_cons, List.mem_append, List.mem_map, List.mem_flatMap] at hl
    rcases hl with hl | (⟨_, _, hl⟩ | ⟨_, _, hl⟩) | ⟨⟨b', f⟩, hm, hl⟩
    · cases hl
    · cases hl
    · cases hl
    · simp only [funLabels, List.cons_append, List.mem_cons, List.mem_append, List.mem_map, List.not_mem_nil, or_false] at hl
      rcases hl with hl | ⟨_, _, hl⟩ | hl
      · cases hl
        cases hn : ns[b]? with
        | none => rw [hn] at hx; cases hx
        | some n =>
          rw [hn] at hx
          exact hok.bytes n (List.mem_of_getElem? hn) x hx
      · cases hl
      · cases hl

/-- An example: the program of C13, with locations in a file `/A%.fble`. -/
theorem C65_example : ∃ codes mods, compileAll exampleProgram = some codes ∧ compileA true exampleProgram exampleNames (fun _ b pc => ⟨word "/A%.fble", b, pc⟩) = some mods ∧
    mods.length = 2 ∧ ∀ (k : Nat) md code, mods[k]? = some md → codes[k]? = some code → md.Valid (moduleLocs (fun b pc => ⟨word "/A%.fble", b, pc⟩) code) := by
  have hp : exampleProgram ≠ [] ∧ progOk 0 exampleProgram := by
    simp [exampleProgram, progOk, Tc.Scoped, Tcs.Scoped, Brs.Scoped, Brs.Table, Brs.sortedFrom, Brs.tagsBelow, Var.Ok, Tcs.length]
  obtain ⟨mods, h1, _⟩ := C64_a64_program (fun _ b pc => ⟨word "/A%.fble", b, pc⟩) hp.1 hp.2 example_names
  obtain ⟨codes, h2, h3, h4⟩ := C65_a64_valid (fun _ b pc => ⟨word "/A%.fble", b, pc⟩) hp.2 example_names h1 (by intro _ _ _; simp only [Gen.Fits]; decide)
  have hn : codes.length = 2 := by rw [mapM_length h2]; rfl
  refine ⟨codes, mods, h2, h1, h3.trans hn, fun k md code a b => ?_⟩
  have hk : k < exampleNames.length := by
    have := (List.getElem?_eq_some_iff.mp b).1
    rw [hn] at this
    exact this
  exact (h4 k md code _ a b (List.getElem?_eq_getElem hk)).1

end Verif.Backend
