import Verif.Gen.Thm
import Mathlib.Data.List.Nodup
/-
C97: the data that FbleGenerateAArch64 writes for a module, read back as FbleLink and the profiler read it.
-/
namespace Verif.Gen.Data
open Verif.Text (Byte Str ch Path Name Space)
open Verif.Gen

/-! ### What is written -/

/-- `FbleLoc`, fble-loc.h:23-27. -/
structure Loc where
  source : Str
  line : Nat
  col : Nat

/-- `FbleName` with its location, fble-name.h:35-39. -/
structure LName where
  name : Name
  loc : Loc

/-- `FbleCompiledModule` as far as StaticGeneratedModule reads it: the path and its location, the paths of the modules it refers to, the numbers of the code, its block, and the names of all blocks. -/
structure Compiled where
  path : List LName
  loc : Loc
  deps : List Path
  numArgs : Nat
  numStatics : Nat
  block : Nat
  blocks : List LName

def Compiled.plain (m : Compiled) : Path := m.path.map LName.name

/-- The operand of `.xword`: a number, a label `.Lx%x` (aarch64.c:26) or a symbol. -/
inductive Val where
  | num (n : Nat)
  | label (l : Nat)
  | sym (s : Str)
deriving DecidableEq

/-- The lines that are written, all of them in the section `.data`. -/
inductive Dir where
  | align (k : Nat)
  | label (l : Nat)
  | global (s : Str)
  | define (s : Str)
  | xword (v : Val)
  | word (n : Nat)
  | zero (n : Nat)
  | string (operand : Str)
deriving DecidableEq

/-- fble-string.h:15. -/
def stringMagic : Nat := 0x516179
/-- fble-module-path.h:16. -/
def pathMagic : Nat := 0x77806584
/-- fble-name.h:17-20. -/
def spaceNum : Space → Nat
  | .normal => 0
  | .type => 1

/-- aarch64.c:253-264 `StaticString` with the next label `id`, which it uses: what is written. -/
def staticString (id : Nat) (s : Str) : List Dir := [.align 3, .label id, .xword (.num 1), .word stringMagic, .string (stringLitAsm s)]

/-- The first loop of `StaticNames`, aarch64.c:279-284: what is written, the labels, and the next label. -/
def staticStrings (id : Nat) : List LName → List Dir × List (Nat × Nat) × Nat
  | [] => ([], [], id)
  | n :: ns =>
    let r := staticStrings (id + 2) ns
    (staticString id n.name.str ++ staticString (id + 1) n.loc.source ++ r.1, (id, id + 1) :: r.2.1, r.2.2)

/-- aarch64.c:291-296. -/
def nameDirs (x : LName × Nat × Nat) : List Dir :=
  [.xword (.label x.2.1), .word (spaceNum x.1.name.space), .zero 4, .xword (.label x.2.2), .xword (.num x.1.loc.line), .xword (.num x.1.loc.col)]

/-- aarch64.c:277-299 `StaticNames`: what is written, the label returned, and the next label. -/
def staticNames (id : Nat) (names : List LName) : List Dir × Nat × Nat :=
  let r := staticStrings id names
  (r.1 ++ ([.align 3, .label r.2.2] ++ (names.zip r.2.1).flatMap nameDirs), r.2.2, r.2.2 + 1)

/-- aarch64.c:313-332 `StaticModulePath`. -/
def staticModulePath (id : Nat) (path : List LName) (loc : Loc) : List Dir × Nat × Nat :=
  let r := staticNames (id + 1) path
  (staticString id loc.source ++ (r.1 ++ [.align 3, .label r.2.2, .xword (.num 1), .word pathMagic, .align 3, .xword (.label id), .xword (.num loc.line), .xword (.num loc.col),
    .xword (.num path.length), .xword (.label r.2.1)]), r.2.2, r.2.2 + 1)

/-- aarch64.c:345-387 `StaticGeneratedModule`, with the symbols LabelForPath and SanitizeString give. -/
def moduleDirs (m : Compiled) (symbol : Str) (deps : List Str) (run : Str) : List Dir :=
  let p := staticModulePath 0 m.path m.loc
  let b := staticNames (p.2.2 + 2) m.blocks
  p.1 ++ ([.align 3, .label p.2.2] ++ deps.map (fun s => .xword (.sym s)) ++
    ([.align 3, .label (p.2.2 + 1), .xword (.num m.numArgs), .xword (.num m.numStatics), .xword (.sym run)] ++
      (b.1 ++ [.align 3, .global symbol, .define symbol, .xword (.label p.2.1), .xword (.num m.deps.length), .xword (.label p.2.2), .xword (.label (p.2.2 + 1)),
        .xword (.num m.blocks.length), .xword (.label b.2.1)])))

/-- aarch64.c:345-387; `none` if a name overruns its buffer, or the block of the code has no name. -/
def staticGeneratedModule (sg : Bool) (m : Compiled) : Option (List Dir) :=
  (labelForPath sg m.plain).bind fun symbol => (m.deps.mapM (labelForPath sg)).bind fun deps =>
    (m.blocks[m.block]?).bind fun n => (functionLabel sg (ch '.') n.name.str m.block).map fun run => moduleDirs m symbol deps run

/-! ### Specification: the memory, and the values in it -/

/-- The bytes a line takes; `.string` adds a NUL. -/
def Dir.size : Dir → Nat
  | .xword _ => 8
  | .word _ => 4
  | .zero n => n
  | .string t => match Spec.readAsm t with
    | some (s, _) => s.length + 1
    | none => 0
  | _ => 0

/-- The next multiple of 2^k. -/
def roundTo (k a : Nat) : Nat := (a + (2 ^ k - 1)) / 2 ^ k * 2 ^ k

/-- Where a line is put, after the lines up to the address `a`. -/
def Dir.start (a : Nat) : Dir → Nat
  | .align k => roundTo k a
  | _ => a

/-- The assembler: every line with its address. -/
def place (a : Nat) : List Dir → List (Nat × Dir)
  | [] => []
  | d :: ds => (d.start a, d) :: place (d.start a + d.size) ds

/-- The value is a pointer to this address. -/
def Points (img : List (Nat × Dir)) (v : Val) (a : Nat) : Prop :=
  match v with
  | .num _ => False
  | .label l => (a, .label l) ∈ img
  | .sym s => (a, .define s) ∈ img

/-- There is a pointer at the address. -/
def IsPtr (img : List (Nat × Dir)) (a : Nat) (v : Val) : Prop := (a, .xword v) ∈ img

/-- There is a size_t at the address. -/
def IsNum (img : List (Nat × Dir)) (a : Nat) (n : Nat) : Prop := (a, .xword (.num n)) ∈ img

/-- `FbleString*`: the fields `refcount`, `magic` and `str` at 0, 8 and 12. -/
def IsString (img : List (Nat × Dir)) (v : Val) (s : Str) : Prop :=
  ∃ a, a % 8 = 0 ∧ Points img v a ∧ IsNum img a 1 ∧ (a + 8, .word stringMagic) ∈ img ∧ ∃ t, (a + 12, .string t) ∈ img ∧ Spec.readAsm t = some (s, [])

/-- `FbleLoc`: `source`, `line` and `col` at 0, 8 and 16. -/
def IsLoc (img : List (Nat × Dir)) (a : Nat) (l : Loc) : Prop :=
  (∃ v, IsPtr img a v ∧ IsString img v l.source) ∧ IsNum img (a + 8) l.line ∧ IsNum img (a + 16) l.col

/-- `FbleName*` to an array: `name`, `space` and `loc` at 0, 8 and 16 of each, of 40 bytes. -/
def IsNames (img : List (Nat × Dir)) (v : Val) (names : List LName) : Prop :=
  ∃ a, a % 8 = 0 ∧ Points img v a ∧ ∀ i n, names[i]? = some n →
    (∃ w, IsPtr img (a + 40 * i) w ∧ IsString img w n.name.str) ∧ (a + 40 * i + 8, .word (spaceNum n.name.space)) ∈ img ∧ IsLoc img (a + 40 * i + 16) n.loc

/-- `FbleModulePath*`: `refcount`, `magic`, `loc` and `path` at 0, 8, 16 and 40. -/
def IsPath (img : List (Nat × Dir)) (v : Val) (path : List LName) (loc : Loc) : Prop :=
  ∃ a, a % 8 = 0 ∧ Points img v a ∧ IsNum img a 1 ∧ (a + 8, .word pathMagic) ∈ img ∧ IsLoc img (a + 16) loc ∧ IsNum img (a + 40) path.length ∧
    ∃ w, IsPtr img (a + 48) w ∧ IsNames img w path

/-- `FbleExecutable*`: `num_args`, `num_statics` and `run` at 0, 8 and 16. -/
def IsExecutable (img : List (Nat × Dir)) (v : Val) (numArgs numStatics : Nat) (run : Str) : Prop :=
  ∃ a, a % 8 = 0 ∧ Points img v a ∧ IsNum img a numArgs ∧ IsNum img (a + 8) numStatics ∧ IsPtr img (a + 16) (.sym run)

/-- `FbleGeneratedModule`: `path`, `deps`, `executable` and `profile_blocks` at 0, 8, 24 and 32. -/
def IsModule (sg : Bool) (img : List (Nat × Dir)) (a : Nat) (m : Compiled) : Prop :=
  a % 8 = 0 ∧ (∃ v, IsPtr img a v ∧ IsPath img v m.path m.loc) ∧
  IsNum img (a + 8) m.deps.length ∧ (∃ v, IsPtr img (a + 16) v ∧ ∃ da, da % 8 = 0 ∧ Points img v da ∧
    ∀ i d, m.deps[i]? = some d → ∃ s, labelForPath sg d = some s ∧ IsPtr img (da + 8 * i) (.sym s)) ∧
  (∃ v n run, IsPtr img (a + 24) v ∧ m.blocks[m.block]? = some n ∧ functionLabel sg (ch '.') n.name.str m.block = some run ∧ IsExecutable img v m.numArgs m.numStatics run) ∧
  IsNum img (a + 32) m.blocks.length ∧ ∃ v, IsPtr img (a + 40) v ∧ IsNames img v m.blocks

/-! ### Proofs -/

def endOf (a : Nat) : List Dir → Nat
  | [] => a
  | d :: ds => endOf (d.start a + d.size) ds

theorem place_append (x y : List Dir) : ∀ a, place a (x ++ y) = place a x ++ place (endOf a x) y := by
  induction x with
  | nil => intro a; rfl
  | cons d x ih => intro a; simp only [List.cons_append, place, endOf, ih]

theorem endOf_append (x y : List Dir) : ∀ a, endOf a (x ++ y) = endOf (endOf a x) y := by
  induction x with
  | nil => intro a; rfl
  | cons d x ih => intro a; simp only [List.cons_append, endOf, ih]

theorem roundTo_three (a : Nat) : roundTo 3 a = (a + 7) / 8 * 8 := rfl
theorem round_mod (a : Nat) : roundTo 3 a % 8 = 0 := by rw [roundTo_three]; omega
theorem round_12 {a : Nat} (h : a % 8 = 0) : roundTo 3 (a + 12) = a + 16 := by rw [roundTo_three]; omega

theorem string_ok {img a id s} (h : ∀ x ∈ place a (staticString id s), x ∈ img) : IsString img (.label id) s := by
  refine ⟨roundTo 3 a, round_mod a, h _ ?_, h _ ?_, h _ ?_, stringLitAsm s, h _ ?_, by simpa using C37_asm_literal s []⟩ <;>
    simp [staticString, place, Dir.start, Dir.size]

theorem strings_ok {img} : ∀ {names : List LName} {a id}, (∀ x ∈ place a (staticStrings id names).1, x ∈ img) →
    (staticStrings id names).2.1.length = names.length ∧ ∀ (i : Nat) (n : LName) (x : Nat × Nat), names[i]? = some n → (staticStrings id names).2.1[i]? = some x →
      IsString img (.label x.1) n.name.str ∧ IsString img (.label x.2) n.loc.source
  | [], _, _, _ => ⟨rfl, by simp⟩
  | n :: ns, a, id, h => by
    simp only [staticStrings, place_append, List.mem_append] at h
    obtain ⟨h1, h2⟩ := strings_ok (names := ns) fun x hx => h x (.inr hx)
    refine ⟨by simp [staticStrings, h1], fun i n' x hn hx => ?_⟩
    cases i with
    | zero =>
      simp only [staticStrings, List.getElem?_cons_zero, Option.some.injEq] at hn hx
      subst hn hx
      exact ⟨string_ok fun x hx => h x (.inl (.inl hx)), string_ok fun x hx => h x (.inl (.inr hx))⟩
    | succ i =>
      simp only [staticStrings, List.getElem?_cons_succ] at hn hx
      exact h2 i n' x hn hx

theorem nameDirs_ok {img} : ∀ {l : List (LName × Nat × Nat)} {b}, (∀ x ∈ place b (l.flatMap nameDirs), x ∈ img) → ∀ i x, l[i]? = some x →
    IsPtr img (b + 40 * i) (.label x.2.1) ∧ (b + 40 * i + 8, .word (spaceNum x.1.name.space)) ∈ img ∧ IsPtr img (b + 40 * i + 16) (.label x.2.2) ∧
      IsNum img (b + 40 * i + 24) x.1.loc.line ∧ IsNum img (b + 40 * i + 32) x.1.loc.col
  | [], _, _, _, _, hx => by cases hx
  | y :: l, b, h, i, x, hx => by
    rw [List.flatMap_cons, place_append] at h
    have he : endOf b (nameDirs y) = b + 40 := rfl
    rw [he] at h
    cases i with
    | zero =>
      obtain rfl : y = x := by simpa using hx
      refine ⟨h _ ?_, h _ ?_, h _ ?_, h _ ?_, h _ ?_⟩ <;> simp [nameDirs, place, Dir.start, Dir.size]
    | succ i =>
      have := nameDirs_ok (fun z hz => h z (List.mem_append.mpr (.inr hz))) i x (by simpa using hx)
      rwa [show b + 40 + 40 * i = b + 40 * (i + 1) by omega] at this

theorem names_ok {img a id names} (h : ∀ x ∈ place a (staticNames id names).1, x ∈ img) : IsNames img (.label (staticNames id names).2.1) names := by
  simp only [staticNames, place_append, List.mem_append] at h
  obtain ⟨h1, h2⟩ := strings_ok fun x hx => h x (.inl hx)
  generalize endOf a (staticStrings id names).1 = b at h
  have h3 : ∀ x ∈ place (roundTo 3 b) ((names.zip (staticStrings id names).2.1).flatMap nameDirs), x ∈ img := fun x hx => h x (.inr (.inr hx))
  refine ⟨roundTo 3 b, round_mod b, h _ (.inr (.inl ?_)), fun i n hn => ?_⟩
  · simp [place, Dir.start, Dir.size, staticNames]
  · have hi : i < (staticStrings id names).2.1.length := by rw [h1]; exact (List.getElem?_eq_some_iff.mp hn).1
    obtain ⟨x, hx⟩ : ∃ x, (staticStrings id names).2.1[i]? = some x := ⟨_, List.getElem?_eq_getElem hi⟩
    obtain ⟨s1, s2⟩ := h2 i n x hn hx
    obtain ⟨k1, k2, k3, k4, k5⟩ := nameDirs_ok h3 i (n, x) (List.getElem?_zip_eq_some.mpr ⟨hn, hx⟩)
    exact ⟨⟨_, k1, s1⟩, k2, ⟨_, k3, s2⟩, k4, k5⟩

theorem path_ok {img a id path loc} (h : ∀ x ∈ place a (staticModulePath id path loc).1, x ∈ img) : IsPath img (.label (staticModulePath id path loc).2.1) path loc := by
  simp only [staticModulePath, place_append, List.mem_append] at h
  have h1 := string_ok fun x hx => h x (.inl hx)
  have h2 := names_ok fun x hx => h x (.inr (.inl hx))
  generalize endOf (endOf a _) _ = b at h
  have h3 := fun x hx => h x (.inr (.inr hx))
  simp only [place, Dir.start, Dir.size, Nat.add_zero, Nat.add_assoc, Nat.reduceAdd, round_12 (round_mod b)] at h3
  refine ⟨roundTo 3 b, round_mod b, h3 _ ?_, h3 _ ?_, h3 _ ?_, ⟨⟨_, h3 _ ?_, h1⟩, h3 _ ?_, h3 _ ?_⟩, h3 _ ?_, _, h3 _ ?_, h2⟩ <;> simp [staticModulePath]

theorem xwords_ok {img} : ∀ {l : List Val} {b}, (∀ x ∈ place b (l.map Dir.xword), x ∈ img) → ∀ i v, l[i]? = some v → IsPtr img (b + 8 * i) v
  | [], _, _, _, _, hx => by cases hx
  | y :: l, b, h, i, v, hx => by
    rw [List.map_cons, place] at h
    cases i with
    | zero =>
      obtain rfl : y = v := by simpa using hx
      exact h _ (List.mem_cons_self ..)
    | succ i =>
      have := xwords_ok (fun z hz => h z (List.mem_cons_of_mem _ hz)) i v (by simpa using hx)
      rwa [show Dir.start b (.xword y) + Dir.size (.xword y) + 8 * i = b + 8 * (i + 1) by simp only [Dir.start, Dir.size]; omega] at this

/-! The labels are different. -/

def labelsOf (ds : List Dir) : List Nat := ds.filterMap fun | .label l => some l | _ => none
def definesOf (ds : List Dir) : List Str := ds.filterMap fun | .define s => some s | _ => none

structure Fresh (id next : Nat) (ds : List Dir) : Prop where
  le : id ≤ next
  range : ∀ l ∈ labelsOf ds, id ≤ l ∧ l < next
  nodup : (labelsOf ds).Nodup
  noDefine : definesOf ds = []

theorem Fresh.append {a b c x y} (h : Fresh a b x) (h' : Fresh b c y) : Fresh a c (x ++ y) := by
  refine ⟨Nat.le_trans h.le h'.le, fun l hl => ?_, ?_, ?_⟩
  · rw [labelsOf, List.filterMap_append, List.mem_append] at hl
    have := h.le; have := h'.le
    rcases hl with hl | hl
    · have := h.range l hl; omega
    · have := h'.range l hl; omega
  · rw [labelsOf, List.filterMap_append, List.nodup_append]
    refine ⟨h.nodup, h'.nodup, fun l hl l' hl' => ?_⟩
    have := (h.range l hl).2; have := (h'.range l' hl').1
    omega
  · rw [definesOf, List.filterMap_append, show List.filterMap _ x = definesOf x from rfl, show List.filterMap _ y = definesOf y from rfl, h.noDefine, h'.noDefine]; rfl

theorem fresh_string (id s) : Fresh id (id + 1) (staticString id s) := ⟨by omega, by simp [labelsOf, staticString], by simp [labelsOf, staticString], by simp [definesOf, staticString]⟩

theorem fresh_strings : ∀ (names : List LName) (id), Fresh id (staticStrings id names).2.2 (staticStrings id names).1
  | [], id => ⟨Nat.le_refl _, by simp [labelsOf, staticStrings], by simp [labelsOf, staticStrings], by simp [definesOf, staticStrings]⟩
  | n :: ns, id => ((fresh_string id _).append (fresh_string (id + 1) _)).append (fresh_strings ns (id + 2))

/-- Lines without labels. -/
theorem fresh_none {ds : List Dir} (id) (h : labelsOf ds = []) (h' : definesOf ds = []) : Fresh id id ds := ⟨Nat.le_refl _, by simp [h], by simp [h], h'⟩

theorem fresh_one {ds : List Dir} (id) (h : labelsOf ds = [id]) (h' : definesOf ds = []) : Fresh id (id + 1) ds := ⟨by omega, by simp [h], by simp [h], h'⟩

theorem names_none : ∀ l : List (LName × Nat × Nat), labelsOf (l.flatMap nameDirs) = [] ∧ definesOf (l.flatMap nameDirs) = []
  | [] => ⟨rfl, rfl⟩
  | x :: l => by
    obtain ⟨h1, h2⟩ := names_none l
    rw [List.flatMap_cons, labelsOf, definesOf, List.filterMap_append, List.filterMap_append]
    exact ⟨by rw [show List.filterMap _ (l.flatMap nameDirs) = labelsOf (l.flatMap nameDirs) from rfl, h1]; rfl,
      by rw [show List.filterMap _ (l.flatMap nameDirs) = definesOf (l.flatMap nameDirs) from rfl, h2]; rfl⟩

theorem fresh_names (id names) : Fresh id (staticNames id names).2.2 (staticNames id names).1 := by
  obtain ⟨h1, h2⟩ := names_none (names.zip (staticStrings id names).2.1)
  exact (fresh_strings names id).append ((fresh_one _ (ds := [.align 3, .label _]) rfl rfl).append (fresh_none _ h1 h2))

theorem fresh_path (id path loc) : Fresh id (staticModulePath id path loc).2.2 (staticModulePath id path loc).1 :=
  (fresh_string id _).append ((fresh_names (id + 1) path).append (fresh_one _ rfl rfl))

theorem deps_none : ∀ l : List Str, labelsOf (l.map fun s => .xword (.sym s)) = [] ∧ definesOf (l.map fun s => .xword (.sym s)) = []
  | [] => ⟨rfl, rfl⟩
  | _ :: l => deps_none l

theorem label_place {ds : List Dir} : ∀ {a b l}, (b, Dir.label l) ∈ place a ds → l ∈ labelsOf ds := by
  induction ds with
  | nil => intro a b l h; cases h
  | cons d ds ih =>
    intro a b l h
    rw [place] at h
    rcases List.mem_cons.mp h with h | h
    · cases h; exact List.mem_cons_self ..
    · have := ih h
      unfold labelsOf at *
      rw [List.filterMap_cons]
      split
      · exact this
      · exact List.mem_cons_of_mem _ this

theorem place_unique {ds : List Dir} (hn : (labelsOf ds).Nodup) : ∀ {a b b' l}, (b, Dir.label l) ∈ place a ds → (b', Dir.label l) ∈ place a ds → b = b' := by
  induction ds with
  | nil => intro a b b' l h; cases h
  | cons d ds ih =>
    intro a b b' l h h'
    rw [place] at h h'
    have hn' : (labelsOf ds).Nodup := by
      unfold labelsOf at hn ⊢
      rw [List.filterMap_cons] at hn
      split at hn
      · exact hn
      · exact (List.nodup_cons.mp hn).2
    rcases List.mem_cons.mp h with h | h <;> rcases List.mem_cons.mp h' with h' | h'
    · cases h; cases h'; rfl
    · cases h
      exact absurd (label_place h') (List.nodup_cons.mp hn).1
    · cases h'
      exact absurd (label_place h) (List.nodup_cons.mp hn).1
    · exact ih hn' h h'

theorem start_le (a : Nat) (d : Dir) : a ≤ d.start a := by
  cases d <;> simp only [Dir.start, Nat.le_refl]
  rename_i k
  have hk : 0 < 2 ^ k := Nat.two_pow_pos k
  have h1 := Nat.div_add_mod (a + (2 ^ k - 1)) (2 ^ k)
  have h2 := Nat.mod_lt (a + (2 ^ k - 1)) hk
  rw [roundTo, Nat.mul_comm]
  omega

theorem place_le {ds : List Dir} : ∀ {a b d}, (b, d) ∈ place a ds → a ≤ b := by
  induction ds with
  | nil => intro a b d h; cases h
  | cons e ds ih =>
    intro a b d h
    rw [place] at h
    rcases List.mem_cons.mp h with h | h
    · cases h; exact start_le a _
    · have := ih h; have := start_le a e; omega

/-- What lies at an address is determined. -/
theorem place_fun {ds : List Dir} : ∀ {a b d d'}, (b, d) ∈ place a ds → (b, d') ∈ place a ds → 0 < d.size → 0 < d'.size → d = d' := by
  induction ds with
  | nil => intro a b d d' h; cases h
  | cons e ds ih =>
    intro a b d d' h h' hs hs'
    rw [place] at h h'
    rcases List.mem_cons.mp h with h | h <;> rcases List.mem_cons.mp h' with h' | h'
    · cases h; cases h'; rfl
    · cases h; have := place_le h'; omega
    · cases h'; have := place_le h; omega
    · exact ih h h' hs hs'

theorem mapM_get {α β : Type} {f : α → Option β} : ∀ {l : List α} {r : List β}, l.mapM f = some r → r.length = l.length ∧ ∀ (i : Nat) (a : α), l[i]? = some a → ∃ b, f a = some b ∧ r[i]? = some b
  | [], r, h => by
    simp at h; subst h; exact ⟨rfl, by simp⟩
  | x :: l, r, h => by
    rw [List.mapM_cons] at h
    cases hf : f x with
    | none => rw [hf] at h; cases h
    | some b =>
      rw [hf] at h
      cases hg : l.mapM f with
      | none => rw [hg] at h; cases h
      | some bs =>
        rw [hg] at h; cases h
        obtain ⟨h1, h2⟩ := mapM_get hg
        refine ⟨by simp [h1], fun i a hi => ?_⟩
        cases i with
        | zero =>
          obtain rfl : x = a := by simpa using hi
          exact ⟨b, hf, rfl⟩
        | succ i => exact h2 i a (by simpa using hi)

/-- C97 for assembly: the data written for a module, wherever it is put in the data section. The symbol of the module is defined once, its address holds the module, as the structures of the headers are
laid out on this machine: its path with the locations of the path and of each name, pointers to the modules it refers to in order, the numbers and the function of the module's code, and the names of its
profile blocks with their locations; and what is read is determined: each label is at one place and each place holds one thing. -/
theorem C97_a64 {sg : Bool} {m : Compiled} {ds : List Dir} (h : staticGeneratedModule sg m = some ds) (base : Nat) :
    (∃ symbol a, labelForPath sg m.plain = some symbol ∧ (a, .global symbol) ∈ place base ds ∧ Points (place base ds) (.sym symbol) a ∧ IsModule sg (place base ds) a m) ∧
    (definesOf ds).length = 1 ∧
    (∀ l a a', Points (place base ds) (.label l) a → Points (place base ds) (.label l) a' → a = a') ∧
    (∀ a d d', (a, d) ∈ place base ds → (a, d') ∈ place base ds → 0 < d.size → 0 < d'.size → d = d') := by
  unfold staticGeneratedModule at h
  obtain ⟨symbol, hsym, h⟩ := Option.bind_eq_some_iff.mp h
  obtain ⟨deps, hdeps, h⟩ := Option.bind_eq_some_iff.mp h
  obtain ⟨n, hn, h⟩ := Option.bind_eq_some_iff.mp h
  obtain ⟨run, hrun, rfl⟩ := Option.map_eq_some_iff.mp h
  clear h
  obtain ⟨hlen, hget⟩ := mapM_get hdeps
  have hp := fresh_path 0 m.path m.loc
  have hb := fresh_names ((staticModulePath 0 m.path m.loc).2.2 + 2) m.blocks
  obtain ⟨d1, d2⟩ := deps_none deps
  have hsplit : ∃ front : List Dir, Fresh 0 (staticNames ((staticModulePath 0 m.path m.loc).2.2 + 2) m.blocks).2.2 front ∧
      ∃ back : List Dir, labelsOf back = [] ∧ definesOf back = [symbol] ∧ moduleDirs m symbol deps run = front ++ back := by
    refine ⟨_, ((hp.append (((fresh_one _ (ds := [.align 3, .label _]) rfl rfl).append (fresh_none _ d1 d2)).append
      ((fresh_one _ (ds := [.align 3, .label ((staticModulePath 0 m.path m.loc).2.2 + 1), .xword (.num m.numArgs), .xword (.num m.numStatics), .xword (.sym run)]) rfl rfl).append hb)))),
      [.align 3, .global symbol, .define symbol, .xword (.label (staticModulePath 0 m.path m.loc).2.1), .xword (.num m.deps.length), .xword (.label (staticModulePath 0 m.path m.loc).2.2),
        .xword (.label ((staticModulePath 0 m.path m.loc).2.2 + 1)), .xword (.num m.blocks.length), .xword (.label (staticNames ((staticModulePath 0 m.path m.loc).2.2 + 2) m.blocks).2.1)], rfl, rfl, ?_⟩
    simp only [moduleDirs, List.append_assoc]
  obtain ⟨front, hf, back, b1, b2, hmod⟩ := hsplit
  have hnd : (labelsOf (moduleDirs m symbol deps run)).Nodup := by
    rw [hmod, labelsOf, List.filterMap_append, show List.filterMap _ back = labelsOf back from rfl, b1, List.append_nil]
    exact hf.nodup
  refine ⟨?_, ?_, fun l a a' h1 h2 => place_unique hnd h1 h2, fun a d d' h1 h2 h3 h4 => place_fun h1 h2 h3 h4⟩
  · obtain ⟨img, hi⟩ : ∃ img, img = place base (moduleDirs m symbol deps run) := ⟨_, rfl⟩
    have hin : ∀ x ∈ place base (moduleDirs m symbol deps run), x ∈ img := fun x hx => hi ▸ hx
    rw [← hi]
    clear hi
    rw [moduleDirs] at hin
    simp only [place_append, List.mem_append] at hin
    have g1 := path_ok fun x hx => hin x (.inl hx)
    generalize endOf base _ = e1 at hin
    have g2 := fun x hx => hin x (.inr (.inl (.inl hx)))
    have g3 := fun x hx => hin x (.inr (.inl (.inr hx)))
    have g4 := fun x hx => hin x (.inr (.inr (.inl hx)))
    have g5 := names_ok fun x hx => hin x (.inr (.inr (.inr (.inl hx))))
    have g6 := fun x hx => hin x (.inr (.inr (.inr (.inr hx))))
    generalize endOf (endOf _ _) _ = e3 at g6
    generalize endOf e1 ([Dir.align 3, Dir.label _] ++ _) = e2 at g4
    have g3' : ∀ x ∈ place (roundTo 3 e1) ((deps.map Val.sym).map Dir.xword), x ∈ img := by
      rw [List.map_map]; exact g3
    simp only [place, Dir.start, Dir.size, Nat.add_zero, Nat.add_assoc, Nat.reduceAdd] at g2 g4 g6
    refine ⟨symbol, roundTo 3 e3, hsym, g6 _ ?_, g6 _ ?_, round_mod e3, ⟨_, g6 _ ?_, g1⟩, g6 _ ?_, ⟨.label (staticModulePath 0 m.path m.loc).2.2, g6 _ ?_, roundTo 3 e1, round_mod e1, g2 _ ?_, fun i d hd => ?_⟩, ⟨.label ((staticModulePath 0 m.path m.loc).2.2 + 1), n, run, g6 _ ?_, hn, hrun, roundTo 3 e2, round_mod e2, g4 _ ?_, g4 _ ?_, g4 _ ?_, g4 _ ?_⟩, g6 _ ?_, _, g6 _ ?_, g5⟩
    all_goals first
      | (simp; done)
      | skip
    obtain ⟨s, s1, s2⟩ := hget i d hd
    exact ⟨s, s1, xwords_ok g3' i (.sym s) (by simp [s2])⟩
  · rw [hmod, definesOf, List.filterMap_append, show List.filterMap _ back = definesOf back from rfl, b2, show List.filterMap _ front = definesOf front from rfl, hf.noDefine]; rfl
end Verif.Gen.Data
