import Verif.Gen.Data
/-
C97: the data that FbleGenerateC writes for a module, read back as a C compiler reads it.
-/
namespace Verif.Gen.Data
open Verif.Text (Byte Str ch Path Name Space)
open Verif.Gen

/-! ### What is written -/

/-- An element of an array of FbleName: the labels `l%x` of the strings, and the numbers, c.c:160-163. -/
structure CName where
  name : Nat
  space : Nat
  source : Nat
  line : Nat
  col : Nat
deriving DecidableEq

/-- The declarations that are written. -/
inductive CDef where
  /-- `static FbleString l<id> = { .refcount = 1, .magic = FBLE_STRING_MAGIC, .str = <lit> };`, c.c:127-132. -/
  | string (id : Nat) (lit : Str)
  /-- `static FbleName l<id>[] = { ... };`, c.c:158-165. -/
  | names (id : Nat) (xs : List CName)
  /-- `static FbleModulePath l<id> = { .refcount = 1, .magic = FBLE_MODULE_PATH_MAGIC, .loc = { .source = &l<source>, .line, .col }, .path = { .size, .xs = l<names> } };`, c.c:189-196. -/
  | path (id source line col size names : Nat)
  /-- `extern FbleGeneratedModule <symbol>;`, c.c:217. -/
  | extern (symbol : Str)
  /-- `static FbleGeneratedModule* l<id>[] = { &<symbol>, ... };`, c.c:222-228. -/
  | deps (id : Nat) (symbols : List Str)
  /-- `static FbleExecutable l<id> = { .num_args, .num_statics, .run = &<run> };`, c.c:231-239. -/
  | exe (id numArgs numStatics : Nat) (run : Str)
  /-- `FbleGeneratedModule <symbol> = { .path = &l<path>, .deps = { .size, .xs = l<deps> }, .executable = &l<exe>, .profile_blocks = { .size, .xs = l<blocks> } };`, c.c:244-251. -/
  | module (symbol : Str) (path size deps exe blocksSize blocks : Nat)
deriving DecidableEq

/-- c.c:123-134 `StaticString`. -/
def stringC (id : Nat) (s : Str) : CDef := .string id (stringLitC s)

/-- The first loop of `StaticNames`, c.c:150-155: what is written, the labels, and the next label. -/
def stringsC (id : Nat) : List LName → List CDef × List (Nat × Nat) × Nat
  | [] => ([], [], id)
  | n :: ns =>
    let r := stringsC (id + 2) ns
    (stringC id n.name.str :: stringC (id + 1) n.loc.source :: r.1, (id, id + 1) :: r.2.1, r.2.2)

/-- c.c:159-164. -/
def nameC (x : LName × Nat × Nat) : CName := ⟨x.2.1, spaceNum x.1.name.space, x.2.2, x.1.loc.line, x.1.loc.col⟩

/-- c.c:148-168 `StaticNames`: what is written, the label returned, and the next label. -/
def namesC (id : Nat) (names : List LName) : List CDef × Nat × Nat :=
  let r := stringsC id names
  (r.1 ++ [.names r.2.2 ((names.zip r.2.1).map nameC)], r.2.2, r.2.2 + 1)

/-- c.c:183-198 `StaticModulePath`. -/
def pathC (id : Nat) (path : List LName) (loc : Loc) : List CDef × Nat × Nat :=
  let r := namesC (id + 1) path
  (stringC id loc.source :: (r.1 ++ [.path r.2.2 id loc.line loc.col path.length r.2.1]), r.2.2, r.2.2 + 1)

/-- c.c:211-253 `StaticGeneratedModule`, with the symbols LabelForPath and SanitizeString give. -/
def moduleC (m : Compiled) (symbol : Str) (deps : List Str) (run : Str) : List CDef :=
  let p := pathC 0 m.path m.loc
  let b := namesC (p.2.2 + 2) m.blocks
  p.1 ++ (deps.map .extern ++ (.deps p.2.2 deps :: .exe (p.2.2 + 1) m.numArgs m.numStatics run :: (b.1 ++
    [.module symbol p.2.1 m.deps.length p.2.2 (p.2.2 + 1) m.blocks.length b.2.1])))

/-- c.c:211-253; `none` if a name overruns its buffer, or the block of the code has no name. -/
def generatedModuleC (sg : Bool) (m : Compiled) : Option (List CDef) :=
  (labelForPath sg m.plain).bind fun symbol => (m.deps.mapM (labelForPath sg)).bind fun deps =>
    (m.blocks[m.block]?).bind fun n => (functionLabel sg (ch '_') n.name.str m.block).map fun run => moduleC m symbol deps run

/-! ### Specification: a C compiler -/

/-- The label a declaration defines. -/
def CDef.ids : CDef → List Nat
  | .string id _ | .names id _ | .path id .. | .deps id _ | .exe id .. => [id]
  | _ => []
/-- The symbol it declares. -/
def CDef.externs : CDef → List Str
  | .extern s => [s]
  | _ => []
/-- The labels it uses. -/
def CDef.uses : CDef → List Nat
  | .names _ xs => xs.flatMap fun x => [x.name, x.source]
  | .path _ s _ _ _ n => [s, n]
  | .module _ p _ d e _ b => [p, d, e, b]
  | _ => []
/-- The symbols it uses. -/
def CDef.symbols : CDef → List Str
  | .deps _ ss => ss
  | _ => []

/-- A C compiler accepts declarations one after the other: what is used is declared, what is defined was not defined before. -/
inductive Accepts : List Nat → List Str → List CDef → Prop where
  | nil {seen ext} : Accepts seen ext []
  | cons {seen ext d ds} : (∀ u ∈ d.uses, u ∈ seen) → (∀ u ∈ d.ids, u ∉ seen) → (∀ s ∈ d.symbols, s ∈ ext) → Accepts (d.ids ++ seen) (d.externs ++ ext) ds →
      Accepts seen ext (d :: ds)

/-- `l<id>` is this string. -/
def IsStringC (ds : List CDef) (id : Nat) (s : Str) : Prop := ∃ t, .string id t ∈ ds ∧ Spec.readC t = some (s, [])

/-- `l<id>` is an array of these names. -/
def IsNamesC (ds : List CDef) (id : Nat) (names : List LName) : Prop :=
  ∃ xs, .names id xs ∈ ds ∧ xs.length = names.length ∧ ∀ (i : Nat) (n : LName) (x : CName), names[i]? = some n → xs[i]? = some x →
    IsStringC ds x.name n.name.str ∧ x.space = spaceNum n.name.space ∧ IsStringC ds x.source n.loc.source ∧ x.line = n.loc.line ∧ x.col = n.loc.col

/-- `l<id>` is this module path. -/
def IsPathC (ds : List CDef) (id : Nat) (path : List LName) (loc : Loc) : Prop :=
  ∃ source names, .path id source loc.line loc.col path.length names ∈ ds ∧ IsStringC ds source loc.source ∧ IsNamesC ds names path

/-- The symbol is this module. -/
def IsModuleC (sg : Bool) (ds : List CDef) (symbol : Str) (m : Compiled) : Prop :=
  ∃ path deps exe blocks symbols n run, .module symbol path m.deps.length deps exe m.blocks.length blocks ∈ ds ∧ IsPathC ds path m.path m.loc ∧
    .deps deps symbols ∈ ds ∧ m.deps.mapM (labelForPath sg) = some symbols ∧
    m.blocks[m.block]? = some n ∧ functionLabel sg (ch '_') n.name.str m.block = some run ∧ .exe exe m.numArgs m.numStatics run ∈ ds ∧ IsNamesC ds blocks m.blocks

/-- None of the strings has a trigraph (C37). -/
structure NoTrigraphs (m : Compiled) : Prop where
  loc : ¬ Spec.HasTrigraph m.loc.source
  path : ∀ n ∈ m.path, ¬ Spec.HasTrigraph n.name.str ∧ ¬ Spec.HasTrigraph n.loc.source
  blocks : ∀ n ∈ m.blocks, ¬ Spec.HasTrigraph n.name.str ∧ ¬ Spec.HasTrigraph n.loc.source

/-! ### Proofs -/

theorem stringC_ok {ds id s} (hs : ¬ Spec.HasTrigraph s) (h : stringC id s ∈ ds) : IsStringC ds id s :=
  ⟨_, h, by simpa [Spec.phase1] using C37_c_literal s [] hs⟩

theorem stringsC_ok {ds} : ∀ {names : List LName} {id}, (∀ n ∈ names, ¬ Spec.HasTrigraph n.name.str ∧ ¬ Spec.HasTrigraph n.loc.source) → (∀ x ∈ (stringsC id names).1, x ∈ ds) →
    (stringsC id names).2.1.length = names.length ∧ ∀ (i : Nat) (n : LName) (x : Nat × Nat), names[i]? = some n → (stringsC id names).2.1[i]? = some x →
      IsStringC ds x.1 n.name.str ∧ IsStringC ds x.2 n.loc.source
  | [], _, _, _ => ⟨rfl, by simp⟩
  | n :: ns, id, ht, h => by
    simp only [stringsC, List.mem_cons] at h
    obtain ⟨h1, h2⟩ := stringsC_ok (names := ns) (fun n hn => ht n (List.mem_cons_of_mem _ hn)) fun x hx => h x (.inr (.inr hx))
    obtain ⟨t1, t2⟩ := ht n (List.mem_cons_self ..)
    refine ⟨by simp [stringsC, h1], fun i n' x hn hx => ?_⟩
    cases i with
    | zero =>
      simp only [stringsC, List.getElem?_cons_zero, Option.some.injEq] at hn hx
      subst hn hx
      exact ⟨stringC_ok t1 (h _ (.inl rfl)), stringC_ok t2 (h _ (.inr (.inl rfl)))⟩
    | succ i =>
      simp only [stringsC, List.getElem?_cons_succ] at hn hx
      exact h2 i n' x hn hx

theorem namesC_ok {ds id names} (ht : ∀ n ∈ names, ¬ Spec.HasTrigraph n.name.str ∧ ¬ Spec.HasTrigraph n.loc.source) (h : ∀ x ∈ (namesC id names).1, x ∈ ds) :
    IsNamesC ds (namesC id names).2.1 names := by
  simp only [namesC, List.mem_append, List.mem_singleton] at h
  obtain ⟨h1, h2⟩ := stringsC_ok ht fun x hx => h x (.inl hx)
  refine ⟨_, h _ (.inr rfl), by simp [h1], fun i n x hn hx => ?_⟩
  rw [List.getElem?_map] at hx
  obtain ⟨y, hy, rfl⟩ := Option.map_eq_some_iff.mp hx
  obtain ⟨y1, y2⟩ := y
  obtain ⟨e1, e2⟩ := List.getElem?_zip_eq_some.mp hy
  rw [hn] at e1
  obtain rfl : n = y1 := Option.some.inj e1
  obtain ⟨s1, s2⟩ := h2 i n y2 hn e2
  exact ⟨s1, rfl, s2, rfl, rfl⟩

theorem pathC_ok {ds id path loc} (hl : ¬ Spec.HasTrigraph loc.source) (ht : ∀ n ∈ path, ¬ Spec.HasTrigraph n.name.str ∧ ¬ Spec.HasTrigraph n.loc.source)
    (h : ∀ x ∈ (pathC id path loc).1, x ∈ ds) : IsPathC ds (pathC id path loc).2.1 path loc := by
  simp only [pathC, List.mem_cons, List.mem_append, List.not_mem_nil, or_false] at h
  exact ⟨_, _, h _ (.inr (.inr rfl)), stringC_ok hl (h _ (.inl rfl)), namesC_ok ht fun x hx => h x (.inr (.inl hx))⟩

theorem Accepts.append {x y : List CDef} : ∀ {seen ext}, Accepts seen ext x → (∀ seen' ext', (∀ u, u ∈ seen' ↔ u ∈ seen ∨ u ∈ x.flatMap CDef.ids) → (∀ s, s ∈ ext' ↔ s ∈ ext ∨ s ∈ x.flatMap CDef.externs) →
    Accepts seen' ext' y) → Accepts seen ext (x ++ y) := by
  induction x with
  | nil => intro seen ext _ h; exact h seen ext (by simp) (by simp)
  | cons d x ih =>
    intro seen ext hx h
    cases hx with
    | cons h1 h2 h3 h4 =>
      refine .cons h1 h2 h3 (ih h4 fun seen' ext' e1 e2 => h seen' ext' (fun u => ?_) fun s => ?_)
      · rw [e1 u, List.flatMap_cons, List.mem_append, List.mem_append]; tauto
      · rw [e2 s, List.flatMap_cons, List.mem_append, List.mem_append]; tauto

theorem stringsC_ids : ∀ (names : List LName) (id : Nat), id ≤ (stringsC id names).2.2 ∧ (∀ u, u ∈ (stringsC id names).1.flatMap CDef.ids ↔ id ≤ u ∧ u < (stringsC id names).2.2) ∧
    (∀ x ∈ (stringsC id names).2.1, (id ≤ x.1 ∧ x.1 < (stringsC id names).2.2) ∧ id ≤ x.2 ∧ x.2 < (stringsC id names).2.2) ∧
    ∀ seen ext, (∀ u ∈ seen, u < id) → Accepts seen ext (stringsC id names).1
  | [], id => ⟨Nat.le_refl _, fun u => by simp [stringsC], by simp [stringsC], fun _ _ _ => .nil⟩
  | n :: ns, id => by
    obtain ⟨h1, h2, h3, h4⟩ := stringsC_ids ns (id + 2)
    refine ⟨by simp only [stringsC]; omega, fun u => ?_, fun x hx => ?_, fun seen ext hs => ?_⟩
    · simp only [stringsC, List.flatMap_cons, List.mem_append, h2 u, stringC, CDef.ids, List.mem_singleton]
      omega
    · simp only [stringsC, List.mem_cons] at hx ⊢
      rcases hx with rfl | hx
      · exact ⟨⟨Nat.le_refl _, by simp only; omega⟩, by simp only; omega, by simp only; omega⟩
      · have := h3 x hx; omega
    · simp only [stringsC]
      refine .cons (by simp [stringC, CDef.uses]) ?_ (by simp [stringC, CDef.symbols]) (.cons (by simp [stringC, CDef.uses]) ?_ (by simp [stringC, CDef.symbols]) (h4 _ _ ?_))
      · intro u hu hm
        have := hs u hm
        simp only [stringC, CDef.ids, List.mem_singleton] at hu
        omega
      · intro u hu hm
        simp only [stringC, CDef.ids, List.mem_singleton, List.mem_append] at hu hm
        rcases hm with hm | hm
        · omega
        · have := hs u hm; omega
      · intro u hm
        simp only [stringC, CDef.ids, List.mem_singleton, List.mem_append] at hm
        rcases hm with hm | hm | hm
        · omega
        · omega
        · have := hs u hm; omega

theorem namesC_ids (names : List LName) (id : Nat) : id ≤ (namesC id names).2.1 ∧ (namesC id names).2.2 = (namesC id names).2.1 + 1 ∧
    (∀ u, u ∈ (namesC id names).1.flatMap CDef.ids ↔ id ≤ u ∧ u < (namesC id names).2.2) ∧ ∀ seen ext, (∀ u ∈ seen, u < id) → Accepts seen ext (namesC id names).1 := by
  obtain ⟨h1, h2, h3, h4⟩ := stringsC_ids names id
  refine ⟨h1, rfl, fun u => ?_, fun seen ext hs => ?_⟩
  · simp only [namesC, List.flatMap_append, List.mem_append, h2 u, List.flatMap_cons, List.flatMap_nil, List.append_nil, CDef.ids, List.mem_singleton]
    omega
  · refine (h4 seen ext hs).append fun seen' ext' e1 _ => .cons ?_ ?_ (by simp [CDef.symbols]) .nil
    · intro u hu
      simp only [CDef.uses, List.mem_flatMap, List.mem_map, List.mem_cons, List.not_mem_nil, or_false] at hu
      obtain ⟨x, ⟨⟨n, y⟩, hy, rfl⟩, hu⟩ := hu
      have := h3 y (List.of_mem_zip hy).2
      rw [e1, h2]
      right
      rcases hu with rfl | rfl <;> simp only [nameC] <;> omega
    · intro u hu
      simp only [CDef.ids, List.mem_singleton] at hu
      rw [e1, h2]
      rintro (hm | hm)
      · have := hs u hm; omega
      · omega

theorem pathC_ids (path : List LName) (loc : Loc) (id : Nat) : id < (pathC id path loc).2.1 ∧ (pathC id path loc).2.2 = (pathC id path loc).2.1 + 1 ∧
    (∀ u, u ∈ (pathC id path loc).1.flatMap CDef.ids ↔ id ≤ u ∧ u < (pathC id path loc).2.2) ∧ ∀ seen ext, (∀ u ∈ seen, u < id) → Accepts seen ext (pathC id path loc).1 := by
  obtain ⟨h1, h2, h3, h4⟩ := namesC_ids path (id + 1)
  refine ⟨by simp only [pathC]; omega, rfl, fun u => ?_, fun seen ext hs => ?_⟩
  · simp only [pathC, List.flatMap_append, List.mem_append, h3 u, List.flatMap_cons, List.flatMap_nil, List.append_nil, stringC, CDef.ids, List.mem_singleton]
    omega
  · simp only [pathC]
    refine .cons (by simp [stringC, CDef.uses]) ?_ (by simp [stringC, CDef.symbols]) ((h4 _ _ ?_).append fun seen' ext' e1 _ => .cons ?_ ?_ (by simp [CDef.symbols]) .nil)
    · intro u hu hm
      have := hs u hm
      simp only [stringC, CDef.ids, List.mem_singleton] at hu
      omega
    · intro u hm
      simp only [stringC, CDef.ids, List.mem_singleton, List.mem_append] at hm
      rcases hm with hm | hm
      · omega
      · have := hs u hm; omega
    · intro u hu
      simp only [CDef.uses, List.mem_cons, List.not_mem_nil, or_false] at hu
      rw [e1, h3]
      rcases hu with rfl | rfl
      · left; simp [stringC, CDef.ids]
      · right; omega
    · intro u hu
      simp only [CDef.ids, List.mem_singleton] at hu
      rw [e1, h3]
      simp only [stringC, CDef.ids, List.mem_singleton, List.mem_append]
      rintro ((hm | hm) | hm)
      · omega
      · have := hs u hm; omega
      · omega

theorem externs_accepted {y : List CDef} : ∀ (ss : List Str) {seen ext}, (∀ ext', (∀ s, s ∈ ext' ↔ s ∈ ext ∨ s ∈ ss) → Accepts seen ext' y) → Accepts seen ext (ss.map .extern ++ y)
  | [], _, _, h => h _ (by simp)
  | s :: ss, seen, ext, h => by
    refine .cons (by simp [CDef.uses]) (by simp [CDef.ids]) (by simp [CDef.symbols]) ?_
    exact externs_accepted ss fun ext' he => h ext' fun t => by
      rw [he t]
      simp only [CDef.externs, List.mem_append, List.mem_cons, List.not_mem_nil, or_false]
      tauto

theorem moduleC_accepted (m : Compiled) (symbol : Str) (deps : List Str) (run : Str) : Accepts [] [] (moduleC m symbol deps run) := by
  obtain ⟨p1, p2, p3, p4⟩ := pathC_ids m.path m.loc 0
  obtain ⟨b1, b2, b3, b4⟩ := namesC_ids m.blocks ((pathC 0 m.path m.loc).2.2 + 2)
  refine (p4 [] [] (by simp)).append fun seen ext e1 _ => externs_accepted deps fun ext' x1 => .cons (by simp [CDef.uses]) ?_ ?_ (.cons (by simp [CDef.uses]) ?_ (by simp [CDef.symbols])
    ((b4 _ _ ?_).append fun seen' ext'' e2 _ => .cons ?_ (by simp [CDef.ids]) (by simp [CDef.symbols]) .nil))
  · intro u hu
    simp only [CDef.ids, List.mem_singleton] at hu
    rw [e1, p3]
    simp only [List.not_mem_nil, false_or]
    omega
  · intro s hs
    exact (x1 s).mpr (.inr hs)
  · intro u hu
    simp only [CDef.ids, List.mem_singleton] at hu
    simp only [CDef.ids, List.mem_append, List.mem_singleton, e1, p3, List.not_mem_nil, false_or]
    omega
  · intro u hu
    simp only [CDef.ids, List.mem_append, List.mem_singleton, e1, p3, List.not_mem_nil, false_or] at hu
    omega
  · intro u hu
    simp only [CDef.uses, List.mem_cons, List.not_mem_nil, or_false] at hu
    simp only [e2, b3, CDef.ids, List.mem_append, List.mem_singleton, e1, p3, List.not_mem_nil, false_or]
    omega

/-- C97 for C: the declarations written for a module whose strings have no trigraphs. The symbol of the module is the module: its path with the locations of the path and of each name, the modules it
refers to in order, the numbers and the function of the module's code, and the names of its profile blocks with their locations; and a C compiler accepts them: what is used is declared before, and
nothing is defined twice. -/
theorem C97_c {sg : Bool} {m : Compiled} {ds : List CDef} (h : generatedModuleC sg m = some ds) :
    Accepts [] [] ds ∧ (NoTrigraphs m → ∃ symbol, labelForPath sg m.plain = some symbol ∧ IsModuleC sg ds symbol m) := by
  unfold generatedModuleC at h
  obtain ⟨symbol, hsym, h⟩ := Option.bind_eq_some_iff.mp h
  obtain ⟨deps, hdeps, h⟩ := Option.bind_eq_some_iff.mp h
  obtain ⟨n, hn, h⟩ := Option.bind_eq_some_iff.mp h
  obtain ⟨run, hrun, rfl⟩ := Option.map_eq_some_iff.mp h
  refine ⟨moduleC_accepted m symbol deps run, fun ht => ⟨symbol, hsym, ?_⟩⟩
  obtain ⟨ds, hd⟩ : ∃ ds, ds = moduleC m symbol deps run := ⟨_, rfl⟩
  have hin : ∀ x ∈ moduleC m symbol deps run, x ∈ ds := fun x hx => hd ▸ hx
  rw [← hd]
  clear hd
  simp only [moduleC, List.mem_append, List.mem_cons, List.not_mem_nil, or_false] at hin
  exact ⟨_, _, _, _, deps, n, run, hin _ (.inr (.inr (.inr (.inr (.inr rfl))))), pathC_ok ht.loc ht.path fun x hx => hin x (.inl hx), hin _ (.inr (.inr (.inl rfl))), hdeps, hn, hrun,
    hin _ (.inr (.inr (.inr (.inl rfl)))), namesC_ok ht.blocks fun x hx => hin x (.inr (.inr (.inr (.inr (.inl hx)))))⟩

/-- What the label stands for is determined. -/
theorem Accepts.unique {seen ext ds} (h : Accepts seen ext ds) : (ds.flatMap CDef.ids).Nodup ∧ ∀ u ∈ ds.flatMap CDef.ids, u ∉ seen := by
  induction h with
  | nil => simp
  | @cons seen ext d ds h1 h2 h3 _ ih =>
    have hd : d.ids.Nodup := by cases d <;> simp [CDef.ids]
    rw [List.flatMap_cons]
    refine ⟨List.nodup_append.mpr ⟨hd, ih.1, fun a ha b hb he => ?_⟩, fun u hu hm => ?_⟩
    · subst he
      exact ih.2 a hb (List.mem_append.mpr (.inl ha))
    · rcases List.mem_append.mp hu with hu | hu
      · exact h2 u hu hm
      · exact ih.2 u hu (List.mem_append.mpr (.inr hm))

/-- The text of a label in C: `#define LABEL "l%x"`, c.c:24.  (The numbers are unsigned int there, and do not wrap around here.) -/
def labelC (id : Nat) : Str := ch 'l' :: hex id
/-- In assembly: `#define LABEL ".Lx%x"`, aarch64.c:26. -/
def labelA (id : Nat) : Str := ch '.' :: ch 'L' :: ch 'x' :: hex id

theorem hex_noL (n : Nat) : ch 'L' ∉ hex n := by
  have hd : ∀ d < 16, ch 'L' ≠ hexDigit d := by decide
  fun_induction hex n with
  | case1 n h => simpa using hd n h
  | case2 n h ih => simpa [ih] using hd _ (Nat.mod_lt _ (by omega))

/-- C97: the labels in C are different from each other, from the symbols of modules and from those of functions. -/
theorem C97_labels_c (sg : Bool) (id : Nat) :
    (∀ id', labelC id = labelC id' → id = id') ∧ (∀ p, labelForPath sg p ≠ some (labelC id)) ∧ ∀ name block, functionLabel sg (ch '_') name block ≠ some (labelC id) := by
  have hchars : ∀ b ∈ labelC id, b ≠ ch '_' := by
    intro b hb
    rcases List.mem_cons.mp hb with rfl | hb
    · decide
    · exact (hex_chars id b hb).2.1
  refine ⟨fun id' h => ?_, fun p hp => ?_, fun name block h => ?_⟩
  · have := congrArg unhex (List.cons.inj h).2
    rwa [unhex_hex, unhex_hex] at this
  · have hf : ∀ n ∈ p, ∀ b ∈ n.str, Fits sg b := by
      have := (C36_label_in_bounds sg p).mp (by rw [hp]; rfl)
      intro n hn b hb
      exact this.imp (fun h => h) fun h => h n hn b hb
    rw [labelForPath_some sg p hf, Option.some.injEq] at hp
    exact hchars (ch '_') (by rw [← hp]; exact List.mem_append.mpr (.inl (by decide))) rfl
  · unfold functionLabel at h
    obtain ⟨s, -, h⟩ := Option.map_eq_some_iff.mp h
    exact hchars (ch '_') (by rw [← h]; simp) rfl

/-- C97: and so in assembly. -/
theorem C97_labels_a64 (sg : Bool) (id : Nat) :
    (∀ id', labelA id = labelA id' → id = id') ∧ (∀ p, labelForPath sg p ≠ some (labelA id)) ∧ ∀ name block, functionLabel sg (ch '.') name block ≠ some (labelA id) := by
  refine ⟨fun id' h => ?_, fun p hp => ?_, fun name block h => ?_⟩
  · have := congrArg unhex (List.cons.inj (List.cons.inj (List.cons.inj h).2).2).2
    rwa [unhex_hex, unhex_hex] at this
  · have := (C35_symbol_identifier sg p _ hp).2 (ch '.') (List.mem_cons_self ..)
    revert this
    unfold Spec.Letter Spec.Digit
    decide
  · unfold functionLabel at h
    obtain ⟨s, hs, h⟩ := Option.map_eq_some_iff.mp h
    have hf : ∀ b ∈ name, Fits sg b := by
      have := (C36_sanitize_in_bounds sg name).mp (by rw [hs]; rfl)
      intro b hb
      exact this.imp (fun h => h) fun h => h b hb
    rw [sanitize_some sg name hf, Option.some.injEq] at hs
    cases s with
    | nil =>
      rw [List.nil_append, List.cons_append, List.nil_append] at h
      have hl : ch 'L' ∈ hexPad 4 block := by rw [(List.cons.inj h).2]; exact List.mem_cons_self ..
      simp only [hexPad, List.mem_append, List.mem_replicate] at hl
      rcases hl with ⟨-, hl⟩ | hl
      · revert hl; decide
      · exact hex_noL block hl
    | cons b s =>
      rw [List.cons_append, List.cons_append] at h
      obtain rfl : b = ch '.' := (List.cons.inj h).1
      have hm : ch '.' ∈ name.flatMap (translate sg) := by rw [hs]; exact List.mem_cons_self ..
      obtain ⟨c, -, hc⟩ := List.mem_flatMap.mp hm
      have := translate_ident sg c _ hc
      revert this
      unfold Spec.Letter Spec.Digit
      decide

/-! ### An example -/

/-- `/a/b%`, which refers to `/c%`. -/
def exampleModule : Compiled where
  path := [⟨⟨[ch 'a'], .normal⟩, ⟨[ch 'f'], 1, 2⟩⟩, ⟨⟨[ch 'b'], .normal⟩, ⟨[ch 'f'], 1, 4⟩⟩]
  loc := ⟨[ch 'f'], 1, 1⟩
  deps := [[⟨[ch 'c'], .normal⟩]]
  numArgs := 1
  numStatics := 0
  block := 0
  blocks := [⟨⟨[ch '<', ch 'm', ch '>'], .normal⟩, ⟨[ch 'f'], 3, 5⟩⟩]

example : ∃ ds, staticGeneratedModule true exampleModule = some ds := by
  have : (staticGeneratedModule true exampleModule).isSome = true := by decide +kernel
  exact Option.isSome_iff_exists.mp this

example : ∃ ds, generatedModuleC true exampleModule = some ds := by
  have : (generatedModuleC true exampleModule).isSome = true := by decide +kernel
  exact Option.isSome_iff_exists.mp this
end Verif.Gen.Data
