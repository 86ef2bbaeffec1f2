import Verif.Whole.Mods
import Verif.Text.Search
/-
From source files to the result: C70.

The model puts together those of the search for files (`Text`), the parser (`Parse`), the loader (`Load`), the type checker
(`Elab`), and the compiler, linker and interpreter (`Compile`).
-/
namespace Verif.Whole
open Parse
open Text (Str Byte ch Path)
open Text.Spec (Lexes)
open Elab (Expr)
open Load (FileResult)

/-- The files: which exist (`access`), and what is in those that can be opened. -/
structure Files where
  access : Str → Bool
  read : Str → Option Str

/-! ### The code -/

/-- load.c:313-324: `Find` and `FbleParse` for a module; parse.y:920-926 for a file that cannot be opened. -/
inductive Finds (fs : Files) (roots : List Str) (p : Path) : FileResult Path Str × Option Expr → Prop where
  | missing : (Text.find fs.access p roots).1 = none → Finds fs roots p (.missing, none)
  | closed {f} : (Text.find fs.access p roots).1 = some f → fs.read f = none → Finds fs roots p (.bad f [], none)
  | bad {f s deps ok} : (Text.find fs.access p roots).1 = some f → fs.read f = some s → FbleParseFile s none deps ok → Finds fs roots p (.bad f deps, none)
  | ok {f s e deps ok} : (Text.find fs.access p roots).1 = some f → fs.read f = some s → FbleParseFile s (some e) deps ok →
      Finds fs roots p (.ok f deps, some e)

/-- load.c:236-345 `FbleLoad`: the program, `none` for NULL. -/
def FbleLoad (fs : Files) (roots : List Str) (root : Path) (program : Option (List (Path × List Path × Expr))) : Prop :=
  ∃ (look : Path → FileResult Path Str × Option Expr) (r : Load.Result Path Str), (∀ p, Finds fs roots p (look p)) ∧ Load.Loads (fun p => (look p).1) root r ∧
    r.modules.map (fun ms => ms.map fun m => (m.path, m.deps, (look m.path).2)) = program.map fun ms => ms.map fun m => (m.1, m.2.1, some m.2.2)

/-- The program with the names of the model of the type checker. -/
def modules (program : List (Path × List Path × Expr)) : List Elab.Module := program.map fun m => ⟨cpath m.1, m.2.1.map cpath, m.2.2⟩

/-! ### Specification -/

/-- The file of a module: `root/a/b/c.fble` for the first root where there is one. -/
def FileOf (fs : Files) (roots : List Str) (p : Path) (f : Str) : Prop :=
  (∀ n ∈ p, ch '/' ∉ n.str) ∧ (roots.map fun root => root ++ p.flatMap (fun n => ch '/' :: n.str) ++ ['.', 'f', 'b', 'l', 'e'].map ch).find? fs.access = some f

/-- The text of the module is this program. -/
def Source (fs : Files) (roots : List Str) (p : Path) (s : SStmt) : Prop :=
  ∃ f text r, FileOf fs roots p f ∧ fs.read f = some text ∧ Lexes text s.toks r

/-- The text of `p` refers to `q`. -/
def Refers (fs : Files) (roots : List Str) (p q : Path) : Prop := ∃ s, Source fs roots p s ∧ q ∈ s.mods

/-- The modules a program consists of. -/
inductive Uses (fs : Files) (roots : List Str) (p : Path) : Path → Prop where
  | self : Uses fs roots p p
  | step {q r} : Uses fs roots p q → Refers fs roots q r → Uses fs roots p r

/-! ### Proofs -/

theorem fileOf_iff {fs : Files} {roots p f} : FileOf fs roots p f ↔ (Text.find fs.access p roots).1 = some f := by
  have := (Text.C55_find fs.access p roots).1
  rw [this, FileOf]
  split
  · rename_i h
    exact ⟨fun g => g.2, fun g => ⟨h, g⟩⟩
  · rename_i h
    simp [h]

theorem parseFile_total (s : Str) : ∃ r d ok, FbleParseFile s r d ok := by
  obtain ⟨ts, l, r, h1, -⟩ := tokens_of false s (by simp)
  obtain ⟨⟨a, b, c, h⟩, -⟩ := C67_total ts
  exact ⟨a, b, c, ts, l, h1, h⟩

theorem parseFile_unique {s : Str} {r d ok r' d' ok'} (h : FbleParseFile s r d ok) (h' : FbleParseFile s r' d' ok') : r = r' ∧ d = d' ∧ ok = ok' := by
  obtain ⟨ts, l, h1, h2⟩ := h
  obtain ⟨ts', l', h3, h4⟩ := h'
  rw [h1] at h3
  cases h3
  exact (C67_total ts).2 _ _ _ _ _ _ h2 h4

/-- Finding and parsing always have a result. -/
theorem finds_total (fs : Files) (roots : List Str) (p : Path) : ∃ r, Finds fs roots p r := by
  cases hf : (Text.find fs.access p roots).1 with
  | none => exact ⟨_, .missing hf⟩
  | some f =>
    cases hr : fs.read f with
    | none => exact ⟨_, .closed hf hr⟩
    | some s =>
      obtain ⟨r, d, ok, h⟩ := parseFile_total s
      cases r with
      | none => exact ⟨_, .bad hf hr h⟩
      | some e => exact ⟨_, .ok hf hr h⟩

theorem Finds.unique {fs : Files} {roots p r r'} (h : Finds fs roots p r) (h' : Finds fs roots p r') : r = r' := by
  cases h with
  | missing a => cases h' <;> simp_all
  | closed a b => cases h' <;> simp_all
  | bad a b c =>
    cases h' with
    | missing a' => simp_all
    | closed a' b' => simp_all
    | bad a' b' c' =>
      rw [a] at a'; cases a'
      rw [b] at b'; cases b'
      obtain ⟨-, rfl, -⟩ := parseFile_unique c c'
      rfl
    | ok a' b' c' =>
      rw [a] at a'; cases a'
      rw [b] at b'; cases b'
      cases (parseFile_unique c c').1
  | ok a b c =>
    cases h' with
    | missing a' => simp_all
    | closed a' b' => simp_all
    | bad a' b' c' =>
      rw [a] at a'; cases a'
      rw [b] at b'; cases b'
      cases (parseFile_unique c c').1
    | ok a' b' c' =>
      rw [a] at a'; cases a'
      rw [b] at b'; cases b'
      obtain ⟨e, rfl, -⟩ := parseFile_unique c c'
      cases e
      rfl

theorem exists_look (fs : Files) (roots : List Str) : ∃ look : Path → FileResult Path Str × Option Expr, ∀ p, Finds fs roots p (look p) :=
  ⟨fun p => (finds_total fs roots p).choose, fun p => (finds_total fs roots p).choose_spec⟩

theorem look_unique {fs : Files} {roots} {look look' : Path → FileResult Path Str × Option Expr} (h : ∀ p, Finds fs roots p (look p))
    (h' : ∀ p, Finds fs roots p (look' p)) : look = look' :=
  funext fun p => (h p).unique (h' p)

/-- Modules whose text is a program are found. -/
theorem finds_source {fs : Files} {roots p s e} (h : Source fs roots p s) (he : s.ast = some e) (hs : s.height < maxDepth) :
    ∃ f, Finds fs roots p (.ok f (firsts s.mods), some e) := by
  obtain ⟨f, text, r, h1, h2, h3⟩ := h
  exact ⟨f, .ok (fileOf_iff.mp h1) h2 ((C67_file text (some e) (firsts s.mods)).mpr ⟨s, r, e, h3, he, hs, rfl, rfl⟩)⟩

theorem Source.unique {fs : Files} {roots p s s'} (h : Source fs roots p s) (h' : Source fs roots p s') : s = s' := by
  obtain ⟨f, text, r, h1, h2, h3⟩ := h
  obtain ⟨f', text', r', g1, g2, g3⟩ := h'
  have : f = f' := by
    have := fileOf_iff.mp h1
    rw [fileOf_iff.mp g1] at this
    cases this
    rfl
  subst this
  rw [h2] at g2
  cases g2
  exact C67_one_program h3 g3

theorem byte_char_inj {a b : Byte} (h : Char.ofNat a.toNat = Char.ofNat b.toNat) : a = b := by
  revert a b
  have hn : ∀ n : Nat, n < 256 → (Char.ofNat n).toNat = n := by decide +kernel
  have : ∀ a : Byte, (Char.ofNat a.toNat).toNat = a.toNat := fun a => hn _ a.toNat_lt
  intro a b h
  have h' : (Char.ofNat a.toNat).toNat = (Char.ofNat b.toNat).toNat := by rw [h]
  rw [this, this] at h'
  exact UInt8.toNat_inj.mp h'

theorem cname_inj {a b : Text.Name} (h : cname a = cname b) : a = b := by
  obtain ⟨s, x⟩ := a
  obtain ⟨t, y⟩ := b
  simp only [cname, Types.Name.mk.injEq] at h
  have h1 : s = t := (List.map_inj_right (fun _ _ h => byte_char_inj h)).mp h.1
  have h2 : x = y := by cases x <;> cases y <;> simp_all
  rw [h1, h2]

theorem cpath_inj {a b : Path} (h : cpath a = cpath b) : a = b := (List.map_inj_right (fun _ _ h => cname_inj h)).mp h

/-- FbleLoad has at most one result. -/
theorem load_unique {fs roots root p p'} (h : FbleLoad fs roots root p) (h' : FbleLoad fs roots root p') : p = p' := by
  obtain ⟨look, r, h1, h2, h3⟩ := h
  obtain ⟨look', r', g1, g2, g3⟩ := h'
  have := look_unique h1 g1
  subst this
  have : r = r' := by
    obtain ⟨n, h2⟩ := h2
    obtain ⟨n', g2⟩ := g2
    have mono : ∀ {n m s r}, n ≤ m → Load.loop (fun p => (look p).1) n s = some r → Load.loop (fun p => (look p).1) m s = some r := by
      intro n
      induction n with
      | zero => intro m s r _ h; cases h
      | succ n ih =>
        intro m s r hm h
        cases m with
        | zero => omega
        | succ m =>
          simp only [Load.loop] at h ⊢
          split at h
          · exact h
          · exact ih (by omega) h
    simp only [Load.load] at h2 g2
    cases hroot : (look root).1 with
    | missing =>
      simp only [hroot, Option.some.injEq] at h2 g2
      rw [← h2, ← g2]
    | _ =>
      simp only [hroot] at h2 g2
      generalize Load.push (fun p => (look p).1) root ⟨[], [], false, []⟩ = s0 at h2 g2
      cases hs1 : Load.loop (fun p => (look p).1) n s0 with
      | none => rw [hs1] at h2; cases h2
      | some s1 =>
        cases hs2 : Load.loop (fun p => (look p).1) n' s0 with
        | none => rw [hs2] at g2; cases g2
        | some s2 =>
          have a := mono (Nat.le_max_left n n') hs1
          rw [mono (Nat.le_max_right n n') hs2] at a
          cases a
          rw [hs1] at h2
          rw [hs2] at g2
          exact Option.some.inj (h2.symm.trans g2)
  subst this
  rw [h3] at g3
  cases p with
  | none => cases p' <;> simp_all
  | some l =>
    cases p' with
    | none => simp_all
    | some l' =>
      simp only [Option.map_some, Option.some.injEq] at g3 ⊢
      refine (List.map_inj_right ?_).mp g3
      rintro ⟨a, b, c⟩ ⟨a', b', c'⟩ h
      simpa using h

/-- What FbleLoad gives: the modules of a program. -/
theorem C70_loaded {fs : Files} {roots root program} (h : FbleLoad fs roots root (some program)) :
    (program.map (·.1)).getLast? = some root ∧ (program.map (·.1)).Nodup ∧
    (∀ m ∈ program, ∃ f text s rest, FileOf fs roots m.1 f ∧ fs.read f = some text ∧
      (∃ ts r, Lexes text ts r ∧ Parses ts s rest) ∧ s.ast = some m.2.2 ∧ m.2.1 = firsts s.mods) ∧
    (∀ pre m post, program = pre ++ m :: post → ∀ q, q ∈ emods m.2.2 ↔ ∃ m' ∈ pre, m'.1 ∈ m.2.1 ∧ cpath m'.1 = q) := by
  obtain ⟨look, r, h1, h2, h3⟩ := h
  cases hr : r.modules with
  | none => rw [hr] at h3; cases h3
  | some ms =>
    rw [hr] at h3
    simp only [Option.map_some, Option.some.injEq] at h3
    obtain ⟨g1, g2, g3, g4, g5⟩ := Load.C26_load_ok h2 hr
    have hpaths : program.map (·.1) = ms.map Load.Module.path := by
      have := congrArg (List.map (·.1)) h3
      simpa [List.map_map, Function.comp_def] using this.symm
    have hsrc : ∀ m ∈ program, ∃ f text s rest, FileOf fs roots m.1 f ∧ fs.read f = some text ∧
      (∃ ts r, Lexes text ts r ∧ Parses ts s rest) ∧ s.ast = some m.2.2 ∧ m.2.1 = firsts s.mods := by
      intro m hm
      have : (m.1, m.2.1, some m.2.2) ∈ ms.map fun m => (m.path, m.deps, (look m.path).2) := by
        rw [h3]
        exact List.mem_map.mpr ⟨m, hm, rfl⟩
      obtain ⟨x, hx, he⟩ := List.mem_map.mp this
      simp only [Prod.mk.injEq] at he
      obtain ⟨e1, e2, e3⟩ := he
      obtain ⟨f, hf⟩ := g3 x hx
      rw [e1] at hf e3
      have hl := h1 m.1
      have : look m.1 = (.ok f x.deps, some m.2.2) := Prod.ext hf e3
      rw [this] at hl
      cases hl with
      | ok a b c =>
        rename_i text ok
        obtain ⟨ts, l, r', t1, t2⟩ := tokens_of false text (by simp)
        obtain ⟨ts', l', c1, c2⟩ := c
        rw [t1] at c1
        cases c1
        obtain ⟨s, rest, s1, s2, s3⟩ := program_of_parse c2
        refine ⟨f, text, s, rest, fileOf_iff.mpr a, b, ⟨ts, r', t2, s1⟩, s2, ?_⟩
        rw [← e2]
        exact (C68_deps c2 s1).1
    refine ⟨hpaths ▸ g1, hpaths ▸ g2, hsrc, ?_⟩
    intro pre m post hp q
    obtain ⟨f, text, s, rest, -, -, -, s2, s3⟩ := hsrc m (by rw [hp]; simp)
    rw [same_stmt s s2 q]
    have hdep : ∀ d ∈ m.2.1, d ∈ pre.map (·.1) := by
      rw [hp] at h3
      rw [List.map_append, List.map_cons, List.map_eq_append_iff] at h3
      obtain ⟨l1, l2, rfl, e1, e2⟩ := h3
      obtain ⟨x, l3, rfl, e3, e4⟩ := List.map_eq_cons_iff.mp e2
      simp only [Prod.mk.injEq] at e3
      intro d hd
      rw [← e3.2.1] at hd
      have := g4 l1 x l3 rfl d hd
      have e5 := congrArg (List.map (·.1)) e1
      simp only [List.map_map, Function.comp_def] at e5
      rw [← e5]
      exact this
    constructor
    · rintro ⟨p, hp1, hp2⟩
      have : p ∈ m.2.1 := by rw [s3]; exact mem_firsts.mpr hp1
      obtain ⟨m', hm', rfl⟩ := List.mem_map.mp (hdep p this)
      exact ⟨m', hm', this, hp2⟩
    · rintro ⟨m', hm', hd, rfl⟩
      rw [s3] at hd
      exact ⟨m'.1, mem_firsts.mp hd, rfl⟩

/-- FbleLoad of sources: if the texts of the modules a module uses, finitely many, are programs, and no module uses itself, then
these programs are loaded. -/
theorem C70_loads {fs : Files} {roots root} {univ : List Path} (hfin : ∀ p, Uses fs roots root p → p ∈ univ)
    (hsrc : ∀ p, Uses fs roots root p → ∃ s e, Source fs roots p s ∧ s.ast = some e ∧ s.height < maxDepth)
    (hac : ∀ p q, Uses fs roots root p → Refers fs roots p q → ¬ Uses fs roots q p) :
    ∃ program, FbleLoad fs roots root (some program) ∧ (∀ p, p ∈ program.map (·.1) ↔ Uses fs roots root p) ∧
      ∀ m ∈ program, ∃ s, Source fs roots m.1 s ∧ s.ast = some m.2.2 ∧ m.2.1 = firsts s.mods := by
  obtain ⟨look, hlook⟩ := exists_look fs roots
  let find : Path → FileResult Path Str := fun p => (look p).1
  have hok : ∀ p s e, Source fs roots p s → s.ast = some e → s.height < maxDepth → ∃ f, look p = (.ok f (firsts s.mods), some e) := by
    intro p s e h1 h2 h3
    obtain ⟨f, hf⟩ := finds_source h1 h2 h3
    exact ⟨f, (hlook p).unique hf⟩
  have hdep : ∀ p q, Uses fs roots root p → (Load.Dep find p q ↔ Refers fs roots p q) := by
    intro p q hu
    obtain ⟨s, e, h1, h2, h3⟩ := hsrc p hu
    obtain ⟨f, hf⟩ := hok p s e h1 h2 h3
    constructor
    · rintro ⟨f', ds, hd, hq⟩
      have : find p = .ok f (firsts s.mods) := by simp only [find, hf]
      rw [this] at hd
      cases hd
      exact ⟨s, h1, mem_firsts.mp hq⟩
    · rintro ⟨s', h1', hq⟩
      obtain rfl := h1.unique h1'
      exact ⟨f, _, by simp only [find, hf], mem_firsts.mpr hq⟩
  have hneeds : ∀ p, Load.Needs find root p ↔ Uses fs roots root p := by
    intro p
    constructor
    · intro h
      induction h with
      | refl => exact .self
      | step _ hd ih => exact .step ih ((hdep _ _ ih).mp hd)
    · intro h
      induction h with
      | self => exact .refl
      | step hu hd ih => exact .step ih ((hdep _ _ hu).mpr hd)
  have trans : ∀ {p q r}, Uses fs roots p q → Uses fs roots q r → Uses fs roots p r := by
    intro p q r h1 h2
    induction h2 with
    | self => exact h1
    | step _ hd ih => exact .step ih hd
  obtain ⟨r, hl, -, hb⟩ := Load.C27_load_decides (find := find) (root := root) ⟨univ, fun p h => hfin p ((hneeds p).mp h)⟩
  have hnb : ¬ Load.Broken find root := by
    rintro ⟨p, hp, h | h⟩
    · have hu := (hneeds p).mp hp
      obtain ⟨s, e, h1, h2, h3⟩ := hsrc p hu
      obtain ⟨f, hf⟩ := hok p s e h1 h2 h3
      exact h ⟨f, _, by simp only [find, hf]; rfl⟩
    · have hu := (hneeds p).mp hp
      have : ∀ {p q}, Uses fs roots root p → Load.Needs1 find p q → ∃ x, Refers fs roots p x ∧ Uses fs roots x q := by
        intro p q hu h
        induction h with
        | one h => exact ⟨_, (hdep _ _ hu).mp h, .self⟩
        | step _ hd ih =>
          obtain ⟨x, x1, x2⟩ := ih
          exact ⟨x, x1, .step x2 ((hdep _ _ (trans (.step hu x1) x2)).mp hd)⟩
      obtain ⟨x, x1, x2⟩ := this hu h
      exact hac p x hu x1 x2
  cases hr : r.modules with
  | none => exact absurd (hb.mp hr) hnb
  | some ms =>
    obtain ⟨g1, g2, g3, g4, g5⟩ := Load.C26_load_ok hl hr
    have hval : ∀ m ∈ ms, ∃ s e, Source fs roots m.path s ∧ s.ast = some e ∧ m.deps = firsts s.mods ∧ (look m.path).2 = some e := by
      intro m hm
      have hu := (hneeds m.path).mp ((g5 m.path).mp (List.mem_map.mpr ⟨m, hm, rfl⟩))
      obtain ⟨s, e, h1, h2, h3⟩ := hsrc _ hu
      obtain ⟨f, hf⟩ := hok _ s e h1 h2 h3
      obtain ⟨f', hf'⟩ := g3 m hm
      simp only [find, hf, FileResult.ok.injEq] at hf'
      exact ⟨s, e, h1, h2, hf'.2.symm, by rw [hf]⟩
    let program : List (Path × List Path × Expr) := ms.map fun m => (m.path, m.deps, (look m.path).2.getD (.packageType []))
    refine ⟨program, ⟨look, r, hlook, hl, ?_⟩, ?_, ?_⟩
    · simp only [hr, Option.map_some, program, List.map_map, Option.some.injEq]
      apply List.map_congr_left
      intro m hm
      obtain ⟨s, e, -, -, -, h4⟩ := hval m hm
      simp [h4]
    · intro p
      rw [← hneeds, ← g5]
      simp [program, Function.comp_def]
    · intro m hm
      obtain ⟨x, hx, rfl⟩ := List.mem_map.mp hm
      obtain ⟨s, e, h1, h2, h3, h4⟩ := hval x hx
      exact ⟨s, h1, by simp [h4, h2], h3⟩

/-- C70. From source files to the result: a program that was loaded and type checks compiles, and running it gives what its texts
mean by names. -/
theorem C70_run {fs : Files} {roots root program} (h : FbleLoad fs roots root (some program)) {n tcs}
    (htc : Elab.tcProgram n (modules program) = .ok (some tcs)) :
    (∀ m ∈ program, ∃ f text s rest, FileOf fs roots m.1 f ∧ fs.read f = some text ∧
      (∃ ts r, Lexes text ts r ∧ Parses ts s rest) ∧ s.ast = some m.2.2) ∧
    ∃ ts, All2 Elab.ErasesModule (modules program) ts ∧ ((∀ t ∈ ts, t.Tables) →
      ∃ mds codes, Elab.linkMods [] (modules program) tcs = some mds ∧ Compile.compileAll mds = some codes ∧
      ∀ fuel, Compile.runMachine mds codes fuel ≠ .wild ∧
        ∀ depth, (Compile.runMachine mds codes fuel).seen depth = (Elab.runNamedProgram (((modules program).map (·.path)).zip ts) fuel).seen depth) := by
  obtain ⟨h1, h2, h3, h4⟩ := C70_loaded h
  refine ⟨fun m hm => ?_, Elab.C60_program htc ?_⟩
  · obtain ⟨f, text, s, rest, a, b, c, d, -⟩ := h3 m hm
    exact ⟨f, text, s, rest, a, b, c, d⟩
  · intro he
    have : program = [] := by simpa [modules] using he
    subst this
    simp at h1

/-! ### When a program is rejected -/

/-- The text of module `p` is `s`, up to tokens that cannot follow it, and is within the limit of the parser. -/
def Reads (fs : Files) (roots : List Str) (p : Path) (s : SStmt) (e : Expr) : Prop :=
  ∃ f text ts r rest, FileOf fs roots p f ∧ fs.read f = some text ∧ Lexes text ts r ∧ Parses ts s rest ∧ s.ast = some e ∧ s.height < 9998

/-- Module `p` can be read and refers to `q`. -/
def Imports (fs : Files) (roots : List Str) (p q : Path) : Prop := ∃ s e, Reads fs roots p s e ∧ q ∈ s.mods

/-- The modules found on the way. -/
inductive Reaches (fs : Files) (roots : List Str) (p : Path) : Path → Prop where
  | self : Reaches fs roots p p
  | step {q r} : Reaches fs roots p q → Imports fs roots q r → Reaches fs roots p r

theorem Reaches.trans {fs : Files} {roots p q r} (h1 : Reaches fs roots p q) (h2 : Reaches fs roots q r) : Reaches fs roots p r := by
  induction h2 with
  | self => exact h1
  | step _ hd ih => exact .step ih hd

theorem finds_reads {fs : Files} {roots p s e} (h : Reads fs roots p s e) : ∃ f, Finds fs roots p (.ok f (firsts s.mods), some e) := by
  obtain ⟨f, text, ts, r, rest, h1, h2, h3, h4, h5, h6⟩ := h
  obtain ⟨deps, ok, g⟩ := (C67_parses ts e).mpr ⟨s, rest, h4, h5, h6⟩
  obtain ⟨rfl, -, -⟩ := C68_deps g h4
  obtain ⟨ts', l, r', t1, t2⟩ := tokens_of false text (by simp)
  obtain ⟨rfl, -⟩ := lexes_det h3 t2
  exact ⟨f, .ok (fileOf_iff.mp h1) h2 ⟨ts, l, t1, g⟩⟩

theorem reads_finds {fs : Files} {roots p f ds o} (h : Finds fs roots p (.ok f ds, o)) : ∃ s e, Reads fs roots p s e ∧ o = some e ∧ ds = firsts s.mods := by
  cases h with
  | ok a b c =>
    rename_i text e ok
    obtain ⟨ts, l, r, t1, t2⟩ := tokens_of false text (by simp)
    obtain ⟨ts', l', c1, c2⟩ := c
    rw [t1] at c1
    cases c1
    obtain ⟨s, rest, s1, s2, s3⟩ := (C67_parses ts e).mp ⟨_, _, c2⟩
    exact ⟨s, e, ⟨f, text, ts, r, rest, fileOf_iff.mpr a, b, t2, s1, s2, s3⟩, rfl, (C68_deps c2 s1).1⟩

/-- C70. FbleLoad has exactly one result, if only finitely many modules are found, and this is NULL exactly if one of them has no file
that can be read and begins with a program, or refers to itself in one or more steps. -/
theorem C70_decides {fs : Files} {roots root} {univ : List Path} (hfin : ∀ p, Reaches fs roots root p → p ∈ univ) :
    ∃ r, FbleLoad fs roots root r ∧ (∀ r', FbleLoad fs roots root r' → r' = r) ∧
      (r = none ↔ ∃ p, Reaches fs roots root p ∧ ((¬ ∃ s e, Reads fs roots p s e) ∨ ∃ q, Imports fs roots p q ∧ Reaches fs roots q p)) := by
  obtain ⟨look, hlook⟩ := exists_look fs roots
  let find : Path → FileResult Path Str := fun p => (look p).1
  have hok : ∀ p f ds, find p = .ok f ds → ∃ s e, Reads fs roots p s e ∧ look p = (.ok f ds, some e) ∧ ds = firsts s.mods := by
    intro p f ds h
    have hp : look p = (.ok f ds, (look p).2) := Prod.ext h rfl
    have := hlook p
    rw [hp] at this
    obtain ⟨s, e, h1, h2, h3⟩ := reads_finds this
    exact ⟨s, e, h1, by rw [hp, h2], h3⟩
  have hrd : ∀ p s e, Reads fs roots p s e → ∃ f, look p = (.ok f (firsts s.mods), some e) := by
    intro p s e h
    obtain ⟨f, hf⟩ := finds_reads h
    exact ⟨f, (hlook p).unique hf⟩
  have hdep : ∀ p q, Load.Dep find p q ↔ Imports fs roots p q := by
    intro p q
    constructor
    · rintro ⟨f, ds, hd, hq⟩
      obtain ⟨s, e, h1, -, rfl⟩ := hok _ _ _ hd
      exact ⟨s, e, h1, mem_firsts.mp hq⟩
    · rintro ⟨s, e, h1, hq⟩
      obtain ⟨f, hf⟩ := hrd _ _ _ h1
      exact ⟨f, _, by simp only [find, hf], mem_firsts.mpr hq⟩
  have hneeds : ∀ p q, Load.Needs find p q ↔ Reaches fs roots p q := by
    intro p q
    constructor
    · intro h
      induction h with
      | refl => exact .self
      | step _ hd ih => exact .step ih ((hdep _ _).mp hd)
    · intro h
      induction h with
      | self => exact .refl
      | step hu hd ih => exact .step ih ((hdep _ _).mpr hd)
  have hneeds1 : ∀ p q, Load.Needs1 find p q ↔ ∃ q', Imports fs roots p q' ∧ Reaches fs roots q' q := by
    intro p q
    constructor
    · intro h
      induction h with
      | one hd => exact ⟨_, (hdep _ _).mp hd, .self⟩
      | step _ hd ih =>
        obtain ⟨q', h1, h2⟩ := ih
        exact ⟨q', h1, .step h2 ((hdep _ _).mp hd)⟩
    · rintro ⟨q', h1, h2⟩
      induction h2 with
      | self => exact .one ((hdep _ _).mpr h1)
      | step _ hd ih => exact .step ih ((hdep _ _).mpr hd)
  have husable : ∀ p, Load.Usable find p ↔ ∃ s e, Reads fs roots p s e := by
    intro p
    constructor
    · rintro ⟨f, ds, h⟩
      obtain ⟨s, e, h1, -⟩ := hok _ _ _ h
      exact ⟨s, e, h1⟩
    · rintro ⟨s, e, h⟩
      obtain ⟨f, hf⟩ := hrd _ _ _ h
      exact ⟨f, firsts s.mods, by simp only [find, hf]⟩
  obtain ⟨r, h1, -, h3⟩ := Load.C27_load_decides (find := find) (root := root) ⟨univ, fun p hp => hfin p ((hneeds _ _).mp hp)⟩
  have hbr : Load.Broken find root ↔ ∃ p, Reaches fs roots root p ∧ ((¬ ∃ s e, Reads fs roots p s e) ∨ ∃ q, Imports fs roots p q ∧ Reaches fs roots q p) := by
    unfold Load.Broken
    simp only [hneeds, hneeds1, husable]
  rw [hbr] at h3
  cases hm : r.modules with
  | none =>
    have hl : FbleLoad fs roots root none := ⟨look, r, hlook, h1, by rw [hm]; rfl⟩
    exact ⟨none, hl, fun r' h' => load_unique h' hl, by rw [← h3]; simp [hm]⟩
  | some ms =>
    have hval : ∀ x ∈ ms, ∃ e, (look x.path).2 = some e := by
      intro x hx
      obtain ⟨f, hf⟩ := (Load.C26_load_ok h1 hm).2.2.1 x hx
      obtain ⟨s, e, -, h, -⟩ := hok x.path f _ hf
      exact ⟨e, by rw [h]⟩
    have hl : FbleLoad fs roots root (some (ms.map fun x => (x.path, x.deps, ((look x.path).2).getD (.structImplicit .nil)))) := by
      refine ⟨look, r, hlook, h1, ?_⟩
      rw [hm]
      simp only [Option.map_some, List.map_map, Option.some.injEq, List.map_inj_left, Function.comp_apply]
      intro x hx
      obtain ⟨e, he⟩ := hval x hx
      simp [he]
    exact ⟨_, hl, fun r' h' => load_unique h' hl, by rw [← h3]; simp [hm]⟩

end Verif.Whole
