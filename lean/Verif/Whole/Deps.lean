import Verif.Whole.Build
import Verif.Load.Deps
/-
C88: fble-deps, from the command line to the rule it writes.
-/
namespace Verif.Whole
open Parse
open Text (Str Byte ch Path)
open Args (Arg Env Recognised effects)

/-! ### The code -/

/-- What follows the options: the exit status, or what is to be done. -/
inductive DepsJob where
  | exit (status : Int)
  | save (target : Arg) (roots : List Str) (path : Path)

/-- bin/fble-deps.c:56-86. -/
def depsJob (s : Args.St) : DepsJob :=
  if s.flags "version" then .exit 0
  else if s.flags "help" then .exit 0
  else if s.error then .exit 2
  else match s.strs "target" with
    | none => .exit 2
    | some t =>
      match s.module with
      | none => .exit 2
      | some m => .save t (s.search.map bytes) (pathOf m)

/-- The command fble-deps: bin/fble-deps.c:35-101.  The exit status, and the rule that is written. -/
inductive DepsMain (sys : System) (e : Env) (args : List Arg) : Int × Option Str → Prop where
  | exits {k s status} : Args.loop e Args.deps k (start args) = some s → depsJob s = .exit status → DepsMain sys e args (status, none)
  | wrote {k s t roots path} {look : Path → Load.FileResult Path Str × Option Elab.Expr} {r : Load.Result Path Str} : Args.loop e Args.deps k (start args) = some s →
      depsJob s = .save t roots path → (∀ p, Finds sys.files roots p (look p)) → Load.Loads (fun p => (look p).1) path r →
      DepsMain sys e args (0, some (Text.saveBuildDeps (bytes t) r.buildDeps))

/-! ### Lemmas -/

theorem loads_unique {find : Path → Load.FileResult Path Str} {root : Path} {r r' : Load.Result Path Str} (h2 : Load.Loads find root r) (g2 : Load.Loads find root r') : r = r' := by
  obtain ⟨n, h2⟩ := h2
  obtain ⟨n', g2⟩ := g2
  have mono : ∀ {n m s r}, n ≤ m → Load.loop find n s = some r → Load.loop find m s = some r := by
    intro n
    induction n with
    | zero => intro m s r _ h; cases h
    | succ n ih =>
      intro m s r hm h
      cases m with
      | zero => omega
      | succ m =>
        simp only [Load.loop] at h ⊢
        split at h
        · exact h
        · exact ih (by omega) h
  simp only [Load.load] at h2 g2
  cases hroot : find root with
  | missing =>
    simp only [hroot, Option.some.injEq] at h2 g2
    rw [← h2, ← g2]
  | _ =>
    simp only [hroot] at h2 g2
    generalize Load.push find root ⟨[], [], false, []⟩ = s0 at h2 g2
    cases hs1 : Load.loop find n s0 with
    | none => rw [hs1] at h2; cases h2
    | some s1 =>
      cases hs2 : Load.loop find n' s0 with
      | none => rw [hs2] at g2; cases g2
      | some s2 =>
        have a := mono (Nat.le_max_left n n') hs1
        rw [mono (Nat.le_max_right n n') hs2] at a
        cases a
        rw [hs1] at h2
        rw [hs2] at g2
        exact Option.some.inj (h2.symm.trans g2)

theorem DepsMain.unique {sys : System} {e : Env} {args o o'} (h : DepsMain sys e args o) (h' : DepsMain sys e args o') : o = o' := by
  cases h with
  | exits h1 h2 =>
    cases h' with
    | exits g1 g2 => obtain rfl := loop_unique h1 g1; rw [h2] at g2; cases g2; rfl
    | wrote g1 g2 => obtain rfl := loop_unique h1 g1; rw [h2] at g2; cases g2
  | wrote h1 h2 h3 h4 =>
    cases h' with
    | exits g1 g2 => obtain rfl := loop_unique h1 g1; rw [h2] at g2; cases g2
    | wrote g1 g2 g3 g4 =>
      obtain rfl := loop_unique h1 g1
      rw [h2] at g2
      cases g2
      obtain rfl := look_unique h3 g3
      obtain rfl := loads_unique h4 g4
      rfl

theorem deps_wf : Args.wf Args.deps = true := by decide +kernel

theorem depsJob_same {s t : Args.St} (h : Args.Same s t) : depsJob s = depsJob t := by
  obtain ⟨h1, h2, -, h4, h5, h6⟩ := h
  simp only [depsJob, h1, h2, h4, h5, h6]

section
variable {fs : Files} {roots : List Str} {look : Path → Load.FileResult Path Str × Option Elab.Expr} (hlook : ∀ p, Finds fs roots p (look p))
include hlook

theorem dep_iff {p q : Path} : Load.Dep (fun p => (look p).1) p q ↔ Imports fs roots p q := by
  constructor
  · rintro ⟨f, ds, hd, hq⟩
    have hp : look p = (.ok f ds, (look p).2) := Prod.ext hd rfl
    have := hlook p
    rw [hp] at this
    obtain ⟨s, e, h1, -, rfl⟩ := reads_finds this
    exact ⟨s, e, h1, mem_firsts.mp hq⟩
  · rintro ⟨s, e, h1, hq⟩
    obtain ⟨f, hf⟩ := finds_reads h1
    exact ⟨f, _, by simp only [(hlook p).unique hf], mem_firsts.mpr hq⟩

theorem needs_iff {p q : Path} : Load.Needs (fun p => (look p).1) p q ↔ Reaches fs roots p q := by
  constructor
  · intro h
    induction h with
    | refl => exact .self
    | step _ hd ih => exact .step ih ((dep_iff hlook).mp hd)
  · intro h
    induction h with
    | self => exact .refl
    | step hu hd ih => exact .step ih ((dep_iff hlook).mpr hd)

theorem needs1_iff {p q : Path} : Load.Needs1 (fun p => (look p).1) p q ↔ ∃ q', Imports fs roots p q' ∧ Reaches fs roots q' q := by
  constructor
  · intro h
    induction h with
    | one hd => exact ⟨_, (dep_iff hlook).mp hd, .self⟩
    | step _ hd ih =>
      obtain ⟨q', h1, h2⟩ := ih
      exact ⟨q', h1, .step h2 ((dep_iff hlook).mp hd)⟩
  · rintro ⟨q', h1, h2⟩
    induction h2 with
    | self => exact .one ((dep_iff hlook).mpr h1)
    | step _ hd ih => exact .step ih ((dep_iff hlook).mpr hd)

theorem found_iff {p : Path} {f : Str} : Load.found (fun p => (look p).1) p = some f ↔ FileOf fs roots p f := by
  rw [fileOf_iff]
  have h := hlook p
  simp only [Load.found]
  generalize look p = r at h
  cases h with
  | missing h => simp [h]
  | closed h | bad h | ok h => simp [h]

end

/-! ### Theorems -/

/-- C88, the options: exit status 0 for help and version; 2 for an error in the options, no target or no module; and otherwise 0. -/
theorem C88_options {sys : System} {e : Env} {items : List Args.Item} (hi : ∀ i ∈ items, i.Of Args.deps) :
    let s := effects e items (start [])
    let ends := fun (status : Int) => ∀ o, DepsMain sys e (items.flatMap Args.Item.encode) o ↔ o = (status, none)
    (s.flags "version" = true ∨ s.flags "help" = true → ends 0) ∧
    (s.flags "version" = false → s.flags "help" = false → s.error = true → ends 2) ∧
    (Args.stop s = false → s.strs "target" = none ∨ s.module = none → ends 2) ∧
    (Args.stop s = false → s.strs "target" ≠ none → s.module ≠ none → ∀ o, DepsMain sys e (items.flatMap Args.Item.encode) o → o.1 = 0 ∧ o.2 ≠ none) := by
  intro s ends
  have only : ∀ {status}, DepsMain sys e (items.flatMap Args.Item.encode) (status, none) → ends status := fun h o' => ⟨fun ho => ho.unique h, fun he => he ▸ h⟩
  obtain ⟨k, t, h1, h2⟩ := loop_all e deps_wf hi
  have hj : depsJob t = depsJob s := depsJob_same h2
  refine ⟨fun h => only (.exits h1 (hj.trans ?_)), fun hv hh he => only (.exits h1 (hj.trans ?_)), fun h0 hn => only (.exits h1 (hj.trans ?_)), fun h0 ht hm o ho => ?_⟩
  · unfold depsJob
    rcases h with h | h
    · rw [if_pos h]
    · split
      · rfl
      · rfl
  · simp [depsJob, hv, hh, he]
  · obtain ⟨f1, f2, f3⟩ := not_stop.mp h0
    rcases hn with hn | hn
    · simp [depsJob, f1, f2, f3, hn]
    · cases ht : s.strs "target" <;> simp [depsJob, f1, f2, f3, ht, hn]
  · obtain ⟨f1, f2, f3⟩ := not_stop.mp h0
    obtain ⟨tg, htg⟩ := Option.ne_none_iff_exists'.mp ht
    obtain ⟨m, hm⟩ := Option.ne_none_iff_exists'.mp hm
    have hs : depsJob t = .save tg (s.search.map bytes) (pathOf m) := by rw [hj]; simp [depsJob, f1, f2, f3, htg, hm]
    cases ho with
    | exits g1 g2 => obtain rfl := loop_unique h1 g1; rw [hs] at g2; cases g2
    | wrote => exact ⟨rfl, by simp⟩

/-- The files of the modules that are listed: of `root`, of modules that it refers to directly or not, each once; of all of them, if none refers to itself in one or more steps. -/
structure Listed (fs : Files) (roots : List Str) (root : Path) (files : List Str) : Prop where
  mk' :: of : ∃ ps : List Path, ps.Nodup ∧ root ∈ ps ∧ (∀ p ∈ ps, Reaches fs roots root p) ∧
    (∃ pairs : List (Path × Str), (∀ q ∈ pairs, FileOf fs roots q.1 q.2) ∧ (∀ p ∈ ps, ∀ f, FileOf fs roots p f → (p, f) ∈ pairs) ∧ (pairs.map (·.1)).Sublist ps ∧ files.Perm (pairs.map (·.2))) ∧
    ((∀ p, Reaches fs roots root p → ¬ ∃ q, Imports fs roots p q ∧ Reaches fs roots q p) → ∀ p, Reaches fs roots root p → p ∈ ps)

theorem pairs_of {file : Path → Option Str} : (ps : List Path) → ∃ pairs : List (Path × Str), (∀ q ∈ pairs, file q.1 = some q.2) ∧ (∀ p ∈ ps, ∀ f, file p = some f → (p, f) ∈ pairs) ∧
    (pairs.map (·.1)).Sublist ps ∧ ps.filterMap file = pairs.map (·.2)
  | [] => ⟨[], by simp, by simp, by simp, by simp⟩
  | p :: ps => by
    obtain ⟨pairs, h1, h2, h3, h4⟩ := pairs_of (file := file) ps
    cases hf : file p with
    | none =>
      refine ⟨pairs, h1, ?_, h3.cons _, by simp [hf, h4]⟩
      intro q hq f hf'
      rcases List.mem_cons.mp hq with rfl | hq
      · rw [hf] at hf'; cases hf'
      · exact h2 q hq f hf'
    | some f =>
      refine ⟨(p, f) :: pairs, ?_, ?_, by simpa using h3, by simp [hf, h4]⟩
      · intro q hq
        rcases List.mem_cons.mp hq with rfl | hq
        · exact hf
        · exact h1 q hq
      · intro q hq g hg
        rcases List.mem_cons.mp hq with rfl | hq
        · rw [hf] at hg; cases hg; simp
        · simp [h2 q hq g hg]

theorem listed {fs : Files} {roots : List Str} {look : Path → Load.FileResult Path Str × Option Elab.Expr} (hlook : ∀ p, Finds fs roots p (look p)) {root : Path} {r : Load.Result Path Str}
    (h : Load.Loads (fun p => (look p).1) root r) : Listed fs roots root r.buildDeps := by
  obtain ⟨ps, h1, h2, h3, h4, h5⟩ := Load.buildDeps_any h
  obtain ⟨pairs, k1, k2, k3, k4⟩ := pairs_of (file := Load.found fun p => (look p).1) ps
  refine ⟨ps, h1, h3, fun p hp => (needs_iff hlook).mp (h2 p hp), ⟨pairs, fun q hq => (found_iff hlook).mp (k1 q hq), fun p hp f hf => k2 p hp f ((found_iff hlook).mpr hf), k3, k4 ▸ h4⟩, fun hc p hp => ?_⟩
  refine h5 (fun q hq hq' => hc q ((needs_iff hlook).mp hq) ?_) p ((needs_iff hlook).mpr hp)
  exact (needs1_iff hlook).mp hq'

/-- The options: `-I d1 .. -I dk -t target -m path`. -/
def depsArgs (dirs : List Arg) (t : Arg) (a : Arg) : List Arg := dirs.flatMap (fun d => ["-I".toList, d]) ++ ["-t".toList, t, "-m".toList, a]

theorem deps_items (dirs : List Arg) (t a : Arg) : let items : List Args.Item := dirs.map Args.Item.incl ++ [.str "-t" "target" t, .module false a]
    (∀ i ∈ items, i.Of Args.deps) ∧ items.flatMap Args.Item.encode = depsArgs dirs t a := by
  refine ⟨?_, by simp [List.flatMap_map, Args.Item.encode, depsArgs]⟩
  intro i hi
  rcases List.mem_append.mp hi with hi | hi
  · obtain ⟨d, -, rfl⟩ := List.mem_map.mp hi
    simp [Args.Item.Of, Args.deps, Args.helpVersion]
  · simp only [List.mem_cons, List.not_mem_nil, or_false] at hi
    rcases hi with rfl | rfl <;> simp [Args.Item.Of, Args.deps, Args.helpVersion]

theorem deps_job {sys : System} {e : Env} (he : Looks sys e) (dirs : List Arg) (t : Arg) {p : Path}
    (hp : p ≠ [] ∧ ∀ n ∈ p, n.space = .normal ∧ n.str ≠ [] ∧ ∀ b ∈ n.str, Text.Spec.WordChar b ∧ b ≠ 0xFF) {a : Arg} (ha : bytes a = Text.printPath p) :
    ∃ k s, Args.loop e Args.deps k (start (depsArgs dirs t a)) = some s ∧ depsJob s = .save t (dirs.map bytes) p := by
  obtain ⟨hi, henc⟩ := deps_items dirs t a
  obtain ⟨m, h1, h2⟩ := parse_path he hp ha
  obtain ⟨k, s, l1, l2⟩ := loop_all e deps_wf hi
  rw [henc] at l1
  refine ⟨k, s, l1, ?_⟩
  rw [depsJob_same l2, effects_dirs e _ dirs (by rfl)]
  simp [effects, Args.stop, start, Args.Item.effect, Args.setAt, h1, depsJob, h2]

/-- C88. `fble-deps -I d1 .. -I dk -t target -m /a/b%` ends with exit status 0, whether or not the module can be loaded, and what it writes is a rule, as make reads it, for the target; with the files of
the module and of modules that it refers to, all of them if none refers to itself. -/
theorem C88_rule {sys : System} {e : Env} (he : Looks sys e) (dirs : List Arg) (t : Arg) {p : Path}
    (hp : p ≠ [] ∧ ∀ n ∈ p, n.space = .normal ∧ n.str ≠ [] ∧ ∀ b ∈ n.str, Text.Spec.WordChar b ∧ b ≠ 0xFF) {a : Arg} (ha : bytes a = Text.printPath p)
    {o} (h : DepsMain sys e (depsArgs dirs t a) o) :
    ∃ files out, o = (0, some out) ∧ Listed sys.files (dirs.map bytes) p files ∧
      ((∀ b ∈ bytes t, b ≠ ch ' ' ∧ b ≠ ch '\n' ∧ b ≠ ch '\\') → (∀ f ∈ files, ∀ b ∈ f, b ≠ ch ' ' ∧ b ≠ ch '\n' ∧ b ≠ ch '\\') →
        Text.Spec.ruleWords out = (bytes t ++ [ch ':']) :: files) := by
  obtain ⟨k, s, l1, hj⟩ := deps_job he dirs t hp ha
  cases h with
  | exits g1 g2 => obtain rfl := loop_unique l1 g1; rw [hj] at g2; cases g2
  | wrote g1 g2 g3 g4 =>
    obtain rfl := loop_unique l1 g1
    rw [hj] at g2
    cases g2
    have hl := listed g3 g4
    refine ⟨_, _, rfl, hl, fun ht hf => Text.C30_rule _ _ ht fun f hfm => ⟨?_, hf f hfm⟩⟩
    obtain ⟨ps, -, -, -, ⟨pairs, k1, -, -, k4⟩, -⟩ := hl.of
    obtain ⟨q, hq, rfl⟩ := List.mem_map.mp (k4.mem_iff.mp hfm)
    obtain ⟨-, hfind⟩ := k1 q hq
    obtain ⟨root, -, hr⟩ := List.mem_map.mp (List.mem_of_find?_eq_some hfind)
    rw [← hr]
    simp

/-- C88, it ends, if only finitely many modules are found. -/
theorem C88_ends {sys : System} {e : Env} (he : Looks sys e) (dirs : List Arg) (t : Arg) {p : Path}
    (hp : p ≠ [] ∧ ∀ n ∈ p, n.space = .normal ∧ n.str ≠ [] ∧ ∀ b ∈ n.str, Text.Spec.WordChar b ∧ b ≠ 0xFF) {a : Arg} (ha : bytes a = Text.printPath p)
    {univ : List Path} (hfin : ∀ q, Reaches sys.files (dirs.map bytes) p q → q ∈ univ) :
    ∃ o, ∀ o', DepsMain sys e (depsArgs dirs t a) o' ↔ o' = o := by
  obtain ⟨k, s, l1, hj⟩ := deps_job he dirs t hp ha
  obtain ⟨look, hlook⟩ := exists_look sys.files (dirs.map bytes)
  obtain ⟨r, h3, -, -⟩ := Load.C27_load_decides (find := fun p => (look p).1) (root := p) ⟨univ, fun q hq => hfin q ((needs_iff hlook).mp hq)⟩
  have : DepsMain sys e (depsArgs dirs t a) (0, some (Text.saveBuildDeps (bytes t) r.buildDeps)) := .wrote l1 hj hlook h3
  exact ⟨_, fun o' => ⟨fun h => h.unique this, fun h => h ▸ this⟩⟩

end Verif.Whole
