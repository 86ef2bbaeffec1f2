import Verif.Load.Order
import Verif.Whole.Build
import Verif.Whole.Example
/-
C96: the object files of a program's modules, linked by their symbols, make the list of modules that FbleLink goes through for the program.
-/
namespace Verif.Whole
open Parse
open Text (Str ch Path)
open Load (Gen Loads loadGenerated)

/-- What the file written for a module by FbleGenerateC or FbleGenerateAArch64 declares: the symbol it defines, and, in what this symbol stands for, the path of the module and the symbols in `.deps`.
StaticGeneratedModule, c.c:211-253, aarch64.c:345-387.  (The executable: `Backend.cExecutables`.) -/
structure Object where
  symbol : Str
  path : Path
  deps : List Str

/-- c.c:211-253, aarch64.c:345-387, for a module with this path and these `deps`; `none` if LabelForPath overruns its buffers. -/
def object (sg : Bool) (path : Path) (deps : List Path) : Option Object :=
  (Gen.labelForPath sg path).bind fun symbol => (deps.mapM (Gen.labelForPath sg)).map fun ds => ⟨symbol, path, ds⟩

/-- The object files of all modules. -/
def objects (sg : Bool) (program : List (Path × List Path × Elab.Expr)) : Option (List Object) := program.mapM fun m => object sg m.1 m.2.1

/-- What a symbol stands for when these files are linked: the record in the file that defines it, with pointers to what the symbols in it stand for. -/
inductive StandsFor (objs : List Object) : Str → Gen Path → Prop where
  | mk {o : Object} {gs : List (Gen Path)} : o ∈ objs → gs.length = o.deps.length → (∀ x ∈ o.deps.zip gs, StandsFor objs x.1 x.2) → StandsFor objs o.symbol (.mk o.path gs)

theorem mapM_all2 {α β : Type} {f : α → Option β} : ∀ {l : List α} {r : List β}, l.mapM f = some r → All2 (fun a b => f a = some b) l r
  | [], r, h => by
    simp at h; subst h; exact .nil
  | a :: l, r, h => by
    rw [List.mapM_cons] at h
    cases hf : f a with
    | none => rw [hf] at h; cases h
    | some b =>
      rw [hf] at h
      cases hg : l.mapM f with
      | none => rw [hg] at h; cases h
      | some bs => rw [hg] at h; cases h; exact .cons hf (mapM_all2 hg)

theorem all2_mapM {α β : Type} {f : α → Option β} {l : List α} (h : ∀ a ∈ l, (f a).isSome) : ∃ r, l.mapM f = some r := by
  induction l with
  | nil => exact ⟨[], by simp⟩
  | cons a l ih =>
    obtain ⟨r, hr⟩ := ih fun x hx => h x (List.mem_cons_of_mem _ hx)
    obtain ⟨b, hb⟩ := Option.isSome_iff_exists.mp (h a (List.mem_cons_self ..))
    exact ⟨b :: r, by rw [List.mapM_cons, hb, hr]; rfl⟩

theorem all2_left {α β : Type} {R : α → β → Prop} {l : List α} {r : List β} (h : All2 R l r) : ∀ b ∈ r, ∃ a ∈ l, R a b := by
  induction h with
  | nil => intro b hb; cases hb
  | cons h1 _ ih =>
    intro b hb
    rcases List.mem_cons.mp hb with rfl | hb
    · exact ⟨_, List.mem_cons_self .., h1⟩
    · obtain ⟨a, ha, hr⟩ := ih b hb
      exact ⟨a, List.mem_cons_of_mem _ ha, hr⟩

theorem all2_right {α β : Type} {R : α → β → Prop} {l : List α} {r : List β} (h : All2 R l r) : ∀ a ∈ l, ∃ b ∈ r, R a b := by
  induction h with
  | nil => intro b hb; cases hb
  | cons h1 _ ih =>
    intro b hb
    rcases List.mem_cons.mp hb with rfl | hb
    · exact ⟨_, List.mem_cons_self .., h1⟩
    · obtain ⟨a, ha, hr⟩ := ih b hb
      exact ⟨a, List.mem_cons_of_mem _ ha, hr⟩

theorem object_some {sg path deps o} (h : object sg path deps = some o) :
    Gen.labelForPath sg path = some o.symbol ∧ o.path = path ∧ All2 (fun d s => Gen.labelForPath sg d = some s) deps o.deps := by
  unfold object at h
  cases hs : Gen.labelForPath sg path with
  | none => rw [hs] at h; cases h
  | some s =>
    rw [hs] at h
    cases hd : deps.mapM (Gen.labelForPath sg) with
    | none => simp [hd] at h
    | some ds =>
      simp [hd] at h
      subst h
      exact ⟨rfl, rfl, mapM_all2 hd⟩

/-- Symbols of module paths that have files tell the paths apart (C35). -/
theorem symbol_inj {fs : Files} {roots root program} (hl : FbleLoad fs roots root (some program)) (hsp : ∀ m ∈ program, ∀ n ∈ m.1, n.space = .normal) {sg : Bool} {m m' s}
    (hm : m ∈ program) (hm' : m' ∈ program) (h : Gen.labelForPath sg m.1 = some s) (h' : Gen.labelForPath sg m'.1 = some s) : m.1 = m'.1 := by
  have hfile : ∀ m ∈ program, ∀ n ∈ m.1, n.space = .normal ∧ ch '/' ∉ n.str := by
    intro m hm n hn
    obtain ⟨_, _, _, _, hf, -⟩ := (C70_loaded hl).2.2.1 m hm
    exact ⟨hsp m hm n hn, hf.1 n hn⟩
  exact Gen.C35_symbol_injective sg _ _ s h h' (hfile m hm) (hfile m' hm')

/-- C96. The object files of the modules of a program, whose module names are ASCII or where `char` is unsigned: they exist, each has a symbol of its own, and the symbol of the main module, which
FbleGenerateCMain, FbleGenerateCExport and their counterparts refer to, stands for one record.  FbleLink, given this record, goes through exactly the modules of the program, in the order the interpreter
goes through them, each with the modules it refers to, in order. -/
theorem C96_linked {fs : Files} {roots root program} (hl : FbleLoad fs roots root (some program)) (hsp : ∀ m ∈ program, ∀ n ∈ m.1, n.space = .normal) {sg : Bool}
    (hfit : sg = false ∨ ∀ m ∈ program, ∀ n ∈ m.1, ∀ b ∈ n.str, b < 0x80) :
    ∃ objs main, objects sg program = some objs ∧ Gen.labelForPath sg root = some main ∧ objs.length = program.length ∧ (objs.map Object.symbol).Nodup ∧
      (∃ g, StandsFor objs main g) ∧
      ∀ g, StandsFor objs main g → (loadGenerated [] g).map (fun m => (m.path, m.deps.map Gen.path)) = program.map fun m => (m.1, m.2.1) := by
  have hlab : ∀ m ∈ program, (Gen.labelForPath sg m.1).isSome := fun m hm => (Gen.C36_label_in_bounds sg m.1).mpr (hfit.imp id fun h => h m hm)
  have hbefore : ∀ m ∈ program, ∀ d ∈ m.2.1, ∃ m' ∈ program, m'.1 = d := by
    intro m hm d hd
    obtain ⟨pre, post, he⟩ := List.append_of_mem hm
    obtain ⟨m', h1, h2⟩ := List.mem_map.mp (deps_before hl he d hd)
    exact ⟨m', by rw [he]; exact List.mem_append.mpr (.inl h1), h2⟩
  have hobj : ∀ m ∈ program, (object sg m.1 m.2.1).isSome := by
    intro m hm
    obtain ⟨s, hs⟩ := Option.isSome_iff_exists.mp (hlab m hm)
    obtain ⟨ds, hds⟩ := all2_mapM (f := Gen.labelForPath sg) (l := m.2.1) fun d hd => by
      obtain ⟨m', h1, rfl⟩ := hbefore m hm d hd
      exact hlab m' h1
    rw [object, hs, Option.bind_some, hds]; rfl
  obtain ⟨objs, hobjs⟩ := all2_mapM hobj
  have hall := mapM_all2 hobjs
  obtain ⟨mroot, hmroot, hroot⟩ : ∃ m ∈ program, m.1 = root := by
    obtain ⟨m, h1, h2⟩ := List.mem_map.mp (List.mem_of_getLast? (C70_loaded hl).1)
    exact ⟨m, h1, h2⟩
  obtain ⟨main, hmain⟩ := Option.isSome_iff_exists.mp (hlab mroot hmroot)
  have hnd : (objs.map Object.symbol).Nodup := by
    have hn := (C70_loaded hl).2.1
    have key : ∀ {l : List (Path × List Path × Elab.Expr)} {os : List Object}, All2 (fun m o => object sg m.1 m.2.1 = some o) l os → (∀ m ∈ l, m ∈ program) → (l.map (·.1)).Nodup →
        (os.map Object.symbol).Nodup := by
      intro l os h
      induction h with
      | nil => intro _ _; exact .nil
      | @cons m o l os h1 h2 ih =>
        intro hin hn
        rw [List.map_cons, List.nodup_cons] at hn ⊢
        refine ⟨fun hmem => hn.1 ?_, ih (fun m hm => hin m (List.mem_cons_of_mem _ hm)) hn.2⟩
        obtain ⟨o', ho', he⟩ := List.mem_map.mp hmem
        obtain ⟨m', hm', h3⟩ := all2_left h2 o' ho'
        refine List.mem_map.mpr ⟨m', hm', ?_⟩
        exact symbol_inj hl hsp (hin m' (List.mem_cons_of_mem _ hm')) (hin m (List.mem_cons_self ..)) (he ▸ (object_some h3).1) (object_some h1).1
    exact key hall (fun _ h => h) hn
  obtain ⟨look, r, l1, l2, l3⟩ := hl
  have hl : FbleLoad fs roots root (some program) := ⟨look, r, l1, l2, l3⟩
  cases hr : r.modules with
  | none => rw [hr] at l3; cases l3
  | some ms =>
  rw [hr] at l3
  simp only [Option.map_some, Option.some.injEq] at l3
  have hms : ms.map (fun m => (m.path, m.deps)) = program.map fun m => (m.1, m.2.1) := by
    have := congrArg (List.map fun x : Path × List Path × Option Elab.Expr => (x.1, x.2.1)) l3
    simpa [List.map_map, Function.comp_def] using this
  have hlook : ∀ m ∈ program, ∃ f, (look m.1).1 = .ok f m.2.1 := by
    intro m hm
    have : (m.1, m.2.1) ∈ ms.map fun m => (m.path, m.deps) := by rw [hms]; exact List.mem_map.mpr ⟨m, hm, rfl⟩
    obtain ⟨x, hx, he⟩ := List.mem_map.mp this
    obtain ⟨e1, e2⟩ := Prod.mk.inj he
    rw [← e1, ← e2]
    exact (Load.C26_load_ok l2 hr).2.2.1 x hx
  refine ⟨objs, main, hobjs, hroot ▸ hmain, ?_, hnd, ?_, ?_⟩
  · have : ∀ {l : List (Path × List Path × Elab.Expr)} {os : List Object}, All2 (fun m o => object sg m.1 m.2.1 = some o) l os → os.length = l.length := by
      intro l os h
      induction h with
      | nil => rfl
      | cons _ _ ih => simp [ih]
    exact this hall
  · obtain ⟨g, g1, g2⟩ := Load.C96_exists l2 hr
    refine ⟨g, ?_⟩
    have key : ∀ (g : Gen Path), g.From (fun p => (look p).1) → ∀ m ∈ program, g.path = m.1 → ∀ s, Gen.labelForPath sg m.1 = some s → StandsFor objs s g := by
      intro g
      induction hn : sizeOf g using Nat.strongRecOn generalizing g with
      | _ n ih =>
      intro hg m hm hp s hs
      obtain ⟨p, gs⟩ := g
      have hp : p = m.1 := hp
      subst hp
      obtain ⟨o, ho, h1⟩ := all2_right hall m hm
      obtain ⟨o1, o2, o3⟩ := object_some h1
      rw [hs] at o1
      obtain ⟨f, hf⟩ := hg _ .refl
      obtain ⟨f', hf'⟩ := hlook m hm
      have hf : (look m.1).1 = .ok f (gs.map Gen.path) := hf
      rw [hf'] at hf
      have hdeps : m.2.1 = gs.map Gen.path := (Load.FileResult.ok.inj hf).2
      rw [Option.some.inj o1, ← o2]
      have hds : ∀ d ∈ m.2.1, ∃ m' ∈ program, m'.1 = d := hbefore m hm
      rw [hdeps] at o3 hds
      have hz : ∀ {l : List (Gen Path)} {ss : List Str}, All2 (fun d s => Gen.labelForPath sg d = some s) (l.map Gen.path) ss →
          l.length = ss.length ∧ ∀ x ∈ ss.zip l, x.2 ∈ l ∧ Gen.labelForPath sg x.2.path = some x.1 := by
        intro l
        induction l with
        | nil => intro ss h; cases h; exact ⟨rfl, by simp⟩
        | cons a l ih =>
          intro ss h
          cases h with
          | cons h1 h2 =>
            obtain ⟨e1, e2⟩ := ih h2
            refine ⟨by simp [e1], fun x hx => ?_⟩
            rw [List.zip_cons_cons] at hx
            rcases List.mem_cons.mp hx with rfl | hx
            · exact ⟨List.mem_cons_self .., h1⟩
            · exact ⟨List.mem_cons_of_mem _ (e2 x hx).1, (e2 x hx).2⟩
      obtain ⟨z1, z2⟩ := hz o3
      refine .mk ho z1 fun x hx => ?_
      obtain ⟨x1, x2⟩ := z2 x hx
      obtain ⟨m', hm', he⟩ := hds _ (List.mem_map.mpr ⟨x.2, x1, rfl⟩)
      refine ih (sizeOf x.2) ?_ x.2 rfl (fun a ha => hg a (.dep x1 ha)) m' hm' he.symm x.1 (by rw [he]; exact x2)
      have := List.sizeOf_lt_of_mem x1
      subst hn
      simp only [Gen.mk.sizeOf_spec]; omega
    exact key g g1 mroot hmroot (by rw [g2, hroot]) main hmain
  · intro g hg
    have key : ∀ {s g}, StandsFor objs s g → g.From (fun p => (look p).1) ∧ ∃ m ∈ program, m.1 = g.path ∧ Gen.labelForPath sg m.1 = some s := by
      intro s g h
      induction h with
      | @mk o gs ho hlen hz ih =>
        obtain ⟨m, hm, h1⟩ := all2_left hall o ho
        obtain ⟨o1, o2, o3⟩ := object_some h1
        refine ⟨?_, m, hm, o2.symm, o1⟩
        have hpaths : gs.map Gen.path = m.2.1 := by
          have hb := hbefore m hm
          have : ∀ {ds : List Path} {ss : List Str} {gs : List (Gen Path)}, All2 (fun d s => Gen.labelForPath sg d = some s) ds ss → gs.length = ss.length → (∀ d ∈ ds, ∃ m' ∈ program, m'.1 = d) →
              (∀ x ∈ ss.zip gs, ∃ m ∈ program, m.1 = x.2.path ∧ Gen.labelForPath sg m.1 = some x.1) → gs.map Gen.path = ds := by
            intro ds ss gs h
            induction h generalizing gs with
            | nil => intro hlen _ _; simpa using hlen
            | cons h1 h2 ih =>
              intro hlen hb hx
              cases gs with
              | nil => cases hlen
              | cons g gs =>
                rw [List.zip_cons_cons] at hx
                rw [List.map_cons, ih (by simpa using hlen) (fun d hd => hb d (List.mem_cons_of_mem _ hd)) fun x h => hx x (List.mem_cons_of_mem _ h)]
                obtain ⟨m1, b1, b2⟩ := hb _ (List.mem_cons_self ..)
                obtain ⟨m2, c1, c2, c3⟩ := hx _ (List.mem_cons_self ..)
                rw [← b2] at h1 ⊢
                rw [← c2, symbol_inj hl hsp c1 b1 c3 h1]
          exact this o3 hlen hb fun x hx => (ih x hx).2
        intro a ha
        cases ha with
        | refl =>
          obtain ⟨f, hf⟩ := hlook m hm
          exact ⟨f, by rw [show (Gen.mk o.path gs).deps = gs from rfl, hpaths, show (Gen.mk o.path gs).path = o.path from rfl, o2]; exact hf⟩
        | @dep _ d _ hd ha =>
          have hd : d ∈ gs := hd
          obtain ⟨i, hi, rfl⟩ := List.mem_iff_getElem.mp hd
          have hmem : (o.deps[i]'(hlen ▸ hi), gs[i]) ∈ o.deps.zip gs := by
            refine List.mem_iff_getElem.mpr ⟨i, by simp; omega, by simp⟩
          exact (ih _ hmem).1 a ha
    obtain ⟨k1, m, hm, k2, k3⟩ := key hg
    have hroot' : g.path = root := by
      rw [← k2, ← hroot]
      exact symbol_inj hl hsp hm hmroot k3 hmain
    rw [Load.C96_order l2 hr k1 hroot', hms]
/-- The two files of `Whole.Example`. -/
example : ∃ objs main, objects true Example.program = some objs ∧ Gen.labelForPath true Example.mainPath = some main ∧ objs.length = 2 ∧
    ∀ g, StandsFor objs main g → (loadGenerated [] g).map Gen.path = [Example.libPath, Example.mainPath] := by
  obtain ⟨objs, main, h1, h2, h3, -, -, h4⟩ := C96_linked (sg := true) Example.loaded (by decide +kernel) (.inr (by decide +kernel))
  refine ⟨objs, main, h1, h2, h3, fun g hg => ?_⟩
  have := congrArg (List.map (·.1)) (h4 g hg)
  simpa [List.map_map, Function.comp_def, Example.program] using this
end Verif.Whole
