import Verif.Whole.Build
import Verif.Whole.Example
import Verif.Elab.Wide
/-
An example for C87: a library and a program that uses it, compiled one by one.
-/
namespace Verif.Whole.Example
open Parse
open Text (Str Byte ch Path)

def system (world : Host.World) : System := ⟨fs, none, str "/usr/share/fble", fun _ => false, world⟩

def dirs : List Args.Arg := ["old".toList, "src".toList]

def library : List (Path × List Path × Elab.Expr) := [(libPath, [], libExpr)]

theorem library_loaded : FbleLoad fs roots libPath (some library) := by
  obtain ⟨look, hlook⟩ := exists_look fs roots
  obtain ⟨f, hf⟩ := finds_source lib_source (e := libExpr) rfl (by decide +kernel)
  have h1 : look libPath = (.ok f [], some libExpr) := (hlook _).unique hf
  refine ⟨look, ⟨some [⟨libPath, [], true⟩], [f]⟩, hlook, ⟨10, ?_⟩, ?_⟩
  · simp [Load.load, Load.push, Load.loop, Load.step, h1]
  · simp [h1, library]

theorem library_checked : ∃ tc, Elab.tcProgram 20 (modules library) = .ok (some [tc]) := by
  have : (match Elab.tcProgram 20 (modules library) with | .ok (some [_]) => true | _ => false) = true := by decide +kernel
  split at this
  · rename_i tc h
    exact ⟨tc, h⟩
  · cases this

theorem program_checked : ∃ tc tc', Elab.tcProgram 20 (modules program) = .ok (some [tc, tc']) := by
  have : (match Elab.tcProgram 20 (modules program) with | .ok (some [_, _]) => true | _ => false) = true := by decide +kernel
  split at this
  · rename_i tc tc' h
    exact ⟨tc, tc', h⟩
  · cases this

theorem paths_plain : ∀ m ∈ program, m.1 ≠ [] ∧ ∀ n ∈ m.1, n.space = .normal ∧ n.str ≠ [] ∧ ∀ b ∈ n.str, Text.Spec.WordChar b ∧ b ≠ 0xFF := by
  intro m hm
  simp only [program, List.mem_cons, List.not_mem_nil, or_false] at hm
  rcases hm with rfl | rfl
  · exact ⟨by decide, by decide +kernel⟩
  · exact ⟨by decide, by decide +kernel⟩

/-- `fble-compile -I old -I src -t target -c -m /Lib%` and the same for /Main%: both are compiled, and the program linked from them does what the texts say, for both targets. -/
theorem separate (world : Host.World) (t : Target) : ∃ e tcs ts, Looks (system world) e ∧ BuiltFrom (system world) e dirs t program tcs ∧ All2 Elab.ErasesModule (modules program) ts ∧
    ∃ mds, Elab.linkMods [] (modules program) tcs = some mds ∧
      ∀ names locs, All2 (Backend.NamesFor true) mds names → ∃ cmods amods, Backend.compileC true mds names = some cmods ∧ Backend.compileA true mds names locs = some amods ∧
      ∀ host steps fuel out, Host.namedProcess (((modules program).map (·.path)).zip ts) host steps fuel out ≠ .crash → ∀ depth,
        Host.ended depth (Host.cProcess mds cmods host steps fuel out) = Host.ended depth (Host.namedProcess (((modules program).map (·.path)).zip ts) host steps fuel out) ∧
        ∀ profiling, Host.ended depth (Host.a64Process mds amods profiling host steps fuel out) = Host.ended depth (Host.namedProcess (((modules program).map (·.path)).zip ts) host steps fuel out) := by
  obtain ⟨e, he⟩ := looks_exists (system world)
  obtain ⟨tc, hlib⟩ := library_checked
  obtain ⟨tc0, tc', hmain⟩ := program_checked
  have hroots : dirs.map bytes = roots := by decide +kernel
  have hb : BuiltFrom (system world) e dirs t program [tc, tc'] := by
    refine .cons ⟨20, "/Lib%".toList, by decide +kernel, ?_⟩ (.cons ⟨20, "/Main%".toList, by decide +kernel, ?_⟩ .nil)
    · refine (C87_module he dirs t (paths_plain _ (by simp [program])) (by decide +kernel) 20 _).mpr (.inr ⟨library, [tc], _, tc, ?_, hlib, rfl, rfl, rfl⟩)
      rw [hroots]
      exact library_loaded
    · refine (C87_module he dirs t (paths_plain _ (by simp [program])) (by decide +kernel) 20 _).mpr (.inr ⟨program, [tc0, tc'], _, tc', ?_, hmain, rfl, rfl, rfl⟩)
      rw [hroots]
      exact loaded
  have hl : FbleLoad (system world).files (dirs.map bytes) mainPath (some program) := by
    rw [hroots]
    exact loaded
  obtain ⟨ts, h1, h2⟩ := C87_separate he hl paths_plain hb true
  refine ⟨e, [tc, tc'], ts, he, hb, h1, h2 (Elab.tables_of_wide (program := modules program) ?_ h1)⟩
  have : ((modules program).all fun m => m.value.wide) = true := by decide +kernel
  exact List.all_eq_true.mp this

end Verif.Whole.Example
