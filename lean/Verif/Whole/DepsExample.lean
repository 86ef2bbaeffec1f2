import Verif.Whole.Deps
import Verif.Whole.BuildExample
/-
An example for C88: fble-deps for the program of C70's example, and for the same program without its library.
-/
namespace Verif.Whole.Example
open Parse
open Text (Str Byte ch Path)

theorem main_plain : mainPath ≠ [] ∧ ∀ n ∈ mainPath, n.space = .normal ∧ n.str ≠ [] ∧ ∀ b ∈ n.str, Text.Spec.WordChar b ∧ b ≠ 0xFF := ⟨by decide, by decide +kernel⟩

theorem find_of {fs : Files} {roots p f o} (h : Finds fs roots p o) (hf : (Text.find fs.access p roots).1 = some f) : Load.found (fun _ => o.1) p = some f := by
  cases h with
  | missing h => rw [h] at hf; cases hf
  | closed h | bad h | ok h => rw [h] at hf; cases hf; rfl

/-- `fble-deps -I old -I src -t out.d -m /Main%`. -/
theorem deps_written (world : Host.World) : ∃ e, Looks (system world) e ∧ ∀ o, DepsMain (system world) e (depsArgs dirs "out.d".toList "/Main%".toList) o ↔
    o = (0, some (str "out.d: src/Main.fble src/Lib.fble\n")) := by
  obtain ⟨e, he⟩ := looks_exists (system world)
  have hroots : dirs.map bytes = roots := by decide +kernel
  refine ⟨e, he, fun o => ?_⟩
  have hm : DepsMain (system world) e (depsArgs dirs "out.d".toList "/Main%".toList) (0, some (str "out.d: src/Main.fble src/Lib.fble\n")) := by
    obtain ⟨k, s, l1, hj⟩ := deps_job he dirs "out.d".toList main_plain (a := "/Main%".toList) (by decide +kernel)
    rw [hroots] at hj
    obtain ⟨look, hlook⟩ := exists_look fs roots
    obtain ⟨f, hf⟩ := finds_source lib_source (e := libExpr) rfl (by decide +kernel)
    obtain ⟨g, hg⟩ := finds_source main_source (e := mainExpr) rfl (by decide +kernel)
    have a1 : look libPath = (.ok f [], some libExpr) := (hlook _).unique hf
    have a2 : look mainPath = (.ok g [libPath], some mainExpr) := (hlook _).unique hg
    have b1 : f = str "src/Lib.fble" := by
      have : (Text.find fs.access libPath roots).1 = some (str "src/Lib.fble") := by decide +kernel
      simpa [Load.found] using find_of hf this
    have b2 : g = str "src/Main.fble" := by
      have : (Text.find fs.access mainPath roots).1 = some (str "src/Main.fble") := by decide +kernel
      simpa [Load.found] using find_of hg this
    have hne : libPath ≠ mainPath := by decide
    have hl : Load.Loads (fun p => (look p).1) mainPath ⟨some [⟨libPath, [], true⟩, ⟨mainPath, [libPath], true⟩], [g, f]⟩ :=
      ⟨10, by simp [Load.load, Load.push, Load.loop, Load.step, a1, a2, hne]⟩
    have := DepsMain.wrote (sys := system world) l1 hj hlook hl
    have ho : Text.saveBuildDeps (bytes "out.d".toList) [g, f] = str "out.d: src/Main.fble src/Lib.fble\n" := by
      rw [b1, b2]
      decide +kernel
    rw [← ho]
    exact this
  exact ⟨fun h => h.unique hm, fun h => h ▸ hm⟩

/-- Without the library it still ends with status 0, and lists the file that is there. -/
theorem deps_missing (world : Host.World) : ∃ e, Looks ⟨half, none, [], fun _ => false, world⟩ e ∧
    ∃ files out, DepsMain ⟨half, none, [], fun _ => false, world⟩ e (depsArgs dirs "out.d".toList "/Main%".toList) (0, some out) ∧ Listed half roots mainPath files ∧ files = [str "src/Main.fble"] ∧
      FbleLoad half roots mainPath none := by
  obtain ⟨e, he⟩ := looks_exists ⟨half, none, [], fun _ => false, world⟩
  have hroots : dirs.map bytes = roots := by decide +kernel
  obtain ⟨o, ho⟩ := C88_ends he dirs "out.d".toList main_plain (a := "/Main%".toList) (by decide +kernel) (univ := [mainPath, libPath])
    (fun p h => by rw [hroots] at h; rcases half_reaches h with rfl | rfl <;> simp)
  obtain ⟨files, out, h1, h2, -⟩ := C88_rule he dirs "out.d".toList main_plain (by decide +kernel) ((ho o).mpr rfl)
  rw [hroots] at h2
  refine ⟨e, he, files, out, (ho _).mpr h1.symm, h2, ?_, half_fails⟩
  obtain ⟨ps, k1, k2, k3, ⟨pairs, g1, g2, g3, g4⟩, -⟩ := h2.of
  have hlib : ∀ f, ¬ FileOf half roots libPath f := by
    intro f hf
    have : (roots.map fun root => root ++ libPath.flatMap (fun n => ch '/' :: n.str) ++ ['.', 'f', 'b', 'l', 'e'].map ch).find? half.access = none := by decide +kernel
    rw [hf.2] at this
    cases this
  have hmain : ∀ f, FileOf half roots mainPath f ↔ f = str "src/Main.fble" := by
    intro f
    have : (roots.map fun root => root ++ mainPath.flatMap (fun n => ch '/' :: n.str) ++ ['.', 'f', 'b', 'l', 'e'].map ch).find? half.access = some (str "src/Main.fble") := by decide +kernel
    constructor
    · intro hf
      rw [hf.2] at this
      exact Option.some.inj this
    · rintro rfl
      exact ⟨by decide, this⟩
  have hall : ∀ q ∈ pairs, q = (mainPath, str "src/Main.fble") := by
    intro q hq
    have hf := g1 q hq
    have hr := k3 q.1 (g3.subset (List.mem_map.mpr ⟨q, hq, rfl⟩))
    rcases half_reaches hr with h | h
    · rw [h, hmain] at hf
      exact Prod.ext h hf
    · rw [h] at hf
      exact absurd hf (hlib _)
  have hin := g2 mainPath k2 _ ((hmain _).mpr rfl)
  have hnd : (pairs.map (·.1)).Nodup := g3.nodup k1
  have hp : pairs = [(mainPath, str "src/Main.fble")] := by
    cases pairs with
    | nil => cases hin
    | cons x xs =>
      obtain rfl := hall x (by simp)
      cases xs with
      | nil => rfl
      | cons y ys =>
        obtain rfl := hall y (by simp)
        simp at hnd
  rw [hp] at g4
  exact List.perm_singleton.mp g4

end Verif.Whole.Example
