import Verif.Host.Thm
import Verif.Safe.Program
/-
C81: a program that type checks does not go wrong, run by a C program with functions implemented in C, if these keep to their types.
-/
namespace Verif.Host
open Verif.Compile
open Verif.Elab (Module N tcProgram linkMods ErasesModule Natives NativesOk VT StoreOk StateOk MadeTy MadesTy Arrows Takes IsNode Monomorphic atEnd openAll)
open Verif.Types (Ptr Heap SameType)
open Verif.Backend (compileC compileA NamesFor)

/-! ### Specification -/

/-- The C program, with values of types `Ts`, uses them as their types allow, for `n` steps. -/
def HostTy [N : Natives] (H : Heap) (host : Program) : Nat → List Ptr → Prop
  | 0, _ => True
  | n + 1, Ts => ∀ Γ refs vals, StoreOk H Γ refs → All2 (VT H Γ) vals Ts →
    match host (vals.map (view refs)) with
    | .finish v => v < Ts.length
    | .field v i => ∃ T fields f, Ts[v]? = some T ∧ IsNode H T (.data .struct fields) ∧ fields[i]? = some f ∧ HostTy H host n (Ts ++ [f.2])
    | .apply f a as => ∃ T As R, Ts[f]? = some T ∧ MadesTy H Ts (a :: as) As ∧ Arrows H T As R ∧ HostTy H host n (Ts ++ [R])

/-! ### Proofs -/

theorem host_good [N : Natives] {H : Heap} (hN : NativesOk H) (host : Program) : (n : Nat) → {Ts Γ : List Ptr} → {vals : List SVal} → {s : St SFn} → HostTy H host n Ts → StateOk H Γ s → All2 (VT H Γ) vals Ts →
    Elab.Good H Γ s.refs (fun _ _ => True) (runHost (fun op more => .native op more []) (applyAll apply) host n vals s)
  | 0, _, _, _, _, _, _, _ => trivial
  | n + 1, Ts, Γ, vals, s, hh, hs, hv => by
    have hstep := hh Γ s.refs vals hs.1 hv
    rw [runHost]
    have at_ : ∀ {i T}, Ts[i]? = some T → ∃ v, vals[i]? = some v ∧ VT H Γ v T := fun hT => Elab.all2_getElem?_right hv hT
    cases he : host (vals.map (view s.refs)) with
    | finish v =>
      rw [he] at hstep
      simp only at hstep ⊢
      rw [List.getElem?_eq_getElem (by rw [hv.length_eq]; exact hstep)]
      exact Elab.Good.ok hs trivial
    | field v i =>
      rw [he] at hstep
      obtain ⟨T, fields, f, h1, h2, h3, h4⟩ := hstep
      obtain ⟨w, h5, h6⟩ := at_ h1
      simp only [h5]
      exact (Elab.structField_good hs h6 h2 h3).bind fun Γ' u s' hp hs' _ hu => host_good hN host n h4 hs' ((Elab.all2_more hv hp).append (.cons hu .nil))
    | apply f a as =>
      rw [he] at hstep
      obtain ⟨T, As, R, h1, h2, h3, h4⟩ := hstep
      obtain ⟨w, h5, h6⟩ := at_ h1
      obtain ⟨args, h7, h8⟩ := Elab.makes_good hv _ h2
      simp only [h5, h7]
      exact (Elab.applyAll_good (Elab.apply_ok hN) h3 hs h6 h8).bind fun Γ' u s' hp hs' _ hu => host_good hN host n h4 hs' ((Elab.all2_more hv hp).append (.cons hu .nil))

theorem process_good [N : Natives] {H : Heap} (hN : NativesOk H) {mds : List Mod} {ts : List Ptr} {t : Ptr} (h : Elab.ModsTy H [] mds (ts ++ [t])) {host : Program} {steps : Nat} (hh : HostTy H host steps [t]) (fuel : Nat) :
    Elab.Good H [] [] (fun _ _ => True) (meaningProcess mds host steps fuel ⟨[], N.answer⟩) :=
  (Elab.runProgram_good hN h fuel).bind fun _ _ _ _ hs _ hv => host_good hN host steps hh hs (.cons hv .nil)

/-- A run that ends neither with a failed assertion nor with an access of what is not there. -/
def Safe (e : Ended) : Prop := e ≠ .crash ∧ e ≠ .wild

theorem safe_of_good [N : Natives] {H : Heap} {Γ refs} {P : List Ptr → SVal → Prop} {r : SRes SVal} (h : Elab.Good H Γ refs P r) (depth : Nat) : Safe (ended depth r) := by
  cases r <;> first | exact h.elim | exact ⟨by simp [ended], by simp [ended]⟩

theorem safe_result {F} {r : Res F (Val F)} {depth : Nat} : Safe (ended depth r) → r ≠ .crash ∧ r ≠ .wild := by
  rintro ⟨h1, h2⟩
  constructor <;> · rintro rfl; first | exact h1 rfl | exact h2 rfl

theorem main_type {n : Nat} {program : List Module} {tcs : List Tc} (h : tcProgram n program = .ok (some tcs)) (hne : program ≠ []) (hm : Monomorphic n program) {mds : List Mod}
    (h1 : linkMods [] program tcs = some mds) : ∃ hf types t, atEnd n [] [] program [] = .ok (hf, types ++ [some t]) ∧ ∃ ts, Elab.ModsTy (openAll hf) [] mds (ts ++ [t]) := by
  obtain ⟨ts, mds', e1, e2, e3⟩ := Elab.tcProgram_ok h
  rw [h1] at e1
  cases e1
  obtain ⟨hf, types, k0, k⟩ := Elab.program_typed h hm h1
  have hl := k.length
  have hnm : types ≠ [] := by
    rintro rfl
    cases e3 with
    | nil => exact hne rfl
    | cons => simp at hl
  obtain ⟨ts', t, rfl⟩ := List.eq_nil_or_concat types |>.resolve_left hnm
  rw [List.concat_eq_append] at k
  exact ⟨hf, ts'.map some, t, by rw [k0]; simp, ts', k⟩

/-- C81: a program without polymorphic definitions that type checks (as in C61), run by a C program that uses its value as the type `t` of its last module allows, with functions implemented in C
that return values of their types: no assertion fails and nothing is accessed that is not there, when it is interpreted, compiled to C, or compiled to assembly; and all of them
end as the source says.  Types are those the type checker made, with abstract types replaced by what they stand for. -/
theorem C81_safe {sg : Bool} {n : Nat} {program : List Module} {tcs : List Tc} (h : tcProgram n program = .ok (some tcs)) (hne : program ≠ []) (hm : Monomorphic n program) :
    ∃ ts, All2 ErasesModule program ts ∧ ((∀ t ∈ ts, t.Tables) → ∃ mds codes hf types t, linkMods [] program tcs = some mds ∧ compileAll mds = some codes ∧
      atEnd n [] [] program [] = .ok (hf, types ++ [some t]) ∧ ∀ names, All2 (NamesFor sg) mds names → ∀ locs, ∃ cmods amods, compileC sg mds names = some cmods ∧ compileA sg mds names locs = some amods ∧
      ∀ natives : Natives, NativesOk (openAll hf) → ∀ host steps, HostTy (openAll hf) host steps [t] → ∀ fuel depth profiling,
        let source := ended depth (namedProcess ((program.map (·.path)).zip ts) host steps fuel ⟨[], natives.answer⟩)
        Safe source ∧
        ended depth (interpretedProcess mds codes host steps fuel ⟨[], natives.answer⟩) = source ∧
        ended depth (cProcess mds cmods host steps fuel ⟨[], natives.answer⟩) = source ∧
        ended depth (a64Process mds amods profiling host steps fuel ⟨[], natives.answer⟩) = source) := by
  obtain ⟨ts, mds, h1, h2, h3⟩ := Elab.tcProgram_ok h
  refine ⟨ts, h3.erases, fun ht => ?_⟩
  obtain ⟨codes, g1, g2⟩ := meaning_interpreted (mods_ne h3 hne) (h3.progOk ht)
  obtain ⟨hf, types, t, k0, mts, k1⟩ := main_type h hne hm h1
  refine ⟨mds, codes, hf, types, t, h1, g1, k0, fun names hn locs => ?_⟩
  obtain ⟨cmods, _, e1, e2, e3⟩ := Backend.compiledC_rel (mods_ne h3 hne) (h3.progOk ht) hn g1
  obtain ⟨amods, _, f1, f2⟩ := Backend.compiledA_rel locs (mods_ne h3 hne) (h3.progOk ht) hn g1
  refine ⟨cmods, amods, e1, f1, fun natives hN host steps hh fuel depth profiling => ?_⟩
  have hsrc := named_meaning h3 hne host steps fuel ⟨[], natives.answer⟩
  have hsafe : Safe (ended depth (namedProcess ((program.map (·.path)).zip ts) host steps fuel ⟨[], natives.answer⟩)) := by
    rw [← ended_named hsrc depth]
    exact safe_of_good (process_good hN k1 hh fuel) depth
  have hc := (safe_result hsafe).1
  refine ⟨hsafe, (ended_rel (g2 host steps fuel _) depth).trans (ended_named hsrc depth), ?_, ?_⟩
  · exact generated_ends hsrc (g2 host steps fuel _) ((e3 fuel _).bind fun _ _ _ _ hv hs => host_generated e2 host steps (.cons hv .nil) hs) hc depth
  · exact generated_ends hsrc (g2 host steps fuel _) (((f2 profiling).2 fuel _).bind fun _ _ _ _ hv hs => host_generated (f2 profiling).1 host steps (.cons hv .nil) hs) hc depth

end Verif.Host
