import Verif.Load.Thm
/-
The build dependencies of FbleLoad, whether or not the program is loaded.
-/
set_option linter.unusedSectionVars false
namespace Verif.Load
variable {P F : Type} [DecidableEq P]

/-- The file of a module, whether or not it parses. -/
def found (find : P → FileResult P F) (p : P) : Option F :=
  match find p with
  | .ok f _ | .bad f _ => some f
  | .missing => none

structure Seen (find : P → FileResult P F) (s : State P F) : Prop where
  files : s.buildDeps.Perm ((paths s).filterMap (found find))
  frames : ∀ f ∈ s.stack, ∀ file ds, find f.path = .ok file ds → ds = f.deps
  modules : ∀ m ∈ s.modules, ∀ file ds, find m.path = .ok file ds → ds = m.deps

/-- Nothing is left out as long as there is no cycle. -/
structure Whole (find : P → FileResult P F) (s : State P F) : Prop where
  frames : ∀ f ∈ s.stack, ∀ file ds, find f.path = .ok file ds → ∀ d ∈ f.deps.take f.depsLoaded, d ∈ s.modules.map Module.path
  modules : ∀ m ∈ s.modules, ∀ file ds, find m.path = .ok file ds → ∀ d ∈ m.deps, d ∈ s.modules.map Module.path

theorem push_seen {find : P → FileResult P F} {p : P} {s : State P F} (h : Seen find s) : Seen find (push find p s) := by
  have hp := push_paths find p s
  refine ⟨?_, ?_, ?_⟩
  · rw [hp]
    unfold push found
    have := h.files
    cases hf : find p <;> simp only [List.filterMap_cons, hf]
    · exact this
    · exact (List.perm_append_comm).trans (List.Perm.cons _ this)
    · exact (List.perm_append_comm).trans (List.Perm.cons _ this)
  · intro f hf file ds hd
    unfold push at hf
    cases hq : find p <;> simp only [hq, List.mem_cons] at hf <;> rcases hf with rfl | hf
    all_goals first
      | exact h.frames f hf file ds hd
      | (simp only at hd; rw [hq] at hd; cases hd; try rfl)
  · intro m hm file ds hd
    unfold push at hm
    cases hq : find p <;> simp only [hq] at hm <;> exact h.modules m hm file ds hd

theorem push_whole {find : P → FileResult P F} {p : P} {s : State P F} (h : Whole find s) : Whole find (push find p s) := by
  have hm : (push find p s).modules = s.modules := by unfold push; split <;> rfl
  refine ⟨?_, ?_⟩
  · intro f hf file ds hd
    rw [hm]
    unfold push at hf
    cases hq : find p <;> simp only [hq, List.mem_cons] at hf <;> rcases hf with rfl | hf
    all_goals first
      | exact h.frames f hf file ds hd
      | (simp only at hd; rw [hq] at hd; cases hd; done)
      | simp
  · rw [hm]
    exact h.modules

theorem step_seen {find : P → FileResult P F} {root : P} {s s' : State P F} (hi : Inv find root s) (hn : Seen find s) (h : step find s = some s') :
    Seen find s' ∧ ((∀ p, Needs find root p → ¬ Needs1 find p p) → Whole find s → Whole find s') := by
  obtain ⟨modules, stack, err, bd⟩ := s
  unfold step at h
  cases stack with
  | nil => cases h
  | cons top tail =>
    simp only at h
    have htop := hi.frames top (by simp)
    by_cases hlt : top.depsLoaded < top.deps.length
    · rw [dif_pos hlt] at h
      have hparsed := htop.parsed hlt
      obtain ⟨file, hfile⟩ := htop.ok hparsed
      have hdep : Dep find top.path (top.deps[top.depsLoaded]) := ⟨file, top.deps, hfile, List.getElem_mem hlt⟩
      split at h
      · rename_i hin
        rw [mem_any_modules] at hin
        cases h
        refine ⟨⟨by simpa [paths] using hn.files, ?_, hn.modules⟩, fun _ hw => ⟨?_, hw.modules⟩⟩
        · intro f hf
          simp only [List.mem_cons] at hf
          rcases hf with rfl | hf
          · exact hn.frames top (by simp)
          · exact hn.frames f (by simp [hf])
        · intro f hf
          simp only [List.mem_cons] at hf
          rcases hf with rfl | hf
          · intro fl ds hd d hd'
            simp only at hd'
            rw [List.take_add_one, List.mem_append] at hd'
            rcases hd' with hd' | hd'
            · exact hw.frames top (by simp) fl ds hd d hd'
            · rw [List.getElem?_eq_getElem hlt] at hd'
              simp at hd'
              subst hd'
              exact hin
          · exact hw.frames f (by simp [hf])
      · split at h
        · rename_i hin
          rw [mem_any_frames] at hin
          cases h
          refine ⟨⟨by simpa [paths] using hn.files, ?_, hn.modules⟩, fun hc _ => ?_⟩
          · intro f hf
            simp only [List.mem_cons] at hf
            rcases hf with rfl | hf
            · exact hn.frames top (by simp)
            · exact hn.frames f (by simp [hf])
          · obtain ⟨f, hf, hfp⟩ := List.mem_map.mp hin
            have h1 := (hi.chained.needs f hf).snoc1 hdep
            rw [← hfp] at h1
            exact absurd h1 (hc f.path (hi.frames f hf).needs)
        · cases h
          exact ⟨push_seen hn, fun _ hw => push_whole hw⟩
    · rw [dif_neg hlt] at h
      cases h
      have hperm : (paths ⟨modules, top :: tail, err, bd⟩ : List P).Perm (paths ⟨modules ++ [⟨top.path, top.deps, top.parsed⟩], tail, err, bd⟩) := by
        simp only [paths, List.map_append, List.map_cons, List.map_nil, List.cons_append]
        rw [← List.append_assoc]
        exact List.Perm.symm (List.perm_append_comm.trans (List.Perm.refl _))
      have htake : top.deps.take top.depsLoaded = top.deps := List.take_of_length_le (by omega)
      refine ⟨⟨hn.files.trans (hperm.filterMap _), fun f hf => hn.frames f (by simp [hf]), ?_⟩, fun _ hw => ⟨?_, ?_⟩⟩
      · intro m hm
        simp only [List.mem_append, List.mem_singleton] at hm
        rcases hm with hm | rfl
        · exact hn.modules m hm
        · exact hn.frames top (by simp)
      · intro f hf fl ds hd d hd'
        have := hw.frames f (by simp [hf]) fl ds hd d hd'
        simp only [List.map_append, List.mem_append]
        exact .inl this
      · intro m hm fl ds hd d hd'
        simp only [List.map_append, List.mem_append]
        simp only [List.mem_append, List.mem_singleton] at hm
        rcases hm with hm | rfl
        · exact .inl (hw.modules m hm fl ds hd d hd')
        · exact .inl (hw.frames top (by simp) fl ds hd d (by rw [htake]; exact hd'))

theorem loop_seen {find : P → FileResult P F} {root : P} : ∀ {n : Nat} {s s' : State P F}, Inv find root s → Seen find s → loop find n s = some s' →
    Seen find s' ∧ ((∀ p, Needs find root p → ¬ Needs1 find p p) → Whole find s → Whole find s')
  | 0, _, _, _, _, h => by cases h
  | n + 1, s, s', hi, hn, h => by
    simp only [loop] at h
    cases hs : step find s with
    | none => rw [hs] at h; cases h; exact ⟨hn, fun _ hw => hw⟩
    | some s1 =>
      rw [hs] at h
      obtain ⟨h1, h2⟩ := step_seen hi hn hs
      obtain ⟨h3, h4⟩ := loop_seen (step_inv hi hs).1 h1 h
      exact ⟨h3, fun hc hw => h4 hc (h2 hc hw)⟩

/-- The build dependencies of any load: the files of a list of needed modules, each listed once for each module; and of all the modules that are needed, unless one of them needs itself. -/
theorem buildDeps_any {find : P → FileResult P F} {root : P} {r : Result P F} (h : Loads find root r) :
    ∃ ps : List P, ps.Nodup ∧ (∀ p ∈ ps, Needs find root p) ∧ root ∈ ps ∧ r.buildDeps.Perm (ps.filterMap (found find)) ∧
      ((∀ p, Needs find root p → ¬ Needs1 find p p) → ∀ p, Needs find root p → p ∈ ps) := by
  obtain ⟨fuel, h⟩ := h
  unfold load at h
  cases hf : find root with
  | missing =>
    rw [hf] at h
    cases h
    refine ⟨[root], by simp, by simp; exact .refl, by simp, by simp [found, hf], fun _ p hp => ?_⟩
    have : p = root := by
      induction hp with
      | refl => rfl
      | step _ hd ih =>
        subst ih
        obtain ⟨_, _, hd, _⟩ := hd
        rw [hf] at hd
        cases hd
    simp [this]
  | _ =>
    rw [hf] at h
    simp only at h
    cases hl : loop find fuel (push find root ⟨[], [], false, []⟩) with
    | none => rw [hl] at h; cases h
    | some s =>
      rw [hl] at h
      cases h
      have hi0 := init_inv find root
      have hn0 : Seen find (push find root ⟨[], [], false, []⟩) := push_seen ⟨by simp [paths], by simp, by simp⟩
      have hw0 : Whole find (push find root ⟨[], [], false, []⟩) := push_whole ⟨by simp, by simp⟩
      obtain ⟨hi, hst⟩ := loop_inv hi0 hl
      obtain ⟨hn, hw⟩ := loop_seen hi0 hn0 hl
      have hpaths : paths s = s.modules.map Module.path := by simp [paths, hst]
      have hroot : root ∈ s.modules.map Module.path := List.mem_of_getLast? (hi.last hst)
      refine ⟨s.modules.map Module.path, hpaths ▸ hi.nodup, ?_, hroot, hpaths ▸ hn.files, fun hc p hp => ?_⟩
      · intro p hp
        obtain ⟨m, hm, rfl⟩ := List.mem_map.mp hp
        exact hi.needs m hm
      · induction hp with
        | refl => exact hroot
        | step _ hd ih =>
          obtain ⟨m, hm, rfl⟩ := List.mem_map.mp ih
          obtain ⟨f, ds, hd1, hd2⟩ := hd
          have := hn.modules m hm f ds hd1
          subst this
          exact (hw hc hw0).modules m hm f _ hd1 _ hd2

end Verif.Load
