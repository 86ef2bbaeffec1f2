import Verif.Load.Spec
set_option linter.unusedSectionVars false
namespace Verif.Load
variable {P F : Type} [DecidableEq P]

theorem Needs1.toNeeds {find : P → FileResult P F} {p q : P} (h : Needs1 find p q) : Needs find p q := by
  induction h with
  | one h => exact .step .refl h
  | step _ h ih => exact .step ih h

theorem Needs.trans {find : P → FileResult P F} {p q r : P} (h1 : Needs find p q)
    (h2 : Needs find q r) : Needs find p r := by
  induction h2 with
  | refl => exact h1
  | step _ h ih => exact .step ih h

theorem Needs.snoc1 {find : P → FileResult P F} {p q r : P} (h1 : Needs find p q)
    (h2 : Dep find q r) : Needs1 find p r := by
  induction h1 generalizing r with
  | refl => exact .one h2
  | step _ h ih => exact .step (ih h) h2

/-- Consecutive stack frames: each was pushed as a dependency of the one below; the bottom one
is the main module. -/
def Chained (find : P → FileResult P F) (root : P) : List (Frame P) → Prop
  | [] => True
  | [f] => f.path = root
  | g :: f :: rest => Dep find f.path g.path ∧ Chained find root (f :: rest)

theorem Chained.needs {find : P → FileResult P F} {root : P} : ∀ {g : Frame P} {rest : List (Frame P)},
    Chained find root (g :: rest) → ∀ f ∈ g :: rest, Needs find f.path g.path
  | g, [], _, f, hf => by simp at hf; subst hf; exact .refl
  | g, f' :: rest, h, f, hf => by
    simp only [List.mem_cons] at hf
    rcases hf with rfl | hf
    · exact .refl
    · exact .step (Chained.needs h.2 f (by simpa using hf)) h.1

/-- Deps occur earlier in the list. -/
def Closed (ms : List (Module P)) : Prop :=
  ∀ pre m post, ms = pre ++ m :: post → ∀ d ∈ m.deps, d ∈ pre.map Module.path

def fileOf (find : P → FileResult P F) (p : P) : Option F :=
  match find p with
  | .ok f _ => some f
  | _ => none

def paths (s : State P F) : List P := s.stack.map Frame.path ++ s.modules.map Module.path

structure FrameOk (find : P → FileResult P F) (root : P) (f : Frame P) : Prop where
  le : f.depsLoaded ≤ f.deps.length
  needs : Needs find root f.path
  parsed : f.depsLoaded < f.deps.length → f.parsed = true
  ok : f.parsed = true → ∃ file, find f.path = .ok file f.deps

structure NoError (find : P → FileResult P F) (s : State P F) : Prop where
  frames : ∀ f ∈ s.stack, f.parsed = true ∧ ∀ d ∈ f.deps.take f.depsLoaded, d ∈ s.modules.map Module.path
  modules : ∀ m ∈ s.modules, m.parsed = true ∧ ∃ file, find m.path = .ok file m.deps
  closed : Closed s.modules
  files : (s.buildDeps.map some).Perm ((paths s).map (fileOf find))

structure Inv (find : P → FileResult P F) (root : P) (s : State P F) : Prop where
  nodup : (paths s).Nodup
  frames : ∀ f ∈ s.stack, FrameOk find root f
  chained : Chained find root s.stack
  needs : ∀ m ∈ s.modules, Needs find root m.path
  last : s.stack = [] → (s.modules.map Module.path).getLast? = some root
  noError : s.error = false → NoError find s
  error : s.error = true → Broken find root

theorem Closed.snoc {ms : List (Module P)} {m : Module P} (h : Closed ms)
    (hm : ∀ d ∈ m.deps, d ∈ ms.map Module.path) : Closed (ms ++ [m]) := by
  intro pre m' post he d hd
  rcases List.eq_nil_or_concat post with rfl | ⟨post', x, rfl⟩
  · obtain ⟨rfl, h2⟩ := List.append_inj' he rfl
    simp at h2; subst h2; exact hm d hd
  · have : ms ++ [m] = (pre ++ m' :: post') ++ [x] := by simp [he]
    obtain ⟨h1, _⟩ := List.append_inj' this rfl
    exact h pre m' post' h1 d hd

theorem push_inv {find : P → FileResult P F} {root p : P} {s : State P F}
    (hn : p ∉ paths s) (hneeds : Needs find root p)
    (hchain : ∀ f ∈ s.stack.head?, Dep find f.path p) (hroot : s.stack = [] → p = root)
    (hnodup : (paths s).Nodup) (hframes : ∀ f ∈ s.stack, FrameOk find root f)
    (hch : Chained find root s.stack) (hmod : ∀ m ∈ s.modules, Needs find root m.path)
    (hne : s.error = false → NoError find s) (he : s.error = true → Broken find root) :
    Inv find root (push find p s) := by
  have hchained : ∀ f : Frame P, f.path = p → Chained find root (f :: s.stack) := by
    intro f hf
    cases hst : s.stack with
    | nil => exact hf.trans (hroot hst)
    | cons g rest =>
      rw [hst] at hch
      exact ⟨hf ▸ hchain g (by simp [hst]), hch⟩
  have hnd : (p :: paths s).Nodup := List.nodup_cons.mpr ⟨hn, hnodup⟩
  unfold push
  split
  · rename_i hfind
    refine ⟨by simpa [paths] using hnd, ?_, hchained _ rfl, hmod, by simp, by simp, fun _ => ?_⟩
    · intro f hf
      simp only [List.mem_cons] at hf
      rcases hf with rfl | hf
      · exact ⟨by simp, hneeds, by simp, by simp⟩
      · exact hframes f hf
    · exact ⟨p, hneeds, .inl (by rintro ⟨f, ds, h⟩; rw [hfind] at h; cases h)⟩
  · rename_i file deps hfind
    refine ⟨by simpa [paths] using hnd, ?_, hchained _ rfl, hmod, by simp, by simp, fun _ => ?_⟩
    · intro f hf
      simp only [List.mem_cons] at hf
      rcases hf with rfl | hf
      · exact ⟨by simp, hneeds, by simp, by simp⟩
      · exact hframes f hf
    · exact ⟨p, hneeds, .inl (by rintro ⟨f, ds, h⟩; rw [hfind] at h; cases h)⟩
  · rename_i file deps hfind
    refine ⟨by simpa [paths] using hnd, ?_, hchained _ rfl, hmod, by simp, fun h => ?_, he⟩
    · intro f hf
      simp only [List.mem_cons] at hf
      rcases hf with rfl | hf
      · exact ⟨by simp, hneeds, by simp, fun _ => ⟨file, hfind⟩⟩
      · exact hframes f hf
    · have hne := hne h
      refine ⟨?_, hne.modules, hne.closed, ?_⟩
      · intro f hf
        simp only [List.mem_cons] at hf
        rcases hf with rfl | hf
        · simp
        · exact hne.frames f hf
      · simp only [paths, List.map_cons, List.map_append, List.map_nil, List.cons_append]
        have hf : fileOf find p = some file := by simp [fileOf, hfind]
        rw [hf]
        have := hne.files
        simp only [paths, List.map_append] at this
        exact (List.perm_append_comm).trans (List.Perm.cons _ this)

theorem mem_any_modules {ms : List (Module P)} {p : P} :
    ms.any (fun m => p = m.path) = true ↔ p ∈ ms.map Module.path := by
  simp only [List.any_eq_true, decide_eq_true_eq, List.mem_map]
  exact ⟨fun ⟨m, h1, h2⟩ => ⟨m, h1, h2.symm⟩, fun ⟨m, h1, h2⟩ => ⟨m, h1, h2.symm⟩⟩

theorem mem_any_frames {fs : List (Frame P)} {p : P} :
    fs.any (fun m => p = m.path) = true ↔ p ∈ fs.map Frame.path := by
  simp only [List.any_eq_true, decide_eq_true_eq, List.mem_map]
  exact ⟨fun ⟨m, h1, h2⟩ => ⟨m, h1, h2.symm⟩, fun ⟨m, h1, h2⟩ => ⟨m, h1, h2.symm⟩⟩

theorem Chained.tail {find : P → FileResult P F} {root : P} {f : Frame P} {rest : List (Frame P)}
    (h : Chained find root (f :: rest)) : Chained find root rest := by
  cases rest with
  | nil => trivial
  | cons g rest => exact h.2

theorem Chained.replace {find : P → FileResult P F} {root : P} {f g : Frame P} {rest : List (Frame P)}
    (h : Chained find root (f :: rest)) (hp : g.path = f.path) : Chained find root (g :: rest) := by
  cases rest with
  | nil => exact hp.trans h
  | cons x rest => exact ⟨hp ▸ h.1, h.2⟩

/-- What one iteration does, in terms of the measures. -/
inductive Progress (s s' : State P F) (find : P → FileResult P F) (root : P) : Prop where
  | pushed (p : P) : p ∉ paths s → Needs find root p → paths s' = p :: paths s → Progress s s' find root
  | other : (∀ p, p ∈ paths s' ↔ p ∈ paths s) →
      (s'.stack.map (fun f => f.deps.length - f.depsLoaded + 1)).sum <
      (s.stack.map (fun f => f.deps.length - f.depsLoaded + 1)).sum → Progress s s' find root

theorem push_paths (find : P → FileResult P F) (p : P) (s : State P F) :
    paths (push find p s) = p :: paths s := by
  unfold push paths; split <;> simp

theorem step_inv {find : P → FileResult P F} {root : P} {s s' : State P F} (hi : Inv find root s)
    (h : step find s = some s') : Inv find root s' ∧ Progress s s' find root := by
  obtain ⟨modules, stack, err, bd⟩ := s
  unfold step at h
  cases stack with
  | nil => cases h
  | cons top tail =>
    simp only at h
    have htop := hi.frames top (by simp)
    have hnd := hi.nodup
    simp only [paths, List.map_cons] at hnd
    by_cases hlt : top.depsLoaded < top.deps.length
    · rw [dif_pos hlt] at h
      have hparsed := htop.parsed hlt
      obtain ⟨file, hfile⟩ := htop.ok hparsed
      have hdep : Dep find top.path (top.deps[top.depsLoaded]) :=
        ⟨file, top.deps, hfile, List.getElem_mem hlt⟩
      split at h
      · rename_i hin
        rw [mem_any_modules] at hin
        cases h
        refine ⟨⟨by simpa [paths] using hnd, ?_, hi.chained.replace rfl, hi.needs, by simp, ?_, hi.error⟩, ?_⟩
        · intro f hf
          simp only [List.mem_cons] at hf
          rcases hf with rfl | hf
          · exact ⟨hlt, htop.needs, fun _ => hparsed, htop.ok⟩
          · exact hi.frames f (by simp [hf])
        · intro he
          have hne := hi.noError he
          refine ⟨?_, hne.modules, hne.closed, by simpa [paths] using hne.files⟩
          intro f hf
          simp only [List.mem_cons] at hf
          rcases hf with rfl | hf
          · refine ⟨hparsed, fun d hd => ?_⟩
            simp only at hd
            rw [List.take_add_one, List.mem_append] at hd
            rcases hd with hd | hd
            · exact (hne.frames top (by simp)).2 d hd
            · rw [List.getElem?_eq_getElem hlt] at hd
              simp at hd; subst hd; exact hin
          · exact hne.frames f (by simp [hf])
        · exact .other (by simp [paths]) (by simp; omega)
      · rename_i hnin
        rw [mem_any_modules] at hnin
        split at h
        · rename_i hin
          rw [mem_any_frames] at hin
          cases h
          refine ⟨⟨by simpa [paths] using hnd, ?_, hi.chained.replace rfl, hi.needs, by simp, by simp, fun _ => ?_⟩, ?_⟩
          · intro f hf
            simp only [List.mem_cons] at hf
            rcases hf with rfl | hf
            · exact ⟨Nat.le_refl _, htop.needs, by simp, htop.ok⟩
            · exact hi.frames f (by simp [hf])
          · obtain ⟨f, hf, hfp⟩ := List.mem_map.mp hin
            have h1 := hi.chained.needs f hf
            refine ⟨f.path, (hi.frames f hf).needs, .inr ?_⟩
            have := h1.snoc1 hdep
            rw [← hfp] at this; exact this
          · exact .other (by simp [paths]) (by simp; omega)
        · rename_i hnin2
          rw [mem_any_frames] at hnin2
          cases h
          have hnp : top.deps[top.depsLoaded] ∉ paths ⟨modules, top :: tail, err, bd⟩ := by
            simp only [paths, List.mem_append, not_or]; exact ⟨hnin2, hnin⟩
          refine ⟨push_inv hnp (.step htop.needs hdep) ?_ (by simp) hi.nodup hi.frames hi.chained
            hi.needs hi.noError hi.error, .pushed _ hnp (.step htop.needs hdep) (push_paths _ _ _)⟩
          intro f hf
          simp at hf; subst hf; exact hdep
    · rw [dif_neg hlt] at h
      cases h
      have hperm : (paths ⟨modules ++ [⟨top.path, top.deps, top.parsed⟩], tail, err, bd⟩ : List P).Perm
          (paths ⟨modules, top :: tail, err, bd⟩) := by
        simp only [paths, List.map_append, List.map_cons, List.map_nil, List.cons_append]
        rw [← List.append_assoc]
        exact List.perm_append_comm.trans (List.Perm.refl _)
      refine ⟨⟨hperm.nodup_iff.mpr hi.nodup, fun f hf => hi.frames f (by simp at hf ⊢; exact .inr hf),
        hi.chained.tail, ?_, ?_, ?_, hi.error⟩, ?_⟩
      · intro m hm
        simp only [List.mem_append, List.mem_singleton] at hm
        rcases hm with hm | rfl
        · exact hi.needs m hm
        · exact htop.needs
      · intro ht
        simp only at ht
        subst ht
        have : top.path = root := hi.chained
        simp [this]
      · intro he
        have hne := hi.noError he
        have htf := hne.frames top (by simp)
        have htake : top.deps.take top.depsLoaded = top.deps := List.take_of_length_le (by omega)
        rw [htake] at htf
        refine ⟨?_, ?_, hne.closed.snoc htf.2, hne.files.trans (hperm.map _).symm⟩
        · intro f hf
          have := hne.frames f (by simp at hf ⊢; exact .inr hf)
          refine ⟨this.1, fun d hd => ?_⟩
          simp only [List.map_append, List.mem_append]
          exact .inl (this.2 d hd)
        · intro m hm
          simp only [List.mem_append, List.mem_singleton] at hm
          rcases hm with hm | rfl
          · exact hne.modules m hm
          · exact ⟨htf.1, htop.ok htf.1⟩
      · exact .other (fun p => hperm.mem_iff) (by simp)

/-- Number of elements of `u` outside `l`. -/
def outside : List P → List P → Nat
  | [], _ => 0
  | x :: u, l => (if x ∈ l then 0 else 1) + outside u l

theorem outside_le (u l : List P) (p : P) : outside u (p :: l) ≤ outside u l := by
  induction u with
  | nil => simp [outside]
  | cons x u ih =>
    simp only [outside, List.mem_cons]
    by_cases h1 : x ∈ l
    · simp only [h1, or_true, if_true]; omega
    · by_cases h2 : x = p
      · simp only [h2, true_or, if_true]; omega
      · simp only [h1, h2, or_self, if_false]; omega

theorem outside_lt {u l l' : List P} {p : P} (hu : p ∈ u) (hp : p ∉ l) (hl : l' = p :: l) :
    outside u l' < outside u l := by
  subst hl
  induction u with
  | nil => simp at hu
  | cons x u ih =>
    simp only [outside, List.mem_cons]
    by_cases h2 : x = p
    · subst h2
      have := outside_le u l x
      simp only [true_or, if_true, hp, if_false]; omega
    · have := ih (by
        simp only [List.mem_cons] at hu
        rcases hu with h | h
        · exact absurd h.symm h2
        · exact h)
      by_cases h1 : x ∈ l
      · simp only [h1, or_true, if_true]; omega
      · simp only [h1, h2, or_self, if_false]; omega

theorem outside_congr {u l l' : List P} (h : ∀ p, p ∈ l' ↔ p ∈ l) : outside u l' = outside u l := by
  induction u with
  | nil => rfl
  | cons x u ih => simp [outside, h x, ih]

theorem loop_terminates {find : P → FileResult P F} {root : P} {univ : List P}
    (hu : ∀ p, Needs find root p → p ∈ univ) : ∀ (n1 n2 : Nat) (s : State P F), Inv find root s →
    outside univ (paths s) = n1 → (s.stack.map (fun f => f.deps.length - f.depsLoaded + 1)).sum = n2 →
    ∃ fuel s', loop find fuel s = some s' ∧ Inv find root s' ∧ s'.stack = [] := by
  intro n1
  induction n1 using Nat.strongRecOn with
  | _ n1 ih1 =>
  intro n2
  induction n2 using Nat.strongRecOn with
  | _ n2 ih2 =>
  intro s hi h1 h2
  cases hst : step find s with
  | none =>
    refine ⟨1, s, by simp [loop, hst], hi, ?_⟩
    unfold step at hst
    cases hs : s.stack with
    | nil => rfl
    | cons top tail =>
      rw [hs] at hst
      simp only at hst
      split at hst
      · split at hst
        · cases hst
        · split at hst <;> cases hst
      · cases hst
  | some s' =>
    obtain ⟨hi', hp⟩ := step_inv hi hst
    have : ∃ fuel s'', loop find fuel s' = some s'' ∧ Inv find root s'' ∧ s''.stack = [] := by
      cases hp with
      | pushed p h3 h4 h5 =>
        have := outside_lt (hu p h4) h3 h5
        exact ih1 _ (h1 ▸ this) _ s' hi' rfl rfl
      | other h3 h4 =>
        exact ih2 _ (h2 ▸ h4) s' hi' ((outside_congr h3).trans h1) rfl
    obtain ⟨fuel, s'', h6, h7, h8⟩ := this
    exact ⟨fuel + 1, s'', by simp [loop, hst, h6], h7, h8⟩

theorem loop_mono {find : P → FileResult P F} : ∀ {n m : Nat} {s r r' : State P F},
    loop find n s = some r → loop find m s = some r' → r = r'
  | 0, _, s, r, r', h, _ => by simp [loop] at h
  | n + 1, 0, s, r, r', _, h => by simp [loop] at h
  | n + 1, m + 1, s, r, r', h1, h2 => by
    simp only [loop] at h1 h2
    cases hs : step find s with
    | none => rw [hs] at h1 h2; cases h1; cases h2; rfl
    | some s' => rw [hs] at h1 h2; exact loop_mono h1 h2

theorem init_inv (find : P → FileResult P F) (root : P) :
    Inv find root (push find root ⟨[], [], false, []⟩) := by
  apply push_inv
  · simp [paths]
  · exact .refl
  · simp
  · simp
  · simp [paths]
  · simp
  · trivial
  · simp
  · intro _; exact ⟨by simp, by simp, by intro pre m post h; simp at h, by simp [paths]⟩
  · simp

/-- If all modules are in, there is no cycle and everything is usable. -/
theorem not_broken {find : P → FileResult P F} {root : P} {ms : List (Module P)}
    (hroot : root ∈ ms.map Module.path) (hcl : Closed ms) (hnd : (ms.map Module.path).Nodup)
    (hok : ∀ m ∈ ms, ∃ file, find m.path = .ok file m.deps) : ¬ Broken find root := by
  have hdep : ∀ i (hi : i < ms.length) q, Dep find (ms[i]).path q →
      ∃ j, ∃ (hj : j < ms.length), j < i ∧ (ms[j]).path = q := by
    intro i hi q hq
    obtain ⟨f, ds, h1, h2⟩ := hq
    obtain ⟨file, h3⟩ := hok _ (List.getElem_mem hi)
    rw [h1] at h3; cases h3
    have he : ms = ms.take i ++ ms[i] :: ms.drop (i + 1) := by simp
    have := hcl _ _ _ he q h2
    rw [List.mem_map] at this
    obtain ⟨m, hm, rfl⟩ := this
    obtain ⟨j, hj, rfl⟩ := List.mem_iff_getElem.mp hm
    simp only [List.length_take] at hj
    exact ⟨j, by omega, by omega, by simp⟩
  have hneeds : ∀ p, Needs find root p → ∃ i, ∃ (hi : i < ms.length), (ms[i]).path = p := by
    intro p hp
    induction hp with
    | refl =>
      obtain ⟨m, hm, h⟩ := List.mem_map.mp hroot
      obtain ⟨i, hi, rfl⟩ := List.mem_iff_getElem.mp hm
      exact ⟨i, hi, h⟩
    | step _ hd ih =>
      obtain ⟨i, hi, h⟩ := ih
      obtain ⟨j, hj, _, h2⟩ := hdep i hi _ (h ▸ hd)
      exact ⟨j, hj, h2⟩
  have hcyc : ∀ i (hi : i < ms.length) q, Needs1 find (ms[i]).path q →
      ∃ j, ∃ (hj : j < ms.length), j < i ∧ (ms[j]).path = q := by
    intro i hi q hq
    induction hq with
    | one hd => exact hdep i hi _ hd
    | step _ hd ih =>
      obtain ⟨j, hj, hlt, h⟩ := ih
      obtain ⟨k, hk, hlt2, h2⟩ := hdep j hj _ (h ▸ hd)
      exact ⟨k, hk, by omega, h2⟩
  rintro ⟨p, hp, hbad⟩
  obtain ⟨i, hi, rfl⟩ := hneeds p hp
  rcases hbad with h | h
  · obtain ⟨file, h3⟩ := hok _ (List.getElem_mem hi)
    exact h ⟨_, _, h3⟩
  · obtain ⟨j, hj, hlt, h2⟩ := hcyc i hi _ h
    have := (List.pairwise_iff_getElem.mp hnd) j i (by simpa using hj) (by simpa using hi) hlt
    simp at this
    exact this h2

end Verif.Load
