import Verif.Load.Lemmas
/-
Property theorems C26, C27, C28 (and the exactness of build deps).
`Loads find root r`: FbleLoad returns `r`.  `Needs`, `Broken`, `FiniteFrom`: Spec.lean.
-/
set_option linter.unusedSectionVars false
namespace Verif.Load
variable {P F : Type} [DecidableEq P]

/-- What a successful load returned, from the invariant of the loop. -/
theorem loads_cases {find : P → FileResult P F} {root : P} {r : Result P F}
    (h : Loads find root r) :
    (r.modules = none ∧ (find root = .missing ∨
      ∃ n s, loop find n (push find root ⟨[], [], false, []⟩) = some s ∧ s.error = true)) ∨
    (∃ n s, find root ≠ .missing ∧ loop find n (push find root ⟨[], [], false, []⟩) = some s ∧
      s.error = false ∧ r.modules = some s.modules ∧ r.buildDeps = s.buildDeps) := by
  obtain ⟨fuel, h⟩ := h
  unfold load at h
  split at h
  · rename_i hm
    cases h; exact .inl ⟨rfl, .inl hm⟩
  · rename_i hm
    split at h
    · cases h
    · rename_i s hs
      cases h
      cases he : s.error with
      | true => exact .inl ⟨by simp, .inr ⟨fuel, s, hs, he⟩⟩
      | false => exact .inr ⟨fuel, s, hm, hs, he, by simp, rfl⟩

theorem loop_inv {find : P → FileResult P F} {root : P} : ∀ {n : Nat} {s s' : State P F},
    Inv find root s → loop find n s = some s' → Inv find root s' ∧ s'.stack = []
  | 0, s, s', _, h => by simp [loop] at h
  | n + 1, s, s', hi, h => by
    simp only [loop] at h
    cases hs : step find s with
    | none =>
      rw [hs] at h; cases h
      refine ⟨hi, ?_⟩
      unfold step at hs
      cases hst : s.stack with
      | nil => rfl
      | cons top tail =>
        rw [hst] at hs; simp only at hs
        split at hs
        · split at hs
          · cases hs
          · split at hs <;> cases hs
        · cases hs
    | some s1 => rw [hs] at h; exact loop_inv (step_inv hi hs).1 h

/-- C26. A successfully loaded program: the requested module is last; no module occurs twice;
every module was found and parsed with exactly its dependencies; each dependency occurs earlier;
and the modules are exactly those needed by the requested one. -/
theorem C26_load_ok {find : P → FileResult P F} {root : P} {r : Result P F} {ms : List (Module P)}
    (h : Loads find root r) (hr : r.modules = some ms) :
    (ms.map Module.path).getLast? = some root ∧
    (ms.map Module.path).Nodup ∧
    (∀ m ∈ ms, ∃ file, find m.path = .ok file m.deps) ∧
    (∀ pre m post, ms = pre ++ m :: post → ∀ d ∈ m.deps, d ∈ pre.map Module.path) ∧
    (∀ p, p ∈ ms.map Module.path ↔ Needs find root p) := by
  rcases loads_cases h with ⟨h1, _⟩ | ⟨n, s, _, hl, he, hm, _⟩
  · rw [h1] at hr; cases hr
  · rw [hm] at hr; cases hr
    obtain ⟨hi, hst⟩ := loop_inv (init_inv find root) hl
    have hne := hi.noError he
    have hlast := hi.last hst
    have hnd := hi.nodup
    rw [paths, hst, List.map_nil, List.nil_append] at hnd
    refine ⟨hlast, hnd, fun m hm => (hne.modules m hm).2, hne.closed, fun p => ⟨?_, fun hp => ?_⟩⟩
    · intro hp
      obtain ⟨m, hm, rfl⟩ := List.mem_map.mp hp
      exact hi.needs m hm
    · induction hp with
      | refl => exact List.mem_of_getLast? hlast
      | step _ hd ih =>
        obtain ⟨m, hm, rfl⟩ := List.mem_map.mp ih
        obtain ⟨f, ds, h1, h2⟩ := hd
        obtain ⟨f', h3⟩ := (hne.modules m hm).2
        rw [h1] at h3; cases h3
        obtain ⟨pre, post, heq⟩ := List.append_of_mem hm
        have h4 := hne.closed pre m post heq _ h2
        rw [heq, List.map_append, List.mem_append]; exact .inl h4

/-- C26 (build deps). After a successful load, the recorded build dependencies are exactly the
source files of the loaded modules, each once per module. -/
theorem C26_build_deps {find : P → FileResult P F} {root : P} {r : Result P F} {ms : List (Module P)}
    (h : Loads find root r) (hr : r.modules = some ms) :
    (r.buildDeps.map some).Perm (ms.map (fun m => fileOf find m.path)) := by
  rcases loads_cases h with ⟨h1, _⟩ | ⟨n, s, _, hl, he, hm, hb⟩
  · rw [h1] at hr; cases hr
  · rw [hm] at hr; cases hr
    obtain ⟨hi, hst⟩ := loop_inv (init_inv find root) hl
    have := (hi.noError he).files
    rw [paths, hst, List.map_nil, List.nil_append, List.map_map] at this
    rw [hb]; exact this

/-- C27. If only finitely many modules are involved, FbleLoad terminates, with exactly one
result, and returns NULL exactly if some needed module is missing, does not parse, or lies on a
dependency cycle. -/
theorem C27_load_decides {find : P → FileResult P F} {root : P} (hfin : FiniteFrom find root) :
    ∃ r, Loads find root r ∧ (∀ r', Loads find root r' → r' = r) ∧
      (r.modules = none ↔ Broken find root) := by
  by_cases hmiss : find root = .missing
  · refine ⟨⟨none, []⟩, ⟨0, by simp [load, hmiss]⟩, ?_, ?_⟩
    · rintro r' ⟨n, h⟩; simp [load, hmiss] at h; exact h.symm
    · simp only [true_iff]
      exact ⟨root, .refl, .inl (by rintro ⟨f, ds, h⟩; rw [hmiss] at h; cases h)⟩
  · obtain ⟨univ, hu⟩ := hfin
    obtain ⟨n, s, hl, hi, hst⟩ := loop_terminates hu _ _ _ (init_inv find root) rfl rfl
    have hload : ∀ m s', loop find m (push find root ⟨[], [], false, []⟩) = some s' →
        load find root m = some ⟨if s'.error then none else some s'.modules, s'.buildDeps⟩ := by
      intro m s' hm
      unfold load
      split
      · exact absurd (by assumption) hmiss
      · rw [hm]
    refine ⟨_, ⟨n, hload n s hl⟩, ?_, ?_⟩
    · rintro r' ⟨m, h⟩
      unfold load at h
      split at h
      · exact absurd (by assumption) hmiss
      · split at h
        · cases h
        · rename_i s' hs'
          rw [loop_mono hl hs']; simpa using h.symm
    · cases he : s.error with
      | true => simp only [if_true, true_iff]; exact hi.error he
      | false =>
        simp only [Bool.false_eq_true, if_false, false_iff, reduceCtorEq]
        have hne := hi.noError he
        have hnd := hi.nodup
        rw [paths, hst, List.map_nil, List.nil_append] at hnd
        exact not_broken (List.mem_of_getLast? (hi.last hst)) hne.closed hnd
          (fun m hm => (hne.modules m hm).2)

/-- A concrete diamond of modules (4 needs 2 and 3, which need 1) loads; with 1 needing 4 it does
not. -/
def diamond (cyclic : Bool) : Nat → FileResult Nat Nat
  | 1 => .ok 1 (if cyclic then [4] else [])
  | 2 => .ok 2 [1]
  | 3 => .ok 3 [1, 2]
  | 4 => .ok 4 [2, 3]
  | _ => .missing

example : (load (diamond false) 4 100).map (fun r => r.modules.map (·.map Module.path)) =
    some (some [1, 2, 3, 4]) := by decide
example : (load (diamond true) 4 100).map (fun r => r.modules.isNone) = some true := by decide
example : FiniteFrom (diamond true) 4 := by
  refine ⟨[1, 2, 3, 4], fun p hp => ?_⟩
  induction hp with
  | refl => simp
  | step _ hd ih =>
    obtain ⟨f, ds, h1, h2⟩ := hd
    simp only [List.mem_cons, List.not_mem_nil, or_false] at ih
    rcases ih with rfl | rfl | rfl | rfl <;> simp [diamond] at h1 <;> obtain ⟨_, rfl⟩ := h1 <;> simp at h2 ⊢ <;> omega

/-! ### C28 -/

/-- What linking is given: a dependency ordered list without duplicates (C26). -/
structure Linkable (ms : List (P × List P)) : Prop where
  nodup : (ms.map Prod.fst).Nodup
  closed : ∀ pre m post, ms = pre ++ m :: post → ∀ d ∈ m.2, d ∈ pre.map Prod.fst

theorem findIndex_spec {paths : List P} {d : P} (h : d ∈ paths) :
    ∃ i, findIndex paths d = some i ∧ ∃ hi : i < paths.length, paths[i] = d := by
  unfold findIndex
  cases hf : paths.findIdx? (fun p => d = p) with
  | none =>
    rw [List.findIdx?_eq_none_iff] at hf
    have := hf d h; simp at this
  | some i =>
    rw [List.findIdx?_eq_some_iff_getElem] at hf
    obtain ⟨hi, h1, _⟩ := hf
    exact ⟨i, rfl, hi, by simpa using (by simpa using h1 : d = paths[i]).symm⟩

theorem linkArgs_spec {earlier : List P} : ∀ {deps : List P}, (∀ d ∈ deps, d ∈ earlier) →
    (linkArgs earlier deps).map (earlier[·]?) = deps.map some
  | [], _ => rfl
  | d :: ds, h => by
    obtain ⟨i, h1, hi, h2⟩ := findIndex_spec (h d (by simp))
    have ih := linkArgs_spec (deps := ds) (fun x hx => h x (by simp [hx]))
    simp only [linkArgs] at ih
    simp only [linkArgs, List.filterMap_cons, h1, List.map_cons]
    rw [ih, List.getElem?_eq_getElem hi, h2]

/-- The values computed for the modules: `vals[i]` is what module `i`'s function returned when
given, for each of its dependencies in order, the value of the module with that path. -/
def Evaluates {V : Type} (func : Nat → List V → Option V) (ms : List (P × List P)) (vals : List V) : Prop :=
  vals.length = ms.length ∧ ∀ i (hi : i < ms.length), ∃ args : List V,
    func i args = vals[i]? ∧ args.length = (ms[i]).2.length ∧
    ∀ k (hk : k < (ms[i]).2.length), ∃ v, ∃ (hv : v < i),
      (ms[v]'(by omega)).1 = (ms[i]).2[k] ∧ args[k]? = vals[v]?

theorem mapM_some_of {α β : Type} {f : α → Option β} : ∀ {l : List α} {r : List β},
    l.map f = r.map some → l.mapM f = some r
  | [], [], _ => by simp
  | [], _ :: _, h => by simp at h
  | _ :: _, [], h => by simp at h
  | x :: l, y :: r, h => by
    simp only [List.map_cons, List.cons.injEq] at h
    simp [List.mapM_cons, h.1, mapM_some_of h.2]

theorem mapM_some_iff {α β : Type} {f : α → Option β} : ∀ {l : List α} {r : List β},
    l.mapM f = some r → l.map f = r.map some
  | [], r, h => by simp at h; subst h; rfl
  | x :: l, r, h => by
    simp only [List.mapM_cons, Option.bind_eq_bind, Option.bind_eq_some_iff] at h
    obtain ⟨y, h1, ys, h2, h3⟩ := h
    simp at h3; subst h3
    simp [h1, mapM_some_iff h2]

/-- The linking loop on the modules after `pre`: succeeds, and running it extends the locals as
specified. -/
theorem link_run {V : Type} (func : Nat → List V → Option V) (all : List (P × List P))
    (hall : Linkable all) : ∀ (rest pre : List (P × List P)), all = pre ++ rest →
    ∃ cs, linkCode (pre.map Prod.fst) rest = some cs ∧
      ∀ vals : List V, vals.length = pre.length → ∀ out, runCalls func cs vals = some out →
        ∃ new, out = vals ++ new ∧ new.length = rest.length ∧
          ∀ i (hi : i < all.length), pre.length ≤ i → ∃ args : List V,
            func i args = out[i]? ∧ args.length = (all[i]).2.length ∧
            ∀ k (hk : k < (all[i]).2.length), ∃ v, ∃ (hv : v < i),
              (all[v]'(by omega)).1 = (all[i]).2[k] ∧ args[k]? = out[v]?
  | [], pre, hp => by
    refine ⟨[], rfl, fun vals hl out ho => ?_⟩
    simp [runCalls] at ho; subst ho
    refine ⟨[], by simp, rfl, fun i hi hge => ?_⟩
    subst hp; simp at hi; omega
  | (p, deps) :: rest, pre, hp => by
    have hdeps : ∀ d ∈ deps, d ∈ pre.map Prod.fst := hall.closed pre (p, deps) rest hp
    have hargs := linkArgs_spec hdeps
    have hlen : (linkArgs (pre.map Prod.fst) deps).length = deps.length := by
      simpa using congrArg List.length hargs
    obtain ⟨cs, hcs, hrun⟩ := link_run func all hall rest (pre ++ [(p, deps)]) (by simp [hp])
    rw [List.map_append] at hcs
    refine ⟨⟨pre.length, linkArgs (pre.map Prod.fst) deps⟩ :: cs, ?_, fun vals hl out ho => ?_⟩
    · simp only [linkCode, hlen, if_true, List.length_map]
      simp only [List.map_cons, List.map_nil] at hcs
      rw [hcs]
    · simp only [runCalls] at ho
      split at ho
      · cases ho
      · rename_i args hargsV
        split at ho
        · cases ho
        · rename_i v hv
          obtain ⟨new, h1, h2, h3⟩ := hrun (vals ++ [v]) (by simp [hl]) out ho
          refine ⟨v :: new, by simp [h1], by simp [h2], fun i hi hge => ?_⟩
          by_cases hi' : i = pre.length
          · subst hi'
            have hget : all[pre.length] = (p, deps) := by
              subst hp; simp
            have hov : out[pre.length]? = some v := by
              rw [h1, ← hl]; simp
            refine ⟨args, by rw [hov]; exact hv, ?_, ?_⟩
            · rw [hget]
              have := congrArg List.length (mapM_some_iff hargsV)
              simp at this; simp; omega
            · intro k hk
              simp only [hget] at hk ⊢
              -- the k-th argument index
              have hk' : k < (linkArgs (pre.map Prod.fst) deps).length := by omega
              refine ⟨(linkArgs (pre.map Prod.fst) deps)[k], ?_⟩
              have e1 := congrArg (fun l : List (Option P) => l[k]?) hargs
              simp only [List.getElem?_map, List.getElem?_eq_getElem hk', List.getElem?_eq_getElem hk,
                Option.map_some, Option.some.injEq] at e1
              have e2 : (pre.map Prod.fst)[(linkArgs (pre.map Prod.fst) deps)[k]]? = some deps[k] := by
                simpa using e1
              obtain ⟨hv', e3⟩ := List.getElem?_eq_some_iff.mp e2
              simp only [List.length_map] at hv'
              refine ⟨hv', ?_, ?_⟩
              · have : all[(linkArgs (pre.map Prod.fst) deps)[k]]? = pre[(linkArgs (pre.map Prod.fst) deps)[k]]? := by
                  rw [hp, List.getElem?_append_left hv']
                rw [List.getElem?_eq_getElem (by omega), List.getElem?_eq_getElem hv'] at this
                simp only [Option.some.injEq] at this
                rw [this]; simpa using e3
              · have e4 := congrArg (fun l : List (Option V) => l[k]?) (mapM_some_iff hargsV)
                simp only [List.getElem?_map, List.getElem?_eq_getElem hk', Option.map_some] at e4
                have hka : k < args.length := by
                  have := congrArg List.length (mapM_some_iff hargsV)
                  simp at this; omega
                rw [List.getElem?_eq_getElem hka] at e4 ⊢
                simp only [Option.map_some, Option.some.injEq] at e4
                rw [← e4, h1, List.append_assoc, List.getElem?_append_left (by omega)]
          · exact h3 i hi (by simp; omega)

/-- C28. For a loaded (dependency ordered) program the linker's assertion never fails, and if the
linked program returns a value then every module's code was called with, in order, the values
computed for the modules with the paths of its dependencies, and the result is the value of the
last (requested) module. -/
theorem C28_link {V : Type} (func : Nat → List V → Option V) {ms : List (P × List P)}
    (hl : Linkable ms) :
    (∃ cs, linkCode [] ms = some cs ∧ cs.length = ms.length) ∧
    ∀ v, runProgram func ms = some v → ∃ vals, Evaluates func ms vals ∧ vals.getLast? = some v := by
  obtain ⟨cs, h1, h2⟩ := link_run func ms hl ms [] rfl
  constructor
  · refine ⟨cs, by simpa using h1, ?_⟩
    clear h2 hl
    have : ∀ (rest : List (P × List P)) (done : List P) (cs : List Call),
        linkCode done rest = some cs → cs.length = rest.length := by
      intro rest
      induction rest with
      | nil => intro done cs h; simp [linkCode] at h; subst h; rfl
      | cons m rest ih =>
        intro done cs h
        obtain ⟨p, deps⟩ := m
        simp only [linkCode] at h
        split at h
        · split at h
          · cases h
          · rename_i cs' hcs'
            cases h; simp [ih _ _ hcs']
        · cases h
    exact this _ _ _ h1
  · intro v hv
    unfold runProgram at hv
    simp only [List.map_nil] at h1
    rw [h1] at hv
    simp only at hv
    split at hv
    · cases hv
    · rename_i out ho
      obtain ⟨new, h3, h4, h5⟩ := h2 [] rfl out ho
      simp only [List.nil_append] at h3
      subst h3
      refine ⟨out, ⟨h4, fun i hi => h5 i hi (by simp)⟩, ?_⟩
      rw [List.getLast?_eq_getElem?, h4]; exact hv

/-- If consistent values for all modules exist, the linked code computes them. -/
theorem link_complete {V : Type} (func : Nat → List V → Option V) (all : List (P × List P))
    (hall : Linkable all) (vals : List V) (hv : Evaluates func all vals) :
    ∀ (rest pre : List (P × List P)), all = pre ++ rest → ∀ cs,
      linkCode (pre.map Prod.fst) rest = some cs → runCalls func cs (vals.take pre.length) = some vals
  | [], pre, hp, cs, hcs => by
    simp [linkCode] at hcs; subst hcs
    simp only [runCalls, Option.some.injEq]
    apply List.take_of_length_le
    rw [hv.1, hp]; simp
  | (p, deps) :: rest, pre, hp, cs, hcs => by
    have hdeps : ∀ d ∈ deps, d ∈ pre.map Prod.fst := hall.closed pre (p, deps) rest hp
    have hargs := linkArgs_spec hdeps
    have hlen : (linkArgs (pre.map Prod.fst) deps).length = deps.length := by
      simpa using congrArg List.length hargs
    simp only [linkCode, hlen, if_true] at hcs
    split at hcs
    · cases hcs
    · rename_i cs' hcs'
      cases hcs
      have hi : pre.length < all.length := by rw [hp]; simp
      have hget : all[pre.length] = (p, deps) := by subst hp; simp
      obtain ⟨args, h1, h2, h3⟩ := hv.2 pre.length hi
      simp only [hget] at h2 h3
      have hmap : (linkArgs (pre.map Prod.fst) deps).mapM ((vals.take pre.length)[·]?) = some args := by
        apply mapM_some_of
        apply List.ext_getElem?
        intro k
        by_cases hk : k < deps.length
        · obtain ⟨v, hvi, h4, h5⟩ := h3 k hk
          have hk' : k < (linkArgs (pre.map Prod.fst) deps).length := by omega
          have e1 := congrArg (fun l : List (Option P) => l[k]?) hargs
          simp only [List.getElem?_map, List.getElem?_eq_getElem hk', List.getElem?_eq_getElem hk,
            Option.map_some, Option.some.injEq] at e1
          have e2 : (pre.map Prod.fst)[(linkArgs (pre.map Prod.fst) deps)[k]]? = some deps[k] := by
            simpa using e1
          obtain ⟨hv', e3⟩ := List.getElem?_eq_some_iff.mp e2
          simp only [List.length_map] at hv'
          -- paths are distinct, so the index found is v
          have hvk : (linkArgs (pre.map Prod.fst) deps)[k] = v := by
            have hnd := List.pairwise_iff_getElem.mp hall.nodup
            have e4 : (all[(linkArgs (pre.map Prod.fst) deps)[k]]'(by omega)).1 = deps[k] := by
              have : all[(linkArgs (pre.map Prod.fst) deps)[k]]? = pre[(linkArgs (pre.map Prod.fst) deps)[k]]? := by
                rw [hp, List.getElem?_append_left hv']
              rw [List.getElem?_eq_getElem (by omega), List.getElem?_eq_getElem hv'] at this
              simp only [Option.some.injEq] at this
              rw [this]; simpa using e3
            rcases Nat.lt_trichotomy ((linkArgs (pre.map Prod.fst) deps)[k]) v with hlt | heq | hlt
            · have := hnd _ v (by simp; omega) (by simp; omega) hlt
              simp at this; exact absurd (e4.trans h4.symm) this
            · exact heq
            · have := hnd v _ (by simp; omega) (by simp; omega) hlt
              simp at this; exact absurd (h4.trans e4.symm) this
          simp only [List.getElem?_map, List.getElem?_eq_getElem hk', Option.map_some, hvk]
          rw [List.getElem?_take_of_lt (by omega), ← h5, List.getElem?_eq_getElem (by omega)]; rfl
        · rw [List.getElem?_eq_none (by simp; omega), List.getElem?_eq_none (by simp; omega)]
      have hvl : pre.length < vals.length := by rw [hv.1]; exact hi
      rw [List.getElem?_eq_getElem hvl] at h1
      have ih := link_complete func all hall vals hv rest (pre ++ [(p, deps)]) (by simp [hp]) cs'
        (by simpa using hcs')
      simp only [runCalls, hmap, List.length_map, h1]
      rw [List.length_append, List.length_singleton, List.take_add_one, List.getElem?_eq_getElem hvl] at ih
      simpa using ih

/-- C28, as an equivalence. -/
theorem C28_link_iff {V : Type} (func : Nat → List V → Option V) {ms : List (P × List P)}
    (hl : Linkable ms) (v : V) :
    runProgram func ms = some v ↔ ∃ vals, Evaluates func ms vals ∧ vals.getLast? = some v := by
  constructor
  · exact (C28_link func hl).2 v
  · rintro ⟨vals, h1, h2⟩
    obtain ⟨cs, h3, _⟩ := (C28_link func hl).1
    have := link_complete func ms hl vals h1 ms [] rfl cs (by simpa using h3)
    simp only [List.length_nil, List.take_zero] at this
    simp only [runProgram, h3, this]
    rw [List.getLast?_eq_getElem?, h1.1] at h2; exact h2

example : runProgram (fun i args => some (100 * i + args.sum)) [(1, []), (2, [1]), (3, [2, 1])] = some 300 := by
  decide

/-- The program loaded by FbleLoad is linkable: C26 meets C28. -/
theorem C28_loaded_linkable {find : P → FileResult P F} {root : P} {r : Result P F}
    {ms : List (Module P)} (h : Loads find root r) (hr : r.modules = some ms) :
    ms ≠ [] ∧ Linkable (ms.map (fun m => (m.path, m.deps))) := by
  obtain ⟨h1, h2, _, h4, _⟩ := C26_load_ok h hr
  refine ⟨by rintro rfl; simp at h1, ?_, ?_⟩
  · simpa [Function.comp_def] using h2
  · intro pre m post he d hd
    rw [List.map_eq_append_iff] at he
    obtain ⟨l1, l2, rfl, rfl, he2⟩ := he
    rw [List.map_eq_cons_iff] at he2
    obtain ⟨m', l3, rfl, rfl, rfl⟩ := he2
    have := h4 l1 m' l3 rfl d hd
    simpa using this

/-! ### Generated modules -/

/-- All modules in a generated program. -/
inductive Gen.Sub : Gen P → Gen P → Prop where
  | refl {g} : Sub g g
  | dep {g d h} : d ∈ g.deps → Sub d h → Sub g h

/-- Modules with the same path are the same module (they are linked from one object file). -/
def Gen.Consistent (g : Gen P) : Prop := ∀ a b, g.Sub a → g.Sub b → a.path = b.path → a = b

/-- Invariant of the list being built. -/
structure GInv (loaded : List (Gen P)) : Prop where
  nodup : (loaded.map Gen.path).Nodup
  closed : ∀ pre m post, loaded = pre ++ m :: post → ∀ d ∈ m.deps, d.path ∈ pre.map Gen.path

theorem Gen.Sub.trans {a b c : Gen P} (h1 : a.Sub b) (h2 : b.Sub c) : a.Sub c := by
  induction h1 with
  | refl => exact h2
  | dep h _ ih => exact .dep h (ih h2)

theorem Gen.Sub.size {a b : Gen P} (h : a.Sub b) : sizeOf b ≤ sizeOf a := by
  induction h with
  | refl => omega
  | @dep g d h hd _ ih =>
    obtain ⟨p, deps⟩ := g
    have := List.sizeOf_lt_of_mem (show d ∈ deps from hd)
    simp only [Gen.mk.sizeOf_spec]; omega

mutual
theorem loadGenerated_spec (top : Gen P) (hc : top.Consistent) : ∀ (g : Gen P) (loaded : List (Gen P)),
    top.Sub g → GInv loaded → (∀ m ∈ loaded, top.Sub m) →
    GInv (loadGenerated loaded g) ∧ (∀ m ∈ loadGenerated loaded g, top.Sub m) ∧
    (∃ new, loadGenerated loaded g = loaded ++ new ∧ ∀ m ∈ new, g.Sub m) ∧
    g.path ∈ (loadGenerated loaded g).map Gen.path ∧
    (g.path ∉ loaded.map Gen.path → ∃ pre, loadGenerated loaded g = pre ++ [g])
  | .mk p deps, loaded, hs, hi, hl => by
    unfold loadGenerated
    by_cases h : loaded.any (fun m => m.path = p) = true
    · rw [if_pos h]
      have hm : p ∈ loaded.map Gen.path := by simpa using h
      exact ⟨hi, hl, ⟨[], by simp, by simp⟩, hm, fun hn => absurd hm hn⟩
    · rw [if_neg h]
      have hm : p ∉ loaded.map Gen.path := by simpa using h
      obtain ⟨h1, h2, ⟨new, h3, h4⟩, h5⟩ := loadGenerateds_spec top hc deps loaded
        (fun d hd => hs.trans (.dep hd .refl)) hi hl
      -- the module itself is not loaded while loading its dependencies
      have hnot : p ∉ (loadGenerateds loaded deps).map Gen.path := by
        intro hp
        obtain ⟨m, hmem, hmp⟩ := List.mem_map.mp hp
        rw [h3, List.mem_append] at hmem
        rcases hmem with hmem | hmem
        · exact hm (List.mem_map.mpr ⟨m, hmem, hmp⟩)
        · obtain ⟨d, hd, hsub⟩ := h4 m hmem
          have hsub' : top.Sub m := (hs.trans (.dep hd .refl)).trans hsub
          have : m = .mk p deps := hc m _ hsub' hs hmp
          subst this
          have h6 := hsub.size
          have h7 := List.sizeOf_lt_of_mem hd
          simp only [Gen.mk.sizeOf_spec] at h6; omega
      refine ⟨⟨?_, ?_⟩, ?_, ⟨new ++ [.mk p deps], by rw [h3]; simp, ?_⟩, by simp [Gen.path], fun _ => ⟨_, rfl⟩⟩
      · rw [List.map_append, List.nodup_append]
        refine ⟨h1.nodup, by simp, ?_⟩
        intro a ha b hb hab
        simp [Gen.path] at hb
        exact hnot (hb ▸ hab ▸ ha)
      · intro pre m post he d hd
        rcases List.eq_nil_or_concat post with rfl | ⟨post', x, rfl⟩
        · obtain ⟨rfl, h6⟩ := List.append_inj' he rfl
          simp at h6; subst h6
          exact h5 d hd
        · have : loadGenerateds loaded deps ++ [.mk p deps] = (pre ++ m :: post') ++ [x] := by simp [he]
          obtain ⟨h6, _⟩ := List.append_inj' this rfl
          exact h1.closed pre m post' h6 d hd
      · intro m hmem
        simp only [List.mem_append, List.mem_singleton] at hmem
        rcases hmem with hmem | rfl
        · exact h2 m hmem
        · exact hs
      · intro m hmem
        simp only [List.mem_append, List.mem_singleton] at hmem
        rcases hmem with hmem | rfl
        · obtain ⟨d, hd, hsub⟩ := h4 m hmem; exact .dep hd hsub
        · exact .refl
theorem loadGenerateds_spec (top : Gen P) (hc : top.Consistent) : ∀ (gs loaded : List (Gen P)),
    (∀ g ∈ gs, top.Sub g) → GInv loaded → (∀ m ∈ loaded, top.Sub m) →
    GInv (loadGenerateds loaded gs) ∧ (∀ m ∈ loadGenerateds loaded gs, top.Sub m) ∧
    (∃ new, loadGenerateds loaded gs = loaded ++ new ∧ ∀ m ∈ new, ∃ g ∈ gs, g.Sub m) ∧
    ∀ g ∈ gs, g.path ∈ (loadGenerateds loaded gs).map Gen.path
  | [], loaded, _, hi, hl => by
    unfold loadGenerateds
    exact ⟨hi, hl, ⟨[], by simp, by simp⟩, by simp⟩
  | g :: gs, loaded, hs, hi, hl => by
    unfold loadGenerateds
    obtain ⟨a1, a2, ⟨n1, a3, a4⟩, a5, _⟩ := loadGenerated_spec top hc g loaded (hs g (by simp)) hi hl
    obtain ⟨b1, b2, ⟨n2, b3, b4⟩, b5⟩ := loadGenerateds_spec top hc gs (loadGenerated loaded g)
      (fun x hx => hs x (by simp [hx])) a1 a2
    refine ⟨b1, b2, ⟨n1 ++ n2, by rw [b3, a3]; simp, ?_⟩, ?_⟩
    · intro m hm
      simp only [List.mem_append] at hm
      rcases hm with hm | hm
      · exact ⟨g, by simp, a4 m hm⟩
      · obtain ⟨x, hx, hs'⟩ := b4 m hm; exact ⟨x, by simp [hx], hs'⟩
    · intro x hx
      simp only [List.mem_cons] at hx
      rcases hx with rfl | hx
      · rw [b3, List.map_append, List.mem_append]; exact .inl a5
      · exact b5 x hx
end

/-- C28 for compiled programs: the list collected by LoadGenerated is linkable and ends with the
main module, so `C28_link` applies to LinkGenerated too. -/
theorem C28_generated_linkable (g : Gen P) (hc : g.Consistent) :
    (loadGenerated [] g).getLast? = some g ∧
    Linkable ((loadGenerated [] g).map (fun m => (m.path, m.deps.map Gen.path))) := by
  obtain ⟨h1, _, _, _, h5⟩ := loadGenerated_spec g hc g [] .refl ⟨by simp, by simp⟩ (by simp)
  obtain ⟨pre, hpre⟩ := h5 (by simp)
  refine ⟨by rw [hpre]; simp, ?_, ?_⟩
  · simpa [Function.comp_def] using h1.nodup
  · intro pre m post he d hd
    rw [List.map_eq_append_iff] at he
    obtain ⟨l1, l2, hl, rfl, he2⟩ := he
    rw [List.map_eq_cons_iff] at he2
    obtain ⟨m', l3, rfl, rfl, rfl⟩ := he2
    simp only [List.mem_map] at hd
    obtain ⟨x, hx, rfl⟩ := hd
    have := h1.closed l1 m' l3 hl x hx
    simpa using this

example : linkCode [] [(1, []), (2, [1]), (3, [2, 1])] = some [⟨0, []⟩, ⟨1, [0]⟩, ⟨2, [1, 0]⟩] := by decide
example : Linkable [(1, []), (2, [1]), (3, [2, 1])] := by
  refine ⟨by decide, fun pre m post he d hd => ?_⟩
  match pre, he with
  | [], he => simp at he; obtain ⟨rfl, _⟩ := he; simp at hd
  | [_], he => simp at he; obtain ⟨rfl, rfl, _⟩ := he; simpa using hd
  | [_, _], he => simp at he; obtain ⟨rfl, rfl, rfl, _⟩ := he; simp at hd ⊢; omega
  | _ :: _ :: _ :: _, he => simp at he

end Verif.Load
