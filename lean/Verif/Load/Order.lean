import Verif.Load.Thm
import Mathlib.Data.List.Induction
/-
A compiled program links the modules the interpreter links, in the same order: FbleLoad, load.c:236-345, against LoadGenerated, link.c:117-133.
-/
namespace Verif.Load
variable {P F : Type} [DecidableEq P]

/-- The module is compiled, with all it refers to, from the files: it has pointers to the modules its file refers to, in the same order; and so have they.  This is what FbleGenerateC and
FbleGenerateAArch64 write for a module and the references of the loaded module: c.c:211-253, aarch64.c:280-330. -/
def Gen.From (find : P → FileResult P F) (g : Gen P) : Prop :=
  ∀ a, g.Sub a → ∃ file, find a.path = .ok file (a.deps.map Gen.path)

/-- What FbleLoad knows of the module. -/
def Gen.loaded (g : Gen P) : Module P := ⟨g.path, g.deps.map Gen.path, true⟩

theorem step_error {find : P → FileResult P F} {s s' : State P F} (h : step find s = some s') (he : s.error = true) : s'.error = true := by
  unfold step at h
  split at h
  · cases h
  · split at h
    · dsimp only at h
      split at h
      · cases h; exact he
      · split at h
        · cases h; rfl
        · cases h
          unfold push
          split <;> first | rfl | exact he
    · cases h; exact he

theorem loop_error {find : P → FileResult P F} : ∀ {n : Nat} {s s' : State P F}, loop find n s = some s' → s.error = true → s'.error = true
  | 0, _, _, h, _ => by cases h
  | n + 1, s, s', h, he => by
    rw [loop] at h
    cases hs : step find s with
    | none => rw [hs] at h; cases h; exact he
    | some s1 => rw [hs] at h; exact loop_error h (step_error hs he)

theorem loop_step {find : P → FileResult P F} {n : Nat} {s s1 s' : State P F} (h : loop find n s = some s') (hs : step find s = some s1) : ∃ m, loop find m s1 = some s' := by
  cases n with
  | zero => cases h
  | succ n => rw [loop, hs] at h; exact ⟨n, h⟩

theorem any_loaded (loaded : List (Gen P)) (p : P) : (loaded.map Gen.loaded).any (fun m => p = m.path) = loaded.any (fun m => m.path = p) := by
  induction loaded with
  | nil => rfl
  | cons g gs ih =>
    simp only [List.map_cons, List.any_cons, ih, Gen.loaded]
    congr 1
    simp only [eq_comm]

/-- The loop, with the modules `ds` of the file on the top of the stack left. -/
theorem loop_deps {find : P → FileResult P F} (ds : List (Gen P)) (hds : ∀ d ∈ ds, d.From find) {p : P} {all : List P} {k : Nat} {stack : List (Frame P)} {s' : State P F} (he : s'.error = false) :
    ∀ {n loaded bd}, k ≤ all.length → all.drop k = ds.map Gen.path →
      loop find n ⟨loaded.map Gen.loaded, ⟨p, all, true, k⟩ :: stack, false, bd⟩ = some s' →
      ∃ n' bd', loop find n' ⟨(loadGenerateds loaded ds).map Gen.loaded, ⟨p, all, true, all.length⟩ :: stack, false, bd'⟩ = some s' := by
  intro n loaded bd hk hd h
  match ds, hds, hd with
  | [], hds, hd =>
    rw [loadGenerateds]
    have : all.length ≤ k := by simpa using hd
    rw [show k = all.length by omega] at h
    exact ⟨n, bd, h⟩
  | .mk q deps :: ds, hds, hd =>
    have hlt : k < all.length := by
      rcases Nat.lt_or_ge k all.length with h1 | h1
      · exact h1
      · rw [List.drop_eq_nil_of_le h1] at hd; cases hd
    have hcons : all.drop k = all[k] :: all.drop (k + 1) := by rw [List.drop_eq_getElem_cons hlt]
    rw [hcons, List.map_cons] at hd
    obtain ⟨h1, h2⟩ := List.cons.inj hd
    have h1 : all[k] = q := h1
    rw [loadGenerateds, loadGenerated]
    by_cases hin : loaded.any (fun m => m.path = q) = true
    · rw [if_pos hin]
      obtain ⟨m, hm⟩ := loop_step h (s1 := ⟨loaded.map Gen.loaded, ⟨p, all, true, k + 1⟩ :: stack, false, bd⟩) (by
        rw [step]
        simp only [hlt, dif_pos, any_loaded, h1, hin, if_pos])
      exact loop_deps ds (fun d hd => hds d (List.mem_cons_of_mem _ hd)) he (by omega) h2 hm
    · rw [if_neg hin]
      by_cases hst : ((⟨p, all, true, k⟩ : Frame P) :: stack).any (fun f => q = f.path) = true
      · obtain ⟨m, hm⟩ := loop_step h (s1 := ⟨loaded.map Gen.loaded, ⟨p, all, true, all.length⟩ :: stack, true, bd⟩) (by
          rw [step]
          simp only [hlt, dif_pos, any_loaded, h1]
          rw [if_neg hin, if_pos hst])
        rw [loop_error hm rfl] at he; cases he
      · obtain ⟨file, hfile⟩ := hds (.mk q deps) (List.mem_cons_self ..) _ .refl
        have hfile : find q = .ok file (deps.map Gen.path) := hfile
        obtain ⟨m, hm⟩ := loop_step h (s1 := ⟨loaded.map Gen.loaded, ⟨q, deps.map Gen.path, true, 0⟩ :: ⟨p, all, true, k⟩ :: stack, false, bd ++ [file]⟩) (by
          rw [step]
          simp only [hlt, dif_pos, any_loaded, h1]
          rw [if_neg hin, if_neg hst, push, hfile])
        obtain ⟨n', bd', hm⟩ := loop_deps deps (fun d hd a ha => hds _ (List.mem_cons_self ..) a (.dep hd ha)) he (by omega) (by simp) hm
        obtain ⟨n', hm⟩ := loop_step hm (s1 := ⟨(loadGenerateds loaded deps ++ [Gen.mk q deps]).map Gen.loaded, ⟨p, all, true, k⟩ :: stack, false, bd'⟩) (by
          rw [step]
          simp only [Nat.lt_irrefl, dif_neg, not_false_eq_true, List.map_append, List.map_cons, List.map_nil]
          rfl)
        obtain ⟨m, hm⟩ := loop_step hm (s1 := ⟨(loadGenerateds loaded deps ++ [Gen.mk q deps]).map Gen.loaded, ⟨p, all, true, k + 1⟩ :: stack, false, bd'⟩) (by
          rw [step]
          simp only [hlt, dif_pos, any_loaded, h1]
          rw [if_pos (by simp [Gen.path])])
        exact loop_deps ds (fun d hd => hds d (List.mem_cons_of_mem _ hd)) he (by omega) h2 hm
termination_by sizeOf ds

/-- A module compiled from the files is determined by its path. -/
theorem Gen.From.eq {find : P → FileResult P F} : ∀ {a b : Gen P}, a.From find → b.From find → a.path = b.path → a = b
  | .mk p as, .mk q bs, ha, hb, hp => by
    have hp : p = q := hp
    subst hp
    obtain ⟨f, h1⟩ := ha _ .refl
    obtain ⟨f', h2⟩ := hb _ .refl
    have h1 : find p = .ok f (as.map Gen.path) := h1
    have h2 : find p = .ok f' (bs.map Gen.path) := h2
    rw [h1] at h2
    obtain ⟨-, h2⟩ := FileResult.ok.inj h2
    have hall : ∀ (l m : List (Gen P)), (∀ x ∈ l, x ∈ as) → (∀ x ∈ m, x ∈ bs) → l.map Gen.path = m.map Gen.path → l = m := by
      intro l
      induction l with
      | nil => intro m _ _ he; simpa using he.symm
      | cons x l ih =>
        intro m hx hm he
        cases m with
        | nil => cases he
        | cons y m =>
          rw [List.map_cons, List.map_cons] at he
          obtain ⟨e1, e2⟩ := List.cons.inj he
          have hxa := hx x (List.mem_cons_self ..)
          have hyb := hm y (List.mem_cons_self ..)
          rw [ih m (fun z hz => hx z (List.mem_cons_of_mem _ hz)) (fun z hz => hm z (List.mem_cons_of_mem _ hz)) e2]
          have : sizeOf x < sizeOf as := List.sizeOf_lt_of_mem hxa
          rw [Gen.From.eq (fun c hc => ha c (.dep hxa hc)) (fun c hc => hb c (.dep hyb hc)) e1]
    rw [hall as bs (fun _ h => h) (fun _ h => h) h2]
termination_by a => sizeOf a

theorem Gen.From.consistent {find : P → FileResult P F} {g : Gen P} (h : g.From find) : g.Consistent :=
  fun _ _ ha hb he => Gen.From.eq (fun c hc => h c (ha.trans hc)) (fun c hc => h c (hb.trans hc)) he

/-- C96: the compiled program and the interpreted one link the same modules in the same order, with the same references. -/
theorem C96_order {find : P → FileResult P F} {root : P} {r : Result P F} {ms : List (Module P)} (h : Loads find root r) (hr : r.modules = some ms)
    {g : Gen P} (hg : g.From find) (hroot : g.path = root) :
    (loadGenerated [] g).map (fun m => (m.path, m.deps.map Gen.path)) = ms.map (fun m => (m.path, m.deps)) := by
  rcases loads_cases h with ⟨h1, _⟩ | ⟨n, s, _, hl, he, hm, _⟩
  · rw [h1] at hr; cases hr
  · rw [hm] at hr; cases hr
    obtain ⟨p, deps⟩ := g
    have hroot : p = root := hroot
    subst hroot
    obtain ⟨file, hfile⟩ := hg _ .refl
    have hfile : find p = .ok file (deps.map Gen.path) := hfile
    rw [push, hfile] at hl
    obtain ⟨n', bd', hl⟩ := loop_deps (loaded := []) deps (fun d hd a ha => hg a (.dep hd ha)) he (by omega) (by simp) hl
    obtain ⟨n', hl⟩ := loop_step hl (s1 := ⟨(loadGenerateds [] deps ++ [Gen.mk p deps]).map Gen.loaded, [], false, bd'⟩) (by
      rw [step]
      simp only [Nat.lt_irrefl, dif_neg, not_false_eq_true, List.map_append, List.map_cons, List.map_nil]
      rfl)
    have : s.modules = (loadGenerateds [] deps ++ [Gen.mk p deps]).map Gen.loaded := by
      cases n' with
      | zero => cases hl
      | succ n' => rw [loop, step] at hl; cases hl; rfl
    rw [this, loadGenerated]
    simp [Gen.loaded]

/-- C96: every program that loads can be compiled this way, module by module. -/
theorem C96_exists {find : P → FileResult P F} {root : P} {r : Result P F} {ms : List (Module P)} (h : Loads find root r) (hr : r.modules = some ms) :
    ∃ g : Gen P, g.From find ∧ g.path = root := by
  obtain ⟨h1, -, h3, h4, -⟩ := C26_load_ok h hr
  have hall : ∀ (pre post : List (Module P)), ms = pre ++ post → ∀ m ∈ pre, ∃ g : Gen P, g.From find ∧ g.path = m.path := by
    intro pre
    induction pre using List.reverseRec with
    | nil => intro _ _ m hm; cases hm
    | append_singleton pre x ih =>
      intro post he m hm
      have ih := ih (x :: post) (by rw [he]; simp)
      rcases List.mem_append.mp hm with hm | hm
      · exact ih m hm
      · obtain rfl := List.mem_singleton.mp hm
        have hd := h4 pre m post (by rw [he]; simp)
        have hgs : ∀ ds : List P, (∀ d ∈ ds, d ∈ pre.map Module.path) → ∃ gs : List (Gen P), gs.map Gen.path = ds ∧ ∀ g ∈ gs, g.From find := by
          intro ds
          induction ds with
          | nil => intro _; exact ⟨[], rfl, by simp⟩
          | cons d ds ihd =>
            intro hds
            obtain ⟨gs, e1, e2⟩ := ihd fun d' hd' => hds d' (List.mem_cons_of_mem _ hd')
            obtain ⟨x, hx, e3⟩ := List.mem_map.mp (hds d (List.mem_cons_self ..))
            obtain ⟨g, e4, e5⟩ := ih x hx
            refine ⟨g :: gs, by rw [List.map_cons, e1, e5, e3], fun g' hg' => ?_⟩
            rcases List.mem_cons.mp hg' with rfl | hg'
            · exact e4
            · exact e2 g' hg'
        obtain ⟨gs, e1, e2⟩ := hgs m.deps hd
        obtain ⟨file, hfile⟩ := h3 m (by rw [he]; simp)
        refine ⟨.mk m.path gs, fun a ha => ?_, rfl⟩
        cases ha with
        | refl => exact ⟨file, by rw [show (Gen.mk m.path gs).deps = gs from rfl, e1]; exact hfile⟩
        | dep hd ha => exact e2 _ hd a ha
  obtain ⟨m, hm, rfl⟩ := List.mem_map.mp (List.mem_of_getLast? h1)
  obtain ⟨g, g1, g2⟩ := hall ms [] (by simp) m hm
  exact ⟨g, g1, g2⟩

/-- The diamond of `diamond`, compiled. -/
example : let one : Gen Nat := .mk 1 []
    let two : Gen Nat := .mk 2 [one]
    (loadGenerated [] (.mk 4 [two, .mk 3 [one, two]])).map Gen.path = [1, 2, 3, 4] := by decide
end Verif.Load
