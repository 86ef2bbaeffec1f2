import Verif.Safe.Main
import Verif.Safe.Eval
import Verif.Elab.Unsound
/-
C61: programs that type check do not go wrong.
-/
namespace Verif.Elab
open Types
open Compile (Var Tc Tcs Flds Brs SVal SFn St SRes Res Mod)

theorem argVars_get : {k : Nat} → {args : List (VarName × Ptr)} → {i : Nat} → {v : V} → (argVars k args)[i]? = some v → v.var = some (.arg (k + i))
  | _, [], _, _, h => by simp [argVars] at h
  | k, (x, t) :: args, i, v, h => by
    cases i with
    | zero => simp [argVars] at h; subst h; rfl
    | succ i =>
      simp only [argVars, List.getElem?_cons_succ] at h
      rw [argVars_get h]; congr 2; omega

theorem argVars_types : (k : Nat) → (xs : List VarName) → (ts : List Ptr) → xs.length = ts.length → (argVars k (xs.zip ts)).map (·.type) = ts
  | _, [], [], _ => rfl
  | k, x :: xs, t :: ts, h => by simp [argVars, argVars_types (k + 1) xs ts (by simpa using h)]
  | _, [], _ :: _, h => by simp at h
  | _, _ :: _, [], h => by simp at h

theorem initScope_ok {L : Nat} {xs : List VarName} {ts : List Ptr} (hl : xs.length = ts.length) (ht : ∀ t ∈ ts, t < L) : ScsOk L [initScope none (xs.zip ts)] := by
  refine ⟨⟨fun i v hv => ?_, fun i v hv => ?_, fun i v hv => ?_, rfl, fun v hv => ?_, fun cs hc => ?_⟩, trivial⟩
  · simp [initScope] at hv
  · simp only [initScope, List.reverse_reverse] at hv
    rw [argVars_get hv]; congr 2; omega
  · simp [initScope] at hv
  · simp only [Scope.vars, initScope, List.nil_append, List.append_nil, List.mem_reverse] at hv
    apply ht
    rw [← argVars_types 0 xs ts hl]
    exact List.mem_map_of_mem hv
  · simp [initScope] at hc

theorem tcModule_safe {c : Bool} {Ca : Prop} {n : Nat} {m : Module} {deps : List Ptr} {h h' : Heap} {t : Ptr} {tc : Tc} (hc : c = true → Ca) (hm : m.value.mono c) (hl : m.deps.length = deps.length) (hh : MonoHeap h)
    (hd : ∀ t ∈ deps, t < h.length) (ht : tcModule n m deps h = .ok (h', some (t, tc))) :
    h <+: h' ∧ MonoHeap h' ∧ t < h'.length ∧ ∀ H, Ends h' H → Opened Ca H → TcTy H ⟨[], deps, []⟩ tc t := by
  unfold tcModule at ht
  obtain ⟨⟨s, r⟩, h1, ht⟩ := R.bind_ok.mp ht
  cases ht
  have hl' : (m.deps.map VarName.module).length = deps.length := by simpa using hl
  obtain ⟨k1, k2, k3⟩ := (tc_safe hc m.path n).1 _ hm _ _ _ ⟨hh, initScope_ok hl' hd, by simp⟩ h1
  refine ⟨k2.heap, k1.heap, k3.lt, fun H hE hO => ?_⟩
  have key := k3.ty H hE hO
  have hstep := (tc_pres m.path n).1 _ _ _ _ h1
  have hinv := hstep.inv ⟨⟨fun _ => rfl, by simp [initScope]⟩, trivial⟩
  have hsc := k2.scopes
  have he : tenvs s.scopes = ⟨[], deps, []⟩ := by
    generalize s.scopes = σ at hsc hinv ⊢
    cases hsc with
    | @cons _ sc _ rest hsc hrest =>
      cases hrest
      have hcap : sc.captured = none := by
        have := hsc.captured
        simpa [initScope] using this
      have hst : sc.statics = [] := by
        have := hinv.1
        unfold CapOk at this
        rw [hcap] at this
        exact this.1 rfl
      have hloc : sc.locals = [] := by
        have := hsc.locals
        generalize sc.locals = l at this
        cases this; rfl
      simp only [tenvs, tenv, hst, hloc, List.map_nil, List.reverse_nil]
      rw [vsame_types hsc.args.reverse]
      simp only [initScope, List.reverse_reverse]
      rw [argVars_types 0 _ _ hl']
  rw [he] at key
  exact key

/-- The modules have types, where the modules before have these types; and then the types of all modules are those. -/
inductive ModsTy (H : Heap) : List Ptr → List Mod → List Ptr → Prop
  | nil {ts} : ModsTy H ts [] ts
  | cons {ts ds t md mds ts'} : md.deps.mapM (fun d => ts[d]?) = some ds → TcTy H ⟨[], ds, []⟩ md.body t → ModsTy H (ts ++ [t]) mds ts' → ModsTy H ts (md :: mds) ts'

theorem depTypes_get {done : List Module} {types : List Ptr} : (ds : List (List Name)) → {ts : List Ptr} → depTypes done (types.map some) ds = some ts →
    ∃ is, ds.mapM (fun d => findModule d done) = some is ∧ is.mapM (fun d => types[d]?) = some ts ∧ ∀ t ∈ ts, t ∈ types
  | [], ts, h => by simp [depTypes] at h; subst h; exact ⟨[], rfl, rfl, by simp⟩
  | d :: ds, ts, h => by
    simp only [depTypes] at h
    cases hf : findModule d done with
    | none => rw [hf] at h; cases h
    | some i =>
      rw [hf] at h
      simp only [List.getElem?_map] at h
      cases ht : types[i]? with
      | none => rw [ht] at h; cases h
      | some t =>
        rw [ht] at h
        simp only [Option.map_some, Option.map_eq_some_iff] at h
        obtain ⟨ts', h1, rfl⟩ := h
        obtain ⟨is, h2, h3, h4⟩ := depTypes_get ds h1
        refine ⟨i :: is, by simp [List.mapM_cons, hf, h2], by simp [List.mapM_cons, ht, h3], ?_⟩
        intro u hu
        rcases List.mem_cons.mp hu with rfl | hu
        · exact List.mem_of_getElem? ht
        · exact h4 u hu

/-- The heap of types at the end of `tcModules`, and the types of the modules in it. -/
def atEnd (n : Nat) : List Module → List (Option Ptr) → List Module → Heap → R (Heap × List (Option Ptr))
  | _, types, [], h => return (h, types)
  | done, types, m :: ms, h => do
    let (h, r) ← (match depTypes done types m.deps with
      | none => .ok (h, none)
      | some deps => tcModule n m deps h : R (Heap × Option (Ptr × Tc)))
    atEnd n (done ++ [m]) (types ++ [r.map (·.1)]) ms h

/-- The heap of types at the end of `tcProgram`. -/
def endHeap (n : Nat) (program : List Module) : R Heap := do return (← atEnd n [] [] program []).1

theorem tcModules_safe {c : Bool} {Ca : Prop} (hc : c = true → Ca) {n : Nat} : (ms : List Module) → {done : List Module} → {types : List Ptr} → {h : Heap} → {rs : List (Option Tc)} → {tcs : List Tc} → {mds : List Mod} →
    tcModules n done (types.map some) ms h = .ok rs → allSome rs = some tcs → linkMods done ms tcs = some mds → (∀ m ∈ ms, m.value.mono c) → MonoHeap h → (∀ t ∈ types, t < h.length) →
    ∃ hf types', atEnd n done (types.map some) ms h = .ok (hf, types'.map some) ∧ h <+: hf ∧ MonoHeap hf ∧ ∀ H, Ends hf H → Opened Ca H → ModsTy H types mds types'
  | [], done, types, h, rs, tcs, mds, hr, ha, hk, hm, hh, ht => by
    simp only [linkMods] at hk
    cases hk
    exact ⟨h, types, rfl, List.prefix_rfl, hh, fun H _ _ => .nil⟩
  | m :: ms, done, types, h, rs, tcs, mds, hr, ha, hk, hm, hh, ht => by
    simp only [tcModules] at hr
    obtain ⟨⟨h1, r⟩, h2, hr⟩ := R.bind_ok.mp hr
    obtain ⟨rs', h3, hr⟩ := R.bind_ok.mp hr
    cases hr
    obtain ⟨tc, tcs', e1, e2, rfl⟩ := allSome_cons ha
    simp only [Option.map_eq_some_iff] at e1
    obtain ⟨⟨t, tc'⟩, rfl, rfl⟩ := e1
    simp only [linkMods, bind, Option.bind_eq_some_iff] at hk
    obtain ⟨ds, hk1, rest, hk2, hk⟩ := hk
    cases hk
    cases hd : depTypes done (types.map some) m.deps with
    | none => rw [hd] at h2; cases h2
    | some dts =>
      rw [hd] at h2
      obtain ⟨is, g1, g2, g3⟩ := depTypes_get m.deps hd
      rw [hk1] at g1
      cases g1
      obtain ⟨k1, k2, k3, k4⟩ := tcModule_safe hc (hm m (by simp)) (depTypes_ok m.deps hd).1 hh (fun t h => ht t (g3 t h)) h2
      obtain ⟨hf, types', f0, f1, f2, f3⟩ := tcModules_safe hc ms (types := types ++ [t]) (by simpa using h3) e2 hk2 (fun m h => hm m (by simp [h])) k2
        (by
          intro u hu
          rcases List.mem_append.mp hu with hu | hu
          · exact prefix_lt k1 (ht u hu)
          · simp at hu; rw [hu]; exact k3)
      refine ⟨hf, types', ?_, k1.trans f1, f2, fun H hE hO => .cons g2 (k4 H ((Ends.prefix f1).trans hE) hO) (f3 H hE hO)⟩
      simp only [atEnd, hd]
      refine R.bind_ok.mpr ⟨_, h2, ?_⟩
      simpa using f0

theorem openAll_ends {h : Heap} (hm : MonoHeap h) : Ends h (openAll h) := by
  intro p n hp
  refine ⟨_, by simp only [openAll, List.getElem?_map, hp]; rfl, ?_⟩
  cases n with
  | package path o =>
    have := hm.nodes p _ hp
    simp only [NodeIn] at this
    subst this
    exact .inr (.inr ⟨_, _, rfl, rfl⟩)
  | _ => exact .refl _

theorem openAll_opened {h : Heap} (hm : MonoHeap h) (hp : Ca → ∀ p, p < h.length → ∃ q, Is (openAll h) [] q p) : Opened Ca (openAll h) := by
  refine ⟨?_, ?_, fun hc p hl => hp hc p (by simpa [openAll] using hl)⟩
  rotate_left
  · intro p path o hp
    simp only [openAll, List.getElem?_map, Option.map_eq_some_iff] at hp
    obtain ⟨n, h1, h2⟩ := hp
    cases n <;> cases h2
    rfl
  intro p q u hp
  simp only [openAll, List.getElem?_map, Option.map_eq_some_iff] at hp
  obtain ⟨n, h1, h2⟩ := hp
  cases n with
  | «abstract» q' u' =>
    cases h2
    obtain ⟨_, path, h3⟩ := hm.nodes p _ h1
    exact ⟨path, by simp only [openAll, List.getElem?_map, h3]; rfl⟩
  | _ => cases h2

/-! ### Running -/

theorem mapM_typed {R : SVal → Ptr → Prop} {vals : List SVal} {ts : List Ptr} (hv : All2 R vals ts) : (ds : List Nat) → {dts : List Ptr} → ds.mapM (fun d => ts[d]?) = some dts →
    ∃ args, ds.mapM (fun d => vals[d]?) = some args ∧ All2 R args dts
  | [], _, h => by simp at h; subst h; exact ⟨[], rfl, .nil⟩
  | d :: ds, dts, h => by
    simp only [List.mapM_cons, bind, Option.bind_eq_some_iff] at h
    obtain ⟨t, h1, ts', h2, h⟩ := h
    cases h
    obtain ⟨args, h3, h4⟩ := mapM_typed hv ds h2
    obtain ⟨v, h5, h6⟩ := all2_getElem?_right hv h1
    exact ⟨v :: args, by simp [List.mapM_cons, h5, h3], .cons h6 h4⟩

theorem runMods_good [N : Natives] {H : Heap} (hN : NativesOk H) : {ts ts' : List Ptr} → {mds : List Mod} → ModsTy H ts mds ts' → {Γ : List Ptr} → {vals : List SVal} → {s : St SFn} →
    StateOk H Γ s → All2 (VT H Γ) vals ts → Good H Γ s.refs (fun Γ' vals' => All2 (VT H Γ') vals' ts') (Compile.runMods mds vals s)
  | _, _, [], .nil, Γ, vals, s, hs, hv => by
    simp only [Compile.runMods]
    exact Good.ok hs hv
  | ts, _, md :: mds, .cons (ds := ds) (t := t) hd ht hms, Γ, vals, s, hs, hv => by
    obtain ⟨args, h1, h2⟩ := mapM_typed hv md.deps hd
    simp only [Compile.runMods, h1]
    split
    · trivial
    · refine (eval_good (s := { s with fuel := s.fuel - 1 }) (apply_ok hN) md.body ht ⟨fun v T hg => ?_, rfl⟩ hs).bind fun Γ' v s' hp hs' hr hv' => ?_
      · cases v with
        | arg i =>
          obtain ⟨w, h3, h4⟩ := all2_getElem?_right h2 hg
          exact ⟨w, h3, h4⟩
        | static i => simp [TEnv.get] at hg
        | loc i => simp [TEnv.get] at hg
      · exact runMods_good hN hms (vals := vals ++ [v]) hs' ((hv.mono fun _ _ h => h.more hp).append (.cons hv' .nil))

theorem storeOk_empty [N : Natives] {H : Heap} : StoreOk H [] ([] : List (Option SVal)) := by
  refine ⟨rfl, by simp, fun v hv => ?_⟩
  cases v with
  | ref r => have := hv r rfl; simp at this
  | _ => exact ⟨_, rfl⟩

/-- The value of a program has the type of its last module. -/
theorem runProgram_good [N : Natives] {H : Heap} (hN : NativesOk H) {mds : List Mod} {ts : List Ptr} {t : Ptr} (h : ModsTy H [] mds (ts ++ [t])) (fuel : Nat) :
    Good H [] [] (fun Γ' v => VT H Γ' v t) (Compile.runProgram mds fuel ⟨[], N.answer⟩) := by
  unfold Compile.runProgram
  split
  · trivial
  · refine (runMods_good hN h (s := ⟨fuel - 1, [], ⟨[], N.answer⟩⟩) ⟨storeOk_empty, rfl⟩ .nil).bind fun Γ' vals s' hp hs' hr hl => ?_
    have hlen : vals.length = ts.length + 1 := by simpa using hl.length_eq
    cases hv : vals.getLast? with
    | some v =>
      rw [List.getLast?_eq_getElem?] at hv
      exact Good.ok hs' (all2_get hl _ v t hv (by rw [hlen]; simp))
    | none =>
      rw [List.getLast?_eq_none_iff] at hv
      subst hv
      simp at hlen

theorem ModsTy.length {H : Heap} : {ts ts' : List Ptr} → {mds : List Mod} → ModsTy H ts mds ts' → ts'.length = ts.length + mds.length
  | _, _, _, .nil => rfl
  | _, _, _, .cons _ _ h => by have := h.length; simp at this ⊢; omega

theorem not_wrong [N : Natives] {α : Type} {H : Heap} {Γ refs} {P : List Ptr → α → Prop} {r : SRes α} (h : Good H Γ refs P r) : r ≠ .crash ∧ r ≠ .wild := by
  constructor <;> · intro e; rw [e] at h; exact h

/-- There are no functions implemented in C. -/
def noNatives : Natives := ⟨fun _ _ _ => False, fun _ => .stop⟩

/-- No type of the program is defined as itself, not even inside of abstract types: once all abstract types
are replaced by the types inside, every type that the type checker made is a proper type. -/
def ProperTypes (n : Nat) (program : List Module) : Prop :=
  ∀ h, endHeap n program = .ok h → ∀ p, p < h.length → ∃ q, Is (openAll h) [] q p

/-- No polymorphic definitions, and no casts to abstract types unless all types are proper types. -/
def Monomorphic (n : Nat) (program : List Module) : Prop :=
  (∀ m ∈ program, m.value.mono false) ∨ ((∀ m ∈ program, m.value.mono true) ∧ ProperTypes n program)

/-- What the type checker says of a program without polymorphic definitions: the heap of types at the end, and the types of the modules. -/
theorem program_typed {n : Nat} {program : List Module} {tcs : List Tc} (h : tcProgram n program = .ok (some tcs)) (hm : Monomorphic n program) {mds : List Mod} (h1 : linkMods [] program tcs = some mds) :
    ∃ hf types, atEnd n [] [] program [] = .ok (hf, types.map some) ∧ ModsTy (openAll hf) [] mds types := by
  unfold tcProgram at h
  obtain ⟨rs, h4, h⟩ := R.bind_ok.mp h
  have h : allSome rs = some tcs := R.ok.inj h
  have hm0 : MonoHeap ([] : Heap) := ⟨fun p n hp => by simp at hp, fun p hp => absurd hp (Nat.not_lt_zero _)⟩
  rcases hm with hm | ⟨hm, hp⟩
  · obtain ⟨hf, types, k0, _, k2, k3⟩ := tcModules_safe (Ca := False) (by simp) program (types := []) h4 h h1 hm hm0 (by simp)
    exact ⟨hf, types, k0, k3 _ (openAll_ends k2) (openAll_opened k2 False.elim)⟩
  · obtain ⟨hf, types, k0, _, k2, k3⟩ := tcModules_safe (Ca := True) (fun _ => trivial) program (types := []) h4 h h1 hm hm0 (by simp)
    have k0' : atEnd n [] [] program [] = .ok (hf, types.map some) := k0
    exact ⟨hf, types, k0, k3 _ (openAll_ends k2) (openAll_opened k2 fun _ => hp hf (by unfold endHeap; rw [k0']; rfl))⟩

/-- C61. A program without polymorphic definitions that passes the type checker never applies an operation to
a value of the wrong kind, when it is run by its meaning; unless it casts to abstract types and there is one
that is defined as itself. -/
theorem C61_meaning {n : Nat} {program : List Module} {tcs : List Tc} (h : tcProgram n program = .ok (some tcs)) (hne : program ≠ []) (hm : Monomorphic n program) :
    ∃ mds, linkMods [] program tcs = some mds ∧ mds.map (·.body) = tcs ∧ ∀ fuel, Compile.runProgram mds fuel ≠ .crash ∧ Compile.runProgram mds fuel ≠ .wild := by
  obtain ⟨ts, mds, h1, h2, h3⟩ := tcProgram_ok h
  refine ⟨mds, h1, h2, fun fuel => ?_⟩
  obtain ⟨hf, types, _, k⟩ := program_typed h hm h1
  have hl := k.length
  have hnm : types ≠ [] := by
    rintro rfl
    cases h3 with
    | nil => exact hne rfl
    | cons => simp at hl
  obtain ⟨ts', t, rfl⟩ := List.eq_nil_or_concat types |>.resolve_left hnm
  rw [List.concat_eq_append] at k
  exact not_wrong (N := noNatives) (runProgram_good (N := noNatives) (fun op T As R hs => hs.elim) k fuel)

/-- C61. A program without polymorphic definitions that passes the type checker compiles, and running the
linked bytecode never applies an operation to a value of the wrong kind; unless it casts to abstract types
and there is one that is defined as itself, or there is a select that the interpreter cannot run. -/
theorem C61_program {n : Nat} {program : List Module} {tcs : List Tc} (h : tcProgram n program = .ok (some tcs)) (hne : program ≠ []) (hm : Monomorphic n program) :
    ∃ ts, All2 ErasesModule program ts ∧ ((∀ t ∈ ts, t.Tables) → ∃ mds codes, linkMods [] program tcs = some mds ∧ Compile.compileAll mds = some codes ∧
      ∀ fuel, Compile.runMachine mds codes fuel ≠ .crash ∧ Compile.runMachine mds codes fuel ≠ .wild) := by
  obtain ⟨ts, mds, h1, h2, h3⟩ := tcProgram_ok h
  refine ⟨ts, h3.erases, fun ht => ?_⟩
  have hmd : mds ≠ [] := by
    intro e
    rw [e] at h3
    cases h3
    exact hne rfl
  obtain ⟨codes, g1, g2⟩ := Compile.C13_compiled_program hmd (h3.progOk ht)
  refine ⟨mds, codes, h1, g1, fun fuel => ⟨fun hc => ?_, (g2 fuel).2⟩⟩
  obtain ⟨mds', e1, _, e3⟩ := C61_meaning h hne hm
  rw [h1] at e1
  cases e1
  have := (g2 fuel).1 0
  rw [hc] at this
  have hn := (e3 fuel).1
  generalize Compile.runProgram mds fuel = r at this hn
  cases r <;> simp [Res.seen] at this
  exact hn rfl

/-- The example of C16 is such a program. -/
example : (∃ tcs, tcProgram 20 [Example.lib, Example.main] = .ok (some tcs)) ∧ Monomorphic 20 [Example.lib, Example.main] :=
  ⟨⟨_, Example.checked⟩, .inl (by decide +kernel)⟩

end Verif.Elab
