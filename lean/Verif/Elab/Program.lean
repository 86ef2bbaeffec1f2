import Verif.Elab.Run
/-
Programs through the type checker.
-/
namespace Verif.Elab
open Types (Name Kind DataKind Ptr Heap R)
open Compile (Var Tc Tcs Flds Brs Val St Res SFn SVal SRes Env Mod)

/-- link.c:77-86: the modules with the positions of the modules they refer to. -/
def linkMods : List Module → List Module → List Tc → Option (List Mod)
  | done, m :: ms, tc :: tcs => do
    let ds ← m.deps.mapM fun d => findModule d done
    let rest ← linkMods (done ++ [m]) ms tcs
    return ⟨ds, tc⟩ :: rest
  | _, _, _ => some []

/-- What is left of the expression of a module. -/
def ErasesModule (m : Module) (t : N) : Prop := Erases (rolesIn m.path) (withModules m.deps) m.value t

/-- The variables for modules may be used under their paths. -/
def ModuleCx (deps : List (List Name)) (cx : Cx) : Prop := ∀ x v, cxVar cx x = some v → ∃ i d, deps[i]? = some d ∧ x = .module d ∧ v = .arg i

theorem argVars_binders : (i : Nat) → (deps : List (List Name)) → (ts : List Ptr) → deps.length = ts.length →
    (argVars i ((deps.map VarName.module).zip ts)).map (fun v => (v.name, v.var.isNone)) = deps.map fun d => (VarName.module d, false)
  | _, [], [], _ => rfl
  | i, d :: deps, t :: ts, h => by
    simp only [List.map_cons, List.zip_cons_cons, argVars, Option.isNone_some]
    rw [argVars_binders (i + 1) deps ts (by simpa using h)]
  | _, [], _ :: _, h => by simp at h
  | _, _ :: _, [], h => by simp at h

theorem argVars_mem : {i : Nat} → {deps : List (List Name)} → {ts : List Ptr} → {v : V} → v ∈ argVars i ((deps.map VarName.module).zip ts) →
    ∃ j d, deps[j]? = some d ∧ v.name = .module d ∧ v.var = some (.arg (i + j))
  | _, [], _, _, h => by simp [argVars] at h
  | _, _ :: _, [], _, h => by simp [argVars] at h
  | i, d :: deps, t :: ts, v, h => by
    simp only [List.map_cons, List.zip_cons_cons, argVars, List.mem_cons] at h
    rcases h with rfl | h
    · exact ⟨0, d, rfl, rfl, rfl⟩
    · obtain ⟨j, d', h1, h2, h3⟩ := argVars_mem h
      exact ⟨j + 1, d', by simpa using h1, h2, by rw [h3]; congr 2; omega⟩

theorem tcModule_erase {n : Nat} {m : Module} {deps : List Ptr} {h h' : Heap} {t : Ptr} {tc : Tc} (hl : m.deps.length = deps.length) (hh : ∃ H, HGood H h)
    (ht : tcModule n m deps h = .ok (h', some (t, tc))) :
    (∃ H, HGood H h') ∧ ∃ t cx, ErasesModule m t ∧ ModuleCx m.deps cx ∧ Conv 0 cx t tc := by
  unfold tcModule at ht
  obtain ⟨⟨s, r⟩, h1, ht⟩ := R.bind_ok.mp ht
  cases ht
  have hstep := (tc_pres m.path n).1 _ _ _ _ h1
  have hok : Ok ⟨h, [initScope none ((m.deps.map VarName.module).zip deps)]⟩ := by
    refine ⟨⟨⟨fun _ => rfl, by simp [initScope]⟩, trivial⟩, .inl ⟨rfl, rfl⟩, ?_, hh⟩
    intro b hb hb2
    rw [binders_cons] at hb
    simp only [initScope, List.nil_append, List.map_reverse, argVars_binders 0 m.deps deps hl] at hb
    simp [binders] at hb
    obtain ⟨_, _, rfl⟩ := hb
    simp at hb2
  obtain ⟨t, g1, sc, rest, g2, g3⟩ := tc_erase m.path n _ _ _ _ h1 hok
  refine ⟨hh.imp fun H hH => hstep.heap H hH, t, cxOf sc.vars, ?_, ?_⟩
  · unfold ErasesModule
    have : binders [initScope none ((m.deps.map VarName.module).zip deps)] = withModules m.deps := by
      rw [binders_cons]
      simp only [initScope, List.nil_append, List.map_reverse, argVars_binders 0 m.deps deps hl]
      simp [binders, withModules]
    rw [← this]; exact g1
  · have hext := hstep.ext
    have hinv := hstep.inv hok.inv
    rw [g2] at hext hinv
    cases hext with
    | live h1 _ _ => exact absurd rfl h1
    | phantom _ hsc =>
      have hcap := hsc.captured_none.mpr rfl
      have hst : sc.statics = [] := by
        have := hinv.1
        unfold CapOk at this
        rw [hcap] at this
        exact this.1 rfl
      have hloc : sc.locals = [] := by
        have := hsc.locals
        generalize sc.locals = l at this
        cases this; rfl
      have hal : sc.allocated = 0 := hsc.allocated
      rw [hal] at g3
      refine ⟨?_, g3⟩
      intro x v hx
      rw [cxVar_cxOf] at hx
      obtain ⟨w, h1, h2, _⟩ := hx
      simp only [Scope.vars, hst, hloc, List.nil_append, List.append_nil] at h1
      have hm : w ∈ sc.args := List.mem_of_find?_eq_some h1
      obtain ⟨u, hu, hvu⟩ := hsc.args.mem_right hm
      simp only [initScope, List.mem_reverse] at hu
      obtain ⟨j, d, k1, k2, k3⟩ := argVars_mem hu
      refine ⟨j, d, k1, ?_, ?_⟩
      · rw [← first_name h1, hvu.name, k2]
      · rw [hvu.var, k3] at h2
        simp at h2
        exact h2.symm

theorem depTypes_ok {done : List Module} {types : List (Option Ptr)} : (ds : List (List Name)) → {ts : List Ptr} → depTypes done types ds = some ts →
    ds.length = ts.length ∧ ∃ is, ds.mapM (fun d => findModule d done) = some is ∧ All2 (fun d i => findModule d done = some i) ds is
  | [], ts, h => by simp [depTypes] at h; subst h; exact ⟨rfl, [], rfl, .nil⟩
  | d :: ds, ts, h => by
    simp only [depTypes] at h
    cases hf : findModule d done with
    | none => rw [hf] at h; cases h
    | some i =>
      rw [hf] at h
      simp only at h
      split at h
      · rename_i t ht
        simp only [Option.map_eq_some_iff] at h
        obtain ⟨ts', h1, rfl⟩ := h
        obtain ⟨h2, is, h3, h4⟩ := depTypes_ok ds h1
        exact ⟨by simp [h2], i :: is, by simp [List.mapM_cons, hf, h3], .cons hf h4⟩
      · cases h

theorem findModule_lt {d : List Name} : {done : List Module} → {i : Nat} → findModule d done = some i → ∃ m, done[i]? = some m ∧ m.path = d ∧ ∀ j < i, ∀ m, done[j]? = some m → m.path ≠ d
  | [], _, h => by simp [findModule] at h
  | m :: ms, i, h => by
    simp only [findModule] at h
    split at h
    · rename_i he
      cases h
      exact ⟨m, rfl, (pathsEqual_iff.mp he).symm, fun j hj => absurd hj (Nat.not_lt_zero _)⟩
    · rename_i he
      simp only [Option.map_eq_some_iff] at h
      obtain ⟨k, hk, rfl⟩ := h
      obtain ⟨m', h1, h2, h3⟩ := findModule_lt hk
      refine ⟨m', by simpa using h1, h2, fun j hj m'' hm => ?_⟩
      cases j with
      | zero => cases hm; intro e; exact he (pathsEqual_iff.mpr e.symm)
      | succ j => exact h3 j (by omega) m'' (by simpa using hm)

/-- A module and what the type checker made of it, where these modules come before. -/
structure ModOk (done : List Module) (m : Module) (t : N) (md : Mod) : Prop where
  erases : ErasesModule m t
  deps : All2 (fun d i => findModule d done = some i) m.deps md.deps
  conv : ∃ cx, ModuleCx m.deps cx ∧ Conv 0 cx t md.body

inductive ModsOk : List Module → List Module → List N → List Mod → Prop
  | nil {done} : ModsOk done [] [] []
  | cons {done m ms t ts md mds} : ModOk done m t md → ModsOk (done ++ [m]) ms ts mds → ModsOk done (m :: ms) (t :: ts) (md :: mds)

theorem allSome_cons {α : Type} {o : Option α} {os : List (Option α)} {as : List α} (h : allSome (o :: os) = some as) : ∃ a as', o = some a ∧ allSome os = some as' ∧ as = a :: as' := by
  cases o with
  | none => simp [allSome] at h
  | some a =>
    simp only [allSome, Option.map_eq_some_iff] at h
    obtain ⟨as', h1, rfl⟩ := h
    exact ⟨a, as', rfl, h1, rfl⟩

theorem tcModules_ok {n : Nat} : (ms : List Module) → {done : List Module} → {types : List (Option Ptr)} → {h : Heap} → {rs : List (Option Tc)} → {tcs : List Tc} →
    tcModules n done types ms h = .ok rs → allSome rs = some tcs → (∃ H, HGood H h) → ∃ ts mds, linkMods done ms tcs = some mds ∧ ModsOk done ms ts mds
  | [], done, types, h, rs, tcs, hr, ha, hh => by
    simp only [tcModules] at hr
    cases hr
    simp [allSome] at ha
    subst ha
    exact ⟨[], [], rfl, .nil⟩
  | m :: ms, done, types, h, rs, tcs, hr, ha, hh => by
    simp only [tcModules] at hr
    obtain ⟨⟨h1, r⟩, h2, hr⟩ := R.bind_ok.mp hr
    obtain ⟨rs', h3, hr⟩ := R.bind_ok.mp hr
    cases hr
    obtain ⟨tc, tcs', e1, e2, rfl⟩ := allSome_cons ha
    simp only [Option.map_eq_some_iff] at e1
    obtain ⟨⟨t, tc'⟩, rfl, rfl⟩ := e1
    cases hd : depTypes done types m.deps with
    | none => rw [hd] at h2; cases h2
    | some ds =>
      rw [hd] at h2
      obtain ⟨hl, is, hi1, hi2⟩ := depTypes_ok m.deps hd
      obtain ⟨hh1, t', cx, g1, g2, g3⟩ := tcModule_erase hl hh h2
      obtain ⟨ts, mds, k1, k2⟩ := tcModules_ok ms h3 e2 hh1
      exact ⟨t' :: ts, ⟨is, tc'⟩ :: mds, by simp [linkMods, hi1, k1], .cons ⟨g1, hi2, cx, g2, g3⟩ k2⟩

/-! ### Running -/

theorem lookup_module {d : List Name} : {done : List Module} → {vals : List (List Name × NVal)} → {i : Nat} → vals.map (·.1) = done.map (·.path) → findModule d done = some i →
    ∃ v, vals[i]? = some v ∧ lookupVal (moduleEnv vals) (.module d) = some v.2
  | [], _, _, _, h => by simp [findModule] at h
  | m :: ms, [], _, he, _ => by simp at he
  | m :: ms, v :: vals, i, he, h => by
    simp only [List.map_cons, List.cons.injEq] at he
    simp only [findModule] at h
    simp only [moduleEnv, List.map_cons]
    rw [lookupVal_cons]
    split at h
    · rename_i hp
      cases h
      exact ⟨v, rfl, by rw [if_pos]; rw [he.1, ← pathsEqual_iff.mp hp]⟩
    · rename_i hp
      simp only [Option.map_eq_some_iff] at h
      obtain ⟨k, hk, rfl⟩ := h
      obtain ⟨w, h1, h2⟩ := lookup_module he.2 hk
      refine ⟨w, by simpa using h1, ?_⟩
      rw [if_neg]
      · exact h2
      · intro e
        rw [he.1] at e
        cases e
        exact hp (pathsEqual_iff.mpr rfl)

theorem deps_args {done : List Module} {vals : List (List Name × NVal)} {svals : List SVal} (hp : vals.map (·.1) = done.map (·.path)) (hv : All2 VR (vals.map (·.2)) svals)
    {ds : List (List Name)} {is : List Nat} (h : All2 (fun d i => findModule d done = some i) ds is) :
    ∃ args, is.mapM (fun d => svals[d]?) = some args ∧ ∀ (i : Nat) (d : List Name), ds[i]? = some d →
      ∃ a b, lookupVal (moduleEnv vals) (.module d) = some a ∧ args[i]? = some b ∧ VR a b := by
  induction h with
  | nil => exact ⟨[], rfl, by simp⟩
  | @cons d i ds is h1 _ ih =>
    obtain ⟨args, h2, h3⟩ := ih
    obtain ⟨v, h4, h5⟩ := lookup_module hp h1
    have hlt : i < (vals.map (·.2)).length := by simp; exact (List.getElem?_eq_some_iff.mp h4).1
    have hlt' : i < svals.length := by rw [← hv.length_eq]; exact hlt
    have := hv.get i hlt hlt'
    have h6 : (vals.map (·.2))[i] = v.2 := by
      rw [List.getElem_map]
      obtain ⟨_, e⟩ := List.getElem?_eq_some_iff.mp h4
      rw [e]
    rw [h6] at this
    refine ⟨svals[i] :: args, by simp [List.mapM_cons, h2, hlt'], ?_⟩
    intro j d' hj
    cases j with
    | zero => cases hj; exact ⟨v.2, svals[i], h5, rfl, this⟩
    | succ j => simpa using h3 j d' (by simpa using hj)

theorem runMods_rr : {done ms : List Module} → {ts : List N} → {mds : List Mod} → ModsOk done ms ts mds → {vals : List (List Name × NVal)} → {svals : List SVal} → {s : St NFn} → {s' : St SFn} →
    vals.map (·.1) = done.map (·.path) → All2 VR (vals.map (·.2)) svals → SR s s' →
    RR (fun vals svals => All2 VR (vals.map (·.2)) svals ∧ vals.length = done.length + ms.length) (runNamed ((ms.map (·.path)).zip ts) vals s) (Compile.runMods mds svals s')
  | done, _, _, _, .nil, vals, _, _, _, hp, hv, hs => .ok ⟨hv, by have := congrArg List.length hp; simpa using this⟩ hs
  | done, m :: ms, t :: ts, md :: mds, .cons hm hms, vals, svals, s, s', hp, hv, hs => by
    obtain ⟨args, h1, h2⟩ := deps_args hp hv hm.deps
    obtain ⟨cx, h3, h4⟩ := hm.conv
    simp only [List.map_cons, List.zip_cons_cons, runNamed, Compile.runMods, h1]
    rw [← hs.fuel]
    split
    · exact .oof
    · have her : ER 0 cx (moduleEnv vals) ⟨[], args, []⟩ := by
        refine ⟨?_, rfl⟩
        intro x v hx
        obtain ⟨i, d, k1, rfl, rfl⟩ := h3 x v hx
        obtain ⟨a, b, k2, k3, k4⟩ := h2 i d k1
        exact ⟨a, b, k2, k3, k4⟩
      refine (eval_rr (fun f f' a a' s s' => apply_rr _ f f' a a' s s' rfl) t h4 her (s := { s with fuel := s.fuel - 1 }) (s' := { s' with fuel := s.fuel - 1 }) ⟨rfl, hs.refs, hs.out⟩).bind fun v w s1 s1' hvw hs1 => ?_
      refine (runMods_rr hms (vals := vals ++ [(m.path, v)]) (by simp [hp]) (by simpa using hv.append (.cons hvw .nil)) hs1).mono fun _ _ h => ⟨h.1, ?_⟩
      rw [h.2]; simp; omega

theorem runProgram_rr {ms : List Module} {ts : List N} {mds : List Mod} (h : ModsOk [] ms ts mds) (hne : ms ≠ []) (fuel : Nat) (out : Compile.Outside := .silent) :
    RR VR (runNamedProgram ((ms.map (·.path)).zip ts) fuel out) (Compile.runProgram mds fuel out) := by
  unfold runNamedProgram Compile.runProgram
  split
  · exact .oof
  · refine (runMods_rr h rfl .nil ⟨rfl, .nil, rfl⟩).bind fun vals svals s s' hv hs => ?_
    obtain ⟨hv, hl⟩ := hv
    have h1 := hv.reverse
    rw [List.getLast?_eq_head?_reverse, List.getLast?_eq_head?_reverse]
    have hv2 : vals.reverse ≠ [] := by
      intro e
      have := congrArg List.length e
      have hne := List.length_pos_iff.mpr hne
      simp only [List.length_reverse, List.length_nil, Nat.zero_add] at this hl
      omega
    rw [← List.map_reverse] at h1
    generalize vals.reverse = l at h1 hv2 ⊢
    generalize svals.reverse = l' at h1 ⊢
    cases l with
    | nil => exact absurd rfl hv2
    | cons v l =>
      cases h1 with
      | cons h1 _ => exact .ok h1 hs


end Verif.Elab
