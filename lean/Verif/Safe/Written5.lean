import Verif.Safe.Written4
import Verif.Safe.Cast
/-
C89: a program that passes the type checker has types by the typing rules of the language.
-/
namespace Verif.Elab
open Types
open Compile (Var Tc Tcs Flds Brs Mod)

/-- Modules in order, each in the scope of the earlier modules it refers to; `done` are the modules before, with their types. -/
inductive ModulesTy (H : Heap) : List (List Name × Ptr) → List Module → List Ptr → Prop
  | nil {done} : ModulesTy H done [] []
  | cons {done m ms Ds T Ts} : All2 (fun d D => (done.find? fun b => decide (b.1 = d)).map (·.2) = some D) m.deps Ds →
      HasTy m.path H ((m.deps.map VarName.module).zip Ds).reverse m.value T → ModulesTy H (done ++ [(m.path, T)]) ms Ts → ModulesTy H done (m :: ms) (T :: Ts)

theorem argVars_ctx : (k : Nat) → (args : List (VarName × Ptr)) → (argVars k args).map (fun v => (v.name, v.type)) = args
  | _, [] => rfl
  | k, (x, t) :: args => by simp [argVars, argVars_ctx (k + 1) args]

theorem ctx_initScope (args : List (VarName × Ptr)) : ctx [initScope none args] = args.reverse := by
  simp [ctx, initScope, List.map_reverse, argVars_ctx]

theorem tcModule_src {c : Bool} {Ca : Prop} {n : Nat} {m : Module} {deps : List Ptr} {h h' : Heap} {t : Ptr} {tc : Tc} (hc : c = true → Ca) (hm : m.value.mono c) (hl : m.deps.length = deps.length) (hh : MonoHeap h)
    (hd : ∀ t ∈ deps, t < h.length) (ht : tcModule n m deps h = .ok (h', some (t, tc))) :
    ∀ H, Ends h' H → Closed Ca H → HasTy m.path H ((m.deps.map VarName.module).zip deps).reverse m.value t := by
  unfold tcModule at ht
  obtain ⟨⟨s, r⟩, h1, ht⟩ := R.bind_ok.mp ht
  cases ht
  have hl' : (m.deps.map VarName.module).length = deps.length := by simpa using hl
  have k := ((tc_src hc m.path n).1 _ hm).ty ⟨h, [initScope none ((m.deps.map VarName.module).zip deps)]⟩ _ _ ⟨⟨hh, initScope_ok hl' hd, by simp⟩, by simp [Stat, initScope]⟩ h1
  simpa only [ctx_initScope] using k

theorem findModule_find {d : List Name} {t : Ptr} : {done : List Module} → {types : List Ptr} → {i : Nat} → findModule d done = some i → types[i]? = some t →
    (((done.map (·.path)).zip types).find? fun b => decide (b.1 = d)).map (·.2) = some t
  | [], _, _, h, _ => by simp [findModule] at h
  | m :: done, [], i, h, ht => by simp at ht
  | m :: done, u :: types, i, h, ht => by
    simp only [findModule] at h
    by_cases hp : d = m.path
    · rw [if_pos (pathsEqual_iff.mpr hp)] at h
      cases h
      simp at ht
      simp [hp, ht]
    · rw [if_neg (by rw [pathsEqual_iff]; exact hp)] at h
      simp only [Option.map_eq_some_iff] at h
      obtain ⟨j, h1, rfl⟩ := h
      have := findModule_find (done := done) h1 (types := types) (t := t) (by simpa using ht)
      simpa [List.find?_cons, Ne.symm hp] using this

theorem depTypes_find {done : List Module} {types : List Ptr} : (ds : List (List Name)) → {ts : List Ptr} → depTypes done (types.map some) ds = some ts →
    All2 (fun d D => (((done.map (·.path)).zip types).find? fun b => decide (b.1 = d)).map (·.2) = some D) ds ts
  | [], ts, h => by simp [depTypes] at h; subst h; exact .nil
  | d :: ds, ts, h => by
    simp only [depTypes] at h
    cases hf : findModule d done with
    | none => rw [hf] at h; cases h
    | some i =>
      rw [hf] at h
      simp only [List.getElem?_map] at h
      cases ht : types[i]? with
      | none => rw [ht] at h; cases h
      | some t =>
        rw [ht] at h
        simp only [Option.map_some, Option.map_eq_some_iff] at h
        obtain ⟨ts', h1, rfl⟩ := h
        exact .cons (findModule_find hf ht) (depTypes_find ds h1)

theorem tcModules_src {c : Bool} {Ca : Prop} (hc : c = true → Ca) {n : Nat} : (ms : List Module) → {done : List Module} → {types : List Ptr} → {h : Heap} → {rs : List (Option Tc)} → {tcs : List Tc} →
    done.length = types.length → tcModules n done (types.map some) ms h = .ok rs → allSome rs = some tcs → (∀ m ∈ ms, m.value.mono c) → MonoHeap h → (∀ t ∈ types, t < h.length) →
    ∃ hf ts, atEnd n done (types.map some) ms h = .ok (hf, (types ++ ts).map some) ∧ h <+: hf ∧ MonoHeap hf ∧ (∀ t ∈ ts, t < hf.length) ∧
      ∀ H, Ends hf H → Closed Ca H → ModulesTy H ((done.map (·.path)).zip types) ms ts
  | [], done, types, h, rs, tcs, hlen, hr, ha, hm, hh, ht => ⟨h, [], by simp [atEnd], List.prefix_rfl, hh, by simp, fun H _ _ => .nil⟩
  | m :: ms, done, types, h, rs, tcs, hlen, hr, ha, hm, hh, ht => by
    simp only [tcModules] at hr
    obtain ⟨⟨h1, r⟩, h2, hr⟩ := R.bind_ok.mp hr
    obtain ⟨rs', h3, hr⟩ := R.bind_ok.mp hr
    cases hr
    obtain ⟨tc, tcs', e1, e2, rfl⟩ := allSome_cons ha
    simp only [Option.map_eq_some_iff] at e1
    obtain ⟨⟨t, tc'⟩, rfl, rfl⟩ := e1
    cases hd : depTypes done (types.map some) m.deps with
    | none => rw [hd] at h2; cases h2
    | some dts =>
      rw [hd] at h2
      obtain ⟨is, _, g2, g3⟩ := depTypes_get m.deps hd
      have hds : ∀ t ∈ dts, t < h.length := fun t h => ht t (g3 t h)
      obtain ⟨k1, k2, k3, _⟩ := tcModule_safe hc (hm m (by simp)) (depTypes_ok m.deps hd).1 hh hds h2
      have k4 := tcModule_src hc (hm m (by simp)) (depTypes_ok m.deps hd).1 hh hds h2
      obtain ⟨hf, ts, f0, f1, f2, f4, f3⟩ := tcModules_src hc ms (done := done ++ [m]) (types := types ++ [t]) (by simp [hlen]) (by simpa using h3) e2 (fun m h => hm m (by simp [h])) k2
        (by
          intro u hu
          rcases List.mem_append.mp hu with hu | hu
          · exact prefix_lt k1 (ht u hu)
          · simp at hu; rw [hu]; exact k3)
      refine ⟨hf, t :: ts, ?_, k1.trans f1, f2, ?_, fun H hE hO => .cons (depTypes_find m.deps hd) (k4 H ((Ends.prefix f1).trans hE) hO) ?_⟩
      · simp only [atEnd, hd]
        refine R.bind_ok.mpr ⟨_, h2, ?_⟩
        simpa using f0
      · intro u hu
        rcases List.mem_cons.mp hu with rfl | hu
        · exact prefix_lt f1 k3
        · exact f4 u hu
      · have := f3 H hE hO
        rw [List.map_append, List.zip_append (by simpa using hlen)] at this
        simpa using this

/-- The packages of the types of a program are opaque. -/
theorem MonoHeap.opaque {h : Heap} (hm : MonoHeap h) : ∀ (p : Nat) path o, h[p]? = some (.package path o) → o = true := fun p path o hp => by
  have := hm.nodes p _ hp
  simpa only [NodeIn] using this

/-- The types a program is typed with: every type is a proper type, made of other types, and no package is transparent. -/
structure TypesOf (H : Heap) : Prop where
  proper : ∀ p, p < H.length → ∃ q, Is H [] q p
  inside : ∀ (p : Nat) n c, H[p]? = some n → c ∈ n.children → c < H.length
  opaq : ∀ (p : Nat) path o, H[p]? = some (.package path o) → o = true

/-- C89. A program without polymorphic definitions that passes the type checker has types by the typing
rules of the language, module by module; unless it casts to abstract types and there is one that is defined
as itself. -/
theorem C89_typed {n : Nat} {program : List Module} {tcs : List Tc} (h : tcProgram n program = .ok (some tcs)) (hm : Monomorphic n program) :
    ∃ H types, TypesOf H ∧ (∀ t ∈ types, t < H.length) ∧ ModulesTy H [] program types := by
  unfold tcProgram at h
  obtain ⟨rs, h4, h⟩ := R.bind_ok.mp h
  have h : allSome rs = some tcs := R.ok.inj h
  have hm0 : MonoHeap ([] : Heap) := ⟨fun p n hp => by simp at hp, fun p hp => absurd hp (Nat.not_lt_zero _)⟩
  have key : ∀ hf : Heap, MonoHeap hf → TypesOf hf := fun hf k => ⟨k.proper, fun p n c hg hc => k.nodes.mono0.child (node_lt hg) hg hc, k.opaque⟩
  rcases hm with hm | ⟨hm, hp⟩
  · obtain ⟨hf, types, k0, _, k2, k4, k3⟩ := tcModules_src (Ca := False) (by simp) program (done := []) (types := []) rfl h4 h hm hm0 (by simp)
    exact ⟨hf, types, key hf k2, k4, k3 _ (.refl _) ⟨k2.opaque, False.elim⟩⟩
  · obtain ⟨hf, types, k0, _, k2, k4, k3⟩ := tcModules_src (Ca := True) (fun _ => trivial) program (done := []) (types := []) rfl h4 h hm hm0 (by simp)
    have k0' : atEnd n [] [] program [] = .ok (hf, types.map some) := k0
    exact ⟨hf, types, key hf k2, k4, k3 _ (.refl _) ⟨k2.opaque, fun _ => hp hf (by unfold endHeap; rw [k0']; rfl)⟩⟩

/-- The example of C16 is such a program, and so is one with casts. -/
example : ((∃ tcs, tcProgram 20 [Example.lib, Example.main] = .ok (some tcs)) ∧ Monomorphic 20 [Example.lib, Example.main]) ∧
    (∃ tcs, tcProgram 40 [Example.castAndBack] = .ok (some tcs)) ∧ Monomorphic 40 [Example.castAndBack] :=
  ⟨⟨⟨_, Example.checked⟩, .inl (by decide +kernel)⟩, ⟨_, Example.castAndBack_ok.1⟩, Example.castAndBack_ok.2⟩

/-! ### What has no type -/

section
variable {M : List Name} {H : Heap}

/-- The value of the empty struct type. -/
def unitValue : Expr := .structImplicit .nil

mutual
theorem unit_ty {Γ : Ctx} {e : Expr} {T : Ptr} : HasTy M H Γ e T → e = unitValue → IsNode H T (.data .struct [])
  | .conv h1 h2, he => by
    obtain ⟨fs, h3, h4⟩ := same_data h2 (unit_ty h1 he)
    cases h4
    exact h3
  | .type h1 _, he => (unit_noTy h1 he).elim
  | .structImplicit (Ts := Ts) h1 h2 h3, he => by
    cases he
    exact h2
theorem unit_noTy {Γ : Ctx} {e : Expr} {T : Ptr} : IsTy M H Γ e T → e = unitValue → False
  | .expr h1 h2, he => by cases h2.unique (unit_ty h1 he)
end

mutual
/-- A struct without fields has no field. -/
theorem access_ty {Γ : Ctx} {e : Expr} {T : Ptr} {x : Name} : HasTy M H Γ e T → e = .dataAccess unitValue x → False
  | .conv h1 _, he => access_ty h1 he
  | .type h1 _, he => access_noTy h1 he
  | .dataAccess h1 h2 h3, he => by
    cases he
    cases h2.unique (unit_ty h1 rfl)
    simp at h3
theorem access_noTy {Γ : Ctx} {e : Expr} {T : Ptr} {x : Name} : IsTy M H Γ e T → e = .dataAccess unitValue x → False
  | .expr h1 _, he => access_ty h1 he
end

mutual
/-- A struct is no function. -/
theorem call_ty {Γ : Ctx} {e : Expr} {T : Ptr} : HasTy M H Γ e T → e = .apply unitValue (.cons unitValue .nil) false → False
  | .conv h1 _, he => call_ty h1 he
  | .type h1 _, he => call_noTy h1 he
  | .apply h1 h2, he => by
    cases he
    cases h2 with
    | cons h3 _ _ => cases h3.unique (unit_ty h1 rfl)
  | .structValue h1 _ _, he => by cases he; exact unit_noTy h1 rfl
  | .abstractValue h1 _ _ _ _ _, he => by cases he; exact unit_noTy h1 rfl
theorem call_noTy {Γ : Ctx} {e : Expr} {T : Ptr} : IsTy M H Γ e T → e = .apply unitValue (.cons unitValue .nil) false → False
  | .expr h1 _, he => call_ty h1 he
end

/-- The rules do not accept everything. -/
example : (¬ ∃ T, HasTy M H [] (.dataAccess unitValue (Example.vn "x")) T) ∧ ¬ ∃ T, HasTy M H [] (.apply unitValue (.cons unitValue .nil) false) T :=
  ⟨fun ⟨_, h⟩ => access_ty h rfl, fun ⟨_, h⟩ => call_ty h rfl⟩
end

end Verif.Elab
