import Verif.Host.Model
import Verif.Elab.Program
import Verif.Backend.A64Program
/-
A C program that uses an fble program cannot tell how the fble program is run.
-/
namespace Verif.Host
open Verif.Compile

/-- The values a C program has look the same. -/
theorem views_same {F G : Type} {R : Val F → Val G → Prop} {refs refs'}
    (hu : ∀ v w, R v w → OptRel (Shape R) (unwrap refs (refs.length + 1) v) (unwrap refs' (refs'.length + 1) w)) {vs ws} (h : All2 R vs ws) :
    vs.map (view refs) = ws.map (view refs') := by
  induction h with
  | nil => rfl
  | cons h1 _ ih => rw [List.map_cons, List.map_cons, ih, show view refs _ = view refs' _ from funext fun p => view_same hu p h1]

theorem get_same {α β : Type} {R : α → β → Prop} {vs : List α} {ws : List β} (h : All2 R vs ws) (i : Nat) : OptRel R vs[i]? ws[i]? := by
  by_cases hi : i < vs.length
  · have hi' : i < ws.length := by rw [← h.length_eq]; exact hi
    rw [List.getElem?_eq_getElem hi, List.getElem?_eq_getElem hi']
    exact .some (h.get i hi hi')
  · rw [List.getElem?_eq_none (by omega), List.getElem?_eq_none (by rw [← h.length_eq]; omega)]
    exact .none

/-! ### The meaning and the bytecode -/

theorem host_rel (host : Program) : (n m : Nat) → {vs : List SVal} → {ws : List TVal} → {s : St SFn} → {s' : St TFn} → All2 VRel vs ws → SRel s s' → s.fuel ≤ m →
    RRel m VRel (runHost (fun op more => .native op more []) (applyAll apply) host n vs s) (runHost .native fcall host n ws s')
  | 0, _, _, _, _, _, _, _, _ => .oof
  | n + 1, m, vs, ws, s, s', hv, hs, hm => by
    rw [runHost, runHost, views_same (unwrap_shape hs) hv]
    cases host (ws.map (view s'.refs)) with
    | finish v =>
      have := get_same hv v
      simp only
      generalize vs[v]? = x at this ⊢
      generalize ws[v]? = y at this ⊢
      cases this with
      | none => exact .crash
      | some h => exact .ok h hs hm
    | field v i =>
      have := get_same hv v
      simp only
      generalize vs[v]? = x at this ⊢
      generalize ws[v]? = y at this ⊢
      cases this with
      | none => exact .crash
      | some h => exact (structField_rel i hs h hm).bind fun a b s s' h1 hs hm => host_rel host n m (hv.append (.cons h1 .nil)) hs hm
    | apply f a as =>
      have h1 := get_same hv f
      have h2 := makes_same makesRel hv (a :: as)
      have hne : ∀ x, makes (fun op more => SFn.native op more []) vs (a :: as) = some x → x ≠ [] := by
        intro x hx e
        subst e
        simp [makes, Option.bind_eq_some_iff] at hx
      simp only
      generalize vs[f]? = x at h1 ⊢
      generalize ws[f]? = y at h1 ⊢
      generalize makes (fun op more => SFn.native op more []) vs (a :: as) = x' at h2 hne ⊢
      generalize makes TFn.native ws (a :: as) = y' at h2 ⊢
      cases h1 with
      | none => exact .crash
      | some h1 =>
        cases h2 with
        | none => exact .crash
        | some h2 =>
          exact (call_ok s.fuel (hne _ rfl) h1 h2 hs rfl).bind fun a b s1 s1' h3 hs1 hm1 =>
            host_rel host n m (hv.append (.cons h3 .nil)) hs1 (Nat.le_trans hm1 hm)

theorem ended_rel {m r r'} (h : RRel m VRel r r') (depth : Nat) : ended depth r' = ended depth r := by
  cases h with
  | ok hv hs _ => simp only [ended, observe_rel hs depth hv, hs.out]
  | abort => rfl
  | crash => rfl
  | oof => rfl
  | stop => rfl

/-! ### The source and its meaning -/

theorem applyAll_rr : {as : List Elab.NVal} → {bs : List SVal} → {f : Elab.NVal} → {g : SVal} → {s : St Elab.NFn} → {s' : St SFn} → Elab.VR f g → All2 Elab.VR as bs → Elab.SR s s' →
    Elab.RR Elab.VR (Elab.applyAllN Elab.applyN f as s) (applyAll apply g bs s')
  | _, _, _, _, _, _, hf, .nil, hs => .ok hf hs
  | _, _, _, _, _, _, hf, .cons h hl, hs => (Elab.apply_rr _ _ _ _ _ _ _ rfl hf h hs).bind fun _ _ _ _ h1 hs1 => applyAll_rr h1 hl hs1

theorem host_named (host : Program) : (n : Nat) → {vs : List Elab.NVal} → {ws : List SVal} → {s : St Elab.NFn} → {s' : St SFn} → All2 Elab.VR vs ws → Elab.SR s s' →
    Elab.RR Elab.VR (runHost (fun op more => .native op more []) (Elab.applyAllN Elab.applyN) host n vs s) (runHost (fun op more => .native op more []) (applyAll apply) host n ws s')
  | 0, _, _, _, _, _, _ => .oof
  | n + 1, vs, ws, s, s', hv, hs => by
    rw [runHost, runHost, views_same (Elab.unwrap_shape hs) hv]
    cases host (ws.map (view s'.refs)) with
    | finish v =>
      have := get_same hv v
      simp only
      generalize vs[v]? = x at this ⊢
      generalize ws[v]? = y at this ⊢
      cases this with
      | none => exact .crash
      | some h => exact .ok h hs
    | field v i =>
      have := get_same hv v
      simp only
      generalize vs[v]? = x at this ⊢
      generalize ws[v]? = y at this ⊢
      cases this with
      | none => exact .crash
      | some h => exact (Elab.structField_rr i hs h).bind fun a b s s' h1 hs => host_named host n (hv.append (.cons h1 .nil)) hs
    | apply f a as =>
      have h1 := get_same hv f
      have h2 := makes_same Elab.makesRr hv (a :: as)
      simp only
      generalize vs[f]? = x at h1 ⊢
      generalize ws[f]? = y at h1 ⊢
      generalize makes (fun op more => Elab.NFn.native op more []) vs (a :: as) = x' at h2 ⊢
      generalize makes (fun op more => SFn.native op more []) ws (a :: as) = y' at h2 ⊢
      cases h1 with
      | none => exact .crash
      | some h1 =>
        cases h2 with
        | none => exact .crash
        | some h2 => exact (applyAll_rr h1 h2 hs).bind fun a b s1 s1' h3 hs1 => host_named host n (hv.append (.cons h3 .nil)) hs1

theorem ended_named {r r'} (h : Elab.RR Elab.VR r r') (depth : Nat) : ended depth r' = ended depth r := by
  cases h with
  | ok hv hs => simp only [ended, Elab.observe_rr hs depth hv, hs.out]
  | abort => rfl
  | crash => rfl
  | oof => rfl
  | stop => rfl

/-! ### The bytecode and the generated code -/

theorem host_generated {B : Type} {E : Code → B → Prop} {run : Backend.Runs B} (hE : ∀ {code body}, E code body → Backend.BodyR E run code body) (host : Program) :
    (n : Nat) → {vs : List TVal} → {ws : List (Backend.GVal B)} → {s : St TFn} → {s' : St (Backend.GFn B)} → All2 (Backend.VR (Backend.FR E)) vs ws → Backend.SR (Backend.FR E) s s' →
    Backend.RR (Backend.FR E) (Backend.VR (Backend.FR E)) (runHost .native fcall host n vs s) (runHost .native (Backend.gcall run) host n ws s')
  | 0, _, _, _, _, _, _ => .oof
  | n + 1, vs, ws, s, s', hv, hs => by
    rw [runHost, runHost, views_same (Backend.unwrap_shape hs) hv]
    cases host (ws.map (view s'.refs)) with
    | finish v =>
      have := get_same hv v
      simp only
      generalize vs[v]? = x at this ⊢
      generalize ws[v]? = y at this ⊢
      cases this with
      | none => exact .crash
      | some h => exact .ok h hs
    | field v i =>
      have := get_same hv v
      simp only
      generalize vs[v]? = x at this ⊢
      generalize ws[v]? = y at this ⊢
      cases this with
      | none => exact .crash
      | some h => exact (Backend.structField_rr i hs h).bind fun a b s s' h1 hs => host_generated hE host n (hv.append (.cons h1 .nil)) hs
    | apply f a as =>
      have h1 := get_same hv f
      have h2 := makes_same (R := Backend.VR (Backend.FR E)) (nf := TFn.native) (ng := Backend.GFn.native) ⟨.struct, .union, fun op more => .fn .native⟩ hv (a :: as)
      simp only
      generalize vs[f]? = x at h1 ⊢
      generalize ws[f]? = y at h1 ⊢
      generalize makes TFn.native vs (a :: as) = x' at h2 ⊢
      generalize makes Backend.GFn.native ws (a :: as) = y' at h2 ⊢
      cases h1 with
      | none => exact .crash
      | some h1 =>
        cases h2 with
        | none => exact .crash
        | some h2 => exact (Backend.fcall_rr hE h1 h2 hs).bind fun a b s1 s1' h3 hs1 => host_generated hE host n (hv.append (.cons h3 .nil)) hs1

theorem ended_generated {F G : Type} {R : F → G → Prop} {r : Res F (Val F)} {r' : Res G (Val G)} (h : Backend.RR R (Backend.VR R) r r') (hw : r ≠ .wild) (hc : r ≠ .crash) (depth : Nat) :
    ended depth r' = ended depth r := by
  cases h with
  | ok hv hs => simp only [ended, Backend.observe_vr hs depth hv, hs.out]
  | abort => rfl
  | crash => exact absurd rfl hc
  | oof => rfl
  | wild => exact absurd rfl hw
  | stop => rfl

end Verif.Host
