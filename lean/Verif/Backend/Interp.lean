import Verif.Backend.Rel
import Verif.Compile.Wf
/-
The loop of the interpreter does the same whatever the run functions of the function values are.
-/
namespace Verif.Backend
open Verif.Compile

section
variable {B : Type} {E : Code → B → Prop}

/-- Related frames. -/
structure FrR (E : Code → B → Prop) (fr : Frame) (fr' : GFrame B) : Prop where
  statics : All2 (VR (FR E)) fr.statics fr'.statics
  args : All2 (VR (FR E)) fr.args fr'.args
  locals : All2 (OR (FR E)) fr.locals fr'.locals

theorem All2.or_get {F G : Type} {R : F → G → Prop} {l : List (Val F)} {l' : List (Val G)} (h : All2 (VR R) l l') (i : Nat) : OR R l[i]? l'[i]? := by
  by_cases hi : i < l.length
  · have hi' : i < l'.length := by rw [← h.length_eq]; exact hi
    rw [List.getElem?_eq_getElem hi, List.getElem?_eq_getElem hi']
    exact .some (h.get i hi hi')
  · have hi' : ¬ i < l'.length := by rw [← h.length_eq]; exact hi
    rw [List.getElem?_eq_none (Nat.le_of_not_lt hi), List.getElem?_eq_none (Nat.le_of_not_lt hi')]
    exact .none

theorem FrR.get {fr : Frame} {fr' : GFrame B} (h : FrR E fr fr') (v : Var) : OR (FR E) (fr.get v) (fr'.get v) := by
  cases v with
  | static i => exact All2.or_get h.statics i
  | arg i => exact All2.or_get h.args i
  | loc i =>
    simp only [Frame.get, GFrame.get]
    by_cases hi : i < fr.locals.length
    · have hi' : i < fr'.locals.length := by rw [← h.locals.length_eq]; exact hi
      rw [List.getElem?_eq_getElem hi, List.getElem?_eq_getElem hi']
      exact h.locals.get i hi hi'
    · have hi' : ¬ i < fr'.locals.length := by rw [← h.locals.length_eq]; exact hi
      rw [List.getElem?_eq_none (Nat.le_of_not_lt hi), List.getElem?_eq_none (Nat.le_of_not_lt hi')]
      exact .none

/-- Both or neither. -/
inductive LR {F G : Type} (R : F → G → Prop) : Option (List (Val F)) → Option (List (Val G)) → Prop
  | none : LR R none none
  | some {v w} : All2 (VR R) v w → LR R (some v) (some w)

theorem FrR.gets {fr : Frame} {fr' : GFrame B} (h : FrR E fr fr') : (vs : List Var) → LR (FR E) (fr.gets vs) (fr'.gets vs)
  | [] => .some .nil
  | v :: vs => by
    have h1 := h.get v
    have h2 := h.gets vs
    simp only [Frame.gets, GFrame.gets, List.mapM_cons] at h2 ⊢
    generalize fr.get v = x at h1 ⊢
    generalize fr'.get v = y at h1 ⊢
    cases h1 with
    | none => exact .none
    | some hv =>
      generalize List.mapM fr.get vs = xs at h2 ⊢
      generalize List.mapM fr'.get vs = ys at h2 ⊢
      cases h2 with
      | none => exact .none
      | some hvs => exact .some (.cons hv hvs)

inductive NextR (E : Code → B → Prop) : Next → GNext B → Prop
  | go {pc fr fr'} : FrR E fr fr' → NextR E (.go pc fr) (.go pc fr')
  | done {o o'} : OutR E o o' → NextR E (.done o) (.done o')

theorem FrR.set {fr : Frame} {fr' : GFrame B} {s s' v w} (h : FrR E fr fr') (pc dest : Nat) (hv : VR (FR E) v w) (hs : SR (FR E) s s') :
    RR (FR E) (NextR E) (setNext pc fr dest v s) (gset pc fr' dest w s') := by
  simp only [setNext, gset, Frame.put, GFrame.put]
  rw [← h.locals.length_eq]
  by_cases hd : dest < fr.locals.length
  · rw [if_pos hd, if_pos hd]
    exact .ok (.go ⟨h.statics, h.args, All2.set h.locals (.some hv) dest⟩) hs
  · rw [if_neg hd]; exact .wild

theorem orWild_rr {s : Option (Val TFn)} {t : Option (GVal B)} {α β} {P : α → β → Prop} {k k'} (h : OR (FR E) s t)
    (hk : ∀ v w, VR (FR E) v w → RR (FR E) P (k v) (k' w)) : RR (FR E) P (orWild s k) (orWild t k') := by
  cases h with
  | none => exact .wild
  | some hv => exact hk _ _ hv

theorem orWilds_rr {s : Option (List (Val TFn))} {t : Option (List (GVal B))} {α β} {P : α → β → Prop} {k k'} (h : LR (FR E) s t)
    (hk : ∀ v w, All2 (VR (FR E)) v w → RR (FR E) P (k v) (k' w)) : RR (FR E) P (orWild s k) (orWild t k') := by
  cases h with
  | none => exact .wild
  | some hv => exact hk _ _ hv

/-- One instruction.  The run functions of the functions it makes have to implement them. -/
theorem step_rr {mk : Code → Nat → B} {call call'} {i : Instr} (hmk : ∀ c off scope d, i = .func c off scope d → E c (mk c off))
    (hc : CallsR E call call') {pc fr fr' s s'} (hf : FrR E fr fr') (hs : SR (FR E) s s') :
    RR (FR E) (NextR E) (step call i pc fr s) (gstep mk call' i pc fr' s') := by
  cases i with
  | struct args dest => exact orWilds_rr (hf.gets _) fun _ _ hv => hf.set _ _ (.struct hv) hs
  | union tag arg dest => exact orWild_rr (hf.get _) fun _ _ hv => hf.set _ _ (.union hv) hs
  | structAccess obj tag dest =>
    exact orWild_rr (hf.get _) fun _ _ hv => (structField_rr _ hs hv).bind fun _ _ _ _ hw hs => hf.set _ _ hw hs
  | unionAccess obj tag dest =>
    exact orWild_rr (hf.get _) fun _ _ hv => (unionField_rr _ hs hv).bind fun _ _ _ _ hw hs => hf.set _ _ hw hs
  | select c nt targets default =>
    refine orWild_rr (hf.get _) fun _ _ hv => (tagBelow_rr nt hs hv).bind fun a b _ _ hab hs => ?_
    subst hab
    cases Select.interpSelect targets default (some a) with
    | goto t => exact .ok (.go hf) hs
    | abort => exact .abort
    | crash => exact .wild
  | goto t => exact .ok (.go hf) hs
  | func code off scope dest => exact orWilds_rr (hf.gets _) fun _ _ hv => hf.set _ _ (.fn (.func (hmk _ _ _ _ rfl) hv)) hs
  | call f args dest =>
    exact orWild_rr (hf.get _) fun _ _ hv => orWilds_rr (hf.gets _) fun _ _ has => (hc hv has hs).bind fun _ _ _ _ hw hs => hf.set _ _ hw hs
  | tailCall f args =>
    refine orWild_rr (hf.get _) fun _ _ hv => (strict_rr hs hv).bind fun a b _ _ h hs => ?_
    obtain ⟨h, _⟩ := h
    cases h with
    | fn _ => exact orWilds_rr (hf.gets _) fun _ _ has => .ok (.done (.tail hv has)) hs
    | _ => exact .crash
  | copy src dest => exact orWild_rr (hf.get _) fun _ _ hv => hf.set _ _ hv hs
  | refValue dest => exact hf.set _ _ (newRef_vr hs).1 (newRef_vr hs).2
  | refDef ref value =>
    exact orWild_rr (hf.get _) fun _ _ hr => orWild_rr (hf.get _) fun _ _ hv => (assignRef_rr hs hr hv).bind fun _ _ _ _ _ hs => .ok (.go hf) hs
  | ret v => exact orWild_rr (hf.get _) fun _ _ hv => .ok (.done (.ret hv)) hs
  | type dest => exact hf.set _ _ .type hs
  | list args dest => exact orWilds_rr (hf.gets _) fun _ _ hv => hf.set _ _ (newList_vr hv) hs
  | literal ls dest => exact hf.set _ _ (newLiteral_vr ls) hs
  | nop => exact .ok (.go hf) hs

theorem exec_rr {mk : Code → Nat → B} {call call'} {code : List Instr} (hmk : ∀ c off scope d, .func c off scope d ∈ code → E c (mk c off))
    (hc : CallsR E call call') {pc fr fr' s s'} (hf : FrR E fr fr') (hs : SR (FR E) s s') :
    RR (FR E) (OutR E) (exec call code pc fr s) (gexec mk call' code pc fr' s') := by
  rw [exec.eq_def, gexec.eq_def]
  by_cases h : pc < code.length
  · rw [dif_pos h, dif_pos h]
    refine (step_rr (fun c off scope d he => hmk c off scope d (he ▸ List.getElem_mem h)) hc hf hs).bind fun nx nx' s1 s1' hn hs1 => ?_
    cases hn with
    | done ho => exact .ok ho hs1
    | @go pc' _ _ hf1 =>
      simp only
      by_cases hlt : pc < pc'
      · rw [if_pos hlt, if_pos hlt]
        exact exec_rr hmk hc hf1 hs1
      · rw [if_neg hlt]; exact .wild
  · rw [dif_neg h]; exact .wild
termination_by code.length - pc

theorem frame_rr {code : Code} {st st' as as'} (hst : All2 (VR (FR E)) st st') (has : All2 (VR (FR E)) as as') :
    FrR E (code.frame st as) ⟨st', as', List.replicate code.numLocals none⟩ := by
  refine ⟨hst, has, ?_⟩
  simp only [Code.frame]
  generalize code.numLocals = n
  induction n with
  | zero => exact .nil
  | succ n ih => exact .cons .none ih

/-- The interpreter implements a function if the functions it makes are implemented. -/
theorem interpret_body {mk : Code → Nat → B} {run : Runs B} {code : Code} {body : B} (hrun : run body = interpret mk code)
    (hmk : ∀ c off scope d, .func c off scope d ∈ code.instrs → E c (mk c off)) : BodyR E run code body := by
  intro call call' st st' as as' s s' hc hst has hs
  rw [hrun]
  exact exec_rr hmk hc (frame_rr hst has) hs
end

/-- A whole program: if the run functions of the modules implement their code, and the main function
is interpreted, the compiled program does what the interpreted one does. -/
theorem program_rr {B : Type} {E : Code → B → Prop} {run : Runs B} {interp : Code → B} {ms : List Mod} {codes : List Code} {bodies : List B}
    (hE : ∀ {code body}, E code body → BodyR E run code body) (hmain : E (mainCode ms) (interp (mainCode ms)))
    (hb : All2 E codes bodies) (fuel : Nat) (out : Outside := .silent) :
    RR (FR E) (VR (FR E)) (runMachine ms codes fuel out)
      (runGenerated run interp (mainCode ms) ((codes.map (·.numArgs)).zip bodies) fuel out) := by
  refine fcall_rr hE (.fn (.func hmain ?_)) .nil ⟨rfl, .nil, rfl⟩
  clear hmain
  induction hb with
  | nil => exact .nil
  | cons h _ ih => exact .cons (.fn (.func h .nil)) ih

end Verif.Backend
