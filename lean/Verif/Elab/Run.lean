import Verif.Elab.Sim
import Verif.Elab.Meaning
import Verif.Compile.Program
import Verif.Elab.EraseAll
/-
Application and whole programs: the output of the type checker runs like the expressions by names.
-/
namespace Verif.Elab
open Types (Name Kind DataKind)
open Compile (Var Tc Tcs Flds Brs Val St Res SFn SVal SRes Env)

theorem apply_rr : (n : Nat) → ∀ f f' a a' s s', s.fuel = n → VR f f' → VR a a' → SR s s' → RR VR (applyN f a s) (Compile.apply f' a' s') := by
  intro n
  induction n using Nat.strongRecOn with
  | _ n ih =>
  intro f f' a a' s s' hn hf ha hs
  rw [applyN, Compile.apply]
  refine (strict_rr hs hf).bind fun g g' _ _ hg _ => ?_
  cases hg with
  | fn hg =>
    cases hg with
    | @clo x b ρ names ws tb svals hc h1 h2 =>
      have body : RR VR
          (if s.fuel = 0 then .oof
            else evalN (fun f a s' => if s'.fuel < s.fuel then applyN f a s' else .oof) b ((.normal x, some a) :: ρ) { s with fuel := s.fuel - 1 })
          (if s'.fuel = 0 then .oof
            else Compile.eval (fun f a s1 => if s1.fuel < s'.fuel then Compile.apply f a s1 else .oof) tb ⟨svals, [a'], []⟩ { s' with fuel := s'.fuel - 1 }) := by
        rw [← hs.fuel]
        split
        · exact .oof
        · rename_i h0
          refine eval_rr ?_ b hc (ER.func h1 h2 ha) ⟨rfl, hs.refs, hs.out⟩
          intro f f' a a' s1 s1' hf ha hs1
          rw [← hs1.fuel]
          split
          · rename_i hlt
            exact ih s1.fuel (by omega) f f' a a' s1 s1' rfl hf ha hs1
          · exact .oof
      cases hc with
      | func g1 g2 =>
        obtain ⟨ws', svals', e1, e2, e3⟩ := (ER.func h1 h2 ha (x := x)).capture g1
        simp only [e3]
        exact .ok (.fn (.clo g2 e1 e2)) hs
      | _ => exact body
    | @native op more as bs hab =>
      cases more with
      | succ k => exact .ok (.fn (.native (hab.append (.cons ha .nil)))) hs
      | zero =>
        simp only
        rw [← hs.fuel]
        split
        · exact .oof
        · exact callOut_rr ⟨rfl, hs.refs, hs.out⟩ (hab.append (.cons ha .nil))
  | _ => exact .crash

/-! ### What is seen -/

theorem observe_rr {s : St NFn} {s' : St SFn} (h : SR s s') : (n : Nat) → {v : NVal} → {w : SVal} → VR v w →
    Compile.observe s.refs n v = Compile.observe s'.refs n w
  | 0, _, _, _ => rfl
  | n + 1, v, w, hv => by
    simp only [Compile.observe]
    have := unwrap_rr h (s.refs.length + 1) hv
    rw [← h.refs.length_eq]
    generalize Compile.unwrap s.refs (s.refs.length + 1) v = x at this ⊢
    generalize Compile.unwrap s'.refs (s.refs.length + 1) w = y at this ⊢
    cases this with
    | none => rfl
    | some hv =>
      cases hv with
      | ref => rfl
      | type => rfl
      | fn _ => rfl
      | union h' => simp only [observe_rr h n h']
      | @struct fs gs h' =>
        simp only [Compile.Obs.struct.injEq]
        induction h' with
        | nil => rfl
        | cons h1 _ ih => simp only [List.map_cons, observe_rr h n h1, ih]

theorem RR.seen {r : NRes NVal} {r' : SRes SVal} (h : RR VR r r') : ∀ depth, r'.seen depth = r.seen depth := by
  cases h with
  | ok hv hs => exact fun depth => by simp only [Res.seen, observe_rr hs depth hv]
  | abort => exact fun _ => rfl
  | crash => exact fun _ => rfl
  | oof => exact fun _ => rfl
  | stop => exact fun _ => rfl

/-! ### Scopes -/

/-- Variables that may be used have a value. -/
def CxOk (ns na : Nat) (loc : List Bool) (cx : Cx) : Prop := ∀ x v, cxVar cx x = some v → v.Ok ns na loc

theorem cxOk_append {ns na loc} : {es cx : Cx} → (∀ e ∈ es, ∀ v, e.2 = some (v, true) → v.Ok ns na loc) → CxOk ns na loc cx → CxOk ns na loc (es ++ cx)
  | [], _, _, h => h
  | e :: es, cx, he, h => by
    intro x v hx
    rw [List.cons_append, cxVar_cons] at hx
    split at hx
    · rcases hv : e.2 with _ | ⟨w, _ | _⟩
      · rw [hv] at hx; cases hx
      · rw [hv] at hx; cases hx
      · rw [hv] at hx; cases hx; exact he e List.mem_cons_self _ hv
    · exact cxOk_append (fun e' h' => he e' (List.mem_cons_of_mem _ h')) h x v hx

theorem letEntries_mem {r : Bool} : {i : Nat} → {xs : List Name} → {e : VarName × Option (Var × Bool)} → e ∈ letEntries i r xs → ∃ j, i ≤ j ∧ j < i + xs.length ∧ e.2 = some (.loc j, r)
  | _, [], _, h => by simp [letEntries] at h
  | i, x :: xs, e, h => by
    simp only [letEntries, List.mem_cons] at h
    rcases h with rfl | h
    · exact ⟨i, by omega, by simp, rfl⟩
    · obtain ⟨j, h1, h2, h3⟩ := letEntries_mem h
      exact ⟨j, by omega, by simp; omega, h3⟩

theorem CxOk.letCx {ns na : Nat} {loc : List Bool} {cx : Cx} (h : CxOk ns na loc cx) {nl : Nat} (hl : loc.length = nl) (r : Bool) (xs : List Name) :
    CxOk ns na (loc ++ List.replicate xs.length r) (letCx nl r xs cx) := by
  subst hl
  unfold Elab.letCx
  refine cxOk_append ?_ ?_
  · intro e he v hv
    obtain ⟨j, h1, h2, h3⟩ := letEntries_mem (List.mem_reverse.mp he)
    rw [h3] at hv
    simp only [Option.some.injEq, Prod.mk.injEq] at hv
    obtain ⟨rfl, rfl⟩ := hv
    show (loc ++ List.replicate xs.length true)[j]? = some true
    rw [List.getElem?_append_right h1, List.getElem?_replicate]
    rw [if_pos (by omega)]
  · intro x v hx
    have := h x v hx
    cases v with
    | static i => exact this
    | arg i => exact this
    | loc i =>
      have this : loc[i]? = some true := this
      obtain ⟨hlt, _⟩ := List.getElem?_eq_some_iff.mp this
      show (loc ++ _)[i]? = some true
      rw [List.getElem?_append_left hlt]; exact this

theorem staticEntries_mem : {i : Nat} → {xs : List VarName} → {e : VarName × Option (Var × Bool)} → e ∈ staticEntries i xs → ∃ j, j < i + xs.length ∧ e.2 = some (.static j, true)
  | _, [], _, h => by simp [staticEntries] at h
  | i, x :: xs, e, h => by
    simp only [staticEntries, List.mem_cons] at h
    rcases h with rfl | h
    · exact ⟨i, by simp, rfl⟩
    · obtain ⟨j, h2, h3⟩ := staticEntries_mem h
      exact ⟨j, by simp; omega, h3⟩

theorem funCx_ok {x : Name} {names : List VarName} : CxOk names.length 1 [] (funCx x names) := by
  unfold funCx
  have : CxOk names.length 1 [] ([(VarName.normal x, some (Var.arg 0, true))] ++ (staticEntries 0 names ++ [])) := by
    refine cxOk_append ?_ (cxOk_append ?_ ?_)
    · intro e he v hv
      simp only [List.mem_singleton] at he
      subst he
      simp only [Option.some.injEq, Prod.mk.injEq] at hv
      rw [← hv.1]
      show 0 < 1
      omega
    · intro e he v hv
      obtain ⟨j, h1, h2⟩ := staticEntries_mem he
      rw [h2] at hv
      simp only [Option.some.injEq, Prod.mk.injEq] at hv
      rw [← hv.1]
      show j < names.length
      omega
    · intro x v hx; simp [cxVar] at hx
  simpa using this

theorem NTagged.tables_find : {bs : NTagged} → bs.Tables → {x : Name} → {t : N} → bs.find x = some t → t.Tables
  | .nil, _, _, _, h => by simp [NTagged.find] at h
  | .cons y t bs, ht, x, u, h => by
    simp only [NTagged.Tables] at ht
    simp only [NTagged.find] at h
    split at h
    · cases h; exact ht.1
    · exact NTagged.tables_find ht.2 h

mutual
theorem Conv.scoped {nl cx t tc} (h : Conv nl cx t tc) : t.Tables → ∀ {ns na loc}, loc.length = nl → CxOk ns na loc cx → tc.Scoped ns na loc :=
  match h with
  | .typeVal => fun _ _ _ _ _ _ => by simp [Tc.Scoped]
  | .var h => fun _ _ _ _ _ hc => by simp only [Tc.Scoped]; exact hc _ _ h
  | .letE (r := r) (xs := xs) h0 h1 h2 => fun ht ns na loc hl hc => by
    simp only [N.Tables] at ht
    simp only [Tc.Scoped]
    rw [h1.length, h0]
    exact ⟨ConvAll.scoped h1 ht.1 (by simp [hl]) (hc.letCx hl r xs), Conv.scoped h2 ht.2 (by simp [hl]) (hc.letCx hl true xs)⟩
  | .struct h => fun ht _ _ _ hl hc => by simp only [N.Tables] at ht; simp only [Tc.Scoped]; exact ConvAll.scoped h ht hl hc
  | .copy h1 h2 => fun ht _ _ _ hl hc => by
    simp only [N.Tables] at ht; simp only [Tc.Scoped]
    exact ⟨Conv.scoped h1 ht.1 hl hc, ConvCopy.scoped h2 ht.2 hl hc⟩
  | .union h1 h2 => fun ht _ _ _ hl hc => by simp only [N.Tables] at ht; simp only [Tc.Scoped]; exact Conv.scoped h2 ht hl hc
  | .select (d := d) (du := du) h1 h2 h3 h4 hb h5 h6 h7 h8 => fun ht _ _ _ hl hc => by
    simp only [N.Tables] at ht; simp only [Tc.Scoped]
    obtain ⟨t1, t2, t3, t4, t5⟩ := ht
    refine ⟨Conv.scoped h1 t1 hl hc, ConvBrs.scoped h5 t4 hl hc, ⟨h4, h8 t2 t3, hb⟩, Conv.scoped h6 ?_ hl hc⟩
    rcases h7 with ⟨x, hx⟩ | hd
    · exact NTagged.tables_find t4 hx
    · rw [hd] at t5; simpa only [NDefault.Tables] using t5
  | .access h1 h2 => fun ht _ _ _ hl hc => by simp only [N.Tables] at ht; simp only [Tc.Scoped]; exact Conv.scoped h2 ht hl hc
  | .func h1 h2 => fun ht _ _ _ hl hc => by
    simp only [N.Tables] at ht; simp only [Tc.Scoped]
    refine ⟨fun v hv => ?_, ?_⟩
    · obtain ⟨x, _, hx⟩ := h1.mem_right hv
      exact hc _ _ hx
    · rw [← h1.length_eq]
      exact Conv.scoped h2 ht rfl funCx_ok
  | .apply h1 h2 => fun ht _ _ _ hl hc => by
    simp only [N.Tables] at ht; simp only [Tc.Scoped]
    exact ⟨Conv.scoped h1 ht.1 hl hc, Conv.scoped h2 ht.2 hl hc⟩
  | .list h => fun ht _ _ _ hl hc => by simp only [N.Tables] at ht; simp only [Tc.Scoped]; exact ConvAll.scoped h ht hl hc
  | .literal => fun _ _ _ _ _ _ => by simp [Tc.Scoped]
termination_by structural h
theorem ConvAll.scoped {nl cx t tc} (h : ConvAll nl cx t tc) : t.Tables → ∀ {ns na loc}, loc.length = nl → CxOk ns na loc cx → tc.Scoped ns na loc :=
  match h with
  | .nil => fun _ _ _ _ _ _ => by simp [Tcs.Scoped]
  | .cons h1 h2 => fun ht _ _ _ hl hc => by
    simp only [Ns.Tables] at ht; simp only [Tcs.Scoped]
    exact ⟨Conv.scoped h1 ht.1 hl hc, ConvAll.scoped h2 ht.2 hl hc⟩
termination_by structural h
theorem ConvCopy.scoped {nl cx xs as fl} (h : ConvCopy nl cx xs as fl) : as.Tables → ∀ {ns na loc}, loc.length = nl → CxOk ns na loc cx → fl.Scoped ns na loc :=
  match h with
  | .nil => fun _ _ _ _ _ _ => by simp [Flds.Scoped]
  | .keep h1 h2 => fun ht _ _ _ hl hc => by simp only [Flds.Scoped]; exact ConvCopy.scoped h2 ht hl hc
  | .set h1 h2 h3 => fun ht _ _ _ hl hc => by
    simp only [Flds.Scoped]
    exact ⟨Conv.scoped h2 (NTagged.tables_find ht h1) hl hc, ConvCopy.scoped h3 ht hl hc⟩
termination_by structural h
theorem ConvBrs.scoped {nl cx bs brs} (h : ConvBrs nl cx bs brs) : bs.Tables → ∀ {ns na loc}, loc.length = nl → CxOk ns na loc cx → brs.Scoped ns na loc :=
  match h with
  | .nil => fun _ _ _ _ _ _ => by simp [Brs.Scoped]
  | .cons h0 h1 h2 => fun ht _ _ _ hl hc => by
    simp only [Brs.Scoped]
    exact ⟨Conv.scoped h1 (NTagged.tables_find ht h0) hl hc, ConvBrs.scoped h2 ht hl hc⟩
termination_by structural h
end

end Verif.Elab
