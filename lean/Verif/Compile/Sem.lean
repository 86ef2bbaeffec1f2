import Verif.Compile.SemBase
import Verif.Select.Thm
/-
Compiled code computes the value of the expression.
-/
namespace Verif.Compile
open Verif.Select (Branch)

/-! ### Branch tables -/

theorem branchTable_sorted {exit} : {bs : Brs} → {bl : Blocks} → {sc : Scope} → {a : Out (List (Nat × List Instr × Option Var))} →
    CompBrs exit bs bl sc a → (lo : Nat) → bs.sortedFrom lo → (pc : Nat) →
    (∀ x ∈ branchTable exit pc a.res, lo ≤ x.tag) ∧ Select.Sorted (branchTable exit pc a.res)
  | .nil, _, _, _, .nil, _, _, _ => ⟨by simp [branchTable], by simp [branchTable, Select.Sorted]⟩
  | .cons tag t bs, _, _, _, .cons _ _ _ _ _ h _, lo, hs, pc => by
    simp only [branchTable]
    obtain ⟨h1, h2⟩ := branchTable_sorted h (tag + 1) hs.2 (pc + (‹Out (Option Var)›).code.length + if exit then 0 else 2)
    refine ⟨fun x hx => ?_, List.Pairwise.cons (fun x hx => h1 x hx) h2⟩
    rcases List.mem_cons.mp hx with rfl | hx
    · exact hs.1
    · have h3 := h1 x hx
      have h4 := hs.1
      omega

theorem branchTable_below {exit n} : {bs : Brs} → {bl : Blocks} → {sc : Scope} → {a : Out (List (Nat × List Instr × Option Var))} →
    CompBrs exit bs bl sc a → bs.tagsBelow n → (pc : Nat) → ∀ x ∈ branchTable exit pc a.res, x.tag < n
  | .nil, _, _, _, .nil, _, _ => by simp [branchTable]
  | .cons tag _ _, _, _, _, .cons _ _ _ _ _ h _, hs, pc => by
    simp only [branchTable]
    have h1 := branchTable_below h hs.2 (pc + (‹Out (Option Var)›).code.length + if exit then 0 else 2)
    intro x hx
    rcases List.mem_cons.mp hx with rfl | hx
    · exact hs.1
    · exact h1 x hx

theorem branchTable_ne {exit} {bs : Brs} {bl sc a} (h : CompBrs exit bs bl sc a) (hn : bs ≠ .nil) (pc) : branchTable exit pc a.res ≠ [] := by
  cases h with
  | nil => exact absurd rfl hn
  | cons => simp [branchTable]

theorem newLocal_pos {sc : Scope} (h : SInv sc) : 0 < (newLocal sc).2.cnt (.loc (slot sc)) := by
  rw [(newLocal_adds h.slots).cnt]; simp [plus]

theorem Adds.pos {sc sc' : Scope} {n vs} (h : Adds sc sc' n vs) : ∀ v, 0 < sc.cnt v → 0 < sc'.cnt v := fun v hv => by
  rw [h.cnt]; exact Nat.lt_of_lt_of_le hv (plus_ge _ _ _)

theorem Adds.mem_pos {sc sc' : Scope} {n vs} (h : Adds sc sc' n vs) : ∀ v ∈ vs, 0 < sc'.cnt v := fun v hv => by
  rw [h.cnt]; have := List.count_pos_iff.mpr hv; simp only [plus]; omega

/-! ### Let -/

theorem letVars_sem (c : Ctx) : (n : Nat) → {sc : Scope} → {lcode : List Instr} → {ls : List Nat} → {sc0 : Scope} →
    (∀ i, 0 < sc.cnt (.loc i) → i < sc.nlocals) → letVars true n sc = (lcode, ls, sc0) → At c.code sc.pc lcode →
    {fr : Frame} → sc0.nlocals ≤ fr.locals.length → (s : St TFn) →
    ∃ fr1, c.X sc.pc fr s = c.X (sc.pc + n) fr1 (newRefs n s).2 ∧ Keeps sc.cnt fr fr1 ∧ fr1.gets (ls.map .loc) = some (newRefs n s).1 ∧ lcode.length = n
  | 0, sc, lcode, ls, sc0, _, h, _, fr, _, s => by
    simp only [letVars, Prod.mk.injEq] at h
    obtain ⟨h1, h2, _⟩ := h
    subst h1 h2
    exact ⟨fr, rfl, .refl _ _, rfl, rfl⟩
  | n + 1, sc, lcode, ls, sc0, hs, h, ha, fr, hn, s => by
    simp only [letVars, if_true, Prod.mk.injEq] at h
    obtain ⟨h1, h2, h3⟩ := h
    subst h1 h2
    have hA := (newLocal_adds hs).trans (.emit (newLocal sc).2)
    let sc2 := pushVar (some (.loc (newLocal sc).1)) (newLocal sc).2.emit
    have hs2 : ∀ i, 0 < sc2.cnt (.loc i) → i < sc2.nlocals := hA.slots hs
    obtain ⟨ls', sc0', e, _, hA2⟩ := letVars_true n hs2
    have hle : sc2.nlocals ≤ sc0.nlocals := by
      have : sc0 = sc0' := by rw [← h3, e]
      rw [this]
      exact hA2.nlocals
    have hlt : (newLocal sc).1 < fr.locals.length := by
      have := newLocal_lt sc
      have h4 : sc2.nlocals = (newLocal sc).2.nlocals := rfl
      omega
    obtain ⟨fr1, x1, g1, k1⟩ := c.X_put (v := (newRef s).1) (s1 := (newRef s).2) (s := s) (At.head ha) rfl hlt
    have k1 := k1 sc.cnt (newLocal_cnt hs)
    obtain ⟨fr2, x2, k2, g2, l2⟩ := letVars_sem c n (sc := sc2) hs2 rfl (At.tail ha) (fr := fr1) (by
      show (letVars true n (pushVar (some (.loc (newLocal sc).1)) (newLocal sc).2.emit)).2.2.nlocals ≤ _
      rw [k1.size, h3]; exact hn) (newRef s).2
    refine ⟨fr2, ?_, k1.trans (k2.mono fun v hv => ?_), ?_, congrArg (· + 1) l2⟩
    · rw [x1, show sc.pc + 1 = sc2.pc from rfl, x2]
      congr 1
      show sc.pc + 1 + n = sc.pc + (n + 1)
      omega
    · exact hA.pos v hv
    · simp only [List.map_cons, newRefs]
      refine gets_cons ?_ g2
      rw [k2.get (hA.mem_pos _ (by simp))]
      exact g1

theorem letDefs_code : {i : Nat} → {ls : List Nat} → {ds : List Var} → {sc : Scope} → {acode : List Instr} → {sc1 : Scope} →
    letDefs i ls ds sc = some (acode, sc1) → acode = List.zipWith .refDef ls ds
  | i, l :: ls, d :: ds, sc, acode, sc1, h => by
    simp only [letDefs, Option.bind_eq_some_iff, Option.map_eq_some_iff] at h
    obtain ⟨sc2, h1, ⟨a2, sc3⟩, h2, h3⟩ := h
    cases h3
    simp [letDefs_code h2]
  | _, [], _, _, _, _, h => by simp [letDefs] at h; simp [h.1.symm]
  | _, _ :: _, [], _, _, _, h => by simp [letDefs] at h; simp [h.1.symm]

theorem letDefs_sem (c : Ctx) : (ls : List Nat) → (ds : List Var) → {rs vs : List SVal} → {rs' vs' : List TVal} → {pc : Nat} →
    At c.code pc (List.zipWith .refDef ls ds) → {fr : Frame} → fr.gets (ls.map .loc) = some rs' → fr.gets ds = some vs' →
    All2 VRel rs rs' → All2 VRel vs vs' → {s : St SFn} → {s' : St TFn} → SRel s s' → s.fuel ≤ c.m →
    {k : Unit → St SFn → SRes SVal} →
    (∀ s s', SRel s s' → s.fuel ≤ c.m → c.Agree (k () s) (c.X (pc + (List.zipWith (Instr.refDef) ls ds).length) fr s')) →
    c.Agree ((assignAll rs vs s).bind k) (c.X pc fr s')
  | [], ds, rs, vs, rs', vs', pc, _, fr, hr, _, hR, _, s, s', hs, hf, k, hk => by
    simp [Frame.gets] at hr
    subst hr
    cases hR
    exact hk s s' hs hf
  | l :: ls, [], rs, vs, rs', vs', pc, _, fr, _, hv, _, hV, s, s', hs, hf, k, hk => by
    simp [Frame.gets] at hv
    subst hv
    cases hV
    rw [assignAll]
    · exact hk s s' hs hf
    · simp
  | l :: ls, d :: ds, rs, vs, rs', vs', pc, ha, fr, hr, hv, hR, hV, s, s', hs, hf, k, hk => by
    obtain ⟨lr, gr⟩ := gets_get hr
    obtain ⟨lv, gv⟩ := gets_get hv
    cases hR with
    | nil => simp at lr
    | @cons r r' rs rs' hR1 hR2 =>
      cases hV with
      | nil => simp at lv
      | @cons v v' vs vs' hV1 hV2 =>
        have g1 : fr.get (.loc l) = some r' := by simpa using gr 0 (.loc l) (by simp)
        have g2 : fr.get d = some v' := by simpa using gv 0 d (by simp)
        have hr' : fr.gets (ls.map .loc) = some rs' := by
          simp only [Frame.gets, List.map_cons, List.mapM_cons, g1] at hr
          cases hm : List.mapM fr.get (ls.map .loc) with
          | none => simp [hm] at hr
          | some ys => simp [hm] at hr; subst hr; exact hm
        have hv' : fr.gets ds = some vs' := by
          simp only [Frame.gets, List.mapM_cons, g2] at hv
          cases hm : List.mapM fr.get ds with
          | none => simp [hm] at hv
          | some ys => simp [hm] at hv; subst hv; exact hm
        have x := c.X_step (At.head ha) fr s'
        rw [x]
        simp only [step, g1, g2, orWild, bind_assoc, assignAll]
        refine (assignRef_rel hs hR1 hV1 hf).bind fun _ _ s1 s1' _ hs1 hf1 => ?_
        simp only [Res.bind, Nat.lt_succ_self, if_true]
        refine letDefs_sem c ls ds (At.tail ha) hr' hv' hR2 hV2 hs1 hf1 fun s s' hs hf => ?_
        have := hk s s' hs hf
        simp only [List.zipWith_cons_cons, List.length_cons] at this
        rw [show pc + 1 + (List.zipWith Instr.refDef ls ds).length = pc + ((List.zipWith Instr.refDef ls ds).length + 1) by omega]
        exact this

theorem Tcs.length_cons (t : Tc) (ts : Tcs) : (Tcs.cons t ts).length = ts.length + 1 := rfl

theorem evals_length {app env} : (ts : Tcs) → {s : St SFn} → {vs : List SVal} → {s1 : St SFn} → evals app ts env s = .ok vs s1 → vs.length = ts.length
  | .nil, s, vs, s1, h => by simp [evals] at h; simp [h.1.symm, Tcs.length]
  | .cons t ts, s, vs, s1, h => by
    rw [evals] at h
    cases h1 : eval app t env s with
    | ok v s2 =>
      rw [h1] at h
      simp only [Res.bind] at h
      cases h2 : evals app ts env s2 with
      | ok vs2 s3 =>
        rw [h2] at h
        simp only [Res.bind] at h
        cases h
        simp [Tcs.length, evals_length ts h2]
      | _ => rw [h2] at h; simp [Res.bind] at h
    | _ => rw [h1] at h; simp [Res.bind] at h

theorem ERel.extend_some {sc sc1 : Scope} {env : Env} {fr : Frame} {vs : List SVal} {vs' : List TVal} {ds : List Var} (h : ERel sc env fr)
    (hn : sc1.nstatics = sc.nstatics) (ha : sc1.nargs = sc.nargs) (hv : sc1.vars = sc.vars ++ ds.map some)
    (hV : All2 VRel vs vs') (hg : fr.gets ds = some vs') :
    ERel sc1 { env with locals := env.locals ++ vs.map some } fr := by
  obtain ⟨hl, hg⟩ := gets_get hg
  refine h.extend hn ha hv (by simp [hl, hV.length_eq]) fun i w hw => ?_
  simp only [List.getElem?_map, Option.map_eq_some_iff] at hw
  obtain ⟨w', hw1, hw2⟩ := hw
  cases hw2
  have hi : i < ds.length := (List.getElem?_eq_some_iff.mp hw1).1
  have h1 : i < vs'.length := by omega
  have h2 : i < vs.length := by rw [hV.length_eq]; exact h1
  exact ⟨vs[i], vs'[i], by simp [h2], by rw [hg i w hw1, List.getElem?_eq_getElem h1], hV.get i h2 h1⟩

theorem setVar_nlocals {i v} {sc sc' : Scope} (h : setVar i v sc = some sc') : sc'.nlocals = sc.nlocals := by
  unfold setVar at h
  split at h
  · cases h
  · simp only [Option.map_eq_some_iff] at h
    obtain ⟨sc1, h1, rfl⟩ := h
    exact (releaseOpt_same h1).1

theorem letDefs_nlocals : {i : Nat} → {ls : List Nat} → {ds : List Var} → {sc : Scope} → {acode : List Instr} → {sc1 : Scope} →
    letDefs i ls ds sc = some (acode, sc1) → sc1.nlocals = sc.nlocals
  | i, l :: ls, d :: ds, sc, acode, sc1, h => by
    simp only [letDefs, Option.bind_eq_some_iff, Option.map_eq_some_iff] at h
    obtain ⟨sc2, h1, ⟨a2, sc3⟩, h2, h3⟩ := h
    cases h3
    rw [letDefs_nlocals h2, setVar_nlocals h1]
    rfl
  | _, [], _, _, _, _, h => by simp [letDefs] at h; rw [h.2]
  | _, _ :: _, [], _, _, _, h => by simp [letDefs] at h; rw [h.2]

/-! ### Expressions -/

variable {c : Ctx}

/-- What is to be shown of the code of an expression of size below `n`. -/
def Ctx.IH (c : Ctx) (n : Nat) : Prop := ∀ {exit t bl sc o}, t.size < n → Comp exit t bl sc o → SInv sc → ∀ {env fr s s'}, At c.code sc.pc o.code →
    o.sc.nlocals ≤ fr.locals.length → ERel sc env fr → SRel s s' → s.fuel ≤ c.m →
    c.Sem exit (eval c.app t env s) sc.pc fr s' sc.cnt o.res (sc.pc + o.code.length)

theorem Comps.sem {n} (ih : c.IH n) : {ts : Tcs} → {bl : Blocks} → {sc : Scope} → {a : Out (List Var)} → ts.size ≤ n → Comps ts bl sc a → SInv sc →
    {env : Env} → {fr : Frame} → {s : St SFn} → {s' : St TFn} → At c.code sc.pc a.code →
    a.sc.nlocals ≤ fr.locals.length → ERel sc env fr → SRel s s' → s.fuel ≤ c.m →
    c.Values (evals c.app ts env s) sc.pc fr s' sc.cnt a.res (sc.pc + a.code.length)
  | .nil, bl, sc, _, _, .nil, hi, env, fr, s, s', ha, hn, he, hs, hf => by
    intro k hk
    rw [evals]
    exact hk [] [] s s' fr .nil hs hf (.refl _ _) rfl
  | .cons t ts, bl, sc, _, hsz, .cons (o := o) (v := v) (a := a) co ro fo ca fa, hi, env, fr, s, s', ha, hn, he, hs, hf => by
    simp only [Tcs.size] at hsz
    intro k hk
    rw [evals, bind_assoc]
    have h1 := ih (by omega) co hi (At.left ha) (Nat.le_trans fa.adds.nlocals hn) he hs hf
    rw [ro] at h1
    refine h1.value _ ?_
    intro x x' s1 s1' fr1 hv1 hs1 hf1 hk1 hg1
    show c.Agree (Res.bind (Res.bind _ _) _) _
    rw [bind_assoc, ← fo.adds.pc]
    refine Comps.sem ih (by omega) ca fa.inv (by rw [fo.adds.pc]; exact At.right ha) (by rw [hk1.size]; exact hn)
      (he.keeps fo.inv hk1 fo.adds.same) hs1 hf1 _ ?_
    intro vs vs' s2 s2' fr2 hv2 hs2 hf2 hk2 hg2
    have := hk (x :: vs) (x' :: vs') s2 s2' fr2 (.cons hv1 hv2) hs2 hf2 (hk1.trans (hk2.adds fo.adds))
      (gets_cons (by rw [hk2.get (fo.adds.mem_pos _ (by simp))]; exact hg1) hg2)
    simp only [List.length_append] at this
    rw [fo.adds.pc, Nat.add_assoc]
    exact this

theorem CompDefs.sem {n} (ih : c.IH n) : {ts : Tcs} → {bl : Blocks} → {sc : Scope} → {a : Out (List Var)} → ts.size ≤ n → CompDefs ts bl sc a → SInv sc →
    {env : Env} → {fr : Frame} → {s : St SFn} → {s' : St TFn} → At c.code sc.pc a.code →
    a.sc.nlocals ≤ fr.locals.length → ERel sc env fr → SRel s s' → s.fuel ≤ c.m →
    c.Values (evals c.app ts env s) sc.pc fr s' sc.cnt a.res (sc.pc + a.code.length)
  | .nil, bl, sc, _, _, .nil, hi, env, fr, s, s', ha, hn, he, hs, hf => by
    intro k hk
    rw [evals]
    exact hk [] [] s s' fr .nil hs hf (.refl _ _) rfl
  | .cons t ts, bl, sc, _, hsz, .cons (o := o) (v := v) (a := a) co ro fo ca fa, hi, env, fr, s, s', ha, hn, he, hs, hf => by
    simp only [Tcs.size] at hsz
    intro k hk
    rw [evals, bind_assoc]
    have A1 := (Adds.enterBlock false bl sc).trans fo.adds
    have A2 := A1.trans (Adds.exitBlock false o.bl o.sc)
    simp only [List.nil_append, List.append_nil, Nat.zero_add, Nat.add_zero] at A1 A2
    have h1 := ih (by omega) co fo.inv (At.left ha) (Nat.le_trans (Adds.exitBlock false o.bl o.sc).nlocals (Nat.le_trans fa.adds.nlocals hn))
      (he.keeps hi (.refl _ _) (Adds.enterBlock false bl sc).same) hs hf
    rw [ro] at h1
    refine h1.value _ ?_
    intro x x' s1 s1' fr1 hv1 hs1 hf1 hk1 hg1
    show c.Agree (Res.bind (Res.bind _ _) _) (c.X (sc.pc + o.code.length) _ _)
    have hk1 : Keeps sc.cnt fr fr1 := hk1
    rw [bind_assoc, ← A2.pc]
    refine CompDefs.sem ih (by omega) ca fa.inv (by rw [A2.pc]; exact At.right ha) (by rw [hk1.size]; exact hn)
      (he.keeps hi hk1 A2.same) hs1 hf1 _ ?_
    intro vs vs' s2 s2' fr2 hv2 hs2 hf2 hk2 hg2
    have := hk (x :: vs) (x' :: vs') s2 s2' fr2 (.cons hv1 hv2) hs2 hf2 (hk1.trans (hk2.adds A2))
      (gets_cons (by rw [hk2.get (A2.mem_pos _ (by simp))]; exact hg1) hg2)
    simp only [List.length_append] at this
    rw [A2.pc, Nat.add_assoc]
    exact this

theorem CompFlds.sem {n} (ih : c.IH n) : {src : Var} → {i : Nat} → {fs : Flds} → {bl : Blocks} → {sc : Scope} → {a : Out (List Var)} → fs.size ≤ n →
    CompFlds src i fs bl sc a → SInv sc →
    {env : Env} → {fr : Frame} → {s : St SFn} → {s' : St TFn} → {sv : SVal} → {sv' : TVal} → At c.code sc.pc a.code →
    a.sc.nlocals ≤ fr.locals.length → ERel sc env fr → SRel s s' → s.fuel ≤ c.m →
    fr.get src = some sv' → VRel sv sv' → 0 < sc.cnt src →
    c.Values (evalFlds c.app sv i fs env s) sc.pc fr s' sc.cnt a.res (sc.pc + a.code.length)
  | src, i, .nil, bl, sc, _, _, .nil, hi, env, fr, s, s', sv, sv', ha, hn, he, hs, hf, hg, hv, hp => by
    intro k hk
    rw [evalFlds]
    exact hk [] [] s s' fr .nil hs hf (.refl _ _) rfl
  | src, i, .keep fs, bl, sc, _, hsz, .keep (a := a) ca fa, hi, env, fr, s, s', sv, sv', ha, hn, he, hs, hf, hg, hv, hp => by
    simp only [Flds.size] at hsz
    intro k hk
    rw [evalFlds, bind_assoc]
    have A := (newLocal_adds hi.slots).trans (.emit (newLocal sc).2)
    have hd : slot sc < fr.locals.length := Nat.lt_of_lt_of_le (newLocal_lt sc) (Nat.le_trans fa.adds.nlocals hn)
    refine c.put_bind (r := structField sv i s) (r' := structField sv' i s') (At.head ha)
      (by simp only [step, hg, orWild]) hd (newLocal_cnt hi.slots) (structField_rel i hs hv hf) ?_
    intro x x' s1 s1' fr1 hv1 hs1 hf1 hk1 hg1
    show c.Agree (Res.bind (Res.bind _ _) _) _
    rw [bind_assoc, show sc.pc + 1 = (newLocal sc).2.emit.pc from rfl]
    refine CompFlds.sem ih (by omega) ca fa.inv (At.tail ha) (by rw [hk1.size]; exact hn)
      (he.keeps hi hk1 A.same) hs1 hf1 (by rw [hk1.get hp]; exact hg) hv (A.pos _ hp) _ ?_
    intro vs vs' s2 s2' fr2 hv2 hs2 hf2 hk2 hg2
    have := hk (x :: vs) (x' :: vs') s2 s2' fr2 (.cons hv1 hv2) hs2 hf2 (hk1.trans (hk2.adds A))
      (gets_cons (by rw [hk2.get (A.mem_pos _ (by simp))]; exact hg1) hg2)
    simp only [List.length_cons] at this
    rw [show (newLocal sc).2.emit.pc = sc.pc + 1 from rfl, show sc.pc + 1 + a.code.length = sc.pc + (a.code.length + 1) by omega]
    exact this
  | src, i, .set t fs, bl, sc, _, hsz, .set (o := o) (v := v) (a := a) co ro fo ca fa, hi, env, fr, s, s', sv, sv', ha, hn, he, hs, hf, hg, hv, hp => by
    simp only [Flds.size] at hsz
    intro k hk
    rw [evalFlds, bind_assoc]
    have h1 := ih (by omega) co hi (At.left ha) (Nat.le_trans fa.adds.nlocals hn) he hs hf
    rw [ro] at h1
    refine h1.value _ ?_
    intro x x' s1 s1' fr1 hv1 hs1 hf1 hk1 hg1
    show c.Agree (Res.bind (Res.bind _ _) _) _
    rw [bind_assoc, ← fo.adds.pc]
    refine CompFlds.sem ih (by omega) ca fa.inv (by rw [fo.adds.pc]; exact At.right ha) (by rw [hk1.size]; exact hn)
      (he.keeps fo.inv hk1 fo.adds.same) hs1 hf1 (by rw [hk1.get hp]; exact hg) hv (fo.adds.pos _ hp) _ ?_
    intro vs vs' s2 s2' fr2 hv2 hs2 hf2 hk2 hg2
    have := hk (x :: vs) (x' :: vs') s2 s2' fr2 (.cons hv1 hv2) hs2 hf2 (hk1.trans (hk2.adds fo.adds))
      (gets_cons (by rw [hk2.get (fo.adds.mem_pos _ (by simp))]; exact hg1) hg2)
    simp only [List.length_append] at this
    rw [fo.adds.pc, Nat.add_assoc]
    exact this

theorem strict_bind {m s s' v w} {Q : SVal → TVal → Prop} {k k'} (h : SRel s s') (hv : VRel v w) (hm : s.fuel ≤ m)
    (hk : ∀ a b, VRel a b → notRef a → strict s v = .ok a s → strict s' w = .ok b s' → RRel m Q (k a s) (k' b s')) :
    RRel m Q ((strict s v).bind k) ((strict s' w).bind k') := by
  have := strict_rel h hv hm
  generalize hx : strict s v = x at this
  generalize hy : strict s' w = y at this
  cases this with
  | ok p _ _ =>
    obtain ⟨h1, h2, h3, h4⟩ := p
    cases h3
    cases h4
    exact hk _ _ h1 h2 hx hy
  | abort => exact .abort
  | crash => exact .crash
  | oof => exact .oof
  | stop => exact .stop

theorem select_step (c : Ctx) {pc cv targets d} {fr : Frame} {s : St SFn} {s' : St TFn} {x x'} (h : c.code[pc]? = some (.select cv nt targets d))
    (hg : fr.get cv = some x') (hv : VRel x x') (hs : SRel s s') (hf : s.fuel ≤ c.m) (hS : Select.Sorted targets) (hne : targets ≠ [])
    {k : Nat → St SFn → SRes SVal}
    (hk : ∀ tag t (s : St SFn) s', SRel s s' → s.fuel ≤ c.m → Select.Selects targets d tag t → pc < t ∧ c.Agree (k tag s) (c.X t fr s')) :
    c.Agree ((tagBelow nt x s).bind k) (c.X pc fr s') := by
  rw [c.X_step h]
  simp only [step, hg, orWild, bind_assoc]
  refine (tagBelow_rel nt hs hv hf).bind fun tag tag' s1 s1' ht hs1 hf1 => ?_
  cases ht
  obtain ⟨⟨t, h1⟩, h2⟩ := (Select.C06_interp_select hS hne d).2 tag
  obtain ⟨h3, h4⟩ := hk tag t s1 s1' hs1 hf1 ((h2 t).mp h1)
  rw [h1]
  simp only [Res.bind]
  rw [if_pos h3]
  exact h4

theorem CompBrs.sem {n exit} (ih : c.IH n) {dest stop : Nat} {cnt0 : Var → Nat} (h0 : cnt0 (.loc dest) = 0) (tag : Nat) :
    {bs : Brs} → {bl : Blocks} → {sc : Scope} → {a : Out (List (Nat × List Instr × Option Var))} → bs.size ≤ n →
    CompBrs exit bs bl sc a → SInv sc → {env : Env} → {fr : Frame} → {s : St SFn} → {s' : St TFn} →
    At c.code sc.pc (branchCode exit dest stop (a.res.map (·.2))) →
    a.sc.nlocals ≤ fr.locals.length → ERel sc env fr → SRel s s' → s.fuel ≤ c.m → (exit = false → dest < fr.locals.length) →
    (exit = false → sc.pc + partsLen exit a.res ≤ stop) → (∀ v, 0 < cnt0 v → 0 < sc.cnt v) →
    match bs.find tag with
    | some b => ∃ target, sc.pc ≤ target ∧ ⟨tag, target⟩ ∈ branchTable exit sc.pc a.res ∧
        c.Sem exit (eval c.app b env s) target fr s' cnt0 (some (.loc dest)) stop
    | none => ∀ x ∈ branchTable exit sc.pc a.res, x.tag ≠ tag
  | .nil, bl, sc, _, _, .nil, hi, env, fr, s, s', ha, hn, he, hs, hf, hd, hp, hc0 => by
    simp [Brs.find, branchTable]
  | .cons tg t bs, bl, sc, _, hsz, .cons (o := o) (z1 := z1) (z2 := z2) (a := a) co ro fo ab fz ca fa, hi, env, fr, s, s', ha, hn, he, hs, hf, hd, hp, hc0 => by
    simp only [Brs.size] at hsz
    have A0 : Adds sc (enterBlock exit bl sc.reset).2 (0 + 0) ([] ++ []) := (Adds.reset sc).trans (Adds.enterBlock exit bl sc.reset)
    have hno : o.sc.nlocals ≤ fr.locals.length := by
      rw [← (afterBranch_same ab).1]
      exact Nat.le_trans fa.adds.nlocals hn
    simp only [List.map_cons, branchCode] at ha
    simp only [Brs.find]
    by_cases htag : tag = tg
    · subst htag
      simp only [if_true]
      refine ⟨sc.pc, Nat.le_refl _, by simp [branchTable], ?_⟩
      cases exit with
      | true =>
        have := ih (by omega) co fo.inv (At.left ha) hno (he.keeps hi (.refl _ _) A0.same) hs hf
        unfold Ctx.Sem at this ⊢
        rw [if_pos rfl] at this ⊢
        exact this
      | false =>
        obtain ⟨w, hw⟩ := Option.isSome_iff_exists.mp (ro rfl)
        simp only [Bool.false_eq_true, if_false] at ha
        have := ih (by omega) co fo.inv (At.left (At.left ha)) hno (he.keeps hi (.refl _ _) A0.same) hs hf
        rw [hw] at this
        unfold Ctx.Sem
        rw [if_neg (by simp)]
        refine ⟨_, rfl, ?_⟩
        intro k hk
        refine this.value _ ?_
        intro x x' s1 s1' fr1 hv1 hs1 hf1 hk1 hg1
        have hk1 : Keeps sc.cnt fr fr1 := hk1
        have ha2 := At.right (At.left ha)
        rw [hw] at ha2
        show c.Agree _ (c.X (sc.pc + o.code.length) _ _)
        have := c.put_bind (r := .ok x s1) (r' := .ok x' s1') (dest := dest) (cnt := cnt0) (fr := fr1) (s' := s1') (k := k) (At.head ha2)
          (by simp only [step, hg1, orWild, Option.getD, Res.bind]) (by rw [hk1.size]; exact hd rfl) h0 (.ok hv1 hs1 hf1) ?_
        · exact this
        · intro y y' s2 s2' fr2 hv2 hs2 hf2 hk2 hg2
          rw [c.X_step (At.head (At.tail ha2))]
          simp only [step, Res.bind]
          have := hp rfl
          simp only [partsLen, Bool.false_eq_true, if_false] at this
          rw [if_pos (by omega)]
          exact hk y y' s2 s2' fr2 hv2 hs2 hf2 ((hk1.mono hc0).trans hk2) hg2
    · rw [if_neg htag]
      have hz : z2.pc = sc.pc + (o.code.length + if exit then 0 else 2) := fz.adds.pc
      have := CompBrs.sem ih h0 tag (by omega) ca fa.inv (env := env) (fr := fr) (s := s) (s' := s') (stop := stop) (dest := dest)
        (by
          rw [hz]
          have := At.right ha
          cases exit <;> simpa using this) hn (he.keeps hi (.refl _ _) fz.adds.same) hs hf hd
        (fun he => by
          have := hp he
          simp only [partsLen] at this
          omega) (fun v hv => fz.adds.pos v (hc0 v hv))
      rw [hz, ← Nat.add_assoc] at this
      cases hb : bs.find tag with
      | some b =>
        rw [hb] at this
        simp only at this ⊢
        obtain ⟨target, h1, h2, h3⟩ := this
        exact ⟨target, by omega, by simp only [branchTable]; exact List.mem_cons_of_mem _ h2, h3⟩
      | none =>
        rw [hb] at this
        simp only [branchTable] at this ⊢
        intro x hx
        rcases List.mem_cons.mp hx with rfl | hx
        · exact fun h => htag h.symm
        · exact this x hx

theorem CompDefs.length : {ts : Tcs} → {bl : Blocks} → {sc : Scope} → {a : Out (List Var)} → CompDefs ts bl sc a → a.res.length = ts.length
  | .nil, _, _, _, .nil => rfl
  | .cons _ _, _, _, _, .cons _ _ _ h _ => by simp [Tcs.length, h.length]

theorem Comp.isSome : (n : Nat) → {t : Tc} → t.size ≤ n → {bl : Blocks} → {sc : Scope} → {o : Out (Option Var)} → Comp false t bl sc o → ∃ w, o.res = some w
  | 0, t, hn, _, _, _, _ => by have := Tc.size_pos t; omega
  | n + 1, t, hn, bl, sc, o, h => by
    cases h with
    | @letE _ _ _ ds b d sc1 o sc' _ _ _ _ h => simp only [Tc.size] at hn; have := Comp.isSome n (t := b) (by omega) h; exact this
    | @letRec _ _ _ ds b ls lcode sc0 d acode sc1 o sc' _ _ _ _ _ _ h => simp only [Tc.size] at hn; have := Comp.isSome n (t := b) (by omega) h; exact this
    | _ => exact ⟨_, rfl⟩

/-- First something else, then the expression. -/
theorem sem_bind {α : Type} {P : α → St SFn → St TFn → Frame → Prop} {R : SRes α} {f : α → St SFn → SRes SVal}
    {exit pc fr s' pcB pc1} {cnt cntB : Var → Nat} {res : Option Var}
    (key : ∀ k : α → St SFn → SRes SVal, (∀ a s1 s1' fr1, P a s1 s1' fr1 → c.Agree (k a s1) (c.X pcB fr1 s1')) → c.Agree (R.bind k) (c.X pc fr s'))
    (hbody : ∀ {a s1 s1' fr1}, P a s1 s1' fr1 → c.Sem exit (f a s1) pcB fr1 s1' cntB res pc1)
    (hk : ∀ {a s1 s1' fr1}, P a s1 s1' fr1 → Keeps cnt fr fr1) (hpos : ∀ v, 0 < cnt v → 0 < cntB v)
    (hres : exit = false → ∃ w, res = some w) : c.Sem exit (R.bind f) pc fr s' cnt res pc1 := by
  cases exit with
  | true =>
    unfold Ctx.Sem at hbody ⊢
    rw [if_pos rfl, bind_assoc]
    refine key _ fun a s1 s1' fr1 hP => ?_
    have := hbody hP
    rw [if_pos rfl] at this
    exact this
  | false =>
    obtain ⟨w, rfl⟩ := hres rfl
    unfold Ctx.Sem
    rw [if_neg (by simp)]
    refine ⟨w, rfl, ?_⟩
    intro k hkk
    rw [bind_assoc]
    refine key _ fun a s1 s1' fr1 hP => ?_
    refine (hbody hP).value _ ?_
    intro v v' s2 s2' fr2 hv2 hs2 hf2 hk2 hg2
    exact hkk v v' s2 s2' fr2 hv2 hs2 hf2 ((hk hP).trans (hk2.mono hpos)) hg2

theorem Comp.sem_step (hc : c.Ok) {n} (ih : c.IH n) {exit t bl sc o} (hsz : t.size ≤ n) (h : Comp exit t bl sc o) (hi : SInv sc) {env fr s s'} (ha : At c.code sc.pc o.code)
    (hn : o.sc.nlocals ≤ fr.locals.length) (he : ERel sc env fr) (hs : SRel s s') (hf : s.fuel ≤ c.m) :
    c.Sem exit (eval c.app t env s) sc.pc fr s' sc.cnt o.res (sc.pc + o.code.length) := by
  cases h with
  | typeVal _ =>
    have hd : slot sc < fr.locals.length := Nat.lt_of_lt_of_le (slot_lt exit sc) hn
    refine sem_fin hc (pc1 := sc.pc + 1) ?_ (At.tail ha) (by simp only [finCode, List.length_append, List.length_cons]; omega)
    intro k hk
    rw [eval]
    exact c.put_bind (At.head ha) (by simp only [step, Res.bind]) hd (newLocal_cnt hi.slots) (.ok .type hs hf) hk
  | @literal _ _ _ ls _ =>
    have hd : slot sc < fr.locals.length := Nat.lt_of_lt_of_le (slot_lt exit sc) hn
    refine sem_fin hc (pc1 := sc.pc + 1) ?_ (At.tail ha) (by simp only [finCode, List.length_append, List.length_cons]; omega)
    intro k hk
    rw [eval]
    exact c.put_bind (At.head ha) (by simp only [step, Res.bind]) hd (newLocal_cnt hi.slots) (.ok (newLiteral_rel ls) hs hf) hk
  | @var _ _ _ v w _ hg =>
    refine sem_fin hc (pc1 := sc.pc) ?_ ha rfl
    intro k hk
    obtain ⟨x, y, h1, h2, h3⟩ := he.get hg
    rw [eval, h1]
    exact hk x y s s' fr h3 hs hf (.refl _ _) h2
  | @struct _ _ _ fs a sc' ca er fa =>
    have hsame := (releaseAll_same er).1
    have hd : slot a.sc < fr.locals.length := by
      have := slot_lt exit a.sc; rw [← hsame] at this; exact Nat.lt_of_lt_of_le this hn
    have ha2 := At.right ha
    refine sem_fin hc (pc1 := sc.pc + a.code.length + 1) ?_ (At.tail ha2) (by simp only [finCode, List.length_append, List.length_cons]; omega)
    intro k hk
    rw [eval, bind_assoc]
    refine Comps.sem ih (by simp only [Tc.size] at hsz; omega) ca hi (At.left ha) (Nat.le_trans (finSc_le fa.inv') (by rw [← hsame]; exact hn)) he hs hf _ ?_
    intro vs vs' s1 s1' fr1 hv hs1 hf1 hk1 hg1
    refine c.put_bind (r := .ok (.struct vs) s1) (r' := .ok (.struct vs') s1') (At.head ha2) (by simp only [step, Res.bind, hg1, orWild])
      (by rw [hk1.size]; exact hd) (newLocal_cnt fa.inv'.slots) (.ok (.struct hv) hs1 hf1) ?_
    intro v v' s2 s2' fr2 hv2 hs2 hf2 hk2 hg2
    exact hk v v' s2 s2' fr2 hv2 hs2 hf2 (hk1.trans (hk2.adds fa.adds)) hg2
  | @list _ _ _ fs a sc' ca er fa =>
    have hsame := (releaseAll_same er).1
    have hd : slot a.sc < fr.locals.length := by
      have := slot_lt exit a.sc; rw [← hsame] at this; exact Nat.lt_of_lt_of_le this hn
    have ha2 := At.right ha
    refine sem_fin hc (pc1 := sc.pc + a.code.length + 1) ?_ (At.tail ha2) (by simp only [finCode, List.length_append, List.length_cons]; omega)
    intro k hk
    rw [eval, bind_assoc]
    refine Comps.sem ih (by simp only [Tc.size] at hsz; omega) ca hi (At.left ha) (Nat.le_trans (finSc_le fa.inv') (by rw [← hsame]; exact hn)) he hs hf _ ?_
    intro vs vs' s1 s1' fr1 hv hs1 hf1 hk1 hg1
    refine c.put_bind (r := .ok (newList vs) s1) (r' := .ok (newList vs') s1') (At.head ha2) (by simp only [step, Res.bind, hg1, orWild])
      (by rw [hk1.size]; exact hd) (newLocal_cnt fa.inv'.slots) (.ok (newList_rel hv) hs1 hf1) ?_
    intro v v' s2 s2' fr2 hv2 hs2 hf2 hk2 hg2
    exact hk v v' s2 s2' fr2 hv2 hs2 hf2 (hk1.trans (hk2.adds fa.adds)) hg2
  | @copy _ _ _ src fs o v a sc1 sc' co ro fo ca fa er1 er2 =>
    have hsame := (release_same er2).1.trans (releaseAll_same er1).1
    have hd : slot a.sc < fr.locals.length := by
      have := slot_lt exit a.sc; rw [← hsame] at this; exact Nat.lt_of_lt_of_le this hn
    have hna : a.sc.nlocals ≤ fr.locals.length := Nat.le_trans (finSc_le fa.inv') (by rw [← hsame]; exact hn)
    have ha1 := At.left (At.left ha)
    have ha2 := At.right (At.left ha)
    have ha3 := At.right ha
    rw [List.length_append] at ha3
    refine sem_fin hc (pc1 := sc.pc + (o.code.length + a.code.length) + 1) ?_ (At.tail ha3) (by simp only [finCode, List.length_append, List.length_cons]; omega)
    intro k hk
    rw [eval, bind_assoc]
    have h1 := ih (by simp only [Tc.size] at hsz; omega) co hi ha1 (Nat.le_trans fa.adds.nlocals hna) he hs hf
    rw [ro] at h1
    refine h1.value _ ?_
    intro sv sv' s1 s1' fr1 hv1 hs1 hf1 hk1 hg1
    show c.Agree (Res.bind (Res.bind _ _) _) _
    rw [bind_assoc, ← fo.adds.pc]
    refine CompFlds.sem ih (by simp only [Tc.size] at hsz; omega) ca fa.inv (by rw [fo.adds.pc]; exact ha2) (by rw [hk1.size]; exact hna) (he.keeps fo.inv hk1 fo.adds.same) hs1 hf1 hg1 hv1
      (fo.adds.mem_pos _ (by simp)) _ ?_
    intro vs vs' s2 s2' fr2 hv2 hs2 hf2 hk2 hg2
    rw [fo.adds.pc, Nat.add_assoc]
    refine c.put_bind (r := .ok (.struct vs) s2) (r' := .ok (.struct vs') s2') (At.head ha3) (by simp only [step, Res.bind, hg2, orWild])
      (by rw [hk2.size, hk1.size]; exact hd) (newLocal_cnt fa.inv'.slots) (.ok (.struct hv2) hs2 hf2) ?_
    intro v v' s3 s3' fr3 hv3 hs3 hf3 hk3 hg3
    exact hk v v' s3 s3' fr3 hv3 hs3 hf3 (hk1.trans ((hk2.trans (hk3.adds fa.adds)).adds fo.adds)) hg3
  | @union _ _ _ tag t o v sc' co ro fo er =>
    have hsame := (release_same er).1
    have hd : slot o.sc < fr.locals.length := by
      have := slot_lt exit o.sc; rw [← hsame] at this; exact Nat.lt_of_lt_of_le this hn
    have ha2 := At.right ha
    refine sem_fin hc (pc1 := sc.pc + o.code.length + 1) ?_ (At.tail ha2) (by simp only [finCode, List.length_append, List.length_cons]; omega)
    intro k hk
    rw [eval, bind_assoc]
    have h1 := ih (by simp only [Tc.size] at hsz; omega) co hi (At.left ha) (Nat.le_trans (finSc_le fo.inv') (by rw [← hsame]; exact hn)) he hs hf
    rw [ro] at h1
    refine h1.value _ ?_
    intro x x' s1 s1' fr1 hv hs1 hf1 hk1 hg1
    refine c.put_bind (r := .ok (.union tag x) s1) (r' := .ok (.union tag x') s1') (At.head ha2) (by simp only [step, Res.bind, hg1, orWild])
      (by rw [hk1.size]; exact hd) (newLocal_cnt fo.inv'.slots) (.ok (.union hv) hs1 hf1) ?_
    intro v v' s2 s2' fr2 hv2 hs2 hf2 hk2 hg2
    exact hk v v' s2 s2' fr2 hv2 hs2 hf2 (hk1.trans (hk2.adds fo.adds)) hg2
  | @access _ _ _ u tag t o v sc' co ro fo er =>
    have hsame := (release_same er).1
    have hd : slot o.sc < fr.locals.length := by
      have := slot_lt exit o.sc; rw [← hsame] at this; exact Nat.lt_of_lt_of_le this hn
    have ha2 := At.right ha
    refine sem_fin hc (pc1 := sc.pc + o.code.length + 1) ?_ (At.tail ha2) (by simp only [finCode, List.length_append, List.length_cons]; omega)
    intro k hk
    have h1 := ih (by simp only [Tc.size] at hsz; omega) co hi (At.left ha) (Nat.le_trans (finSc_le fo.inv') (by rw [← hsame]; exact hn)) he hs hf
    rw [ro] at h1
    cases u with
    | false =>
      rw [eval, bind_assoc]
      refine h1.value _ ?_
      intro x x' s1 s1' fr1 hv hs1 hf1 hk1 hg1
      refine c.put_bind (r := structField x tag s1) (r' := structField x' tag s1') (At.head ha2)
        (by simp only [Bool.false_eq_true, if_false, step, hg1, orWild])
        (by rw [hk1.size]; exact hd) (newLocal_cnt fo.inv'.slots) (structField_rel tag hs1 hv hf1) ?_
      intro v v' s2 s2' fr2 hv2 hs2 hf2 hk2 hg2
      exact hk v v' s2 s2' fr2 hv2 hs2 hf2 (hk1.trans (hk2.adds fo.adds)) hg2
    | true =>
      rw [eval, bind_assoc]
      refine h1.value _ ?_
      intro x x' s1 s1' fr1 hv hs1 hf1 hk1 hg1
      refine c.put_bind (r := unionField x tag s1) (r' := unionField x' tag s1') (At.head ha2)
        (by simp only [if_true, step, hg1, orWild])
        (by rw [hk1.size]; exact hd) (newLocal_cnt fo.inv'.slots) (unionField_rel tag hs1 hv hf1) ?_
      intro v v' s2 s2' fr2 hv2 hs2 hf2 hk2 hg2
      exact hk v v' s2 s2' fr2 hv2 hs2 hf2 (hk1.trans (hk2.adds fo.adds)) hg2
  | @func _ _ _ scope body vs f _ hg hb cf =>
    have hd : slot sc < fr.locals.length := Nat.lt_of_lt_of_le (slot_lt exit sc) hn
    refine sem_fin hc (pc1 := sc.pc + 1) ?_ (At.tail ha) (by simp only [finCode, List.length_append, List.length_cons]; omega)
    intro k hk
    obtain ⟨xs, ys, h1, h2, h3, h4⟩ := he.gets hg
    rw [eval, h1]
    refine c.put_bind (r' := .ok (.fn (.func f.1 ys)) s') (At.head ha) (by simp only [step, Res.bind, h2, orWild]) hd (newLocal_cnt hi.slots)
      (.ok (.fn (.func (by rw [h4]; exact hb) h3 (by rw [h4]; exact cf))) hs hf) hk
  | @call _ _ f a h fv as sc2 sc3 ch rh fh cas fas er1 er2 =>
    have hsame := (releaseAll_same er2).1.trans (release_same er1).1
    have hsame : sc3.nlocals = (newLocal as.sc).2.nlocals := hsame
    have hd : slot as.sc < fr.locals.length := by
      have := newLocal_lt as.sc; rw [← hsame] at this; exact Nat.lt_of_lt_of_le this hn
    have hna : as.sc.nlocals ≤ fr.locals.length :=
      Nat.le_trans (newLocal_adds fas.inv'.slots).nlocals (by rw [← hsame]; exact hn)
    have ha1 := At.left (At.left ha)
    have ha2 := At.right (At.left ha)
    have ha3 := At.right ha
    rw [List.length_append] at ha3
    unfold Ctx.Sem
    rw [if_neg (by simp)]
    refine ⟨_, rfl, ?_⟩
    intro k hk
    rw [eval, bind_assoc]
    have h1 := ih (by simp only [Tc.size] at hsz; have := Tc.head_size f; omega) ch hi ha1 (Nat.le_trans fas.adds.nlocals hna) he hs hf
    rw [rh] at h1
    refine h1.value _ ?_
    intro x x' s1 s1' fr1 hv1 hs1 hf1 hk1 hg1
    show c.Agree (Res.bind (Res.bind _ _) _) _
    rw [bind_assoc, ← fh.adds.pc]
    refine Comps.sem ih (by simp only [Tc.size] at hsz; simp only [Tcs.size]; have := Tc.args_size f; omega) cas fas.inv (by rw [fh.adds.pc]; exact ha2) (by rw [hk1.size]; exact hna) (he.keeps fh.inv hk1 fh.adds.same) hs1 hf1 _ ?_
    intro vs vs' s2 s2' fr2 hv2 hs2 hf2 hk2 hg2
    have hg1' : fr2.get fv = some x' := by rw [hk2.get (fh.adds.mem_pos _ (by simp))]; exact hg1
    rw [fh.adds.pc, Nat.add_assoc]
    have hne : vs.reverse ≠ [] := by
      obtain ⟨hl, _⟩ := gets_get hg2
      have : as.res ≠ [] := by cases cas; simp
      rw [← hv2.length_eq] at hl
      intro h
      rw [List.reverse_eq_nil_iff] at h
      subst h
      exact this (List.length_eq_zero_iff.mp hl)
    refine c.put_bind (r := applyAll c.app x vs.reverse s2) (r' := c.call x' vs'.reverse s2') (At.head ha3)
      (by simp only [step, hg1', gets_reverse hg2, orWild]) (by rw [hk2.size, hk1.size]; exact hd) (newLocal_cnt fas.inv'.slots)
      (hc.call hne hv1 hv2.reverse hs2 hf2) ?_
    intro v v' s3 s3' fr3 hv3 hs3 hf3 hk3 hg3
    have := hk v v' s3 s3' fr3 hv3 hs3 hf3 (hk1.trans ((hk2.trans (hk3.adds fas.adds)).adds fh.adds)) hg3
    simp only [List.length_append, List.length_singleton] at this
    rw [← Nat.add_assoc] at this
    exact this
  | @tail _ _ f a h fv as sc2 sc3 ch rh fh cas fas er1 er2 =>
    have hsame : sc3.nlocals = as.sc.nlocals := (releaseAll_same er2).1.trans (release_same er1).1
    have hna : as.sc.nlocals ≤ fr.locals.length := by rw [← hsame]; exact hn
    have ha1 := At.left (At.left ha)
    have ha2 := At.right (At.left ha)
    have ha3 := At.right ha
    rw [List.length_append] at ha3
    unfold Ctx.Sem
    rw [if_pos rfl]
    rw [eval, bind_assoc]
    have h1 := ih (by simp only [Tc.size] at hsz; have := Tc.head_size f; omega) ch hi ha1 (Nat.le_trans fas.adds.nlocals hna) he hs hf
    rw [rh] at h1
    refine h1.value _ ?_
    intro x x' s1 s1' fr1 hv1 hs1 hf1 hk1 hg1
    show c.Agree (Res.bind (Res.bind _ _) _) _
    rw [bind_assoc, ← fh.adds.pc]
    refine Comps.sem ih (by simp only [Tc.size] at hsz; simp only [Tcs.size]; have := Tc.args_size f; omega) cas fas.inv (by rw [fh.adds.pc]; exact ha2) (by rw [hk1.size]; exact hna) (he.keeps fh.inv hk1 fh.adds.same) hs1 hf1 _ ?_
    intro vs vs' s2 s2' fr2 hv2 hs2 hf2 hk2 hg2
    have hg1' : fr2.get fv = some x' := by rw [hk2.get (fh.adds.mem_pos _ (by simp))]; exact hg1
    rw [fh.adds.pc, Nat.add_assoc]
    have hne : vs.reverse ≠ [] := by
      obtain ⟨hl, _⟩ := gets_get hg2
      have : as.res ≠ [] := by cases cas; simp
      rw [← hv2.length_eq] at hl
      intro h
      rw [List.reverse_eq_nil_iff] at h
      subst h
      exact this (List.length_eq_zero_iff.mp hl)
    rw [c.X_step (At.head ha3)]
    simp only [step, hg1', gets_reverse hg2, orWild, bind_assoc]
    -- both sides begin by looking at the function
    cases hr : vs.reverse with
    | nil => exact absurd hr hne
    | cons b bs =>
      have hst : (applyAll c.app x (b :: bs) s2).bind c.k0 = (strict s2 x).bind fun g _ =>
          match g with
          | .fn _ => (applyAll c.app x (b :: bs) s2).bind c.k0
          | _ => .crash := by
        simp only [applyAll]
        have := hc.strict (f := x) (a := b) (s := s2) hf2
        cases hx : strict s2 x with
        | ok g s3 =>
          rw [hx] at this
          simp only [Res.bind] at this ⊢
          cases g with
          | fn _ => rfl
          | _ => simp only at this ⊢; rw [this]
        | _ =>
          rw [hx] at this
          simp only [Res.bind] at this ⊢
          rw [this]
      rw [hst]
      refine strict_bind hs2 hv1 hf2 fun g g' hvg _ hsx hsx' => ?_
      cases hvg with
      | fn hfn =>
        exact hc.tail (by simp) hv1 (by rw [← hr]; exact hv2.reverse) hs2 hf2 hsx'
      | _ => exact .crash
  | @letE _ _ _ ds b d sc1 o sc' cd fd es e1 co fo ep =>
    simp only [Tc.size] at hsz
    have hno : o.sc.nlocals ≤ fr.locals.length := by rw [← (popVars_same ep).1]; exact hn
    have hnd : d.sc.nlocals ≤ fr.locals.length := by
      have := fo.adds.nlocals
      rw [e1] at this
      exact Nat.le_trans this hno
    have key : ∀ k, (∀ vs vs' s1 s1' fr1, All2 VRel vs vs' → SRel s1 s1' → s1.fuel ≤ c.m → Keeps sc.cnt fr fr1 → fr1.gets d.res = some vs' →
        c.Agree (k vs s1) (c.X sc1.pc fr1 s1')) → c.Agree ((evals c.app ds { env with locals := env.locals ++ List.replicate ds.length none } s).bind k)
          (c.X sc.pc fr s') := by
      intro k hk
      refine CompDefs.sem ih (by omega) cd fd.inv (At.left ha) hnd ?_ hs hf k ?_
      · refine he.extend rfl rfl rfl (by simp) fun i w hw => ?_
        simp only [List.getElem?_replicate] at hw
        split at hw <;> simp at hw
      · intro vs vs' s1 s1' fr1 hv1 hs1 hf1 hk1 hg1
        have := hk vs vs' s1 s1' fr1 hv1 hs1 hf1 hk1 hg1
        rw [e1] at this
        have hpc : d.sc.pc = sc.pc + d.code.length := fd.adds.pc
        rw [show (d.sc.setVars (sc.vars ++ d.res.map some)).pc = sc.pc + d.code.length from hpc] at this
        exact this
    have hbody : ∀ {vs vs' s1 s1' fr1}, All2 VRel vs vs' → SRel s1 s1' → s1.fuel ≤ c.m → Keeps sc.cnt fr fr1 → fr1.gets d.res = some vs' →
        c.Sem exit (eval c.app b { env with locals := env.locals ++ vs.map some } s1) sc1.pc fr1 s1' sc1.cnt o.res (sc1.pc + o.code.length) := by
      intro vs vs' s1 s1' fr1 hv1 hs1 hf1 hk1 hg1
      have hpc : d.sc.pc = sc.pc + d.code.length := fd.adds.pc
      refine ih (by omega) co fo.inv ?_ (by rw [hk1.size]; exact hno) ?_ hs1 hf1
      · rw [e1]
        show At c.code d.sc.pc _
        rw [hpc]
        exact At.right ha
      · refine (he.keeps hi hk1 (.refl _)).extend_some ?_ ?_ ?_ hv1 hg1
        · rw [e1]; exact fd.adds.same.nstatics
        · rw [e1]; exact fd.adds.same.nargs
        · rw [e1]; rfl
    have hpc : sc1.pc + o.code.length = sc.pc + (d.code ++ o.code).length := by
      have : d.sc.pc = sc.pc + d.code.length := fd.adds.pc
      rw [e1]
      show d.sc.pc + _ = _
      rw [this, List.length_append]; omega
    have hpos : ∀ v, 0 < sc.cnt v → 0 < sc1.cnt v := fun v hv => by
      rw [e1]; exact fd.adds.pos v hv
    rw [eval]
    have hres : exit = false → ∃ w, o.res = some w := fun he => by subst he; exact co.isSome _ (Nat.le_refl _)
    refine sem_bind (P := fun vs s1 s1' fr1 => ∃ vs', All2 VRel vs vs' ∧ SRel s1 s1' ∧ s1.fuel ≤ c.m ∧ Keeps sc.cnt fr fr1 ∧ fr1.gets d.res = some vs')
      (pcB := sc1.pc) (cntB := sc1.cnt) (fun k hk => key k fun vs vs' s1 s1' fr1 h1 h2 h3 h4 h5 => hk vs s1 s1' fr1 ⟨vs', h1, h2, h3, h4, h5⟩)
      (fun ⟨vs', h1, h2, h3, h4, h5⟩ => ?_) (fun ⟨_, _, _, _, h, _⟩ => h) hpos hres
    have := hbody h1 h2 h3 h4 h5
    rw [hpc] at this
    exact this
  | @letRec _ _ _ ds b ls lcode sc0 d acode sc1 o sc' el A0 cd fd es A1 co fo ep =>
    simp only [Tc.size] at hsz
    have hno : o.sc.nlocals ≤ fr.locals.length := by rw [← (popVars_same ep).1]; exact hn
    have hn1 : sc1.nlocals ≤ fr.locals.length := Nat.le_trans fo.adds.nlocals hno
    have hnd : d.sc.nlocals ≤ fr.locals.length := by rw [← letDefs_nlocals es]; exact hn1
    have hn0 : sc0.nlocals ≤ fr.locals.length := Nat.le_trans fd.adds.nlocals hnd
    have hl : ls.length = ds.length := by
      obtain ⟨ls', sc', e, h, _⟩ := letVars_true ds.length hi.slots
      rw [el] at e
      cases e
      exact h
    have hac := letDefs_code es
    have hal : acode.length = ds.length := by rw [hac, List.length_zipWith, cd.length, hl, Nat.min_self]
    have ha1 := At.left (At.left (At.left ha))
    have ha2 := At.right (At.left (At.left ha))
    have ha3 := At.right (At.left ha)
    have ha4 := At.right ha
    obtain ⟨fr1, x1, k1, g1, ll⟩ := letVars_sem c ds.length hi.slots el ha1 hn0 s'
    simp only [List.length_append, ll, hal] at ha2 ha3 ha4
    obtain ⟨r1, r2, r3⟩ := newRefs_rel ds.length hs
    have p0 : sc0.pc = sc.pc + ds.length := A0.pc
    have p1 : sc1.pc = sc.pc + (ds.length + d.code.length + ds.length) := A1.pc
    have he0 : ERel sc0 { env with locals := env.locals ++ (newRefs ds.length s).1.map some } fr1 := by
      refine (he.keeps hi k1 (.refl _)).extend_some A0.same.nstatics A0.same.nargs ?_ r1 g1
      rw [A0.same.vars]
      show sc.vars ++ _ = _
      simp
    have hf0 : (newRefs ds.length s).2.fuel ≤ c.m := by rw [newRefs_fuel]; exact hf
    have key : ∀ k, (∀ vs vs' s1 s1' fr1, All2 VRel vs vs' → SRel s1 s1' → s1.fuel ≤ c.m → Keeps sc.cnt fr fr1 → fr1.gets d.res = some vs' →
        c.Agree (k vs s1) (c.X sc1.pc fr1 s1')) →
        c.Agree (((evals c.app ds { env with locals := env.locals ++ (newRefs ds.length s).1.map some } (newRefs ds.length s).2).bind fun vs s1 =>
          (assignAll (newRefs ds.length s).1 vs s1).bind fun _ s2 => .ok vs s2).bind k) (c.X sc.pc fr s') := by
      intro k hk
      rw [x1, bind_assoc, ← p0]
      refine CompDefs.sem ih (by omega) cd fd.inv (by rw [p0]; exact ha2) (by rw [k1.size]; exact hnd) he0 r2 hf0 _ ?_
      intro vs vs' s1 s1' fr2 hv1 hs1 hf1 hk1 hg1
      show c.Agree (Res.bind (Res.bind _ _) _) _
      rw [bind_assoc, p0]
      refine letDefs_sem c ls d.res (by rw [← hac, Nat.add_assoc]; exact ha3) (fr := fr2) ?_ hg1 r1 hv1 hs1 hf1 ?_
      · rw [hk1.gets _ fun w hw => A0.mem_pos w hw]
        exact g1
      · intro s2 s2' hs2 hf2
        have := hk vs vs' s2 s2' fr2 hv1 hs2 hf2 (k1.trans (hk1.mono A0.pos)) hg1
        rw [p1] at this
        rw [← hac, hal, Nat.add_assoc, Nat.add_assoc, ← Nat.add_assoc ds.length]
        exact this
    have hpc : sc1.pc + o.code.length = sc.pc + (lcode ++ d.code ++ acode ++ o.code).length := by
      simp only [List.length_append, ll, hal, p1]; omega
    have hpos : ∀ v, 0 < sc.cnt v → 0 < sc1.cnt v := fun v hv => A1.pos v hv
    have hres : exit = false → ∃ w, o.res = some w := fun he => by subst he; exact co.isSome _ (Nat.le_refl _)
    have hev : eval c.app (.letE true ds b) env s =
        ((evals c.app ds { env with locals := env.locals ++ (newRefs ds.length s).1.map some } (newRefs ds.length s).2).bind fun vs s1 =>
          (assignAll (newRefs ds.length s).1 vs s1).bind fun _ s2 => .ok vs s2).bind fun vs s3 =>
            eval c.app b { env with locals := env.locals ++ vs.map some } s3 := by
      rw [eval, bind_assoc]
      congr; funext vs s1
      rw [bind_assoc]
      rfl
    rw [hev]
    refine sem_bind (P := fun vs s1 s1' fr1 => ∃ vs', All2 VRel vs vs' ∧ SRel s1 s1' ∧ s1.fuel ≤ c.m ∧ Keeps sc.cnt fr fr1 ∧ fr1.gets d.res = some vs')
      (pcB := sc1.pc) (cntB := sc1.cnt) (fun k hk => key k fun vs vs' s1 s1' fr1 h1 h2 h3 h4 h5 => hk vs s1 s1' fr1 ⟨vs', h1, h2, h3, h4, h5⟩)
      (fun ⟨vs', h1, h2, h3, h4, h5⟩ => ?_) (fun ⟨_, _, _, _, h, _⟩ => h) hpos hres
    have := ih (by omega) co fo.inv (by rw [p1]; exact ha4) (by rw [h4.size]; exact hno)
      ((he.keeps hi h4 (.refl _)).extend_some A1.same.nstatics A1.same.nargs A1.same.vars h1 h5) h2 h3
    rw [hpc] at this
    exact this
  | @selectExit _ _ t nt bs d o cv b dd z1 z2 sc' co ro fo hT cb fb cd fd ab er =>
    simp only [Tc.size] at hsz
    have hn1 : z2.nlocals ≤ fr.locals.length := by
      have := (release_same er).1
      rw [show sc'.nlocals = z2.nlocals from this] at hn
      exact hn
    have hnd : dd.sc.nlocals ≤ fr.locals.length := by rw [← (afterBranch_same ab).1]; exact hn1
    have Ae : Adds b.sc (enterBlock true b.bl b.sc.reset).2 (0 + 0) ([] ++ []) := (Adds.reset b.sc).trans (Adds.enterBlock true b.bl b.sc.reset)
    have hnb : b.sc.nlocals ≤ fr.locals.length := Nat.le_trans fd.adds.nlocals hnd
    have hnc : o.sc.nlocals ≤ fr.locals.length := Nat.le_trans fb.adds.nlocals hnb
    have ha2 := At.right ha
    have ha3 := At.left (At.tail ha2)
    have ha4 := At.right (At.tail ha2)
    have h1 := ih (by omega) co hi (At.left ha) hnc he hs hf
    rw [ro] at h1
    unfold Ctx.Sem
    rw [if_pos rfl, eval_select, bind_assoc]
    refine h1.value _ ?_
    intro x x' s1 s1' fr1 hv1 hs1 hf1 hk1 hg1
    show c.Agree (Res.bind (Res.bind _ _) _) _
    rw [bind_assoc]
    have po : o.sc.pc = sc.pc + o.code.length := fo.adds.pc
    have pb : b.sc.pc = o.sc.pc + 1 + partsLen true b.res := fb.adds.pc
    refine select_step c (At.head ha2) hg1 hv1 hs1 hf1 (branchTable_sorted cb 0 hT.1 _).2 (branchTable_ne cb hT.2.1 _) ?_
    intro tag t s2 s2' hs2 hf2 hsel
    have he1 : ERel o.sc.emit env fr1 := he.keeps hi hk1 (fo.adds.trans (.emit o.sc)).same
    have hb := CompBrs.sem ih (dest := slot o.sc) (stop := z2.pc) (cnt0 := fun _ => 0) rfl tag (by omega) cb fb.inv (env := env) (fr := fr1) (s := s2) (s' := s2')
      (by rw [show o.sc.emit.pc = o.sc.pc + 1 from rfl, po]; exact ha3) (by rw [hk1.size]; exact hnb) he1 hs2 hf2 (by simp) (by simp) (by simp)
    cases hfd : bs.find tag with
    | some e =>
      rw [hfd] at hb
      simp only at hb ⊢
      obtain ⟨target, h1, h2, h3⟩ := hb
      have et : t = target := hsel.det (branchTable_sorted cb 0 hT.1 _).2 (.listed h2 rfl)
      subst et
      refine ⟨by rw [show o.sc.emit.pc = o.sc.pc + 1 from rfl, po] at h1; omega, ?_⟩
      unfold Ctx.Sem at h3
      rw [if_pos rfl] at h3
      exact h3
    | none =>
      rw [hfd] at hb
      simp only at hb ⊢
      have et : t = b.sc.pc := hsel.det (branchTable_sorted cb 0 hT.1 _).2 (.default hb)
      subst et
      refine ⟨by omega, ?_⟩
      have h3 := ih (by omega) cd fd.inv (env := env) (fr := fr1) (s := s2) (s' := s2') (by
        show At c.code b.sc.pc _
        rw [pb, po]
        rw [partsLen_code true (slot o.sc) z2.pc] at ha4
        exact ha4) (by rw [hk1.size]; exact hnd) (he1.keeps fb.inv (.refl _ _) (fb.adds.trans Ae).same) hs2 hf2
      unfold Ctx.Sem at h3
      rw [if_pos rfl] at h3
      exact h3
  | @select _ _ t nt bs d o cv b dd dv z1 z2 sc' co ro fo hT cb fb cd rd fd ab er hz =>
    simp only [Tc.size] at hsz
    have hn1 : z2.nlocals ≤ fr.locals.length := by
      have := (release_same er).1
      rw [show sc'.nlocals = z2.nlocals from this] at hn
      exact hn
    have hnd : dd.sc.nlocals ≤ fr.locals.length := by rw [← (afterBranch_same ab).1]; exact hn1
    have Ae : Adds b.sc (enterBlock false b.bl b.sc.reset).2 (0 + 0) ([] ++ []) := (Adds.reset b.sc).trans (Adds.enterBlock false b.bl b.sc.reset)
    have hnb : b.sc.nlocals ≤ fr.locals.length := Nat.le_trans fd.adds.nlocals hnd
    have An := (newLocal_adds fo.inv'.slots).trans (.emit (newLocal o.sc).2)
    have hnl : (newLocal o.sc).2.nlocals ≤ fr.locals.length := Nat.le_trans fb.adds.nlocals hnb
    have hnc : o.sc.nlocals ≤ fr.locals.length := Nat.le_trans An.nlocals hnl
    have hd : slot o.sc < fr.locals.length := Nat.lt_of_lt_of_le (newLocal_lt o.sc) hnl
    have ha2 := At.right ha
    have ha3 := At.left (At.tail ha2)
    have ha4 := At.right (At.tail ha2)
    have h1 := ih (by omega) co hi (At.left ha) hnc he hs hf
    rw [ro] at h1
    have po : o.sc.pc = sc.pc + o.code.length := fo.adds.pc
    have pb : b.sc.pc = o.sc.pc + 1 + partsLen false b.res := fb.adds.pc
    have h0 : sc.cnt (.loc (slot o.sc)) = 0 := by
      have := newLocal_cnt fo.inv'.slots
      have h2 := fo.adds.pos (.loc (slot o.sc))
      show sc.cnt _ = 0
      simp only [slot] at h2 ⊢
      omega
    have hpz : z2.pc = sc.pc + (o.code ++ Instr.select cv nt (branchTable false (newLocal o.sc).2.emit.pc b.res) b.sc.pc ::
            (branchCode false (slot o.sc) z2.pc (b.res.map (·.2)) ++ (dd.code ++ [Instr.copy dv (slot o.sc), Instr.nop]))).length := by
      simp only [List.length_append, List.length_cons, List.length_nil, partsLen_code]
      omega
    unfold Ctx.Sem
    rw [if_neg (by simp)]
    refine ⟨_, rfl, ?_⟩
    intro k hk
    rw [← hpz] at hk
    rw [eval_select, bind_assoc]
    refine h1.value _ ?_
    intro x x' s1 s1' fr1 hv1 hs1 hf1 hk1 hg1
    show c.Agree (Res.bind (Res.bind _ _) _) _
    rw [bind_assoc]
    refine select_step c (At.head ha2) hg1 hv1 hs1 hf1 (branchTable_sorted cb 0 hT.1 _).2 (branchTable_ne cb hT.2.1 _) ?_
    intro tag t s2 s2' hs2 hf2 hsel
    have hA : Adds sc (newLocal o.sc).2.emit _ _ := fo.adds.trans An
    have he1 : ERel (newLocal o.sc).2.emit env fr1 := he.keeps hi hk1 hA.same
    have hb := CompBrs.sem ih (dest := slot o.sc) (stop := z2.pc) (cnt0 := sc.cnt) h0 tag (by omega) cb fb.inv (env := env) (fr := fr1) (s := s2) (s' := s2')
      (by rw [show (newLocal o.sc).2.emit.pc = o.sc.pc + 1 from rfl, po]; exact ha3) (by rw [hk1.size]; exact hnb) he1 hs2 hf2
      (fun _ => by rw [hk1.size]; exact hd) (fun _ => by rw [show (newLocal o.sc).2.emit.pc = o.sc.pc + 1 from rfl]; omega) hA.pos
    have hk' : c.Cont sc.cnt fr1 (.loc (slot o.sc)) z2.pc k := fun v v' s3 s3' fr3 hv3 hs3 hf3 hk3 hg3 =>
      hk v v' s3 s3' fr3 hv3 hs3 hf3 (hk1.trans hk3) hg3
    cases hfd : bs.find tag with
    | some e =>
      rw [hfd] at hb
      simp only at hb ⊢
      obtain ⟨target, h1, h2, h3⟩ := hb
      have et : t = target := hsel.det (branchTable_sorted cb 0 hT.1 _).2 (.listed h2 rfl)
      subst et
      refine ⟨by rw [show (newLocal o.sc).2.emit.pc = o.sc.pc + 1 from rfl, po] at h1; omega, ?_⟩
      exact h3.value _ hk'
    | none =>
      rw [hfd] at hb
      simp only at hb ⊢
      have et : t = b.sc.pc := hsel.det (branchTable_sorted cb 0 hT.1 _).2 (.default hb)
      subst et
      refine ⟨by omega, ?_⟩
      rw [partsLen_code false (slot o.sc) z2.pc] at ha4
      have h3 := ih (by omega) cd fd.inv (env := env) (fr := fr1) (s := s2) (s' := s2') (by
        show At c.code b.sc.pc _
        rw [pb, po]
        exact At.left ha4) (by rw [hk1.size]; exact hnd) (he1.keeps fb.inv (.refl _ _) (fb.adds.trans Ae).same) hs2 hf2
      rw [rd] at h3
      refine h3.value _ ?_
      intro y y' s3 s3' fr3 hv3 hs3 hf3 hk3 hg3
      have hk3 : Keeps b.sc.cnt fr1 fr3 := hk3
      have ha5 := At.right ha4
      show c.Agree _ (c.X (b.sc.pc + dd.code.length) _ _)
      rw [pb, po]
      have := c.put_bind (r := .ok y s3) (r' := .ok y' s3') (dest := slot o.sc) (cnt := sc.cnt) (fr := fr3) (s' := s3') (k := k) (At.head ha5)
          (by simp only [step, hg3, orWild, Res.bind]) (by rw [hk3.size, hk1.size]; exact hd) h0 (.ok hv3 hs3 hf3) ?_
      · exact this
      · intro w w' s4 s4' fr4 hv4 hs4 hf4 hk4 hg4
        rw [c.X_step (At.head (At.tail ha5))]
        simp only [step, Res.bind]
        rw [if_pos (by omega)]
        have := hk' w w' s4 s4' fr4 hv4 hs4 hf4 ((hk3.mono (fun v hv => fb.adds.pos v (hA.pos v hv))).trans hk4) hg4
        rw [show sc.pc + o.code.length + 1 + partsLen false b.res + dd.code.length + 1 + 1 = z2.pc by omega]
        exact this

theorem Comp.sem (hc : c.Ok) {exit t bl sc o} (h : Comp exit t bl sc o) (hi : SInv sc) {env fr s s'} (ha : At c.code sc.pc o.code)
    (hn : o.sc.nlocals ≤ fr.locals.length) (he : ERel sc env fr) (hs : SRel s s') (hf : s.fuel ≤ c.m) :
    c.Sem exit (eval c.app t env s) sc.pc fr s' sc.cnt o.res (sc.pc + o.code.length) := by
  have : ∀ n, c.IH n := by
    intro n
    induction n with
    | zero => intro _ _ _ _ _ h; omega
    | succ n ih =>
      intro exit t bl sc o hsz h hi env fr s s' ha hn he hs hf
      exact Comp.sem_step hc ih (by omega) h hi ha hn he hs hf
  exact this (t.size + 1) (Nat.lt_succ_self _) h hi ha hn he hs hf

end Verif.Compile
