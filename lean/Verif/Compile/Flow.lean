import Verif.Compile.Balance
/-
Profile operations of compiled code are balanced on every path (C15): the paths through the code of an
expression.
-/
namespace Verif.Compile

variable {code : List Instr} {P : List (List POp)}

theorem After.instr {p pc x ν i} (hi : PInv p pc) (hc : code[pc]? = some i) (hs : i.succ pc = [pc + 1])
    (h : After code P false p.instr (pc + 1) (x :: ν)) : After code P false p pc (x :: ν) :=
  .mk (h.ext.instr hi) (.instr hi hc hs h)

theorem After.last {p pc x ν i} (hi : PInv p pc) (hc : code[pc]? = some i) (he : Ext P p.instr.reset)
    (hend : i.succ pc = [] → ν = []) (h : ∀ t ∈ i.succ pc, ∀ k, Good code P t k (some (x :: ν, k))) : After code P false p pc (x :: ν) :=
  .mk ((he.reset hi.instr).instr hi) (.last hi hc he hend h)

theorem After.append {p n pc ν ν' op} (hi : PInv p n) (h : After code P false (p.append op) pc ν') (ho : ∀ k, runOp op (ν, k) = some (ν', k)) :
    After code P false p pc ν := .mk (h.ext.append hi) (.append hi h.before ho)

/-- The end of the code in exit position. -/
theorem After.exit {p pc pc' x ν i} (hi : PInv p pc) (hc : code[pc]? = some i) (hs : i.succ pc = [])
    (h : After code P true p.instr pc' (x :: ν)) : After code P false p pc (x :: ν) := by
  obtain ⟨h1, h2⟩ := h
  refine .last hi hc h2 (fun _ => by simpa using h1) (by rw [hs]; simp)

/-- Where nothing is open any more. -/
theorem After.good {p : Prof} {pc ν} (hp : p.pending = []) (h : After code P false p.reset pc ν) (k) : Good code P pc k (some (ν, k)) :=
  h.before _ _ (.fresh hp)

theorem After.prof {exit p p' pc ν} (h : After code P exit p pc ν) (e : p = p') : After code P exit p' pc ν := e ▸ h
theorem After.pos {exit p pc pc' ν} (h : After code P exit p pc ν) (e : pc = pc') : After code P exit p pc' ν := e ▸ h

theorem After.fin {exit} {sc : Scope} {pc x ν i} (hi : PInv sc.prof pc) (ha : At code pc (i :: finCode exit sc)) (hs : i.succ pc = [pc + 1])
    (h : After code P exit (finSc exit sc).prof (pc + (i :: finCode exit sc).length) (x :: ν)) : After code P false sc.prof pc (x :: ν) := by
  refine .instr hi ha.head hs ?_
  have ha' := ha.tail
  cases exit with
  | false => exact h
  | true => exact .exit hi.instr ha'.head rfl h

abbrev Any : POp → Prop := fun _ => True

theorem Comp.ps {exit t bl sc o} (h : Comp exit t bl sc o) (hb : sc.block < bl.count) : PSteps Any sc.prof o.code.length o.sc.prof :=
  (h.steps hb (Nat.le_refl _)).1.mono fun _ _ => trivial
theorem Comps.ps {t bl sc o} (h : Comps t bl sc o) (hb : sc.block < bl.count) : PSteps Any sc.prof o.code.length o.sc.prof :=
  (h.steps hb (Nat.le_refl _)).1.mono fun _ _ => trivial
theorem CompDefs.ps {t bl sc o} (h : CompDefs t bl sc o) (hb : sc.block < bl.count) : PSteps Any sc.prof o.code.length o.sc.prof :=
  (h.steps hb (Nat.le_refl _)).1.mono fun _ _ => trivial
theorem CompFlds.ps {src i t bl sc o} (h : CompFlds src i t bl sc o) (hb : sc.block < bl.count) : PSteps Any sc.prof o.code.length o.sc.prof :=
  (h.steps hb (Nat.le_refl _)).1.mono fun _ _ => trivial
theorem CompBrs.ps {exit t bl sc o} (h : CompBrs exit t bl sc o) (hb : sc.block < bl.count) : PSteps Any sc.prof (partsLen exit o.res) o.sc.prof :=
  (h.steps hb (Nat.le_refl _)).1.mono fun _ _ => trivial

/-- Branches begin with no operation open. -/
theorem CompBrs.ps' {exit} : {bs : Brs} → {bl : Blocks} → {sc : Scope} → {b : Out (List (Nat × List Instr × Option Var))} →
    CompBrs exit bs bl sc b → PSteps Any sc.prof.reset (partsLen exit b.res) b.sc.prof.reset
  | _, _, _, _, .nil => .refl
  | _, bl, sc, _, .cons (o := o) co _ fo ea fz ca fa => by
    have h1 := co.ps fo.block
    have h0 : PSteps Any sc.prof.reset 0 (enterBlock exit bl sc.reset).2.prof := PSteps.append .refl trivial
    have h2 := (afterBranch_steps trivial ea (h0.trans h1)).1.reset.trans ca.ps'
    rw [Nat.zero_add] at h2
    exact h2

/-- Nothing is pending at the end of the branches. -/
theorem CompBrs.pending {exit} : {bs : Brs} → {bl : Blocks} → {sc : Scope} → {b : Out (List (Nat × List Instr × Option Var))} →
    CompBrs exit bs bl sc b → sc.prof.pending = [] → b.sc.prof.pending = []
  | _, _, _, _, .nil, h => h
  | .cons _ t _, _, _, _, .cons (o := o) co _ fo ea fz ca fa, h => by
    refine ca.pending ((afterBranch_steps (Q := Any) trivial ea .refl).2.2 ?_)
    cases exit with
    | false => exact .inr rfl
    | true => exact .inl (Comp.pending _ (Nat.le_refl _) co)

theorem letVars_flow : (n : Nat) → {sc : Scope} → {lcode : List Instr} → {ls : List Nat} → {sc0 : Scope} → {x : Nat} → {ν : List Nat} →
    letVars true n sc = (lcode, ls, sc0) → PInv sc.prof sc.pc → At code sc.pc lcode →
    After code P false sc0.prof (sc.pc + lcode.length) (x :: ν) → After code P false sc.prof sc.pc (x :: ν)
  | 0, sc, lcode, ls, sc0, x, ν, h, hi, ha, hA => by simp [letVars] at h; obtain ⟨rfl, rfl, rfl⟩ := h; simpa using hA
  | n + 1, sc, lcode, ls, sc0, x, ν, h, hi, ha, hA => by
    simp only [letVars, if_true, Prod.mk.injEq] at h
    obtain ⟨rfl, rfl, rfl⟩ := h
    refine .instr hi ha.head rfl ?_
    have := letVars_flow (x := x) (ν := ν) n (sc := pushVar (some (.loc (newLocal sc).1)) (newLocal sc).2.emit) rfl hi.instr ha.tail
      (hA.pos (by simp only [List.length_cons, pushVar, Scope.emit, newLocal]; omega))
    exact this

theorem letDefs_flow : {i : Nat} → {ls : List Nat} → {ds : List Var} → {sc : Scope} → {acode : List Instr} → {sc1 : Scope} → {pc x : Nat} → {ν : List Nat} →
    letDefs i ls ds sc = some (acode, sc1) → PInv sc.prof pc → At code pc acode →
    After code P false sc1.prof (pc + acode.length) (x :: ν) → After code P false sc.prof pc (x :: ν)
  | i, l :: ls, d :: ds, sc, acode, sc1, pc, x, ν, h, hi, ha, hA => by
    simp only [letDefs, Option.bind_eq_some_iff, Option.map_eq_some_iff] at h
    obtain ⟨c, h1, ⟨r1, r2⟩, h2, h3⟩ := h
    cases h3
    have hp : c.prof = sc.prof.instr := setVar_prof h1
    have := letDefs_flow (pc := pc + 1) (x := x) (ν := ν) h2 (by rw [hp]; exact hi.instr) ha.tail (hA.pos (by simp only [List.length_cons]; omega))
    exact .instr hi ha.head rfl (this.prof hp)
  | i, [], ds, sc, acode, sc1, pc, x, ν, h, hi, ha, hA => by simp [letDefs] at h; obtain ⟨rfl, rfl⟩ := h; simpa using hA
  | i, l :: ls, [], sc, acode, sc1, pc, x, ν, h, hi, ha, hA => by simp [letDefs] at h; obtain ⟨rfl, rfl⟩ := h; simpa using hA

theorem enter_run (b x : Nat) (ν) (k) : runOp (if false = true then .replace b else .enter b) (x :: ν, k) = some (b :: x :: ν, k) := rfl
theorem replace_run (b x : Nat) (ν) (k) : runOp (if true = true then .replace b else .enter b) (x :: ν, k) = some (b :: ν, k) := rfl

/-- After a branch that is not in exit position: copy, exit the block, then `i`. -/
theorem After.branch {r bl} {sc : Scope} {z1 z2 pc x b ν i j} (ea : afterBranch false r bl sc = some (z1, z2)) (hi : PInv sc.prof pc)
    (ha : At code pc [i, j]) (hs : i.succ pc = [pc + 1]) (he : Ext P z2.prof.reset) (t) (hj : j.succ (pc + 1) = [t])
    (hg : ∀ k, Good code P t k (some (x :: ν, k))) : After code P false sc.prof pc (b :: x :: ν) := by
  unfold afterBranch at ea
  simp only [Bool.false_eq_true, if_false] at ea
  cases r with
  | none => cases ea
  | some v =>
    simp only [Option.map_eq_some_iff, Prod.mk.injEq] at ea
    obtain ⟨c, h1, rfl, rfl⟩ := ea
    have hp : c.prof = sc.prof.instr.append .exit := (release_same h1).2.2
    refine .instr hi ha.head hs (.append (ν' := x :: ν) (op := .exit) hi.instr ?_ fun k => rfl)
    refine .last (hi.instr.append _) ha.tail.head ?_ (by rw [hj]; simp) ?_
    · have : c.emit.prof.reset = (sc.prof.instr.append .exit).instr.reset := by rw [← hp]; rfl
      rw [← this]; exact he
    · rw [hj]; intro t' ht k; simp at ht; subst ht; exact hg k

theorem afterBranch_true {r bl} {sc : Scope} {z1 z2} (h : afterBranch true r bl sc = some (z1, z2)) : z2.prof = sc.prof := by
  simp only [afterBranch, if_true, Option.map_eq_some_iff, Prod.mk.injEq] at h
  obtain ⟨c, h1, rfl, rfl⟩ := h
  exact (releaseOpt_same h1).2.2

mutual
theorem Comp.flow {exit t bl sc o} (h : Comp exit t bl sc o) (hb : sc.block < bl.count) (hi : PInv sc.prof sc.pc) (ha : At code sc.pc o.code) {x ν}
    (hA : After code P exit o.sc.prof (sc.pc + o.code.length) (x :: ν)) : After code P false sc.prof sc.pc (x :: ν) :=
  match h with
  | .typeVal _ => .fin hi ha rfl hA
  | .literal _ => .fin hi ha rfl hA
  | .var _ _ => by
    simp only [compileExit] at ha hA
    cases exit with
    | false => exact hA
    | true => exact .exit hi ha.head rfl hA
  | .struct (a := a) ca er fa => by
    have hp := (releaseAll_same er).2.2
    refine ca.flow hb hi ha.left ?_
    refine .fin ((ca.ps hb).inv hi) ha.right rfl ((hA.prof hp).pos ?_)
    simp only [List.length_append]; omega
  | .list (a := a) ca er fa => by
    have hp := (releaseAll_same er).2.2
    refine ca.flow hb hi ha.left ?_
    refine .fin ((ca.ps hb).inv hi) ha.right rfl ((hA.prof hp).pos ?_)
    simp only [List.length_append]; omega
  | .copy (o := o) (v := v) (a := a) co ro fo ca fa er1 er2 => by
    have hp := (release_same er2).2.2.trans (releaseAll_same er1).2.2
    have hio := (co.ps hb).inv hi
    have epc := fo.adds.pc
    refine co.flow hb hi ha.left.left ?_
    rw [← epc] at hio ⊢
    refine ca.flow fa.block hio (by rw [epc]; exact ha.left.right) ?_
    have hia := (ca.ps fa.block).inv hio
    rw [epc] at hia ⊢
    have ha' := ha.right
    rw [List.length_append, ← Nat.add_assoc] at ha'
    refine .fin hia ha' rfl ((hA.prof hp).pos ?_)
    simp only [List.length_append]; omega
  | .union (o := o) co ro fo er => by
    have hp := (release_same er).2.2
    refine co.flow hb hi ha.left ?_
    refine .fin ((co.ps hb).inv hi) ha.right rfl ((hA.prof hp).pos ?_)
    simp only [List.length_append]; omega
  | .access (u := u) (o := o) co ro fo er => by
    have hp := (release_same er).2.2
    refine co.flow hb hi ha.left ?_
    refine .fin ((co.ps hb).inv hi) ha.right (by cases u <;> rfl) ((hA.prof hp).pos ?_)
    simp only [List.length_append]; omega
  | .func (f := f) _ hg hsc cf => .fin hi ha rfl hA
  | .tail (h := h) (as := as) ch rh fh cas fas er1 er2 => by
    have hp := (releaseAll_same er2).2.2.trans (release_same er1).2.2
    have hio := (ch.ps hb).inv hi
    have epc := fh.adds.pc
    refine ch.flow hb hi ha.left.left ?_
    rw [← epc] at hio ⊢
    refine cas.flow fas.block hio (by rw [epc]; exact ha.left.right) ?_
    have hia := (cas.ps fas.block).inv hio
    rw [epc] at hia ⊢
    have ha' := ha.right
    rw [List.length_append, ← Nat.add_assoc] at ha'
    have hA := hA.prof hp
    exact .last hia ha'.head hA.2 (fun _ => by simpa using hA.1) (by simp [Instr.succ])
  | .call (h := h) (as := as) ch rh fh cas fas er1 er2 => by
    have hp := (releaseAll_same er2).2.2.trans (release_same er1).2.2
    have hio := (ch.ps hb).inv hi
    have epc := fh.adds.pc
    refine ch.flow hb hi ha.left.left ?_
    rw [← epc] at hio ⊢
    refine cas.flow fas.block hio (by rw [epc]; exact ha.left.right) ?_
    have hia := (cas.ps fas.block).inv hio
    rw [epc] at hia ⊢
    have ha' := ha.right
    rw [List.length_append, ← Nat.add_assoc] at ha'
    have hA : After code P false as.sc.prof.instr.reset (sc.pc + h.code.length + as.code.length + 1) (x :: ν) :=
      (hA.prof hp).pos (by simp only [List.length_append, List.length_cons, List.length_nil]; omega)
    refine .last hia ha'.head hA.ext (by simp [Instr.succ]) ?_
    intro t ht k
    simp only [Instr.succ, List.mem_singleton] at ht
    subst ht
    exact After.good (instr_pending' _) hA k
  | .letE (ds := ds) (d := d) (sc1 := sc1) (o := o) cd fd es e1 co fo ep => by
    have hp := (popVars_same ep).2.2
    have hp1 : sc1.prof = d.sc.prof := by rw [e1]; rfl
    have epc : sc1.pc = sc.pc + d.code.length := by rw [e1]; exact fd.adds.pc
    have hid : PInv sc1.prof sc1.pc := by rw [hp1, epc]; exact (cd.ps fd.block).inv hi
    have h2 := co.flow fo.block hid (by rw [epc]; exact At.right ha) ((hA.prof hp).pos (by rw [epc, List.length_append]; omega))
    exact cd.flow fd.block hi ha.left ((h2.prof hp1).pos epc)
  | .letRec (ds := ds) (ls := ls) (lcode := lcode) (sc0 := sc0) (d := d) (acode := acode) (sc1 := sc1) (o := o) el al cd fd ea aa co fo ep => by
    have hp := (popVars_same ep).2.2
    have hll : lcode.length = ds.length := by obtain ⟨rfl, h⟩ := letVars_code _ el; simpa using h
    have hla : acode.length = ds.length := by
      have h1 : d.res.length = ds.length := cd.length
      obtain ⟨_, h⟩ := letVars_code _ el
      obtain rfl := letDefs_code ea; simp [h, h1]
    have p0 : sc0.pc = sc.pc + lcode.length := by rw [hll]; exact al.pc
    have p1 : sc1.pc = sc.pc + lcode.length + d.code.length + acode.length := by
      have : sc1.pc = sc.pc + (ds.length + d.code.length + ds.length) := aa.pc
      rw [this, hll, hla]; omega
    have hi0 : PInv sc0.prof (sc.pc + lcode.length) := by
      have h0 := letVars_steps (Q := Any) ds.length (sc := sc) .refl
      rw [el, Nat.zero_add, ← hll] at h0
      exact h0.inv hi
    rw [← p0] at hi0
    have hid := (cd.ps fd.block).inv hi0
    have hi1 : PInv sc1.prof sc1.pc := by
      have := (letDefs_steps (Q := Any) ea .refl).inv hid
      rw [p1, ← p0]; simpa using this
    have h4 := co.flow fo.block hi1 (by rw [p1]; have := ha.right; simpa [List.length_append, Nat.add_assoc] using this)
      ((hA.prof hp).pos (by rw [p1]; simp only [List.length_append]; omega))
    have h3 := letDefs_flow (pc := sc0.pc + d.code.length) ea hid (by rw [p0]; have := ha.left.right; simpa [List.length_append, Nat.add_assoc] using this)
      (h4.pos (by rw [p1, p0]))
    have h2 := cd.flow fd.block hi0 (by rw [p0]; exact ha.left.left.right) h3
    exact letVars_flow _ el hi ha.left.left.left (h2.pos p0)
  | .selectExit (o := o) (cv := cv) (b := b) (dd := dd) (z1 := z1) (z2 := z2) co ro fo ht cb fb cd fd ea er => by
    have hp : _ = z2.prof.reset := (release_same er).2.2
    have hA := hA.prof hp
    have hν : ν = [] := by simpa using hA.1
    subst hν
    have hz : z2.prof = dd.sc.prof := afterBranch_true ea
    have hez : Ext P dd.sc.prof.reset := by have := hA.2; rw [← hz]; exact this
    have epc := fo.adds.pc
    have hio := (co.ps hb).inv hi
    rw [← epc] at hio
    have hib : PInv b.sc.prof b.sc.pc := by rw [fb.adds.pc]; exact (cb.ps fb.block).inv hio.instr
    have hie : PInv (enterBlock true b.bl b.sc.reset).2.prof b.sc.pc := hib.reset.append _
    have hee : Ext P b.sc.prof.reset := ((hez.reset ((cd.ps fd.block).inv hie)).back (cd.ps fd.block) hie).append hib.reset
    refine co.flow hb hi ha.left ?_
    rw [← epc]
    have ha2 := ha.right
    rw [← epc] at ha2
    refine .last hio ha2.head (Ext.back cb.ps' hio.instr.reset hee) (fun _ => rfl) ?_
    intro t ht k
    simp only [Instr.succ, List.mem_append, List.mem_singleton] at ht
    rcases ht with ht | rfl
    · exact cb.flow fb.block hio.instr (instr_pending' _) (dest := slot o.sc) (stop := z2.pc) ha2.tail.left hee (fun _ => rfl) (by simp) t ht k
    · have ha4 := ha2.tail.right
      rw [partsLen_code] at ha4
      have h1 := cd.flow fd.block hie (x := b.bl.count - b.sc.reset.block) (ν := []) (by
        show At code b.sc.pc _
        rw [show b.sc.pc = o.sc.pc + 1 + partsLen true b.res from fb.adds.pc]; exact ha4) ⟨rfl, hez⟩
      exact After.good (cb.pending (instr_pending' _)) (.append hib.reset h1 (replace_run _ _ _)) k
  | .select (o := o) (cv := cv) (b := b) (dd := dd) (dv := dv) (z1 := z1) (z2 := z2) co ro fo ht cb fb cd rd fd ea er hz2 => by
    have hp : _ = z2.prof.reset := (release_same er).2.2
    have hA := hA.prof hp
    have epc := fo.adds.pc
    have hio := (co.ps hb).inv hi
    rw [← epc] at hio
    have pb : b.sc.pc = o.sc.pc + 1 + partsLen false b.res := fb.adds.pc
    have hib : PInv b.sc.prof b.sc.pc := by rw [fb.adds.pc]; exact (cb.ps fb.block).inv hio.instr
    have hie : PInv (enterBlock false b.bl b.sc.reset).2.prof b.sc.pc := hib.reset.append _
    have hidd := (cd.ps fd.block).inv hie
    have haft := (afterBranch_steps (Q := Any) (p := dd.sc.prof) trivial ea .refl)
    have hez : Ext P z2.prof.reset := hA.ext
    have hee : Ext P b.sc.prof.reset := ((Ext.back haft.1.reset hidd hez).back (cd.ps fd.block) hie).append hib.reset
    have hstop : ∀ k, Good code P z2.pc k (some (x :: ν, k)) := by
      refine After.good (haft.2.2 (.inr rfl)) (hA.pos ?_)
      rw [hz2, pb, epc]
      simp only [List.length_append, List.length_cons, List.length_nil, partsLen_code]; omega
    refine co.flow hb hi ha.left ?_
    rw [← epc]
    have ha2 := ha.right
    rw [← epc] at ha2
    refine .last hio ha2.head (Ext.back cb.ps' hio.instr.reset hee) (by simp [Instr.succ]) ?_
    intro t ht k
    simp only [Instr.succ, List.mem_append, List.mem_singleton] at ht
    rcases ht with ht | rfl
    · exact cb.flow fb.block hio.instr (instr_pending' _) (dest := slot o.sc) (stop := z2.pc) ha2.tail.left hee (by simp) (fun _ => hstop) t ht k
    · have ha4 := ha2.tail.right
      rw [partsLen_code, ← pb] at ha4
      have h1 := cd.flow fd.block hie (x := b.bl.count - b.sc.reset.block) (ν := x :: ν) ha4.left
        (.branch ea hidd ha4.right rfl hez _ rfl (by rw [hz2] at hstop; exact hstop))
      exact After.good (cb.pending (instr_pending' _)) (.append hib.reset h1 (enter_run _ _ _)) k
termination_by structural h
theorem Comps.flow {ts bl sc a} (h : Comps ts bl sc a) (hb : sc.block < bl.count) (hi : PInv sc.prof sc.pc) (ha : At code sc.pc a.code) {x ν}
    (hA : After code P false a.sc.prof (sc.pc + a.code.length) (x :: ν)) : After code P false sc.prof sc.pc (x :: ν) :=
  match h with
  | .nil => hA
  | .cons (o := o) (a := a) co ro fo ca fa => by
    have hio := (co.ps hb).inv hi
    have epc := fo.adds.pc
    refine co.flow hb hi ha.left ?_
    rw [← epc] at hio ⊢
    exact ca.flow fa.block hio (by rw [epc]; exact ha.right) (hA.pos (by rw [epc, List.length_append]; omega))
termination_by structural h
theorem CompDefs.flow {ts bl sc a} (h : CompDefs ts bl sc a) (hb : sc.block < bl.count) (hi : PInv sc.prof sc.pc) (ha : At code sc.pc a.code) {x ν}
    (hA : After code P false a.sc.prof (sc.pc + a.code.length) (x :: ν)) : After code P false sc.prof sc.pc (x :: ν) :=
  match h with
  | .nil => hA
  | .cons (o := o) (a := a) co ro fo ca fa => by
    have hie : PInv (enterBlock false bl sc).2.prof sc.pc := hi.append _
    have hio := (co.ps fo.block).inv hie
    have epc : o.sc.pc = sc.pc + o.code.length := fo.adds.pc
    have hix : PInv (exitBlock false o.bl o.sc).2.prof (exitBlock false o.bl o.sc).2.pc := by
      show PInv (o.sc.prof.append .exit) o.sc.pc
      rw [epc]; exact hio.append _
    have h2 := ca.flow fa.block hix (by show At code o.sc.pc _; rw [epc]; exact ha.right)
      (hA.pos (by show _ = o.sc.pc + _; rw [epc, List.length_append]; omega))
    have h1 := co.flow fo.block hie ha.left (x := bl.count - sc.block) (ν := x :: ν) (.append hio (h2.pos epc) fun _ => rfl)
    exact .append hi h1 (enter_run _ _ _)
termination_by structural h
theorem CompBrs.flow {exit bs bl sc b} (h : CompBrs exit bs bl sc b) (hb : sc.block < bl.count) (hi : PInv sc.prof sc.pc) (hp : sc.prof.pending = []) {dest stop}
    (ha : At code sc.pc (branchCode exit dest stop (b.res.map (·.2)))) (he : Ext P b.sc.prof.reset) {x ν} (hν : exit = true → ν = [])
    (hg : exit = false → ∀ k, Good code P stop k (some (x :: ν, k))) :
    ∀ t ∈ (branchTable exit sc.pc b.res).map (·.target), ∀ k, Good code P t k (some (x :: ν, k)) :=
  match h with
  | .nil => by simp [branchTable]
  | .cons (o := o) (z1 := z1) (z2 := z2) (a := a) co hr fo ea fz ca fa => by
    intro t ht k
    simp only [List.map_cons, branchCode] at ha
    simp only [branchTable, List.map_cons, List.mem_cons] at ht
    have epz : z2.pc = sc.pc + (o.code.length + if exit then 0 else 2) := fz.adds.pc
    have hie : PInv (enterBlock exit bl sc.reset).2.prof sc.pc := hi.reset.append _
    have hio := (co.ps fo.block).inv hie
    have haft := (afterBranch_steps (Q := Any) (p := o.sc.prof) trivial ea .refl)
    have hiz : PInv z2.prof z2.pc := by
      have := haft.1.inv hio
      rw [epz]; simpa [Nat.add_assoc] using this
    have hpz : z2.prof.pending = [] := by
      refine haft.2.2 ?_
      cases exit with
      | false => exact .inr rfl
      | true => exact .inl (Comp.pending _ (Nat.le_refl _) co)
    have hez : Ext P z2.prof.reset := Ext.back ca.ps' hiz.reset he
    have hflow := fun x' ν' => co.flow (x := x') (ν := ν') fo.block hie (by
      have := ha.left
      show At code sc.pc _
      split at this
      · exact this
      · exact this.left)
    rcases ht with rfl | ht
    · cases exit with
      | true =>
        have := hν rfl
        subst this
        have hez : Ext P o.sc.prof.reset := by rw [← afterBranch_true ea]; exact hez
        exact After.good hp (.append hi.reset (hflow _ [] ⟨rfl, hez⟩) (replace_run _ _ _)) k
      | false =>
        exact After.good hp (.append hi.reset (hflow _ (x :: ν) (.branch ea hio ha.left.right rfl hez stop rfl (hg rfl))) (enter_run _ _ _)) k
    · refine ca.flow fa.block hiz hpz (dest := dest) (stop := stop) ?_ he hν hg t ?_ k
      · have := ha.right
        rw [epz]
        cases exit <;> simpa using this
      · rw [epz, ← Nat.add_assoc]; exact ht
termination_by structural h
theorem CompFlds.flow {src i fs bl sc a} (h : CompFlds src i fs bl sc a) (hb : sc.block < bl.count) (hi : PInv sc.prof sc.pc) (ha : At code sc.pc a.code) {x ν}
    (hA : After code P false a.sc.prof (sc.pc + a.code.length) (x :: ν)) : After code P false sc.prof sc.pc (x :: ν) :=
  match h with
  | .nil => hA
  | .keep (a := a) ca fa => by
    have h2 := ca.flow (x := x) (ν := ν) fa.block hi.instr ha.tail (hA.pos (by show _ = sc.pc + 1 + _; simp only [List.length_cons]; omega))
    exact .instr hi ha.head rfl h2
  | .set (o := o) (a := a) co ro fo ca fa => by
    have hio := (co.ps hb).inv hi
    have epc := fo.adds.pc
    refine co.flow hb hi ha.left ?_
    rw [← epc] at hio ⊢
    exact ca.flow fa.block hio (by rw [epc]; exact ha.right) (hA.pos (by rw [epc, List.length_append]; omega))
termination_by structural h
end

/-! ### Functions within functions -/

/-- A function made by the compiler. -/
def IsFn (c : Code) : Prop := ∃ ns na body block bl bl', CompFunc ns na body block bl (c, bl') ∧ block < bl.count

def Fns (code : List Instr) : Prop := ∀ c b scope d, Instr.func c b scope d ∈ code → IsFn c

theorem Fns.nil : Fns [] := by intro c b s d h; simp at h
theorem Fns.cons {x code} (h : ∀ c b s d, x ≠ .func c b s d) (h' : Fns code) : Fns (x :: code) := by
  intro c b s d hm
  rcases List.mem_cons.mp hm with hm | hm
  · exact absurd hm.symm (h c b s d)
  · exact h' c b s d hm
theorem Fns.append {a b} (h : Fns a) (h' : Fns b) : Fns (a ++ b) := by
  intro c b s d hm
  rcases List.mem_append.mp hm with hm | hm
  · exact h c _ s d hm
  · exact h' c _ s d hm
theorem Fns.fin {exit} {sc : Scope} : Fns (finCode exit sc) := by
  simp only [finCode, compileExit]
  cases exit
  · exact .nil
  · exact .cons (by simp) .nil

mutual
theorem Comp.fns {exit t bl sc o} (h : Comp exit t bl sc o) (hb : sc.block < bl.count) : Fns o.code :=
  match h with
  | .typeVal _ => .cons (by simp) .fin
  | .literal _ => .cons (by simp) .fin
  | .var _ _ => by
    simp only [compileExit]
    cases exit with
    | false => exact .nil
    | true => exact .cons (by simp) .nil
  | .struct ca er fa => (ca.fns hb).append (.cons (by simp) .fin)
  | .list ca er fa => (ca.fns hb).append (.cons (by simp) .fin)
  | .copy co ro fo ca fa er1 er2 => ((co.fns hb).append (ca.fns fa.block)).append (.cons (by simp) .fin)
  | .union co ro fo er => (co.fns hb).append (.cons (by simp) .fin)
  | .access (u := u) co ro fo er => (co.fns hb).append (.cons (by cases u <;> simp) .fin)
  | .func (f := f) _ hg hsc cf => by
    intro c b s d hm
    rcases List.mem_cons.mp hm with hm | hm
    · cases hm
      exact ⟨_, _, _, _, _, _, cf, by simp [pushBlock]⟩
    · exact Fns.fin c b s d hm
  | .tail ch rh fh cas fas er1 er2 => ((ch.fns hb).append (cas.fns fas.block)).append (.cons (by simp) .nil)
  | .call ch rh fh cas fas er1 er2 => ((ch.fns hb).append (cas.fns fas.block)).append (.cons (by simp) .nil)
  | .letE cd fd es e1 co fo ep => (cd.fns fd.block).append (co.fns fo.block)
  | .letRec el al cd fd ea aa co fo ep => by
    have h1 := cd.fns fd.block
    have h2 := co.fns fo.block
    obtain ⟨rfl, _⟩ := letVars_code _ el
    obtain rfl := letDefs_code ea
    refine Fns.append (Fns.append (Fns.append ?_ h1) ?_) h2
    · intro c b s d hm; simp at hm
    · intro c b s d hm
      rw [List.mem_iff_getElem] at hm
      obtain ⟨i, hi, hm⟩ := hm
      simp at hm
  | .selectExit co ro fo ht cb fb cd fd ea er =>
    (co.fns hb).append (.cons (by simp) ((cb.fns fb.block _ _).append (cd.fns fd.block)))
  | .select co ro fo ht cb fb cd rd fd ea er hz2 =>
    (co.fns hb).append (.cons (by simp) ((cb.fns fb.block _ _).append ((cd.fns fd.block).append (.cons (by simp) (.cons (by simp) .nil)))))
termination_by structural h
theorem Comps.fns {ts bl sc a} (h : Comps ts bl sc a) (hb : sc.block < bl.count) : Fns a.code :=
  match h with
  | .nil => .nil
  | .cons co ro fo ca fa => (co.fns hb).append (ca.fns fa.block)
termination_by structural h
theorem CompDefs.fns {ts bl sc a} (h : CompDefs ts bl sc a) (hb : sc.block < bl.count) : Fns a.code :=
  match h with
  | .nil => .nil
  | .cons co ro fo ca fa => (co.fns fo.block).append (ca.fns fa.block)
termination_by structural h
theorem CompBrs.fns {exit bs bl sc b} (h : CompBrs exit bs bl sc b) (hb : sc.block < bl.count) : ∀ dest stop, Fns (branchCode exit dest stop (b.res.map (·.2))) :=
  match h with
  | .nil => fun _ _ => .nil
  | .cons co hr fo ea fz ca fa => by
    intro dest stop
    have h2 := co.fns fo.block
    simp only [List.map_cons, branchCode]
    refine Fns.append ?_ (ca.fns fa.block dest stop)
    split
    · exact h2
    · exact h2.append (.cons (by simp) (.cons (by simp) .nil))
termination_by structural h
theorem CompFlds.fns {src i fs bl sc a} (h : CompFlds src i fs bl sc a) (hb : sc.block < bl.count) : Fns a.code :=
  match h with
  | .nil => .nil
  | .keep ca fa => .cons (by simp) (ca.fns fa.block)
  | .set co ro fo ca fa => (co.fns hb).append (ca.fns fa.block)
termination_by structural h
end

/-! ### Functions -/

theorem Good.reach {c : Code} {b} (h : Good c.instrs c.profile 0 0 (some ([b], 0))) {pc k s} (hr : Reach c b pc k s) :
    Good c.instrs c.profile pc k (some s) := by
  induction hr with
  | start => exact h
  | step _ h1 h2 h3 ht ih =>
    cases ih with
    | mk e1 e2 e3 _ e5 =>
      rw [h1] at e1; cases e1
      rw [h2] at e2; cases e2
      rw [h3] at e3; cases e3
      exact e5 _ ht

theorem Comp.balanced {t bl ns na block o nl} (co : Comp true t bl (initScope ns na block) o) (hb : block < bl.count) :
    (Code.mk na ns nl o.code o.sc.prof.ops).Balanced ∧ o.sc.prof.ops.length = o.code.length := by
  have hi : PInv (initScope ns na block).prof (initScope ns na block).pc := ⟨rfl, fun a h => by simp [initScope] at h⟩
  refine ⟨fun b pc k s hr => ?_, ?_⟩
  · have hg : Good o.code o.sc.prof.ops 0 0 (some ([b], 0)) := by
      have := co.flow (code := o.code) (P := o.sc.prof.ops) hb hi (x := b) (ν := []) (fun i hi => by simp [initScope])
        ⟨rfl, ⟨fun i _ _ => rfl, fun a h => by simp [Prof.reset] at h⟩⟩
      exact this.before _ _ (Arr.fresh (p := ⟨[], none, []⟩) rfl)
    cases hg.reach (c := .mk na ns nl o.code o.sc.prof.ops) hr with
    | mk e1 e2 e3 e4 _ => exact ⟨_, _, _, e1, e2, e3, e4⟩
  · have := ((co.ps hb).inv hi).len
    simpa [initScope] using this

theorem IsFn.balanced {c c'} (hw : Within c c') : IsFn c → c'.Balanced ∧ c'.profile.length = c'.instrs.length := by
  induction hw with
  | here =>
    rintro ⟨ns, na, body, block, bl, bl', hf, hb⟩
    cases hf with
    | mk co fo er hl hp =>
      have := co.balanced (nl := (‹Scope›).nlocals) hb
      rw [← hp] at this
      exact this
  | inner hm _ ih =>
    rintro ⟨ns, na, body, block, bl, bl', hf, hb⟩
    cases hf with
    | mk co fo er hl hp => exact ih (co.fns hb _ _ _ _ hm)

/-- C15: every function of a compiled module is balanced and has a list of profile operations for
every instruction. -/
theorem C15_balanced {nargs : Nat} {t : Tc} (ht : t.Scoped 0 nargs []) :
    ∃ code n, compileModule nargs t = some (code, n) ∧ ∀ c, Within code c → c.Balanced ∧ c.profile.length = c.instrs.length := by
  obtain ⟨o, e1, co, fo, _⟩ := compile_ok true t (pushBlock ⟨[], 0⟩).2 (initScope 0 nargs 0) ht (initScope_inv _ _ _) (by simp [initScope, pushBlock])
  have hst : (exitBlock true o.bl o.sc).1.stack = [] := by rw [exitBlock_stack, fo.stack]; rfl
  refine ⟨_, _, by
    unfold compileModule
    simp only [show (pushBlock ⟨[], 0⟩).1 = 0 from rfl, e1, Option.bind_some]
    rw [if_pos hst], fun c' hc => ?_⟩
  cases hc with
  | here => exact co.balanced fo.block
  | inner hm hw => exact IsFn.balanced hw (co.fns fo.block _ _ _ _ hm)

/-- C15: the blocks that the functions of a compiled module refer to, relative to the block of the
module, are blocks of the module. -/
theorem C15_blocks {nargs : Nat} {t : Tc} (ht : t.Scoped 0 nargs []) :
    ∃ code n, compileModule nargs t = some (code, n) ∧ ∀ c base, WithinAt code 0 c base → c.BlocksIn base n := by
  obtain ⟨o, e1, co, fo, _⟩ := compile_ok true t (pushBlock ⟨[], 0⟩).2 (initScope 0 nargs 0) ht (initScope_inv _ _ _) (by simp [initScope, pushBlock])
  have hst : (exitBlock true o.bl o.sc).1.stack = [] := by rw [exitBlock_stack, fo.stack]; rfl
  refine ⟨_, _, by
    unfold compileModule
    simp only [show (pushBlock ⟨[], 0⟩).1 = 0 from rfl, e1, Option.bind_some]
    rw [if_pos hst], fun c' base hw => ?_⟩
  obtain ⟨h1, h2⟩ := co.steps (N := o.bl.count) fo.block (Nat.le_refl _)
  cases hw with
  | here =>
    refine ⟨Nat.lt_of_lt_of_le fo.block fo.count, ?_⟩
    have := (h1.all (by simp [IdOk, POp.block?]) (by simp [Prof.All, initScope])).2
    simpa [Code.profile, IdOk, initScope, exitBlock, popBlock] using this
  | inner hm hw => exact h2 _ _ _ _ hm _ _ (by simpa [initScope] using hw)

/-- C14 and C15 are about expressions like this one. -/
example : (Tc.letE true (.cons (.func [.loc 0] (.select (.var (.arg 0)) 2 (.cons 0 (.var (.arg 0)) .nil)
      (.apply (.var (.static 0)) (.access true (.var (.arg 0)) 1)))) .nil) (.var (.loc 0))).Scoped 0 0 [] := by
  simp [Tc.Scoped, Tcs.Scoped, Brs.Scoped, Brs.Table, Brs.sortedFrom, Brs.tagsBelow, Var.Ok, Tcs.length]

/-- Code that enters a block and returns without leaving it is not balanced. -/
example : ¬ (Code.mk 0 0 1 [.type 0, .ret (.loc 0)] [[.enter 1, .sample 2], []]).Balanced := by
  intro h
  have h0 : Reach (Code.mk 0 0 1 [.type 0, .ret (.loc 0)] [[.enter 1, .sample 2], []]) 0 0 0 ([0], 0) := .start
  have h1 : Reach (Code.mk 0 0 1 [.type 0, .ret (.loc 0)] [[.enter 1, .sample 2], []]) 0 1 1 ([1, 0], 2) :=
    .step h0 rfl rfl rfl (by simp [Instr.succ])
  obtain ⟨i, ops, s', e1, e2, e3, e4⟩ := h _ _ _ _ h1
  cases e1; cases e2; cases e3
  have := (e4 rfl).1
  simp at this

end Verif.Compile
