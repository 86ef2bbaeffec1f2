import Verif.Compile.CompOk
/-
The compiler succeeds on every expression in scope.
-/
namespace Verif.Compile

theorem Adds.scoped {t : Tc} {a b n vs} (h : Adds a b n vs) (ht : t.Scoped a.nstatics a.nargs (avail a)) :
    t.Scoped b.nstatics b.nargs (avail b) := by rw [h.same.nstatics, h.same.nargs, h.same.avail]; exact ht
theorem Adds.scopeds {t : Tcs} {a b n vs} (h : Adds a b n vs) (ht : t.Scoped a.nstatics a.nargs (avail a)) :
    t.Scoped b.nstatics b.nargs (avail b) := by rw [h.same.nstatics, h.same.nargs, h.same.avail]; exact ht
theorem Adds.scopedFlds {t : Flds} {a b n vs} (h : Adds a b n vs) (ht : t.Scoped a.nstatics a.nargs (avail a)) :
    t.Scoped b.nstatics b.nargs (avail b) := by rw [h.same.nstatics, h.same.nargs, h.same.avail]; exact ht
theorem Adds.scopedBrs {t : Brs} {a b n vs} (h : Adds a b n vs) (ht : t.Scoped a.nstatics a.nargs (avail a)) :
    t.Scoped b.nstatics b.nargs (avail b) := by rw [h.same.nstatics, h.same.nargs, h.same.avail]; exact ht

/-- What is shown of the compilation of an expression. -/
def Goal (exit : Bool) (t : Tc) (bl : Blocks) (sc : Scope) : Prop :=
  ∃ o, compile exit t bl sc = some o ∧ Comp exit t bl sc o ∧ Facts bl sc o.code.length o.res.toList o.bl o.sc ∧
    (exit = false → o.res.isSome)

theorem Goal.value {t bl sc} (h : Goal false t bl sc) :
    ∃ o v, compile false t bl sc = some o ∧ Comp false t bl sc o ∧ o.res = some v ∧ Facts bl sc o.code.length [v] o.bl o.sc := by
  obtain ⟨o, e, c, f, i⟩ := h
  obtain ⟨v, hv⟩ := Option.isSome_iff_exists.mp (i rfl)
  exact ⟨o, v, e, c, hv, by rw [hv] at f; exact f⟩

def Goals (comp : Tcs → Blocks → Scope → Option (Out (List Var))) (rel : Tcs → Blocks → Scope → Out (List Var) → Prop)
    (ts : Tcs) (bl : Blocks) (sc : Scope) : Prop :=
  ∃ a, comp ts bl sc = some a ∧ rel ts bl sc a ∧ Facts bl sc a.code.length a.res a.bl a.sc ∧ a.res.length = ts.length

theorem partsLen_code (exit dest stop) : (ps : List (Nat × List Instr × Option Var)) →
    (branchCode exit dest stop (ps.map (·.2))).length = partsLen exit ps
  | [] => rfl
  | p :: ps => by
    obtain ⟨tag, c, r⟩ := p
    simp only [List.map_cons, branchCode, partsLen, List.length_append, partsLen_code exit dest stop ps]
    cases exit <;> simp

theorem func_facts {exit bl} {sc : Scope} {bl' : Blocks} (hi : SInv sc) (hb : sc.block < bl.count) (hs : bl'.stack = bl.stack)
    (hc : bl.count ≤ bl'.count) :
    Facts bl sc (1 + (finCode exit sc).length) [.loc (slot sc)] bl' (finSc exit sc) :=
  ⟨hi, fin_adds hi.slots, hs, hc, hb⟩

mutual
theorem compile_ok (exit : Bool) (t : Tc) (bl : Blocks) (sc : Scope) (hS : t.Scoped sc.nstatics sc.nargs (avail sc))
    (hi : SInv sc) (hb : sc.block < bl.count) : Goal exit t bl sc := by
  match t with
  | .typeVal =>
    refine ⟨_, by rw [compile], .typeVal hi, ?_, fun _ => rfl⟩
    exact (func_facts hi hb rfl (Nat.le_refl _)).cast (by simp [Nat.add_comm])
  | .literal ls =>
    refine ⟨_, by rw [compile], .literal hi, ?_, fun _ => rfl⟩
    exact (func_facts hi hb rfl (Nat.le_refl _)).cast (by simp [Nat.add_comm])
  | .var v =>
    simp only [Tc.Scoped] at hS
    obtain ⟨w, e, hw⟩ := getVar_ok hi hS
    refine ⟨_, by rw [compile, e], .var hi e, ?_, fun _ => rfl⟩
    have h1 : Adds sc { sc with cnt := upd sc.cnt w (sc.cnt w + 1) } 0 [w] := by
      refine ⟨⟨rfl, rfl, rfl, rfl⟩, Nat.le_refl _, rfl, upd_plus _ _, fun _ i h => hi.slots i ?_, ?_⟩
      · have h : 0 < upd sc.cnt w (sc.cnt w + 1) (.loc i) := h
        unfold upd at h
        split at h
        · next h' => rw [h']; exact hw
        · exact h
      · intro v hv
        simp at hv; subst hv; exact .inr hw
    have h2 := h1.trans (compileExit_adds exit w { sc with cnt := upd sc.cnt w (sc.cnt w + 1) })
    exact ⟨hi, by simpa using h2, rfl, Nat.le_refl _, hb⟩
  | .struct fs =>
    simp only [Tc.Scoped] at hS
    obtain ⟨a, e, c, f, _⟩ := compiles_ok fs bl sc hS hi hb
    obtain ⟨sc', e', f'⟩ := (f.fin (exit := exit)).releaseAll
    exact ⟨_, by rw [compile, e]; simp [e'], .struct c e' f, f'.cast (by simp; omega), fun _ => rfl⟩
  | .list fs =>
    simp only [Tc.Scoped] at hS
    obtain ⟨a, e, c, f, _⟩ := compiles_ok fs bl sc hS hi hb
    obtain ⟨sc', e', f'⟩ := (f.fin (exit := exit)).releaseAll
    exact ⟨_, by rw [compile, e]; simp [e'], .list c e' f, f'.cast (by simp; omega), fun _ => rfl⟩
  | .copy src fs =>
    simp only [Tc.Scoped] at hS
    obtain ⟨o, v, e1, c1, r1, f1⟩ := (compile_ok false src bl sc hS.1 hi hb).value
    obtain ⟨a, e2, c2, f2⟩ := compileFlds_ok v 0 fs o.bl o.sc (f1.adds.scopedFlds hS.2) f1.inv' f1.block'
    have f3 := ((f1.trans f2).fin (exit := exit)).perm (ws := a.res ++ (v :: [.loc (slot a.sc)])) (by
      simp [List.perm_middle.symm])
    obtain ⟨sc1, e3, f4⟩ := f3.releaseAll
    obtain ⟨sc2, e4, f5⟩ := f4.release
    exact ⟨_, by rw [compile, e1]; simp [r1, e2, e3, e4], .copy c1 r1 f1 c2 f2 e3 e4, f5.cast (by simp; omega), fun _ => rfl⟩
  | .union tag t =>
    simp only [Tc.Scoped] at hS
    obtain ⟨o, v, e1, c1, r1, f1⟩ := (compile_ok false t bl sc hS hi hb).value
    obtain ⟨sc2, e4, f5⟩ := (f1.fin (exit := exit)).release
    exact ⟨_, by rw [compile, e1]; simp [r1, e4], .union c1 r1 f1 e4, f5.cast (by simp; omega), fun _ => rfl⟩
  | .access u t tag =>
    simp only [Tc.Scoped] at hS
    obtain ⟨o, v, e1, c1, r1, f1⟩ := (compile_ok false t bl sc hS hi hb).value
    obtain ⟨sc2, e4, f5⟩ := (f1.fin (exit := exit)).release
    have e4' : release v (compileExit exit (.loc (newLocal o.sc.emit).1) (newLocal o.sc.emit).2).2 = some sc2 := e4
    refine ⟨_, by rw [compile, e1]; simp only [Option.bind_some, r1, e4', Option.map_some]; rfl, .access c1 r1 f1 e4, f5.cast (by simp; omega), fun _ => rfl⟩
  | .func scope body =>
    simp only [Tc.Scoped] at hS
    obtain ⟨vs, e1, h1⟩ := getVars_ok hi scope hS.1
    obtain ⟨f, e2, c2, s2, n2⟩ := compileFunc_ok scope.length (merge scope.length body).1 (merge scope.length body).2 bl.count (pushBlock bl).2
      (merge_scoped hS.2) (Nat.lt_succ_self _)
    refine ⟨_, by rw [compile, e1]; simp only; rw [show (pushBlock bl).1 = bl.count from rfl, e2]; rfl, .func hi e1 hS.2 c2, ?_, fun _ => rfl⟩
    refine (func_facts hi hb ?_ ?_).cast (by simp [Nat.add_comm])
    · rw [s2]; rfl
    · exact Nat.le_trans (Nat.le_succ _) n2
  | .apply f a =>
    simp only [Tc.Scoped] at hS
    obtain ⟨h, fv, e1, c1, r1, f1⟩ := (compile_ok false f.head bl sc hS.1.head hi hb).value
    obtain ⟨as, e2, c2, f2, _⟩ := compiles_ok (.cons a f.args) h.bl h.sc ⟨f1.adds.scoped hS.2, f1.adds.scopeds hS.1.args⟩ f1.inv' f1.block'
    have f3 := f1.trans f2
    cases exit with
    | true =>
      have f4 := (f3.adds_after (.emit as.sc)).adds_after (.reset as.sc.emit)
      obtain ⟨sc2, e3, f5⟩ := Facts.release (v := fv) (ws := as.res) (f4.perm (by simp))
      obtain ⟨sc3, e4, f6⟩ := Facts.releaseAll (vs := as.res.reverse) (ws := []) (f5.perm (by simp [List.reverse_perm _ |>.symm]))
      exact ⟨_, by rw [compile, e1]; simp [r1, e2, e3, e4], .tail c1 r1 f1 c2 f2 e3 e4, f6.cast (by simp; omega), fun h => nomatch h⟩
    | false =>
      have f4 := ((f3.adds_after (newLocal_adds f2.inv'.slots)).adds_after (.emit (newLocal as.sc).2)).adds_after (.reset (newLocal as.sc).2.emit)
      obtain ⟨sc2, e3, f5⟩ := Facts.release (v := fv) (ws := as.res ++ [.loc (slot as.sc)]) (f4.perm (by simp))
      obtain ⟨sc3, e4, f6⟩ := Facts.releaseAll (vs := as.res.reverse) (ws := [.loc (slot as.sc)]) (f5.perm (by
        exact (List.reverse_perm _).symm.append_right _))
      exact ⟨_, by rw [compile, e1]; simp [r1, e2, e3, e4], .call c1 r1 f1 c2 f2 e3 e4, f6.cast (by simp; omega), fun _ => rfl⟩
  | .letE false ds b =>
    simp only [Tc.Scoped] at hS
    let X := sc.vars ++ List.replicate ds.length (none : Option Var)
    have a0 : Adds (sc.setVars X) (sc.setVars X) 0 [] := .refl _
    have i0 : SInv (sc.setVars X) := hi.letVars a0 (by
      intro v hv
      rcases List.mem_append.mp hv with h | h
      · exact .inl h
      · simp [List.mem_replicate] at h)
    have hS1 : ds.Scoped sc.nstatics sc.nargs (avail (sc.setVars X)) := by
      have : avail (sc.setVars X) = avail sc ++ List.replicate ds.length false := by
        simp [avail, Scope.setVars, X]
      rw [this]; exact hS.1
    obtain ⟨d, e1, c1, f1, l1⟩ := compileDefs_ok ds bl (sc.setVars X) hS1 i0 hb
    have hv : d.sc.vars = sc.vars ++ List.replicate d.res.length none := by rw [f1.adds.same.vars, l1]; rfl
    have e2 := letSet_ok d.res hv
    have a2 : Adds (sc.setVars (sc.vars ++ d.res.map some)) (d.sc.setVars (sc.vars ++ d.res.map some)) d.code.length d.res :=
      f1.adds.setVars (sc.vars ++ d.res.map some)
    have i2 := hi.letVars a2 (by
      intro v hv
      simpa using hv)
    have hS2 : b.Scoped (d.sc.setVars (sc.vars ++ d.res.map some)).nstatics (d.sc.setVars (sc.vars ++ d.res.map some)).nargs
        (avail (d.sc.setVars (sc.vars ++ d.res.map some))) := by
      refine a2.scoped ?_
      have : avail (sc.setVars (sc.vars ++ d.res.map some)) = avail sc ++ List.replicate ds.length true := by
        rw [← l1]
        simp [avail, Scope.setVars, Function.comp_def, List.map_const']
      rw [this]; exact hS.2
    obtain ⟨o, e3, c3, f3, r3⟩ := compile_ok exit b d.bl (d.sc.setVars (sc.vars ++ d.res.map some)) hS2 i2 f1.block'
    obtain ⟨sc', e4, a4⟩ := popVars_ok d.res (a2.trans f3.adds)
    rw [l1] at e4
    refine ⟨_, by rw [compile, letVars_false]; simp only; rw [e1]; simp [e2, e3, e4], .letE c1 f1 e2 rfl c3 f3 e4, ?_, r3⟩
    exact ⟨hi, by simpa [setVars_setVars, setVars_self] using a4, f3.stack.trans f1.stack, Nat.le_trans f1.count f3.count, hb⟩
  | .letE true ds b =>
    simp only [Tc.Scoped] at hS
    obtain ⟨ls, sc0, e0, l0, a0⟩ := letVars_true ds.length hi.slots
    have i0 : SInv sc0 := hi.letVars a0 (by
      intro v hv
      rcases List.mem_append.mp hv with h | h
      · exact .inl h
      · obtain ⟨l, hl, h'⟩ := List.mem_map.mp h
        cases h'
        exact .inr (List.mem_map_of_mem hl))
    have hS1 : ds.Scoped sc0.nstatics sc0.nargs (avail sc0) := by
      refine a0.scopeds ?_
      have : avail (sc.setVars (sc.vars ++ ls.map fun l => some (.loc l))) = avail sc ++ List.replicate ds.length true := by
        rw [← l0]
        simp [avail, Scope.setVars, Function.comp_def, List.map_const']
      rw [this]; exact hS.1
    have hb0 : sc0.block < bl.count := by rw [a0.same.block]; exact hb
    obtain ⟨d, e1, c1, f1, l1⟩ := compileDefs_ok ds bl sc0 hS1 i0 hb0
    have hv0 : sc0.vars = sc.vars ++ ls.map fun l => some (.loc l) := a0.same.vars
    have hv : d.sc.vars = sc.vars ++ ls.map fun l => some (.loc l) := by rw [f1.adds.same.vars]; exact hv0
    obtain ⟨sc1, e2, a2⟩ := letDefs_ok ls d.res (l0.trans l1.symm) (b := sc) (ws := d.res) hv (by
      rw [hv]; exact a0.trans f1.adds)
    rw [l1] at a2
    have i2 := hi.letVars a2 (by
      intro v hv
      simpa using hv)
    have hS2 : b.Scoped sc1.nstatics sc1.nargs (avail sc1) := by
      refine a2.scoped ?_
      have : avail (sc.setVars (sc.vars ++ d.res.map some)) = avail sc ++ List.replicate ds.length true := by
        rw [← l1]
        simp [avail, Scope.setVars, Function.comp_def, List.map_const']
      rw [this]; exact hS.2
    have hb1 : sc1.block < d.bl.count := by
      rw [a2.same.block]; exact Nat.lt_of_lt_of_le hb f1.count
    obtain ⟨o, e3, c3, f3, r3⟩ := compile_ok exit b d.bl sc1 hS2 i2 hb1
    obtain ⟨sc', e4, a4⟩ := popVars_ok d.res (a2.trans f3.adds)
    rw [l1] at e4
    refine ⟨_, by rw [compile, e0]; simp only; rw [e1]; simp [e2, e3, e4], .letRec e0 a0 c1 f1 e2 a2 c3 f3 e4, ?_, r3⟩
    refine Facts.cast ⟨hi, by simpa [setVars_setVars, setVars_self] using a4, f3.stack.trans f1.stack, Nat.le_trans f1.count f3.count, hb⟩ ?_
    simp [l0, l1]; omega
  | .select c nt bs d =>
    simp only [Tc.Scoped] at hS
    obtain ⟨o, cv, e1, c1, r1, f1⟩ := (compile_ok false c bl sc hS.1 hi hb).value
    cases exit with
    | true =>
      have a1 := Adds.emit o.sc
      have f1' := f1.adds_after a1
      obtain ⟨b, e2, c2, f2⟩ := compileBrs_ok true bs o.bl o.sc.emit (f1'.adds.scopedBrs hS.2.1) f1'.inv' f1'.block'
      have a2 := (Adds.reset b.sc).trans (Adds.enterBlock true b.bl b.sc.reset)
      have f12 := f1'.trans f2
      obtain ⟨dd, e3, c3, f3, r3⟩ := compile_ok true d (enterBlock true b.bl b.sc.reset).1 (enterBlock true b.bl b.sc.reset).2
        ((f12.adds.trans a2).scoped hS.2.2.2) (a2.inv f2.inv') (Nat.lt_succ_of_lt f2.block')
      obtain ⟨z1, z2, e4, f4⟩ := afterBranch_ok f3 f2.inv' f2.block' r3
      have f5 := (f12.trans f4).adds_after (.reset z2)
      obtain ⟨sc', e5, f6⟩ := Facts.release (v := cv) (ws := []) (f5.perm (by simp))
      refine ⟨_, by rw [compile, e1]; simp [r1, e2, e3, e4, e5]; rfl, .selectExit c1 r1 f1 hS.2.2.1 c2 f2 c3 f3 e4 e5, f6.cast ?_, fun h => nomatch h⟩
      simp only [List.length_append, List.length_cons, partsLen_code]
      simp; omega
    | false =>
      have a1 := (newLocal_adds f1.inv'.slots).trans (Adds.emit (newLocal o.sc).2)
      have f1' := f1.adds_after a1
      obtain ⟨b, e2, c2, f2⟩ := compileBrs_ok false bs o.bl (newLocal o.sc).2.emit (f1'.adds.scopedBrs hS.2.1) f1'.inv' f1'.block'
      have a2 := (Adds.reset b.sc).trans (Adds.enterBlock false b.bl b.sc.reset)
      have f12 := f1'.trans f2
      obtain ⟨dd, dv, e3, c3, r3, f3⟩ := (compile_ok false d (enterBlock false b.bl b.sc.reset).1 (enterBlock false b.bl b.sc.reset).2
        ((f12.adds.trans a2).scoped hS.2.2.2) (a2.inv f2.inv') (Nat.lt_succ_of_lt f2.block')).value
      obtain ⟨z1, z2, e4, f4⟩ := afterBranch_ok (res := dd.res) (by rw [r3]; exact f3) f2.inv' f2.block' (by simp [r3])
      have f5 := (f12.trans f4).adds_after (.reset z2)
      obtain ⟨sc', e5, f6⟩ := Facts.release (v := cv) (ws := [.loc (slot o.sc)]) (f5.perm (by simp))
      have e4' := e4
      rw [r3] at e4'
      have e2' : compileBrs false bs o.bl (newLocal o.sc.emit).2 = some b := e2
      refine ⟨_, by rw [compile, e1]; simp only [Option.bind_some, r1, Bool.false_eq_true, if_false, e2', e3, e4', e5, r3, Option.map_some]; rfl, .select c1 r1 f1 hS.2.2.1 c2 f2 c3 r3 f3 e4 e5 ?_, f6.cast ?_, fun _ => rfl⟩
      · have := f4.adds.pc
        simp at this; omega
      · simp only [List.length_append, List.length_cons, partsLen_code]
        simp; omega
termination_by (t.size, 0)
decreasing_by
  all_goals simp only [Prod.lex_def, Tc.size, Tcs.size]
  all_goals first
    | omega
    | (have := Tc.head_size f; omega)
    | (have := Tc.args_size f; omega)
    | (have := merge_size scope.length body; omega)

theorem compiles_ok (ts : Tcs) (bl : Blocks) (sc : Scope) (hS : ts.Scoped sc.nstatics sc.nargs (avail sc))
    (hi : SInv sc) (hb : sc.block < bl.count) : Goals compiles Comps ts bl sc := by
  match ts with
  | .nil => exact ⟨_, by rw [compiles], .nil, .refl hi hb, rfl⟩
  | .cons t ts =>
    obtain ⟨o, v, e1, c1, r1, f1⟩ := (compile_ok false t bl sc hS.1 hi hb).value
    obtain ⟨a, e2, c2, f2, l2⟩ := compiles_ok ts o.bl o.sc (f1.adds.scopeds hS.2) f1.inv' f1.block'
    exact ⟨_, by rw [compiles, e1]; simp [r1, e2], .cons c1 r1 f1 c2 f2, (f1.trans f2).cast (by simp), by simp [Tcs.length, l2]⟩
termination_by (ts.size, 0)
decreasing_by all_goals simp only [Prod.lex_def, Tcs.size]; omega

theorem compileDefs_ok (ts : Tcs) (bl : Blocks) (sc : Scope) (hS : ts.Scoped sc.nstatics sc.nargs (avail sc))
    (hi : SInv sc) (hb : sc.block < bl.count) : Goals compileDefs CompDefs ts bl sc := by
  match ts with
  | .nil => exact ⟨_, by rw [compileDefs], .nil, .refl hi hb, rfl⟩
  | .cons t ts =>
    have a0 := Adds.enterBlock false bl sc
    obtain ⟨o, v, e1, c1, r1, f1⟩ := (compile_ok false t (enterBlock false bl sc).1 (enterBlock false bl sc).2
      (a0.scoped hS.1) (a0.inv hi) (Nat.lt_succ_of_lt hb)).value
    have f1' := f1.inBlock (e' := false) hi hb
    obtain ⟨a, e2, c2, f2, l2⟩ := compileDefs_ok ts (exitBlock false o.bl o.sc).1 (exitBlock false o.bl o.sc).2
      (f1'.adds.scopeds hS.2) f1'.inv' f1'.block'
    exact ⟨_, by rw [compileDefs, e1]; simp [r1, e2], .cons c1 r1 f1 c2 f2, (f1'.trans f2).cast (by simp), by simp [Tcs.length, l2]⟩
termination_by (ts.size, 0)
decreasing_by all_goals simp only [Prod.lex_def, Tcs.size]; omega

theorem compileFlds_ok (src : Var) (i : Nat) (fs : Flds) (bl : Blocks) (sc : Scope) (hS : fs.Scoped sc.nstatics sc.nargs (avail sc))
    (hi : SInv sc) (hb : sc.block < bl.count) : 
    ∃ a, compileFlds src i fs bl sc = some a ∧ CompFlds src i fs bl sc a ∧ Facts bl sc a.code.length a.res a.bl a.sc := by
  match fs with
  | .nil => exact ⟨_, by rw [compileFlds], .nil, .refl hi hb⟩
  | .keep fs =>
    simp only [Flds.Scoped] at hS
    have a0 := (newLocal_adds hi.slots).trans (.emit (newLocal sc).2)
    obtain ⟨a, e2, c2, f2⟩ := compileFlds_ok src (i + 1) fs bl (newLocal sc).2.emit (a0.scopedFlds hS) (a0.inv hi) hb
    refine ⟨_, by rw [compileFlds]; simp [e2], .keep c2 f2, ?_⟩
    exact Facts.cast ⟨hi, a0.trans f2.adds, f2.stack, f2.count, hb⟩ (by simp; omega)
  | .set t fs =>
    obtain ⟨o, v, e1, c1, r1, f1⟩ := (compile_ok false t bl sc hS.1 hi hb).value
    obtain ⟨a, e2, c2, f2⟩ := compileFlds_ok src (i + 1) fs o.bl o.sc (f1.adds.scopedFlds hS.2) f1.inv' f1.block'
    exact ⟨_, by rw [compileFlds, e1]; simp [r1, e2], .set c1 r1 f1 c2 f2, (f1.trans f2).cast (by simp)⟩
termination_by (fs.size, 0)
decreasing_by all_goals simp only [Prod.lex_def, Flds.size]; omega

theorem compileBrs_ok (exit : Bool) (bs : Brs) (bl : Blocks) (sc : Scope) (hS : bs.Scoped sc.nstatics sc.nargs (avail sc))
    (hi : SInv sc) (hb : sc.block < bl.count) : 
    ∃ a, compileBrs exit bs bl sc = some a ∧ CompBrs exit bs bl sc a ∧ Facts bl sc (partsLen exit a.res) [] a.bl a.sc := by
  match bs with
  | .nil => exact ⟨_, by rw [compileBrs], .nil, .refl hi hb⟩
  | .cons tag t bs =>
    have a0 := (Adds.reset sc).trans (Adds.enterBlock exit bl sc.reset)
    obtain ⟨o, e1, c1, f1, r1⟩ := compile_ok exit t (enterBlock exit bl sc.reset).1 (enterBlock exit bl sc.reset).2
      (a0.scoped hS.1) (a0.inv hi) (Nat.lt_succ_of_lt hb)
    obtain ⟨z1, z2, e2, f2⟩ := afterBranch_ok f1 hi hb r1
    obtain ⟨a, e3, c3, f3⟩ := compileBrs_ok exit bs z1 z2 (f2.adds.scopedBrs hS.2) f2.inv' f2.block'
    exact ⟨_, by rw [compileBrs, e1]; simp [e2, e3], .cons c1 r1 f1 e2 f2 c3 f3, (f2.trans f3).cast (by simp [partsLen])⟩
termination_by (bs.size, 0)
decreasing_by all_goals simp only [Prod.lex_def, Brs.size]; omega

theorem compileFunc_ok (ns na : Nat) (body : Tc) (block : Nat) (bl : Blocks) (hS : body.Scoped ns na []) (hb : block < bl.count) :
    ∃ f, compileFunc ns na body block bl = some f ∧ CompFunc ns na body block bl f ∧ f.2.stack = bl.stack.tail ∧ bl.count ≤ f.2.count := by
  obtain ⟨o, e1, c1, f1, _⟩ := compile_ok true body bl (initScope ns na block) hS (initScope_inv ns na block) hb
  have key : ∃ sc', releaseOpt o.res (exitBlock true o.bl o.sc).2 = some sc' ∧ sc'.nlocals = o.sc.nlocals ∧ sc'.prof = o.sc.prof := by
    show ∃ sc', releaseOpt o.res o.sc = some sc' ∧ _
    cases hr : o.res with
    | none => exact ⟨_, rfl, rfl, rfl⟩
    | some v =>
      have h := f1.adds
      rw [hr] at h
      obtain ⟨c, e, t, _⟩ := release_ok (sc := o.sc) (v := v) h.cnt (h.rel v (by simp))
      exact ⟨c, e, t.nlocals, t.prof⟩
  obtain ⟨sc', e2, n2, p2⟩ := key
  refine ⟨_, by rw [compileFunc, e1]; simp [e2], .mk c1 f1 e2 n2 p2, ?_, ?_⟩
  · rw [exitBlock_stack, f1.stack]
  · rw [exitBlock_count]; exact f1.count
termination_by (body.size, 1)
decreasing_by exact Prod.Lex.right _ (by omega)
end

end Verif.Compile
