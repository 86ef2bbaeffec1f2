import Verif.Compile.Comp
import Mathlib.Data.List.Induction
/-
The compiler succeeds on every expression in scope, and does what `Comp` says.
-/
namespace Verif.Compile

theorem fin_adds {exit} {sc : Scope} (hs : ∀ i, 0 < sc.cnt (.loc i) → i < sc.nlocals) :
    Adds sc (finSc exit sc) (1 + (finCode exit sc).length) [.loc (slot sc)] := by
  have h := ((newLocal_adds hs).trans (.emit _)).trans (compileExit_adds exit (.loc (slot sc)) (newLocal sc).2.emit)
  simpa using h

theorem Same.avail {sc sc'} (h : Same sc sc') : avail sc' = avail sc := by unfold Compile.avail; rw [h.vars]

theorem Adds.setVars {a b n vs} (h : Adds a b n vs) (X) : Adds (a.setVars X) (b.setVars X) n vs :=
  ⟨⟨h.same.nstatics, h.same.nargs, rfl, h.same.block⟩, h.nlocals, h.pc, h.cnt, h.slots, h.rel⟩

theorem setVars_setVars (sc : Scope) (X Y) : (sc.setVars X).setVars Y = sc.setVars Y := rfl
theorem setVars_self (sc : Scope) : sc.setVars sc.vars = sc := rfl

theorem letVars_false : (n : Nat) → (sc : Scope) →
    letVars false n sc = ([], [], sc.setVars (sc.vars ++ List.replicate n none))
  | 0, sc => by simp [letVars, Scope.setVars]
  | n + 1, sc => by
    simp only [letVars, letVars_false n]
    simp [Scope.setVars, pushVar, List.replicate_succ]

theorem letVars_true : (n : Nat) → {sc : Scope} → (∀ i, 0 < sc.cnt (.loc i) → i < sc.nlocals) →
    ∃ ls sc0, letVars true n sc = (ls.map .refValue, ls, sc0) ∧ ls.length = n ∧
      Adds (sc.setVars (sc.vars ++ ls.map fun l => some (.loc l))) sc0 n (ls.map .loc)
  | 0, sc, _ => ⟨[], sc, rfl, rfl, by simpa [Scope.setVars] using Adds.refl sc⟩
  | n + 1, sc, hs => by
    have h1 := (newLocal_adds hs).trans (.emit _)
    obtain ⟨ls, sc0, e, hl, ha⟩ := letVars_true n (sc := pushVar (some (.loc (newLocal sc).1)) (newLocal sc).2.emit) (h1.slots hs)
    refine ⟨(newLocal sc).1 :: ls, sc0, by simp [letVars, e], by simp [hl], ?_⟩
    have h2 := h1.setVars (sc.vars ++ some (.loc (newLocal sc).1) :: ls.map fun l => some (.loc l))
    have h3 : Adds ((newLocal sc).2.emit.setVars (sc.vars ++ some (.loc (newLocal sc).1) :: ls.map fun l => some (.loc l))) sc0 n (ls.map .loc) := by
      have hv : (newLocal sc).2.emit.vars = sc.vars := rfl
      simpa [pushVar, Scope.setVars, hv] using ha
    have := h2.trans h3
    rw [show n + 1 = 0 + 1 + n by omega]
    exact this

theorem letSet_ok : (ds : List Var) → {pre : List (Option Var)} → {sc : Scope} → sc.vars = pre ++ List.replicate ds.length none →
    letSet pre.length ds sc = some (sc.setVars (pre ++ ds.map some))
  | [], pre, sc, h => by simp [letSet, Scope.setVars, ← h] at h ⊢; simp [← h]
  | d :: ds, pre, sc, h => by
    have hg : sc.vars[pre.length]? = some none := by simp [h, List.replicate_succ]
    have := letSet_ok ds (pre := pre ++ [some d]) (sc := sc.setVars (pre ++ some d :: List.replicate ds.length none))
      (by simp [Scope.setVars])
    simp only [letSet, setVar, hg, releaseOpt, Option.map_some, Option.bind_some]
    rw [show ({ sc with vars := sc.vars.set pre.length (some d) } : Scope) =
      sc.setVars (pre ++ some d :: List.replicate ds.length none) by
        simp [Scope.setVars, h, List.replicate_succ]]
    simpa [setVars_setVars] using this

theorem letDefs_ok : (ls : List Nat) → (ds : List Var) → ls.length = ds.length → {pre : List (Option Var)} → {b sc : Scope} →
    {n : Nat} → {ws : List Var} →
    sc.vars = pre ++ (ls.map fun l => some (.loc l)) → Adds (b.setVars sc.vars) sc n (ls.map .loc ++ ws) →
    ∃ sc1, letDefs pre.length ls ds sc = some (List.zipWith .refDef ls ds, sc1) ∧
      Adds (b.setVars (pre ++ ds.map some)) sc1 (n + ds.length) ws
  | [], [], _, pre, b, sc, n, ws, h, ha => ⟨sc, rfl, by simp at h; simpa [h] using ha⟩
  | l :: ls, d :: ds, hl, pre, b, sc, n, ws, h, ha => by
    have hg : sc.emit.vars[pre.length]? = some (some (.loc l)) := by
      show sc.vars[pre.length]? = _
      simp [h]
    obtain ⟨c, e, hc⟩ := (ha.trans (.emit sc)).perm (ws := Var.loc l :: (ls.map .loc ++ ws)) (by simp) |>.release
    have hv : c.vars = sc.vars := hc.same.vars
    have hs : c.vars.set pre.length (some d) = (pre ++ [some d]) ++ (ls.map fun l => some (.loc l)) := by rw [hv, h]; simp
    obtain ⟨sc1, e1, h1⟩ := letDefs_ok ls ds (by simpa using hl) (pre := pre ++ [some d]) (b := b)
      (sc := c.setVars (c.vars.set pre.length (some d))) hs
      (by simpa [setVars_setVars, Scope.setVars] using hc.setVars (c.vars.set pre.length (some d)))
    refine ⟨sc1, ?_, ?_⟩
    · simp only [letDefs, setVar, hg, releaseOpt, e, Option.map_some, Option.bind_some]
      have e1' : letDefs (pre.length + 1) ls ds { c with vars := c.vars.set pre.length (some d) } =
          some (List.zipWith .refDef ls ds, sc1) := by simpa [Scope.setVars] using e1
      rw [e1']; rfl
    · have : n + (ds.length + 1) = n + 1 + ds.length := by omega
      simpa [this] using h1

theorem popVars_ok {pre : List (Option Var)} {b : Scope} {n : Nat} {ws : List Var} (ds : List Var) : ∀ {sc : Scope},
    Adds (b.setVars (pre ++ ds.map some)) sc n (ds ++ ws) →
    ∃ sc', popVars ds.length sc = some sc' ∧ Adds (b.setVars pre) sc' n ws := by
  induction ds using List.reverseRecOn with
  | nil => intro sc h; exact ⟨sc, rfl, by simpa using h⟩
  | append_singleton ds d ih =>
    intro sc h
    have hv : sc.vars = pre ++ ds.map some ++ [some d] := by rw [h.same.vars]; simp [Scope.setVars]
    have h1 := (h.setVars (pre ++ ds.map some)).perm (ws := d :: (ds ++ ws)) (by
      rw [List.append_assoc]; exact List.perm_middle)
    rw [setVars_setVars] at h1
    obtain ⟨c, e, hc⟩ := h1.release
    obtain ⟨sc', e', h'⟩ := ih hc
    refine ⟨sc', ?_, h'⟩
    rw [List.length_append, List.length_singleton]
    have hd : ({ sc with vars := sc.vars.dropLast } : Scope) = sc.setVars (pre ++ ds.map some) := by
      rw [hv, List.dropLast_concat]; rfl
    simp only [popVars, popVar]
    rw [hv, List.getLast?_concat]
    simp only
    rw [← hv, hd]
    simp only [releaseOpt, e, Option.bind_some, e']

theorem SInv.block {sc : Scope} (h : SInv sc) (p) : SInv { sc with prof := p } := ⟨h.slots, h.vars, h.statics, h.args⟩

theorem SInv.letVars {sc sc' : Scope} {n vs} {X : List (Option Var)} (h : SInv sc) (ha : Adds (sc.setVars X) sc' n vs)
    (hX : ∀ v, some v ∈ X → some v ∈ sc.vars ∨ v ∈ vs) : SInv sc' where
  slots := ha.slots h.slots
  vars := fun v hv => by
    rw [ha.same.vars] at hv
    rw [ha.cnt]
    rcases hX v hv with h' | h'
    · exact Nat.lt_of_lt_of_le (h.vars v h') (plus_ge _ _ _)
    · have := List.count_pos_iff.mpr h'
      simp only [plus]; omega
  statics := fun j hj => by
    rw [ha.same.nstatics] at hj; rw [ha.cnt]; exact Nat.lt_of_lt_of_le (h.statics j hj) (plus_ge _ _ _)
  args := fun j hj => by
    rw [ha.same.nargs] at hj; rw [ha.cnt]; exact Nat.lt_of_lt_of_le (h.args j hj) (plus_ge _ _ _)

theorem initScope_inv (ns na block) : SInv (initScope ns na block) where
  slots := fun i h => by simp [initScope] at h
  vars := fun v h => by simp [initScope] at h
  statics := fun i h => by
    have h : i < ns := h
    simp [initScope, h]
  args := fun i h => by
    have h : i < na := h
    simp [initScope, h]

/-- Finishing an instruction: the slot and the exit. -/
theorem Facts.fin {exit bl sc n vs bl' sc'} (h : Facts bl sc n vs bl' sc') :
    Facts bl sc (n + (1 + (finCode exit sc').length)) (vs ++ [.loc (slot sc')]) bl' (finSc exit sc') :=
  ⟨h.inv, h.adds.trans (fin_adds h.inv'.slots), h.stack, h.count, h.block⟩

theorem Facts.releaseAll {bl sc n vs ws bl' sc'} (h : Facts bl sc n (vs ++ ws) bl' sc') :
    ∃ c, Compile.releaseAll vs sc' = some c ∧ Facts bl sc n ws bl' c := by
  obtain ⟨c, e, h'⟩ := h.adds.releaseAll
  exact ⟨c, e, h.inv, h', h.stack, h.count, h.block⟩

theorem Facts.release {bl sc n v ws bl' sc'} (h : Facts bl sc n (v :: ws) bl' sc') :
    ∃ c, Compile.release v sc' = some c ∧ Facts bl sc n ws bl' c := by
  obtain ⟨c, e, h'⟩ := h.adds.release
  exact ⟨c, e, h.inv, h', h.stack, h.count, h.block⟩

theorem Facts.perm {bl sc n vs ws bl' sc'} (h : Facts bl sc n vs bl' sc') (hp : vs.Perm ws) : Facts bl sc n ws bl' sc' :=
  ⟨h.inv, h.adds.perm hp, h.stack, h.count, h.block⟩

theorem Facts.cast {bl sc n m vs bl' sc'} (h : Facts bl sc n vs bl' sc') (he : n = m) : Facts bl sc m vs bl' sc' := he ▸ h

theorem Facts.adds_after {bl sc n vs bl' sc' m ws sc2} (h : Facts bl sc n vs bl' sc') (h' : Adds sc' sc2 m ws) :
    Facts bl sc (n + m) (vs ++ ws) bl' sc2 := ⟨h.inv, h.adds.trans h', h.stack, h.count, h.block⟩

theorem enterBlock_stack (e bl sc) : (enterBlock e bl sc).1.stack = bl.count :: bl.stack := rfl
theorem enterBlock_count (e bl sc) : (enterBlock e bl sc).1.count = bl.count + 1 := rfl
theorem exitBlock_stack (e bl sc) : (exitBlock e bl sc).1.stack = bl.stack.tail := rfl
theorem exitBlock_count (e bl sc) : (exitBlock e bl sc).1.count = bl.count := rfl

/-- Something compiled within a block of its own. -/
theorem Facts.inBlock {e e' bl} {sc : Scope} {n vs bl' sc'}
    (h : Facts (enterBlock e bl sc).1 (enterBlock e bl sc).2 n vs bl' sc') (hi : SInv sc) (hb : sc.block < bl.count) :
    Facts bl sc n vs (exitBlock e' bl' sc').1 (exitBlock e' bl' sc').2 := by
  refine ⟨hi, ?_, ?_, ?_, hb⟩
  · simpa using ((Adds.enterBlock e bl sc).trans h.adds).trans (Adds.exitBlock e' bl' sc')
  · rw [exitBlock_stack, h.stack, enterBlock_stack]; rfl
  · rw [exitBlock_count]; have := h.count; rw [enterBlock_count] at this; omega

theorem enter_inv {e bl} {sc : Scope} (h : SInv sc) : SInv (enterBlock e bl sc).2 := (Adds.enterBlock e bl sc).inv h

/-- The state after a branch. -/
theorem afterBranch_ok {exit bl} {sc : Scope} {n bl' sc'} {res : Option Var}
    (h : Facts (enterBlock exit bl sc.reset).1 (enterBlock exit bl sc.reset).2 n res.toList bl' sc')
    (hi : SInv sc) (hb : sc.block < bl.count) (hr : exit = false → res.isSome) :
    ∃ z1 z2, afterBranch exit res bl' sc' = some (z1, z2) ∧ Facts bl sc (n + if exit then 0 else 2) [] z1 z2 := by
  unfold afterBranch
  cases exit with
  | true =>
    have h1 := h.inBlock (e' := true) ((Adds.reset sc).inv hi) hb
    have h2 : Facts bl sc n res.toList (exitBlock true bl' sc').1 (exitBlock true bl' sc').2 :=
      ⟨hi, by simpa using (Adds.reset sc).trans h1.adds, h1.stack, h1.count, hb⟩
    cases res with
    | none => exact ⟨_, _, rfl, h2⟩
    | some v =>
      obtain ⟨c, e, h3⟩ := Facts.release (v := v) (ws := []) h2
      exact ⟨_, c, by simp [releaseOpt, e], h3⟩
  | false =>
    cases res with
    | none => simp at hr
    | some v =>
      have h0 := h.adds_after (.emit sc')
      have h1 := h0.inBlock (e' := false) ((Adds.reset sc).inv hi) hb
      have h2 : Facts bl sc (n + 1) [v] (exitBlock false bl' sc'.emit).1 (exitBlock false bl' sc'.emit).2 :=
        ⟨hi, by simpa using (Adds.reset sc).trans h1.adds, h1.stack, h1.count, hb⟩
      obtain ⟨c, e, h3⟩ := Facts.release (v := v) (ws := []) h2
      refine ⟨(exitBlock false bl' sc'.emit).1, c.emit, by simp [e], ?_⟩
      simpa using h3.adds_after (.emit c)

end Verif.Compile
