import Verif.Backend.CThm
import Verif.Compile.Flow
/-
The functions of a compiled module have blocks of their own, and the tables of their selects are sorted.
-/
namespace Verif.Backend
open Verif.Compile

/-- Increasing numbers from `lo` up to `hi`. -/
def Inc (lo hi : Nat) (xs : List Nat) : Prop := xs.Pairwise (· < ·) ∧ ∀ x ∈ xs, lo ≤ x ∧ x < hi

theorem Inc.nil {lo hi} : Inc lo hi [] := ⟨.nil, by simp⟩
theorem Inc.append {lo m m' hi a b} (h : Inc lo m a) (hm : m ≤ m') (hl : lo ≤ m') (hh : m ≤ hi) (h' : Inc m' hi b) : Inc lo hi (a ++ b) := by
  refine ⟨List.pairwise_append.mpr ⟨h.1, h'.1, fun x hx y hy => ?_⟩, fun x hx => ?_⟩
  · have := (h.2 x hx).2
    have := (h'.2 y hy).1
    omega
  · rcases List.mem_append.mp hx with hx | hx
    · have := h.2 x hx; omega
    · have := h'.2 x hx; omega
theorem Inc.mono {lo hi lo' hi' xs} (h : Inc lo hi xs) (h1 : lo' ≤ lo) (h2 : hi ≤ hi') : Inc lo' hi' xs :=
  ⟨h.1, fun x hx => ⟨Nat.le_trans h1 (h.2 x hx).1, Nat.lt_of_lt_of_le (h.2 x hx).2 h2⟩⟩

/-- The tables of the selects are sorted, not empty, and for tags of the type. -/
def Tables (code : List Instr) : Prop := ∀ c nt targets default, .select c nt targets default ∈ code → TableOk nt targets

/-- The blocks of the functions made in the code are increasing from `lo` up to `hi`, and the tables in
it are sorted. -/
structure Neat (block lo hi : Nat) (code : List Instr) : Prop where
  le : lo ≤ hi
  inc : Inc lo hi ((collectInstrs block code).map (·.1))
  tables : Tables code
  inner : ∀ c off scope d, .func c off scope d ∈ code → ∀ c', Within c c' → Tables c'.instrs

theorem collectInstrs_append (block : Nat) : (a b : List Instr) → collectInstrs block (a ++ b) = collectInstrs block a ++ collectInstrs block b
  | [], b => by rw [List.nil_append, collectInstrs, List.nil_append]
  | i :: a, b => by rw [List.cons_append, collectInstrs, collectInstrs, collectInstrs_append, List.append_assoc]

variable {block lo hi : Nat}

theorem Neat.nil : Neat block lo lo [] := ⟨Nat.le_refl _, by rw [collectInstrs]; exact .nil, fun c n t d h => by simp at h, fun c o s d h => by simp at h⟩

theorem Neat.append {m m' a b} (h : Neat block lo m a) (hm : m ≤ m') (h' : Neat block m' hi b) : Neat block lo hi (a ++ b) := by
  refine ⟨Nat.le_trans h.le (Nat.le_trans hm h'.le), ?_, fun c n t d hx => ?_, fun c o s d hx => ?_⟩
  · rw [collectInstrs_append, List.map_append]
    exact h.inc.append hm (Nat.le_trans h.le hm) (Nat.le_trans hm h'.le) h'.inc
  · rcases List.mem_append.mp hx with hx | hx
    · exact h.tables c n t d hx
    · exact h'.tables c n t d hx
  · rcases List.mem_append.mp hx with hx | hx
    · exact h.inner c o s d hx
    · exact h'.inner c o s d hx

theorem Neat.app {m a b} (h : Neat block lo m a) (h' : Neat block m hi b) : Neat block lo hi (a ++ b) := h.append (Nat.le_refl _) h'

theorem Neat.mono {lo' hi' a} (h : Neat block lo hi a) (h1 : lo' ≤ lo) (h2 : hi ≤ hi') : Neat block lo' hi' a :=
  ⟨Nat.le_trans h1 (Nat.le_trans h.le h2), h.inc.mono h1 h2, h.tables, h.inner⟩

/-- An instruction that makes no function and does not select. -/
theorem Neat.one {i} (hf : ∀ c o s d, i ≠ .func c o s d) (hs : ∀ c n t d, i ≠ .select c n t d) : Neat block lo lo [i] := by
  refine ⟨Nat.le_refl _, ?_, fun c n t d hx => ?_, fun c o s d hx => ?_⟩
  · have : collectInstr block i = [] := by
      cases i
      case func c o s d => exact absurd rfl (hf c o s d)
      all_goals simp [collectInstr]
    rw [collectInstrs, collectInstrs, this]
    exact .nil
  · exact absurd (List.mem_singleton.mp hx).symm (hs c n t d)
  · exact absurd (List.mem_singleton.mp hx).symm (hf c o s d)

theorem Neat.cons {i is} (hf : ∀ c o s d, i ≠ .func c o s d) (hs : ∀ c n t d, i ≠ .select c n t d) (h : Neat block lo hi is) : Neat block lo hi (i :: is) :=
  (Neat.one hf hs).app h

theorem Neat.plain : {is : List Instr} → (∀ i ∈ is, (∀ c o s d, i ≠ .func c o s d) ∧ ∀ c n t d, i ≠ .select c n t d) → Neat block lo lo is
  | [], _ => .nil
  | i :: is, h => .cons (h i (List.mem_cons_self ..)).1 (h i (List.mem_cons_self ..)).2 (.plain fun i hi => h i (List.mem_cons_of_mem _ hi))

theorem Neat.sel {c n t d is} (ht : TableOk n t) (h : Neat block lo hi is) : Neat block lo hi (.select c n t d :: is) := by
  refine ⟨h.le, ?_, fun c n t d hx => ?_, fun c o s d hx => ?_⟩
  · rw [collectInstrs, collectInstr]
    · exact h.inc
    · simp
  · rcases List.mem_cons.mp hx with hx | hx
    · cases hx; exact ht
    · exact h.tables c n t d hx
  · rcases List.mem_cons.mp hx with hx | hx
    · cases hx
    · exact h.inner c o s d hx

theorem Neat.fin {exit} {sc : Scope} : Neat block lo lo (finCode exit sc) := by
  simp only [finCode, compileExit]
  cases exit
  · exact .nil
  · exact .one (by simp) (by simp)

theorem afterBranch_count {exit r bl} {sc : Scope} {z1 z2} (h : afterBranch exit r bl sc = some (z1, z2)) : z1.count = bl.count := by
  unfold afterBranch at h
  cases exit with
  | true =>
    simp only [if_true, Option.map_eq_some_iff, Prod.mk.injEq] at h
    obtain ⟨c, h1, rfl, rfl⟩ := h
    rfl
  | false =>
    simp only [Bool.false_eq_true, if_false] at h
    cases r with
    | none => cases h
    | some v =>
      simp only [Option.map_eq_some_iff, Prod.mk.injEq] at h
      obtain ⟨c, h1, rfl, rfl⟩ := h
      rfl

mutual
theorem _root_.Verif.Compile.Comp.neat {exit t bl sc o} (h : Comp exit t bl sc o) (hb : sc.block < bl.count) : Neat sc.block bl.count o.bl.count o.code :=
  match h with
  | .typeVal _ => .cons (by simp) (by simp) .fin
  | .literal _ => .cons (by simp) (by simp) .fin
  | .var _ _ => by
    simp only [compileExit]
    cases exit with
    | false => exact .nil
    | true => exact .one (by simp) (by simp)
  | .struct ca er fa => (ca.neat hb).app (.cons (by simp) (by simp) .fin)
  | .list ca er fa => (ca.neat hb).app (.cons (by simp) (by simp) .fin)
  | .copy co ro fo ca fa er1 er2 => by
    have h2 := ca.neat fa.block
    rw [fo.adds.same.block] at h2
    exact ((co.neat hb).app h2).app (.cons (by simp) (by simp) .fin)
  | .union co ro fo er => (co.neat hb).app (.cons (by simp) (by simp) .fin)
  | .access (u := u) co ro fo er => (co.neat hb).app (.cons (by cases u <;> simp) (by cases u <;> simp) .fin)
  | .func (f := f) (vs := vs) _ hg hsc cf => by
    obtain ⟨h1, h2, h3⟩ := cf.neat (by simp [pushBlock])
    have : Neat sc.block bl.count f.2.count [.func f.1 (bl.count - sc.block) vs (slot sc)] := by
      refine ⟨?_, ?_, ?_, ?_⟩
      · have : (pushBlock bl).2.count = bl.count + 1 := rfl
        omega
      · rw [collectInstrs, collectInstrs, collectInstr, List.append_nil, show sc.block + (bl.count - sc.block) = bl.count by omega]
        exact h1
      · intro c n t d hx; simp at hx
      · intro c o s d hx
        simp at hx
        obtain ⟨rfl, _⟩ := hx
        exact h3
    exact this.app .fin
  | .tail ch rh fh cas fas er1 er2 => by
    have h2 := cas.neat fas.block
    rw [fh.adds.same.block] at h2
    exact ((ch.neat hb).app h2).app (.one (by simp) (by simp))
  | .call ch rh fh cas fas er1 er2 => by
    have h2 := cas.neat fas.block
    rw [fh.adds.same.block] at h2
    exact ((ch.neat hb).app h2).app (.one (by simp) (by simp))
  | .letE cd fd es e1 co fo ep => by
    have h1 := cd.neat fd.block
    have h2 := co.neat fo.block
    have e : _ = _ := fd.adds.same.block
    subst e1
    simp only [Scope.setVars] at h1 h2 e
    rw [e] at h2
    exact h1.app h2
  | .letRec el al cd fd ea aa co fo ep => by
    have h1 := cd.neat fd.block
    have h2 := co.neat fo.block
    have e1 : _ = _ := al.same.block
    have e2 : _ = _ := aa.same.block
    obtain ⟨rfl, _⟩ := letVars_code _ el
    obtain rfl := letDefs_code ea
    simp only [Scope.setVars] at e1 e2
    rw [e1] at h1
    rw [e2] at h2
    refine Neat.app (Neat.app (Neat.app (.plain fun x hx => ?_) h1) (.plain fun x hx => ?_)) h2
    · rw [List.mem_map] at hx
      obtain ⟨_, _, rfl⟩ := hx
      simp
    · rw [List.mem_iff_getElem] at hx
      obtain ⟨i, hi, rfl⟩ := hx
      simp
  | .selectExit (o := o) (b := b) (dd := dd) co ro fo ht cb fb cd fd ea er => by
    have h2 : ∀ dest stop, Neat o.sc.block o.bl.count b.bl.count (branchCode true dest stop (b.res.map (·.2))) := cb.neat fb.block
    have h3 : Neat b.sc.block (b.bl.count + 1) dd.bl.count dd.code := cd.neat fd.block
    have e1 : o.sc.block = _ := fo.adds.same.block
    have e2 : b.sc.block = o.sc.block := fb.adds.same.block
    rw [e2, e1] at h3
    rw [e1] at h2
    rw [show (⟨_, _, _, _⟩ : Out (Option Var)).bl.count = dd.bl.count from afterBranch_count ea]
    exact (co.neat hb).app (.sel ⟨(branchTable_sorted cb 0 ht.1 _).2, branchTable_ne cb ht.2.1 _, branchTable_below cb ht.2.2 _⟩ ((h2 _ _).append (Nat.le_succ _) h3))
  | .select (o := o) (b := b) (dd := dd) co ro fo ht cb fb cd rd fd ea er hz2 => by
    have h2 : ∀ dest stop, Neat o.sc.block o.bl.count b.bl.count (branchCode false dest stop (b.res.map (·.2))) := cb.neat fb.block
    have h3 : Neat b.sc.block (b.bl.count + 1) dd.bl.count dd.code := cd.neat fd.block
    have e1 : o.sc.block = _ := fo.adds.same.block
    have e2 : b.sc.block = o.sc.block := fb.adds.same.block
    rw [e2, e1] at h3
    rw [e1] at h2
    rw [show (⟨_, _, _, _⟩ : Out (Option Var)).bl.count = dd.bl.count from afterBranch_count ea]
    exact (co.neat hb).app (.sel ⟨(branchTable_sorted cb 0 ht.1 _).2, branchTable_ne cb ht.2.1 _, branchTable_below cb ht.2.2 _⟩ ((h2 _ _).append (Nat.le_succ _)
      (h3.app (.cons (by simp) (by simp) (.one (by simp) (by simp))))))
termination_by structural h
theorem _root_.Verif.Compile.Comps.neat {ts bl sc a} (h : Comps ts bl sc a) (hb : sc.block < bl.count) : Neat sc.block bl.count a.bl.count a.code :=
  match h with
  | .nil => .nil
  | .cons co ro fo ca fa => by
    have h2 := ca.neat fa.block
    rw [fo.adds.same.block] at h2
    exact (co.neat hb).app h2
termination_by structural h
theorem _root_.Verif.Compile.CompDefs.neat {ts bl sc a} (h : CompDefs ts bl sc a) (hb : sc.block < bl.count) : Neat sc.block bl.count a.bl.count a.code :=
  match h with
  | .nil => .nil
  | .cons (o := o) (a := a) co ro fo ca fa => by
    have h1 : Neat sc.block (bl.count + 1) o.bl.count o.code := co.neat fo.block
    have h2 : Neat o.sc.block o.bl.count a.bl.count a.code := ca.neat fa.block
    have e : o.sc.block = sc.block := fo.adds.same.block
    rw [e] at h2
    exact (h1.app h2).mono (Nat.le_succ _) (Nat.le_refl _)
termination_by structural h
theorem _root_.Verif.Compile.CompBrs.neat {exit bs bl sc b} (h : CompBrs exit bs bl sc b) (hb : sc.block < bl.count) :
    ∀ dest stop, Neat sc.block bl.count b.bl.count (branchCode exit dest stop (b.res.map (·.2))) :=
  match h with
  | .nil => fun _ _ => .nil
  | .cons (o := o) (a := a) (z2 := z2) co hr fo ea fz ca fa => by
    intro dest stop
    have h1 : Neat sc.block (bl.count + 1) o.bl.count o.code := co.neat fo.block
    have h2 := ca.neat fa.block dest stop
    have e : z2.block = sc.block := fz.adds.same.block
    rw [e, afterBranch_count ea] at h2
    simp only [List.map_cons, branchCode]
    refine Neat.mono ?_ (Nat.le_succ _) (Nat.le_refl _)
    refine Neat.app ?_ h2
    split
    · exact h1
    · exact h1.app (.cons (by simp) (by simp) (.one (by simp) (by simp)))
termination_by structural h
theorem _root_.Verif.Compile.CompFlds.neat {src i fs bl sc a} (h : CompFlds src i fs bl sc a) (hb : sc.block < bl.count) : Neat sc.block bl.count a.bl.count a.code :=
  match h with
  | .nil => .nil
  | .keep ca fa => .cons (by simp) (by simp) (ca.neat fa.block)
  | .set co ro fo ca fa => by
    have h2 := ca.neat fa.block
    rw [fo.adds.same.block] at h2
    exact (co.neat hb).app h2
termination_by structural h
theorem _root_.Verif.Compile.CompFunc.neat {ns na body block bl f} (h : CompFunc ns na body block bl f) (hb : block < bl.count) :
    Inc block f.2.count ((collectBlocks block f.1).map (·.1)) ∧ bl.count ≤ f.2.count ∧ ∀ c', Within f.1 c' → Tables c'.instrs :=
  match h with
  | .mk (o := o) co fo er hl hp => by
    have h1 := co.neat (sc := initScope ns na block) hb
    have hbl : (initScope ns na block).block = block := rfl
    rw [hbl] at h1
    refine ⟨?_, h1.le, fun c' hw => ?_⟩
    · rw [collectBlocks, List.map_cons]
      refine Inc.append (a := [block]) (m := block + 1) (m' := bl.count) ⟨by simp, by simp⟩ hb (Nat.le_of_lt hb) (Nat.le_trans hb h1.le) h1.inc
    · cases hw with
      | here => exact h1.tables
      | inner hm hw => exact h1.inner _ _ _ _ hm _ hw
termination_by structural h
end

end Verif.Backend
