import Verif.Elab.Ran
import Verif.Elab.Poly
import Verif.Elab.Letters
import Verif.Elab.Conv
import Verif.Elab.Roles
/-
What the type checker makes of an expression is the expression without its types, with names
resolved.
-/
namespace Verif.Elab
open Types
open Compile (Var Tc Tcs Flds Brs)

/-! ### Variables in scope -/

theorem binders_cons {sc : Scope} {rest : List Scope} : binders (sc :: rest) = (sc.locals ++ sc.args).map (fun v => (v.name, v.var.isNone)) ++ binders rest := rfl

theorem vext_map {vs vs' : List V} (h : All2 VExt vs vs') : vs'.map (fun v => (v.name, v.var.isNone)) = vs.map (fun v => (v.name, v.var.isNone)) := by
  induction h with
  | nil => rfl
  | cons hv _ ih => simp only [List.map_cons, hv.name, hv.var, ih]

theorem binders_ext {σ σ' : List Scope} (h : Ext σ σ') : binders σ' = binders σ := by
  induction h with
  | nil => rfl
  | phantom _ h => rw [binders_cons, binders_cons, vext_map (h.locals.append h.args)]
  | live _ h _ ih => rw [binders_cons, binders_cons, vext_map (h.locals.append h.args), ih]

theorem isTypeVar_append {Γ Δ : Binders} {x : VarName} : isTypeVar (Γ ++ Δ) x = (isTypeVar Γ x).or (isTypeVar Δ x) := by
  simp only [isTypeVar, List.find?_append]
  cases Γ.find? (fun b => decide (b.1 = x)) <;> simp

theorem isTypeVar_map {x : VarName} : {vs : List V} → isTypeVar (vs.map fun v => (v.name, v.var.isNone)) x = (first x vs).map (·.var.isNone)
  | [] => rfl
  | v :: vs => by
    have ih := isTypeVar_map (x := x) (vs := vs)
    rw [first_cons]
    simp only [isTypeVar, List.map_cons, List.find?_cons] at ih ⊢
    by_cases h : v.name = x
    · simp [h]
    · simp only [h, decide_false, if_false]; exact ih

/-- A variable of a scope that has a value is not one for a type. -/
theorem first_binders {x : VarName} : {σ : List Scope} → {sc : Scope} → {rest : List Scope} → σ = sc :: rest → Inv σ → Live σ → {v : V} →
    first x sc.vars = some v → v.var.isSome → isTypeVar (binders σ) x = some false
  | [], _, _, h, _, _, _, _, _ => by cases h
  | sc :: rest, _, _, rfl, hi, hl, v, hf, hv => by
    rw [binders_cons, isTypeVar_append, isTypeVar_map]
    simp only [Scope.vars] at hf
    rw [first_append] at hf
    cases hla : first x (sc.locals ++ sc.args) with
    | some w =>
      rw [hla] at hf
      cases hf
      obtain ⟨c, hc⟩ := Option.isSome_iff_exists.mp hv
      simp [hc]
    | none =>
      rw [hla] at hf
      simp only [Option.none_or] at hf
      simp only [Option.map_none, Option.none_or]
      rcases hl with ⟨rfl, hc⟩ | ⟨hc, hl⟩
      · have := hi.1
        unfold CapOk at this
        rw [hc] at this
        rw [this.1 rfl] at hf
        simp [first] at hf
      · obtain ⟨cs, hcs⟩ := Option.ne_none_iff_exists'.mp hc
        have hcap := hi.1
        unfold CapOk at hcap
        rw [hcs] at hcap
        obtain ⟨⟨p, rest', rfl, h1⟩, h2⟩ := hcap
        have hm : v ∈ sc.statics := List.mem_of_find?_eq_some hf
        obtain ⟨c, _, w, g1, g2, g3⟩ := h1.mem_left hm
        rw [first_name hf] at g1
        exact first_binders rfl hi.2 hl g1 (by simp [g2])

/-- A lookup of a variable finds out whether it is one for a type. -/
theorem getVar_binders {x : VarName} : {σ σ' : List Scope} → {v : V} → getVar x false σ = some (v, σ') → Inv σ → Live σ → isTypeVar (binders σ) x = some v.var.isNone
  | [], _, _, h, _, _ => by simp [getVar] at h
  | sc :: rest, σ', v, h, hi, hl => by
    have hmain := getVar_ext h
    cases hv : v.var with
    | some c =>
      obtain ⟨sc', rest', rfl, w, g1, g2, g3⟩ := hmain.2.2.2.2 rfl c hv
      have := first_binders rfl (hmain.2.1 hi) (hl.ext hmain.1) g1 (by simp [g2])
      rw [binders_ext hmain.1] at this
      exact this
    | none =>
      simp only [getVar] at h
      rw [binders_cons, isTypeVar_append, isTypeVar_map, first_append]
      cases h1 : useFirst x false sc.locals with
      | some r =>
        rw [h1] at h; cases h
        obtain ⟨_, _, _, ⟨v0, g1, g2⟩, _⟩ := useFirst_spec h1
        simp [g1, g2, hv]
      | none =>
      rw [h1] at h
      rw [useFirst_none] at h1
      simp only at h
      cases h2 : useFirst x false sc.args with
      | some r =>
        rw [h2] at h; cases h
        obtain ⟨_, _, _, ⟨v0, g1, g2⟩, _⟩ := useFirst_spec h2
        simp [h1, g1, g2, hv]
      | none =>
      rw [h2] at h
      rw [useFirst_none] at h2
      simp only at h
      cases h3 : useFirst x false sc.statics with
      | some r =>
        rw [h3] at h; cases h
        obtain ⟨_, _, _, ⟨v0, g1, g2⟩, _⟩ := useFirst_spec h3
        exfalso
        have hm : v0 ∈ sc.statics := List.mem_of_find?_eq_some g1
        rcases hl with ⟨rfl, hc⟩ | ⟨hc, hl⟩
        · have := hi.1
          unfold CapOk at this
          rw [hc] at this
          rw [this.1 rfl] at hm
          cases hm
        · obtain ⟨cs, hcs⟩ := Option.ne_none_iff_exists'.mp hc
          have hcap := hi.1
          unfold CapOk at hcap
          rw [hcs] at hcap
          obtain ⟨i, hi'⟩ := List.mem_iff_getElem?.mp hm
          have := (hcap.2 i _ hi').1
          rw [g2, hv] at this
          cases this
      | none =>
      rw [h3] at h
      simp only at h
      rcases hl with ⟨rfl, hc⟩ | ⟨hc, hl⟩
      · simp [getVar] at h
      · have hcn : sc.captured.isNone = false := by cases hh : sc.captured <;> simp_all
        simp only [hcn, Bool.false_or] at h
        cases hg : getVar x false rest with
        | none => rw [hg] at h; cases h
        | some r =>
          obtain ⟨v1, rest1⟩ := r
          rw [hg] at h
          have := getVar_binders hg hi.2 hl
          simp only at h
          split at h
          · cases h; cases hv
          · cases h
            simp [h1, h2, this, hv]

/-! ### Putting results together -/

/-- What holds while code that is run is checked. -/
structure Ok (s : S) : Prop where
  inv : Inv s.scopes
  live : Live s.scopes
  names : ∀ b ∈ binders s.scopes, b.2 = true → ∃ x, b.1 = .normal x
  heap : ∃ H, HGood H s.heap

theorem Ok.step {s s' : S} (h : Ok s) (hs : Step s s') : Ok s' :=
  ⟨hs.inv h.inv, h.live.ext hs.ext, by rw [binders_ext hs.ext]; exact h.names, h.heap.imp fun H hh => hs.heap H hh⟩

theorem Ok.quiet {s s' : S} (h : Ok s) (hs : s'.scopes = s.scopes) (hh : ∃ H, HGood H s'.heap) : Ok s' :=
  ⟨by rw [hs]; exact h.inv, by rw [hs]; exact h.live, by rw [hs]; exact h.names, hh⟩

theorem Ok.cons {s : S} (h : Ok s) : ∃ sc rest, s.scopes = sc :: rest := by
  have := h.live
  cases hs : s.scopes with
  | nil => rw [hs] at this; cases this
  | cons sc rest => exact ⟨sc, rest, rfl⟩

theorem Ok.refl {s : S} (h : Ok s) : HGood s.heap s.heap := by
  obtain ⟨H, hh⟩ := h.heap
  exact .refl hh.good

/-- The second is the first with names resolved in the current scope. -/
def ConvAt (s : S) (t : N) (tc : Tc) : Prop := ∃ sc rest, s.scopes = sc :: rest ∧ Conv sc.allocated (cxOf sc.vars) t tc

theorem ConvAt.get {s : S} {t : N} {tc : Tc} {sc : Scope} {rest : List Scope} (h : ConvAt s t tc) (hs : s.scopes = sc :: rest) : Conv sc.allocated (cxOf sc.vars) t tc := by
  obtain ⟨sc', rest', e, h⟩ := h
  rw [hs] at e; cases e; exact h

theorem ConvAt.ext {s s' : S} {t : N} {tc : Tc} (h : ConvAt s t tc) (he : Ext s.scopes s'.scopes) : ConvAt s' t tc := by
  obtain ⟨sc, rest, hs, h⟩ := h
  rw [hs] at he
  obtain ⟨sc', rest', hs', hx⟩ := he.cons_left
  refine ⟨sc', rest', hs', ?_⟩
  rw [hx.allocated]
  exact h.mono (.of_ext hx)

/-- What it makes of an expression is that without its types, with names resolved. -/
def Erasing (F : Roles) (rec : Rec) : Prop :=
  ∀ e s s' r, rec e s = .ok (s', some r) → Ok s → ∃ t, Erases F (binders s.scopes) e t ∧ ConvAt s' t r.2

section
variable {F : Roles} {M : List Name} {n : Nat} {rec : Rec} {recT : RecT}

theorem Ran.erase (hrec : Erasing F rec) {s s' : S} {e : Expr} {r : Ptr × Tc} (h : Ran rec s s' e r) (hok : Ok s) :
    ∃ t, Erases F (binders s.scopes) e t ∧ ConvAt s' t r.2 := by
  obtain ⟨s1, s1', h1, h2, h3⟩ := h
  obtain ⟨t, h4, h5⟩ := hrec _ _ _ _ h1 (hok.step h2)
  rw [binders_ext h2.ext] at h4
  exact ⟨t, h4, h5.ext h3.ext⟩

theorem Ran.hasType {s s' : S} {e : Expr} {r : Ptr × Tc} (h : Ran (tcExpr M n) s s' e r) (hok : Ok s) : HasType M (binders s.scopes) e r.1 s'.heap := by
  obtain ⟨s1, s1', h1, h2, h3⟩ := h
  have h4 := (tc_pres M n).1 _ _ _ _ h1
  exact ⟨n, s1, s1', r.2, h1, binders_ext h2.ext, h3.heap _ ((hok.step h2).step h4).refl⟩

/-- An expression is what is left of another, and resolved. -/
def EC (F : Roles) (Γ : Binders) (nl : Nat) (cx : Cx) (e : Expr) (tc : Tc) : Prop := ∃ t, Erases F Γ e t ∧ Conv nl cx t tc

theorem EC.all {Γ : Binders} {nl : Nat} {cx : Cx} {es : List Expr} {rs : List (Ptr × Tc)} (h : All2 (fun e r => EC F Γ nl cx e r.2) es rs) :
    ∃ ts, ErasesAll F Γ es ts ∧ ConvAll nl cx ts (toTcs (rs.map (·.2))) := by
  induction h with
  | nil => exact ⟨.nil, .nil, .nil⟩
  | cons h _ ih =>
    obtain ⟨t, h1, h2⟩ := h
    obtain ⟨ts, h3, h4⟩ := ih
    exact ⟨.cons t ts, .cons h1 h3, .cons h2 h4⟩

theorem ranAll (hrec : Erasing F rec) {s s' : S} (hok : Ok s) {sc : Scope} {rest : List Scope} (hs : s'.scopes = sc :: rest) {es : List Expr} {rs : List (Ptr × Tc)} (h : All2 (Ran rec s s') es rs) :
    All2 (fun e r => EC F (binders s.scopes) sc.allocated (cxOf sc.vars) e r.2) es rs :=
  h.mono fun _ _ h => by
    obtain ⟨t, h1, h2⟩ := h.erase hrec hok
    exact ⟨t, h1, h2.get hs⟩

/-! ### Variables -/

theorem tcVar_erase {x : VarName} {e : Expr} (hx : (e = .var y ∧ x = .normal y) ∨ (e = .modulePath p ∧ x = .module p)) {s s' : S} {r : Ptr × Tc} (h : tcVar x s = .ok (s', some r)) (hok : Ok s) :
    ∃ t, Erases F (binders s.scopes) e t ∧ ConvAt s' t r.2 := by
  unfold tcVar at h
  obtain ⟨s1, o, h1, h⟩ := TM.bind_ok.mp h
  unfold lookup at h1
  cases hg : getVar x false s.scopes with
  | none =>
    rw [hg] at h1; cases h1
    rcases hx with ⟨_, rfl⟩ | ⟨_, rfl⟩
    · cases (TM.pure_ok.mp h).2
    · exact (TM.crash_ok.mp h).elim
  | some q =>
    obtain ⟨v, σ'⟩ := q
    rw [hg] at h1; cases h1
    have hb := getVar_binders hg hok.inv hok.live
    have hx' := getVar_ext hg
    cases hv : v.var with
    | none =>
      rw [hv] at hb
      simp only [hv] at h
      obtain ⟨rfl, h⟩ := TM.pure_ok.mp h
      cases h
      obtain ⟨sc', rest', hs', _⟩ : ∃ sc' rest', σ' = sc' :: rest' ∧ True := by
        obtain ⟨sc, rest, hs⟩ := hok.cons
        have := hx'.1
        rw [hs] at this
        obtain ⟨a, b, c, _⟩ := this.cons_left
        exact ⟨a, b, c, trivial⟩
      rcases hx with ⟨rfl, rfl⟩ | ⟨rfl, rfl⟩
      · exact ⟨.typeVal, .typeVar hb, sc', rest', hs', .typeVal⟩
      · exfalso
        simp only [isTypeVar, Option.isNone_none, Option.map_eq_some_iff] at hb
        obtain ⟨b, hb1, hb2⟩ := hb
        obtain ⟨z, hz⟩ := hok.names b (List.mem_of_find?_eq_some hb1) hb2
        have := List.find?_some hb1
        simp [hz] at this
    | some c =>
      rw [hv] at hb
      simp only [hv] at h
      obtain ⟨rfl, h⟩ := TM.pure_ok.mp h
      cases h
      obtain ⟨sc', rest', hs', hf⟩ := hx'.2.2.2.2 rfl c hv
      have hc : ConvAt { s with scopes := σ' } (.var x) (.var c) := ⟨sc', rest', hs', .var (FirstIs.cx.mp hf)⟩
      rcases hx with ⟨rfl, rfl⟩ | ⟨rfl, rfl⟩
      · exact ⟨_, .var hb, hc⟩
      · exact ⟨_, .modulePath hb, hc⟩

/-! ### Structs and unions -/

theorem tcStruct_erase (hP : ∀ e, Pres (rec e)) (hrec : Erasing F rec) {args : Tagged} {s s' : S} {r : Ptr × Tc} (h : tcStruct n rec args.toList s = .ok (s', some r)) (hok : Ok s) :
    ∃ t, Erases F (binders s.scopes) (.structImplicit args) t ∧ ConvAt s' t r.2 := by
  have hst := tcStruct_pres (n := n) hP args.toList _ _ _ h
  unfold tcStruct at h
  obtain ⟨s1, rs, h1, h⟩ := TM.bind_ok.mp h
  obtain ⟨s2, ok, h2, h⟩ := TM.bind_ok.mp h
  have hq := (checkNames_quiet _ _ _ _ _ h2).1
  cases hs : allSome rs.reverse with
  | none => rw [hs] at h; cases (TM.pure_ok.mp h).2
  | some xs =>
    rw [hs] at h
    simp only at h
    split at h
    · cases (TM.pure_ok.mp h).2
    · rw [TM.alloc_bind] at h
      obtain ⟨rfl, h⟩ := TM.pure_ok.mp h
      cases h
      have hran := tcEach_reverse_ran hP h1 hs
      obtain ⟨sc, rest, hsc⟩ := (hok.step (tcEach_pres hP _ _ _ _ h1)).cons
      obtain ⟨ts, h3, h4⟩ := EC.all (ranAll hrec hok hsc hran)
      exact ⟨.struct ts, .structImplicit h3, sc, rest, by rw [← hsc]; exact hq, .struct h4⟩

/-- Names that occur once each. -/
theorem nodup_of_dupNames : {xs : List Name} → dupNames xs = false → xs.Nodup
  | [], _ => .nil
  | x :: xs, h => by
    rw [dupNames_cons] at h
    exact List.nodup_cons.mpr ⟨h.1, nodup_of_dupNames h.2⟩

theorem data_nodup {H h : Heap} {p : Ptr} {k : DataKind} {fs : List (Name × Ptr)} (hh : HGood H h) (hg : Types.get h p = .ok (.data k fs)) : dupNames (fs.map (·.1)) = false :=
  hh.good p _ (get_ok.mp hg)

theorem EC.tagged {Γ : Binders} {nl : Nat} {cx : Cx} : {cs : List (Name × Expr)} → {rs : List (Ptr × Tc)} → All2 (fun e r => EC F Γ nl cx e r.2) (cs.map (·.2)) rs →
    ∃ as, ErasesTagged F Γ cs as ∧ ∀ x, (as.find x = none ∧ choice ((cs.map (·.1)).zip (rs.map (·.2))) x = none) ∨
      ∃ t tc, as.find x = some t ∧ choice ((cs.map (·.1)).zip (rs.map (·.2))) x = some tc ∧ Conv nl cx t tc
  | [], _, .nil => ⟨.nil, .nil, fun _ => .inl ⟨rfl, rfl⟩⟩
  | (y, e) :: cs, _, .cons h hs => by
    obtain ⟨as, h1, h2⟩ := EC.tagged hs
    obtain ⟨t, h3, h4⟩ := h
    refine ⟨.cons y t as, .cons h3 h1, fun x => ?_⟩
    simp only [List.map_cons, List.zip_cons_cons, NTagged.find]
    rw [choice_cons]
    split
    · exact .inr ⟨t, _, rfl, rfl, h4⟩
    · exact h2 x

theorem Cpy.conv {nl : Nat} {cx : Cx} {as : NTagged} {xs : List Name} {cs : List (Name × Tc)} {fl : Flds} (h : Cpy xs cs fl) (hnd : dupNames xs = false)
    (hc : ∀ x ∈ xs, (as.find x = none ∧ choice cs x = none) ∨ ∃ t tc, as.find x = some t ∧ choice cs x = some tc ∧ Conv nl cx t tc) : ConvCopy nl cx xs as fl := by
  induction h with
  | nil => exact .nil
  | @keep x xs cs fl hne h ih =>
    rw [dupNames_cons] at hnd
    have hn : choice cs x = none := choice_none fun hm => hnd.1 (h.names.subset hm)
    refine .keep ?_ (ih hnd.2 fun y hy => hc y (List.mem_cons_of_mem _ hy))
    rcases hc x List.mem_cons_self with h | ⟨t, tc, _, h, _⟩
    · exact h.1
    · rw [hn] at h; cases h
  | @set x xs tc cs fl h ih =>
    rw [dupNames_cons] at hnd
    have hx := hc x List.mem_cons_self
    rw [choice_cons, if_pos rfl] at hx
    rcases hx with ⟨_, h⟩ | ⟨t, tc', h1, h2, h3⟩
    · cases h
    · cases h2
      refine .set h1 h3 (ih hnd.2 fun y hy => ?_)
      have := hc y (List.mem_cons_of_mem _ hy)
      have hne : x ≠ y := fun e => hnd.1 (e ▸ hy)
      rw [choice_cons, if_neg hne] at this
      exact this

theorem tcCopy_erase (hP : ∀ e, Pres (tcExpr M n e)) (hrec : Erasing (rolesIn M) (tcExpr M n)) {src : Expr} {args : Tagged} {s s' : S} {r : Ptr × Tc}
    (h : tcCopy n (tcExpr M n) src args.toList s = .ok (s', some r)) (hok : Ok s) :
    ∃ t, Erases (rolesIn M) (binders s.scopes) (.structCopy src args) t ∧ ConvAt s' t r.2 := by
  unfold tcCopy at h
  obtain ⟨s1, o, h1, h⟩ := TM.bind_ok.mp h
  have hp1 := hP _ _ _ _ h1
  cases o with
  | none => cases (TM.pure_ok.mp h).2
  | some q =>
    obtain ⟨st, stc⟩ := q
    simp only at h
    obtain ⟨hp, nt, h2, h⟩ := TM.liftH_bind.mp h
    obtain ⟨nd, h3, h⟩ := TM.readH_bind.mp h
    have hok1 := hok.step hp1
    have hg2 : HGood s1.heap hp := normalType_good n st _ _ _ h2 _ hok1.refl
    have hok2 : Ok { s1 with heap := hp } := hok1.quiet rfl ⟨_, hg2⟩
    split at h
    · rename_i fields
      obtain ⟨s3, rs, h4, h⟩ := TM.bind_ok.mp h
      have hp4 := tcEach_pres hP _ _ _ _ h4
      obtain ⟨s4, ⟨fl, ok⟩, h5, h⟩ := TM.bind_ok.mp h
      have hq5 := copyLoop_quiet _ _ _ _ _ _ h5
      simp only at h
      split at h
      · cases (TM.pure_ok.mp h).2
      · rename_i hcond
        simp only [Bool.or_eq_true, not_or, Bool.not_eq_true', Bool.not_eq_true] at hcond
        obtain ⟨rfl, h⟩ := TM.pure_ok.mp h
        cases h
        cases hs : allSome rs.reverse with
        | none => rw [hs] at hcond; simp at hcond
        | some xs =>
          have hran := tcEach_reverse_ran hP h4 hs
          have hok3 := hok2.step hp4
          obtain ⟨sc, rest, hsc⟩ := hok3.cons
          have hrs := allSome_map hs
          rw [hrs] at h5
          have hokt : ok = true := by have := hcond.1; simpa using this
          rw [hokt] at h5
          have hcpy := copyLoop_cpy _ _ _ h5
          have hec := ranAll hrec hok2 hsc hran
          obtain ⟨as, g1, g2⟩ := EC.tagged hec
          obtain ⟨t, g3, g4⟩ := hrec _ _ _ _ h1 hok
          have hnd := data_nodup hg2 h3
          have hb : binders s1.scopes = binders s.scopes := binders_ext hp1.ext
          simp only [hb] at g1
          have hlen := hran.length_eq
          simp only [List.length_map] at hlen
          refine ⟨.copy t (fields.map (·.1)) as, .structCopy ?_ g3 g1 ?_, sc, rest, by rw [hq5.1]; exact hsc, .copy ?_ (hcpy.conv hnd fun x _ => g2 x)⟩
          · exact ⟨st, s1.heap, hp, n, nt, fields, ⟨n, s, s1, stc, h1, rfl, hok1.refl⟩, h2, h3, rfl, nodup_of_dupNames hnd⟩
          · intro a ha
            have := hcpy.names
            rw [List.map_fst_zip (by simp [hlen])] at this
            exact this.subset (List.mem_map_of_mem ha)
          · exact (g4.ext hp4.ext : ConvAt s3 _ _).get hsc
    · cases (TM.pure_ok.mp h).2

theorem findField_position {x : Name} {fs : List (Name × Ptr)} {tag : Nat} {t : Ptr} : {i : Nat} → findField x fs i = some (tag, t) → ∃ k, tag = i + k ∧ position (fs.map (·.1)) x = some k := by
  induction fs with
  | nil => intro i h; simp [findField] at h
  | cons f fs ih =>
    obtain ⟨y, u⟩ := f
    intro i h
    simp only [findField] at h
    simp only [List.map_cons, position]
    split at h
    · rename_i hn
      cases h
      exact ⟨0, rfl, by rw [if_pos (namesEqual_iff.mp hn)]⟩
    · rename_i hn
      obtain ⟨k, h1, h2⟩ := ih h
      refine ⟨k + 1, by omega, ?_⟩
      rw [if_neg (fun e => hn (namesEqual_iff.mpr e)), h2]; rfl

theorem tcUnion_erase (hP : ∀ e, Pres (tcExpr M n e)) (hT : ∀ e, Quiet (tcType M n e)) (hrec : Erasing (rolesIn M) (tcExpr M n)) {type arg : Expr} {x : Name} {s s' : S} {r : Ptr × Tc}
    (h : tcUnion n (tcExpr M n) (tcType M n) type x arg s = .ok (s', some r)) (hok : Ok s) :
    ∃ t, Erases (rolesIn M) (binders s.scopes) (.unionValue type x arg) t ∧ ConvAt s' t r.2 := by
  unfold tcUnion at h
  obtain ⟨s1, o, h1, h⟩ := TM.bind_ok.mp h
  have hq1 := hT _ _ _ _ h1
  cases o with
  | none => cases (TM.pure_ok.mp h).2
  | some ty =>
    simp only at h
    obtain ⟨hp, ⟨ut, vars⟩, h2, h⟩ := TM.liftH_bind.mp h
    obtain ⟨nd, h3, h⟩ := TM.readH_bind.mp h
    have hok1 : Ok s1 := hok.step ((hT _).pres _ _ _ h1)
    have hg2 : HGood s1.heap hp := depoly_good n ty _ _ _ h2 _ hok1.refl
    have hok2 : Ok { s1 with heap := hp } := hok1.quiet rfl ⟨_, hg2⟩
    simp only at h
    split at h
    · rename_i fields
      cases hf : findField x fields 0 with
      | none => rw [hf] at h; cases (TM.pure_ok.mp h).2
      | some w =>
        obtain ⟨tag, ft⟩ := w
        rw [hf] at h
        simp only at h
        obtain ⟨s3, o, h4, h⟩ := TM.bind_ok.mp h
        cases o with
        | none => cases (TM.pure_ok.mp h).2
        | some q =>
          obtain ⟨argT, argTc⟩ := q
          simp only at h
          obtain ⟨s4, o, h5, h⟩ := TM.bind_ok.mp h
          have hq5 := typeInferArgs_quiet _ _ _ _ _ _ _ _ h5
          cases o with
          | none => cases (TM.pure_ok.mp h).2
          | some q =>
            obtain ⟨rfl, h⟩ := TM.pure_ok.mp h
            cases h
            obtain ⟨t, g1, g2⟩ := hrec _ _ _ _ h4 hok2
            obtain ⟨sc, rest, hsc, g3⟩ := g2
            obtain ⟨k, rfl, hk⟩ := findField_position hf
            rw [Nat.zero_add]
            rw [show binders ({ s1 with heap := hp } : S).scopes = binders s.scopes by simp only [hq1.1]] at g1
            refine ⟨.union (fields.map (·.1)) x t, .unionValue ?_ g1, sc, rest, by rw [hq5.1]; exact hsc, .union hk g3⟩
            exact ⟨ty, s1.heap, hp, n, ut, vars, fields, .inl ⟨n, s, s1, h1, rfl, hok1.refl⟩, h2, h3, rfl, nodup_of_dupNames (data_nodup hg2 h3)⟩
    · cases (TM.pure_ok.mp h).2

/-! ### Select -/

theorem Sel.branch_mem {hd i fs cs bs u} (h : Sel hd i fs cs bs u) : ∀ b ∈ bs, ∃ y, (y, b.2) ∈ cs := by
  induction h with
  | nil => intro b hb; cases hb
  | hit _ ih =>
    intro b hb
    rcases List.mem_cons.mp hb with rfl | hb
    · exact ⟨_, List.mem_cons_self⟩
    · obtain ⟨y, hy⟩ := ih b hb
      exact ⟨y, List.mem_cons_of_mem _ hy⟩
  | miss _ _ _ ih => exact ih

theorem ConvBrs.of {nl : Nat} {cx : Cx} : {as : NTagged} → {bs : List (Nat × Tc)} → (∀ b ∈ bs, ∃ t, (∃ x, as.find x = some t) ∧ Conv nl cx t b.2) → ConvBrs nl cx as (toBrs bs)
  | _, [], _ => .nil
  | _, (i, tc) :: bs, h => by
    obtain ⟨t, ⟨x, hx⟩, ht⟩ := h _ List.mem_cons_self
    exact .cons hx ht (ConvBrs.of fun b hb => h b (List.mem_cons_of_mem _ hb))

theorem sortedFrom_dropLast : {bs : List (Nat × Tc)} → {lo : Nat} → (toBrs bs).sortedFrom lo → (toBrs bs.dropLast).sortedFrom lo
  | [], _, _ => trivial
  | [_], _, _ => trivial
  | (_, _) :: c :: bs, lo, h => ⟨h.1, sortedFrom_dropLast (bs := c :: bs) h.2⟩

theorem tagsBelow_dropLast : {bs : List (Nat × Tc)} → {n : Nat} → (toBrs bs).tagsBelow n → (toBrs bs.dropLast).tagsBelow n
  | [], _, _ => trivial
  | [_], _, _ => trivial
  | (_, _) :: c :: bs, lo, h => ⟨h.1, tagsBelow_dropLast (bs := c :: bs) h.2⟩

theorem choice_mem {α : Type} {cs : List (Name × α)} {x : Name} {a : α} (h : choice cs x = some a) : (x, a) ∈ cs := by
  simp only [choice, Option.map_eq_some_iff] at h
  obtain ⟨⟨y, b⟩, h1, rfl⟩ := h
  have := List.find?_some h1
  simp at this; subst this
  exact List.mem_of_find?_eq_some h1

theorem choice_of_mem {α : Type} {a : α} : {cs : List (Name × α)} → dupNames (cs.map (·.1)) = false → {x : Name} → (x, a) ∈ cs → choice cs x = some a
  | [], _, _, h => by cases h
  | (y, b) :: cs, hnd, x, h => by
    simp only [List.map_cons] at hnd
    rw [dupNames_cons] at hnd
    rw [choice_cons]
    rcases List.mem_cons.mp h with h | h
    · cases h; simp
    · have hne : y ≠ x := fun e => hnd.1 (e ▸ List.mem_map_of_mem (f := (·.1)) h)
      rw [if_neg hne]; exact choice_of_mem hnd.2 h

theorem dupNames_sublist {xs ys : List Name} (h : xs.Sublist ys) (hy : dupNames ys = false) : dupNames xs = false := by
  induction h with
  | slnil => rfl
  | cons _ _ ih => rw [dupNames_cons] at hy; exact ih hy.2
  | cons_cons _ hs ih =>
    rw [dupNames_cons] at hy ⊢
    exact ⟨fun hm => hy.1 (hs.subset hm), ih hy.2⟩

theorem toBrs_nil : {bs : List (Nat × Tc)} → toBrs bs = .nil → bs = []
  | [], _ => rfl
  | (_, _) :: _, h => by simp [toBrs] at h

theorem tagged_nil {F : Roles} {Γ : Binders} {es : List (Name × Expr)} {ts : NTagged} (h : ErasesTagged F Γ es ts) (he : es = []) : ts = .nil := by
  subst he; cases h; rfl

theorem tcSelect_erase (hP : ∀ e, Pres (tcExpr M n e)) (hrec : Erasing (rolesIn M) (tcExpr M n)) {c : Expr} {cs : Tagged} {d : Default} {s s' : S} {r : Ptr × Tc}
    (h : tcSelect n (tcExpr M n) c cs.toList d.toOption s = .ok (s', some r)) (hok : Ok s) :
    ∃ t, Erases (rolesIn M) (binders s.scopes) (.select c cs d) t ∧ ConvAt s' t r.2 := by
  unfold tcSelect at h
  obtain ⟨s1, o, h1, h⟩ := TM.bind_ok.mp h
  have hp1 := hP _ _ _ _ h1
  cases o with
  | none => cases (TM.pure_ok.mp h).2
  | some q =>
    obtain ⟨ct, ctc⟩ := q
    simp only at h
    obtain ⟨hp, nt, h2, h⟩ := TM.liftH_bind.mp h
    obtain ⟨nd, h3, h⟩ := TM.readH_bind.mp h
    have hok1 := hok.step hp1
    have hg2 : HGood s1.heap hp := normalType_good n ct _ _ _ h2 _ hok1.refl
    have hok2 : Ok { s1 with heap := hp } := hok1.quiet rfl ⟨_, hg2⟩
    have hb : binders s1.scopes = binders s.scopes := binders_ext hp1.ext
    split at h
    · rename_i fields
      have hnd := data_nodup hg2 h3
      obtain ⟨s3, dr, h4, h⟩ := TM.bind_ok.mp h
      have hp4 : Step { s1 with heap := hp } s3 := by
        cases d with
        | none => obtain ⟨rfl, _⟩ := TM.pure_ok.mp h4; exact .refl _
        | some e => exact hP _ _ _ _ h4
      have hok3 := hok2.step hp4
      obtain ⟨s4, q, h5, h⟩ := TM.bind_ok.mp h
      have hp5 := selLoop_pres (n := n) hP _ _ _ _ _ _ _ _ h5
      have hok4 := hok3.step hp5
      obtain ⟨sc, rest, hsc⟩ := hok4.cons
      split at h
      · cases (TM.pure_ok.mp h).2
      · rename_i hcond
        simp only [Bool.or_eq_true, not_or, Bool.not_eq_true] at hcond
        obtain ⟨rs, hran, hsel⟩ := selLoop_ran hP _ _ _ h5 hcond.1
        have hec := ranAll hrec hok3 hsc hran
        have hb3 : binders s3.scopes = binders s.scopes := (binders_ext hp4.ext).trans hb
        rw [hb3] at hec
        obtain ⟨as, g1, g2⟩ := EC.tagged hec
        obtain ⟨t, g3, g4⟩ := hrec _ _ _ _ h1 hok
        have hcond' : Conv sc.allocated (cxOf sc.vars) t ctc := ((g4.ext hp4.ext : ConvAt s3 _ _).ext hp5.ext).get hsc
        have hrole : rolesIn M (binders s.scopes) (.object .union) c (fields.map (·.1)) :=
          ⟨ct, s1.heap, hp, n, nt, fields, ⟨n, s, s1, ctc, h1, rfl, hok1.refl⟩, h2, h3, rfl, nodup_of_dupNames hnd⟩
        have hlen := hran.length_eq
        simp only [List.length_map] at hlen
        have hnames := hsel.names
        have hzip : ((cs.toList.map (·.1)).zip (rs.map (·.2))).map (·.1) = cs.toList.map (·.1) := List.map_fst_zip (by simp [hlen])
        have hin : ∀ b ∈ cs.toList, b.1 ∈ fields.map (·.1) := by
          intro b hb
          rw [hzip] at hnames
          exact hnames.subset (List.mem_map_of_mem hb)
        have hdc : dupNames (((cs.toList.map (·.1)).zip (rs.map (·.2))).map (·.1)) = false := dupNames_sublist hnames hnd
        have hbr : ∀ b ∈ q.branches, ∃ t, (∃ x, as.find x = some t) ∧ Conv sc.allocated (cxOf sc.vars) t b.2 := by
          intro b hbm
          obtain ⟨y, hy⟩ := hsel.branch_mem b hbm
          have hch := choice_of_mem hdc hy
          rcases g2 y with ⟨_, h⟩ | ⟨t, tc, h0, h, h'⟩
          · rw [hch] at h; cases h
          · rw [hch] at h; cases h; exact ⟨t, ⟨y, h0⟩, h'⟩
        obtain ⟨dt, hd1, hd2⟩ : ∃ dt, ErasesDefault (rolesIn M) (binders s.scopes) d dt ∧
            (∀ p tc, dr = some (p, tc) → ∃ u, dt = .some u ∧ Conv sc.allocated (cxOf sc.vars) u tc) := by
          cases d with
          | none =>
            refine ⟨.none, .none, fun p tc he => ?_⟩
            obtain ⟨_, h4⟩ := TM.pure_ok.mp h4
            rw [h4] at he; cases he
          | some e =>
            cases dr with
            | none => simp [Default.toOption] at hcond
            | some w =>
              obtain ⟨u, k1, k2⟩ := hrec _ _ _ _ h4 hok2
              rw [show binders ({ s1 with heap := hp } : S).scopes = binders s.scopes from hb] at k1
              refine ⟨.some u, .some k1, fun p tc he => ⟨u, rfl, ?_⟩⟩
              cases he
              exact (k2.ext hp5.ext).get hsc
        have hflen : fields.length = (fields.map (·.1)).length := by simp
        refine ⟨.select t (fields.map (·.1)) as dt, .select hrole g3 g1 hd1 hin, sc, rest, ?_, ?_⟩
        · cases hrt : q.rtype with
          | none => rw [hrt] at h; exact (TM.crash_ok.mp h).elim
          | some rt =>
            rw [hrt] at h
            simp only at h
            split at h
            · cases hdr : dr with
              | none => rw [hdr] at h; exact (TM.crash_ok.mp h).elim
              | some w => rw [hdr] at h; rw [(TM.pure_ok.mp h).1]; exact hsc
            · cases hl : q.branches.getLast? with
              | none => rw [hl] at h; exact (TM.crash_ok.mp h).elim
              | some w => rw [hl] at h; rw [(TM.pure_ok.mp h).1]; exact hsc
        · cases hrt : q.rtype with
          | none => rw [hrt] at h; exact (TM.crash_ok.mp h).elim
          | some rt =>
            rw [hrt] at h
            simp only at h
            cases hdu : q.defaultUsed with
            | true =>
              rw [hdu] at h
              simp only [if_true] at h
              cases hdr : dr with
              | none => rw [hdr] at h; exact (TM.crash_ok.mp h).elim
              | some w =>
                obtain ⟨dp, dtc⟩ := w
                rw [hdr] at h
                obtain ⟨_, h⟩ := TM.pure_ok.mp h
                cases h
                obtain ⟨u, rfl, hu⟩ := hd2 dp dtc hdr
                rw [hflen]
                refine .select hcond' ?_ ?_ hsel.sorted (by simpa using hsel.tagsBelow) (.of hbr) hu (.inr rfl) ?_
                · intro x hx; unfold choose; cases as.find x <;> simp [NDefault.get]
                · intro i x b hi hb
                  have hfind := (hsel.find hnd hi).1
                  rw [Nat.zero_add] at hfind
                  rw [hfind]
                  unfold choose at hb
                  rcases g2 x with ⟨k1, k2⟩ | ⟨t', tc', k1, k2, k3⟩
                  · rw [k1] at hb; rw [k2]
                    cases hb; exact hu
                  · rw [k1] at hb; rw [k2]
                    cases hb; exact k3
                · intro _ hne he
                  have h3 := hsel.branches_length.1
                  rw [toBrs_nil he] at h3
                  simp [hlen] at h3
                  exact hne (tagged_nil g1 (List.length_eq_zero_iff.mp (by omega)))
            | false =>
              rw [hdu] at h hsel
              simp only [Bool.false_eq_true, if_false] at h
              cases hl : q.branches.getLast? with
              | none => rw [hl] at h; exact (TM.crash_ok.mp h).elim
              | some w =>
                obtain ⟨li, last⟩ := w
                rw [hl] at h
                obtain ⟨_, h⟩ := TM.pure_ok.mp h
                cases h
                obtain ⟨u, hx, hu⟩ := hbr _ (List.mem_of_getLast? hl)
                rw [hflen]
                refine .select hcond' ?_ ?_ (sortedFrom_dropLast hsel.sorted) (tagsBelow_dropLast (by simpa using hsel.tagsBelow)) (.of fun b hb => hbr b ((List.dropLast_sublist _).subset hb)) hu (.inl hx) ?_
                · intro x hx
                  obtain ⟨k, hk⟩ := List.mem_iff_getElem?.mp hx
                  have hfind := hsel.last hnd hl hk
                  unfold choose
                  rcases g2 x with ⟨k1, k2⟩ | ⟨t', tc', k1, k2, k3⟩
                  · rw [hfind] at k2; cases k2
                  · rw [k1]; simp
                · intro i x b hi hb
                  have hfind := hsel.last hnd hl hi
                  rw [Nat.zero_add] at hfind
                  unfold choose at hb
                  rcases g2 x with ⟨k1, k2⟩ | ⟨t', tc', k1, k2, k3⟩
                  · rw [hfind] at k2; cases k2
                  · rw [k1] at hb; cases hb
                    rw [hfind] at k2; cases k2
                    exact k3
                · intro h2 _ he
                  have := hsel.branches_length.2 rfl
                  have h3 := congrArg List.length (toBrs_nil he)
                  simp at h3 h2 this
                  omega
    · cases (TM.pure_ok.mp h).2

end
end Verif.Elab
