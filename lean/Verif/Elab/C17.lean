import Verif.Elab.EraseAll
import Verif.Elab.C16
/-
Select, struct copy, literals and abstract types: C17 to C20.
-/
namespace Verif.Elab
open Types
open Compile (Var Tc Tcs Flds Brs)

/-- The type checker made `tc` of the expression, with the same variables in scope as in `s`. -/
def Checked (M : List Name) (n : Nat) (s : S) (e : Expr) (tc : Tc) : Prop :=
  ∃ s1 s2 t, tcExpr M n e s1 = .ok (s2, some (t, tc)) ∧ binders s1.scopes = binders s.scopes

/-- The type checker made `tc` of the expression, of a struct or union type with these fields. -/
def CheckedData (M : List Name) (n : Nat) (s : S) (k : DataKind) (e : Expr) (tc : Tc) (fields : List (Name × Ptr)) : Prop :=
  ∃ s1 t h p, tcExpr M n e s = .ok (s1, some (t, tc)) ∧ normalType n s1.heap t = .ok (h, p) ∧ get h p = .ok (.data k fields)

theorem Ran.checked {M : List Name} {n : Nat} {s s' s0 : S} {e : Expr} {r : Ptr × Tc} (h : Ran (tcExpr M n) s s' e r) (hb : binders s.scopes = binders s0.scopes) : Checked M n s0 e r.2 := by
  obtain ⟨s1, s1', h1, h2, _⟩ := h
  exact ⟨s1, s1', r.1, h1, (binders_ext h2.ext).trans hb⟩

theorem choice_zip {R : Expr → Ptr × Tc → Prop} {x : Name} : {cs : List (Name × Expr)} → {rs : List (Ptr × Tc)} → All2 R (cs.map (·.2)) rs →
    (∀ tc, choice ((cs.map (·.1)).zip (rs.map (·.2))) x = some tc → ∃ e r, (x, e) ∈ cs ∧ R e r ∧ r.2 = tc) ∧
    (choice ((cs.map (·.1)).zip (rs.map (·.2))) x = none → ∀ e, (x, e) ∉ cs)
  | [], _, _ => ⟨fun _ h => by simp [choice] at h, fun _ _ h => by cases h⟩
  | (y, e) :: cs, r :: rs, .cons h1 h2 => by
    obtain ⟨g1, g2⟩ := choice_zip (x := x) h2
    simp only [List.map_cons, List.zip_cons_cons, choice_cons]
    split
    · rename_i he
      subst he
      exact ⟨fun tc h => ⟨e, r, List.mem_cons_self, h1, Option.some.inj h⟩, fun h => by cases h⟩
    · rename_i hne
      refine ⟨fun tc h => ?_, fun h e' hm => ?_⟩
      · obtain ⟨e', r', k1, k2, k3⟩ := g1 tc h
        exact ⟨e', r', List.mem_cons_of_mem _ k1, k2, k3⟩
      · rcases List.mem_cons.mp hm with he | hm
        · cases he; exact hne rfl
        · exact g2 h e' hm

/-- C17. If a select type checks then each field of the union type is sent to the choice of its
name, or else to the default; without a default each field has a choice.  Every choice is for a
field. -/
theorem C17_select {M : List Name} {n : Nat} {c : Expr} {cs : Tagged} {d : Default} {s s' : S} {t : Ptr} {tc : Tc}
    (h : tcExpr M (n + 1) (.select c cs d) s = .ok (s', some (t, tc))) (hh : ∃ H, HGood H s.heap) :
    ∃ ctc table dt fields, tc = .select ctc fields.length table dt ∧ CheckedData M n s .union c ctc fields ∧ (fields.map (·.1)).Nodup ∧
      ((cs.toList.map (·.1)).Sublist (fields.map (·.1))) ∧
      ∀ (k : Nat) x ft, fields[k]? = some (x, ft) →
        (∃ e, (x, e) ∈ cs.toList ∧ Checked M n s e ((table.find k).getD dt)) ∨
        ((∀ e, (x, e) ∉ cs.toList) ∧ ∃ e, d = .some e ∧ table.find k = none ∧ Checked M n s e dt) := by
  simp only [tcExpr] at h
  obtain ⟨hP, _⟩ := tc_pres M n
  unfold tcSelect at h
  obtain ⟨s1, o, h1, h⟩ := TM.bind_ok.mp h
  have hp1 := hP _ _ _ _ h1
  cases o with
  | none => cases (TM.pure_ok.mp h).2
  | some q =>
    obtain ⟨ct, ctc⟩ := q
    simp only at h
    obtain ⟨hp, nt, h2, h⟩ := TM.liftH_bind.mp h
    obtain ⟨nd, h3, h⟩ := TM.readH_bind.mp h
    obtain ⟨H, hH⟩ := hh
    have hg2 : HGood H hp := normalType_good n ct _ _ _ h2 _ (hp1.heap _ hH)
    have hb : binders s1.scopes = binders s.scopes := binders_ext hp1.ext
    split at h
    · rename_i fields
      have hnd := data_nodup hg2 h3
      obtain ⟨s3, dr, h4, h⟩ := TM.bind_ok.mp h
      have hp4 : Step { s1 with heap := hp } s3 := by
        cases d with
        | none => obtain ⟨rfl, _⟩ := TM.pure_ok.mp h4; exact .refl _
        | some e => exact hP _ _ _ _ h4
      obtain ⟨s4, q, h5, h⟩ := TM.bind_ok.mp h
      split at h
      · cases (TM.pure_ok.mp h).2
      · rename_i hcond
        simp only [Bool.or_eq_true, not_or, Bool.not_eq_true] at hcond
        obtain ⟨rs, hran, hsel⟩ := selLoop_ran hP _ _ _ h5 hcond.1
        have hb3 : binders s3.scopes = binders s.scopes := (binders_ext hp4.ext).trans hb
        have hlen := hran.length_eq
        simp only [List.length_map] at hlen
        have hnames := hsel.names
        rw [List.map_fst_zip (by simp [hlen])] at hnames
        have hhit : ∀ x tc, choice ((cs.toList.map (·.1)).zip (rs.map (·.2))) x = some tc → ∃ e, (x, e) ∈ cs.toList ∧ Checked M n s e tc := by
          intro x tc hx
          obtain ⟨e, r, k1, k2, rfl⟩ := (choice_zip (x := x) hran).1 tc hx
          exact ⟨e, k1, k2.checked hb3⟩
        cases hrt : q.rtype with
        | none => rw [hrt] at h; exact (TM.crash_ok.mp h).elim
        | some rt =>
          rw [hrt] at h
          simp only at h
          cases hdu : q.defaultUsed with
          | true =>
            rw [hdu] at h
            simp only [if_true] at h
            cases hdr : dr with
            | none => rw [hdr] at h; exact (TM.crash_ok.mp h).elim
            | some w =>
              obtain ⟨dp, dtc⟩ := w
              rw [hdr] at h
              obtain ⟨_, h⟩ := TM.pure_ok.mp h
              cases h
              refine ⟨ctc, _, dtc, fields, rfl, ⟨s1, ct, hp, nt, h1, h2, h3⟩, nodup_of_dupNames hnd, hnames, ?_⟩
              intro k x ft hk
              have hk' : (fields.map (·.1))[k]? = some x := by simp [hk]
              have hfind := (hsel.find hnd hk').1
              rw [Nat.zero_add] at hfind
              cases hc : choice ((cs.toList.map (·.1)).zip (rs.map (·.2))) x with
              | some tc =>
                rw [hc] at hfind
                obtain ⟨e, k1, k2⟩ := hhit x tc hc
                exact .inl ⟨e, k1, by rw [hfind]; exact k2⟩
              | none =>
                rw [hc] at hfind
                refine .inr ⟨(choice_zip hran).2 hc, ?_⟩
                cases d with
                | none =>
                  obtain ⟨_, h4⟩ := TM.pure_ok.mp h4
                  rw [hdr] at h4; cases h4
                | some e =>
                  rw [hdr] at h4
                  exact ⟨e, rfl, hfind, _, _, _, h4, hb⟩
          | false =>
            rw [hdu] at h hsel
            simp only [Bool.false_eq_true, if_false] at h
            cases hl : q.branches.getLast? with
            | none => rw [hl] at h; exact (TM.crash_ok.mp h).elim
            | some w =>
              obtain ⟨li, last⟩ := w
              rw [hl] at h
              obtain ⟨_, h⟩ := TM.pure_ok.mp h
              cases h
              refine ⟨ctc, _, last, fields, rfl, ⟨s1, ct, hp, nt, h1, h2, h3⟩, nodup_of_dupNames hnd, hnames, ?_⟩
              intro k x ft hk
              have hk' : (fields.map (·.1))[k]? = some x := by simp [hk]
              have hfind := hsel.last hnd hl hk'
              rw [Nat.zero_add] at hfind
              exact .inl (hhit x _ hfind)
    · cases (TM.pure_ok.mp h).2

/-- C18. If a struct copy type checks then each field comes from the argument of its name, or else
from the source; every argument is for a field; the copy has the fields of the source. -/
theorem C18_copy {M : List Name} {n : Nat} {src : Expr} {args : Tagged} {s s' : S} {t : Ptr} {tc : Tc}
    (h : tcExpr M (n + 1) (.structCopy src args) s = .ok (s', some (t, tc))) (hh : ∃ H, HGood H s.heap) :
    ∃ stc fl fields, tc = .copy stc fl ∧ CheckedData M n s .struct src stc fields ∧ (fields.map (·.1)).Nodup ∧
      ((args.toList.map (·.1)).Sublist (fields.map (·.1))) ∧
      (∀ (k : Nat), fldAt fl k = none ↔ fields.length ≤ k) ∧
      ∀ (k : Nat) x ft, fields[k]? = some (x, ft) →
        (∃ e atc, (x, e) ∈ args.toList ∧ fldAt fl k = some (some atc) ∧ Checked M n s e atc) ∨
        ((∀ e, (x, e) ∉ args.toList) ∧ fldAt fl k = some none) := by
  simp only [tcExpr] at h
  obtain ⟨hP, _⟩ := tc_pres M n
  unfold tcCopy at h
  obtain ⟨s1, o, h1, h⟩ := TM.bind_ok.mp h
  have hp1 := hP _ _ _ _ h1
  cases o with
  | none => cases (TM.pure_ok.mp h).2
  | some q =>
    obtain ⟨st, stc⟩ := q
    simp only at h
    obtain ⟨hp, nt, h2, h⟩ := TM.liftH_bind.mp h
    obtain ⟨nd, h3, h⟩ := TM.readH_bind.mp h
    obtain ⟨H, hH⟩ := hh
    have hg2 : HGood H hp := normalType_good n st _ _ _ h2 _ (hp1.heap _ hH)
    split at h
    · rename_i fields
      have hnd := data_nodup hg2 h3
      obtain ⟨s3, rs, h4, h⟩ := TM.bind_ok.mp h
      obtain ⟨s4, ⟨fl, ok⟩, h5, h⟩ := TM.bind_ok.mp h
      simp only at h
      split at h
      · cases (TM.pure_ok.mp h).2
      · rename_i hcond
        simp only [Bool.or_eq_true, not_or, Bool.not_eq_true', Bool.not_eq_true] at hcond
        obtain ⟨rfl, h⟩ := TM.pure_ok.mp h
        cases h
        cases hs : allSome rs.reverse with
        | none => rw [hs] at hcond; simp at hcond
        | some xs =>
          have hran := tcEach_reverse_ran hP h4 hs
          have hrs := allSome_map hs
          rw [hrs] at h5
          have hokt : ok = true := by have := hcond.1; simpa using this
          rw [hokt] at h5
          have hcpy := copyLoop_cpy _ _ _ h5
          have hb : binders ({ s1 with heap := hp } : S).scopes = binders s.scopes := binders_ext hp1.ext
          have hlen := hran.length_eq
          simp only [List.length_map] at hlen
          have hnames := hcpy.names
          rw [List.map_fst_zip (by simp [hlen])] at hnames
          refine ⟨stc, fl, fields, rfl, ⟨s1, st, hp, t, h1, h2, h3⟩, nodup_of_dupNames hnd, hnames, fun k => by simpa using hcpy.length k, ?_⟩
          intro k x ft hk
          have hfind := hcpy.find hnd (show (fields.map (·.1))[k]? = some x by simp [hk])
          cases hc : choice ((args.toList.map (·.1)).zip (xs.map (·.2))) x with
          | some tc =>
            rw [hc] at hfind
            obtain ⟨e, r, k1, k2, rfl⟩ := (choice_zip (x := x) hran).1 tc hc
            exact .inl ⟨e, r.2, k1, hfind, k2.checked hb⟩
          | none =>
            rw [hc] at hfind
            exact .inr ⟨(choice_zip hran).2 hc, hfind⟩
    · cases (TM.pure_ok.mp h).2

/-- The expression is a function of a list of a union type with these fields; `h` is the heap of
types then. -/
def Speller (M : List Name) (n : Nat) (s : S) (f : Expr) (ftc : Tc) (fields : List (Name × Ptr)) (h : Heap) : Prop :=
  ∃ s1 t h1 p arg rt elem q, tcExpr M n f s = .ok (s1, some (t, ftc)) ∧ normalType n s1.heap t = .ok (h1, p) ∧ get h1 p = .ok (.func arg rt) ∧
    listElementType n h1 arg = .ok (some elem) ∧ normalType n h1 elem = .ok (h, q) ∧ get h q = .ok (.data .union fields)

/-- Is the type at that address the unit type? -/
def isUnit (n : Nat) (h : Heap) (t : Ptr) : R Bool := let u := new h (.data .struct []); fbleTypesEqual n u.1 u.2 t

/-- C19. If a literal type checks then its letters are fields of unit type whose names make up
the word, each the longest that fits; there is only one such spelling. -/
theorem C19_literal {M : List Name} {n : Nat} {f : Expr} {w : List Char} {s s' : S} {t : Ptr} {tc : Tc}
    (h : tcExpr M (n + 1) (.literal f w) s = .ok (s', some (t, tc))) :
    ∃ ftc ls fields hp, tc = .apply ftc (.literal ls) ∧ Speller M n s f ftc fields hp ∧ Spells (fields.map (·.1)) w ls ∧
      w = (ls.map fun i => ((fields.map (·.1))[i]?.map (·.str)).getD []).flatten ∧
      (∀ ls', Spells (fields.map (·.1)) w ls' → ls' = ls) ∧ ∀ l ∈ ls, ∃ x ft, fields[l]? = some (x, ft) ∧ isUnit n hp ft = .ok true := by
  simp only [tcExpr] at h
  unfold tcLiteral at h
  obtain ⟨s1, q, h1, h⟩ := TM.bind_ok.mp h
  cases q with
  | none => cases (TM.pure_ok.mp h).2
  | some q =>
    obtain ⟨ft, ftc⟩ := q
    simp only at h
    obtain ⟨hp, nt, h2, h⟩ := TM.liftH_bind.mp h
    obtain ⟨nd, h3, h⟩ := TM.readH_bind.mp h
    split at h
    · rename_i argT rt
      obtain ⟨o, h4, h⟩ := TM.readH_bind.mp h
      cases o with
      | none => cases (TM.pure_ok.mp h).2
      | some elem =>
        simp only at h
        obtain ⟨hp', et, h5, h⟩ := TM.liftH_bind.mp h
        obtain ⟨nd, h6, h⟩ := TM.readH_bind.mp h
        split at h
        · rename_i fields
          rw [TM.alloc_bind] at h
          obtain ⟨s3, o, h7, h⟩ := TM.bind_ok.mp h
          cases o with
          | none => cases (TM.pure_ok.mp h).2
          | some ls =>
            obtain ⟨rfl, h⟩ := TM.pure_ok.mp h
            cases h
            obtain ⟨_, hsp, hu⟩ := letters_spell _ h7
            refine ⟨ftc, ls, fields, hp', rfl, ⟨s1, ft, hp, nt, argT, t, elem, et, h1, h2, h3, h4, h5, h6⟩, hsp, ?_, fun ls' h' => SpellsTo.unique h' hsp, hu⟩
            have := hsp.word
            simpa using this
        · cases (TM.pure_ok.mp h).2
    · cases (TM.pure_ok.mp h).2

/-- C19, the converse: if a literal does not type check although its function is one of a list of a
union type, then it is spelled up to a place where no name of a field fits, or only one of a field
that is not of unit type. -/
theorem C19_rejected {M : List Name} {n : Nat} {f : Expr} {w : List Char} {s s' : S} {ftc : Tc} {fields : List (Name × Ptr)} {hp : Heap}
    (h : tcExpr M (n + 1) (.literal f w) s = .ok (s', none)) (hf : Speller M n s f ftc fields hp) :
    ∃ ls rest, SpellsTo (fields.map (·.1)) w ls rest ∧ rest ≠ [] ∧
      ((∀ y ∈ fields.map (·.1), y.str <+: rest → y.str = []) ∨
        ∃ i x ft, Longest (fields.map (·.1)) rest i x ∧ fields[i]? = some (x, ft) ∧ isUnit n hp ft = .ok false) := by
  simp only [tcExpr] at h
  obtain ⟨s1, t, h1, p, arg, rt, elem, q, g1, g2, g3, g4, g5, g6⟩ := hf
  unfold tcLiteral at h
  obtain ⟨s1', o, k1, h⟩ := TM.bind_ok.mp h
  rw [g1] at k1
  cases k1
  simp only at h
  obtain ⟨hp1, nt, k2, h⟩ := TM.liftH_bind.mp h
  rw [g2] at k2
  cases k2
  obtain ⟨nd, k3, h⟩ := TM.readH_bind.mp h
  rw [g3] at k3
  cases k3
  simp only at h
  obtain ⟨o, k4, h⟩ := TM.readH_bind.mp h
  rw [g4] at k4
  cases k4
  simp only at h
  obtain ⟨hp', et, k5, h⟩ := TM.liftH_bind.mp h
  rw [g5] at k5
  cases k5
  obtain ⟨nd, k6, h⟩ := TM.readH_bind.mp h
  rw [g6] at k6
  cases k6
  simp only at h
  rw [TM.alloc_bind] at h
  obtain ⟨s3, o, k7, h⟩ := TM.bind_ok.mp h
  cases o with
  | some ls => cases (TM.pure_ok.mp h).2
  | none => exact letters_none _ (Nat.le_refl _) k7

/-! ### Abstract types -/

theorem belongsToPackage_iff : {M path : List Name} → (belongsToPackage M path = true ↔ path <+: M)
  | _, [] => by simp [belongsToPackage]
  | [], _ :: _ => by simp [belongsToPackage]
  | x :: xs, y :: ys => by
    simp only [belongsToPackage, Bool.and_eq_true, namesEqual_iff, belongsToPackage_iff (M := xs) (path := ys), List.cons_prefix_cons]
    exact ⟨fun h => ⟨h.1.symm, h.2⟩, fun h => ⟨h.1.symm, h.2⟩⟩

/-- C20. A cast type checks only if the path of the module begins with the path of the package. -/
theorem C20_cast {M : List Name} {n : Nat} {package target value : Expr} {s s' : S} {r : Ptr × Tc}
    (h : tcExpr M (n + 1) (.abstractCast package target value) s = .ok (s', some r)) :
    ∃ s1 pt h1 p path opaq, tcType M n package s = .ok (s1, some pt) ∧ normalType n s1.heap pt = .ok (h1, p) ∧ get h1 p = .ok (.package path opaq) ∧ path <+: M := by
  simp only [tcExpr] at h
  unfold tcCast at h
  obtain ⟨s1, q, h1, h⟩ := TM.bind_ok.mp h
  cases q with
  | none => cases (TM.pure_ok.mp h).2
  | some pt =>
    simp only at h
    obtain ⟨hp, nt, h2, h⟩ := TM.liftH_bind.mp h
    obtain ⟨nd, h3, h⟩ := TM.readH_bind.mp h
    split at h
    · rename_i path opaq
      obtain ⟨s3, q, h4, h⟩ := TM.bind_ok.mp h
      cases q with
      | none => cases (TM.pure_ok.mp h).2
      | some tt =>
        simp only at h
        obtain ⟨s4, q, h5, h⟩ := TM.bind_ok.mp h
        cases q with
        | none => cases (TM.pure_ok.mp h).2
        | some v =>
          simp only at h
          split at h
          · cases (TM.pure_ok.mp h).2
          · rename_i hb
            exact ⟨s1, pt, hp, nt, path, opaq, h1, h2, h3, belongsToPackage_iff.mp (by simpa using hb)⟩
    · cases (TM.pure_ok.mp h).2

/-- C20. The value of an abstract value is accessible only if the path of the module begins with the
path of the package. -/
theorem C20_access {M : List Name} {n : Nat} {value : Expr} {s s' : S} {r : Ptr × Tc}
    (h : tcExpr M (n + 1) (.abstractAccess value) s = .ok (s', some r)) :
    ∃ s1 vt vtc h1 p package inner path opaq, tcExpr M n value s = .ok (s1, some (vt, vtc)) ∧ normalType n s1.heap vt = .ok (h1, p) ∧
      get h1 p = .ok (.abstract package inner) ∧ get h1 package = .ok (.package path opaq) ∧ path <+: M ∧ r = (inner, vtc) := by
  simp only [tcExpr] at h
  unfold tcAbstractAccess at h
  obtain ⟨s1, q, h1, h⟩ := TM.bind_ok.mp h
  cases q with
  | none => cases (TM.pure_ok.mp h).2
  | some q =>
    obtain ⟨vt, vtc⟩ := q
    simp only at h
    obtain ⟨hp, nt, h2, h⟩ := TM.liftH_bind.mp h
    obtain ⟨nd, h3, h⟩ := TM.readH_bind.mp h
    split at h
    · rename_i package inner
      obtain ⟨nd, h4, h⟩ := TM.readH_bind.mp h
      split at h
      · rename_i path opaq
        split at h
        · cases (TM.pure_ok.mp h).2
        · rename_i hb
          obtain ⟨_, h⟩ := TM.pure_ok.mp h
          cases h
          exact ⟨s1, vt, vtc, hp, nt, package, inner, path, opaq, h1, h2, h3, h4, belongsToPackage_iff.mp (by simpa using hb), rfl⟩
      · exact (TM.crash_ok.mp h).elim
    · cases (TM.pure_ok.mp h).2

/-- The expression is the type of this package, after it and the arguments are type checked. -/
def PackageType (M : List Name) (n : Nat) (s : S) (e : Expr) (args : List Expr) (path : List Name) : Prop :=
  ∃ s1 m s2 rs h1 p vt h2 q opaq, tcExpr M n e s = .ok (s1, some m) ∧ tcEach (tcExpr M n) args s1 = .ok (s2, rs) ∧
    normalType n s2.heap m.1 = .ok (h1, p) ∧ get h1 p = .ok (.type vt) ∧ normalType n h1 vt = .ok (h2, q) ∧ get h2 q = .ok (.package path opaq)

/-- C20. A package type is applied to a value, which makes an abstract value, only if the path of
the module begins with the path of the package. -/
theorem C20_value {M : List Name} {n : Nat} {misc : Expr} {args : Exprs} {s s' : S} {r : Ptr × Tc} {path : List Name}
    (h : tcExpr M (n + 1) (.apply misc args false) s = .ok (s', some r)) (hk : PackageType M n s misc args.toList path) :
    path <+: M ∧ args.toList.length = 1 := by
  obtain ⟨s1, m, s2, rs, h1, p, vt, h2, q, opaq, g1, g2, g3, g4, g5, g6⟩ := hk
  simp only [tcExpr] at h
  unfold tcApply at h
  obtain ⟨s1', o, k1, h⟩ := TM.bind_ok.mp h
  rw [g1] at k1
  cases k1
  obtain ⟨s2', rs', k2, h⟩ := TM.bind_ok.mp h
  rw [g2] at k2
  cases k2
  cases hs : allSome rs with
  | none => rw [hs] at h; cases (TM.pure_ok.mp h).2
  | some xs =>
    rw [hs] at h
    simp only at h
    obtain ⟨hp, nm, k3, h⟩ := TM.liftH_bind.mp h
    rw [g3] at k3
    cases k3
    obtain ⟨nd, k4, h⟩ := TM.readH_bind.mp h
    rw [g4] at k4
    cases k4
    simp only [Bool.false_eq_true, if_false] at h
    unfold applyType at h
    obtain ⟨hp, nm, k5, h⟩ := TM.liftH_bind.mp h
    rw [g5] at k5
    cases k5
    obtain ⟨nd, k6, h⟩ := TM.readH_bind.mp h
    rw [g6] at k6
    cases k6
    simp only at h
    have hl := tcEach_length _ g2
    split at h
    · split at h
      · cases (TM.pure_ok.mp h).2
      · rename_i hb
        refine ⟨belongsToPackage_iff.mp (by simpa using hb), ?_⟩
        have := allSome_map hs
        rw [this] at hl
        simpa using hl.symm
    · cases (TM.pure_ok.mp h).2

/-! ### Examples -/

namespace Example

/-- A module without links: nothing in scope and no types yet. -/
def s0 : S := ⟨[], [initScope none []]⟩

theorem s0_good : ∃ H, HGood H s0.heap := ⟨[], .refl fun _ _ h => by cases h⟩

def out (M : List Name) (e : Expr) (s : S) : R (Option Tc) := (tcExpr M 20 e s).bind fun x => .ok (x.2.map (·.2))

theorem out_some {M : List Name} {e : Expr} {s : S} {tc : Tc} (h : out M e s = .ok (some tc)) : ∃ s' t, tcExpr M 20 e s = .ok (s', some (t, tc)) := by
  unfold out at h
  obtain ⟨⟨s', q⟩, h1, h2⟩ := R.bind_eq_ok.mp h
  cases q with
  | none => cases h2
  | some q => obtain ⟨t, tc'⟩ := q; cases h2; exact ⟨s', t, h1⟩

theorem out_none {M : List Name} {e : Expr} {s : S} (h : out M e s = .ok none) : ∃ s', tcExpr M 20 e s = .ok (s', none) := by
  unfold out at h
  obtain ⟨⟨s', q⟩, h1, h2⟩ := R.bind_eq_ok.mp h
  cases q with
  | none => exact ⟨s', h1⟩
  | some q => cases h2

def unitT : Expr := .dataType .struct .nil
def unitV : Expr := .apply unitT .nil false
/-- `+(*() a, *() b, *() c)` -/
def abc : Expr := .dataType .union (.cons (vn "a") unitT (.cons (vn "b") unitT (.cons (vn "c") unitT .nil)))
def letter (x : String) : Expr := .unionValue abc (vn x) unitV

/-- `b.?(b: a, : c)`: tag 1 goes to the choice, the others to the default. -/
example : ∃ s' t, tcExpr [] 20 (.select (letter "b") (.cons (vn "b") (letter "a") .nil) (.some (letter "c"))) s0 =
    .ok (s', some (t, .select (.union 1 (.struct .nil)) 3 (.cons 1 (.union 0 (.struct .nil)) .nil) (.union 2 (.struct .nil)))) :=
  out_some (by decide +kernel)

/-- `*(*() x, abc y)(unit, a).(y: b)`: field 0 is kept and field 1 is set. -/
example : ∃ s' t, tcExpr [] 20 (.structCopy (.apply (.dataType .struct (.cons (vn "x") unitT (.cons (vn "y") abc .nil))) (.cons unitV (.cons (letter "a") .nil)) false)
    (.cons (vn "y") (letter "b") .nil)) s0 =
    .ok (s', some (t, .copy (.struct (.cons (.struct .nil) (.cons (.union 0 (.struct .nil)) .nil))) (.keep (.set (.union 1 (.struct .nil)) .nil)))) :=
  out_some (by decide +kernel)

/-- In scope are a function `f` of lists of `+(*() a, *() ab, List@ b)` and the type of package `P`. -/
def s1 : S := ⟨[.data .struct [], .data .union [(vn "a", 0), (vn "ab", 0), (vn "b", 2)], .data .union [(vn "cons", 3), (vn "nil", 0)],
    .data .struct [(vn "head", 1), (vn "tail", 2)], .func 2 2, .package [vn "P"] true, .type 5],
  [initScope none [(.normal (vn "f"), 4), (.normal (tn "P"), 6)]]⟩

/-- `f|aaba` is spelled `a`, `ab`, `a`. -/
example : ∃ s' t, tcExpr [] 20 (.literal (.var (vn "f")) "aaba".toList) s1 = .ok (s', some (t, .apply (.var (.arg 0)) (.literal [0, 1, 0]))) :=
  out_some (by decide +kernel)

/-- `f|abb` is rejected, since `b` is not of unit type. -/
example : ∃ s', tcExpr [] 20 (.literal (.var (vn "f")) "abb".toList) s1 = .ok (s', none) := out_none (by decide +kernel)

theorem speller : Speller [] 19 s1 (.var (vn "f")) (.var (.arg 0)) [(vn "a", 0), (vn "ab", 0), (vn "b", 2)] s1.heap := by
  exact ⟨_, 4, s1.heap, 4, 2, 2, 1, 1, rfl, rfl, rfl, by decide +kernel, rfl, rfl⟩

def packageValue : Expr := .apply (.var (tn "P")) (.cons unitV .nil) false

/-- In module `/P/Q%` abstract values of package `P` can be made, opened and cast; in module `/Q%` not. -/
example : (∃ s' t, tcExpr [vn "P", vn "Q"] 20 packageValue s1 = .ok (s', some (t, .struct .nil))) ∧
    (∃ s' t, tcExpr [vn "P", vn "Q"] 20 (.abstractAccess packageValue) s1 = .ok (s', some (t, .struct .nil))) ∧
    (∃ s' t, tcExpr [vn "P", vn "Q"] 20 (.abstractCast (.var (tn "P")) unitT packageValue) s1 = .ok (s', some (t, .struct .nil))) ∧
    (∃ s', tcExpr [vn "Q"] 20 packageValue s1 = .ok (s', none)) ∧
    ∃ s', tcExpr [vn "Q"] 20 (.abstractCast (.var (tn "P")) unitT unitV) s1 = .ok (s', none) :=
  ⟨out_some (by decide +kernel), out_some (by decide +kernel), out_some (by decide +kernel), out_none (by decide +kernel), out_none (by decide +kernel)⟩

example : PackageType [vn "P"] 19 s1 (.var (tn "P")) [unitV] [vn "P"] :=
  ⟨_, _, _, _, _, _, _, _, _, _, rfl, rfl, rfl, rfl, rfl, rfl⟩

end Example

end Verif.Elab
