import Verif.Elab.C16
/-
The rules of the language about names, and that what type checks obeys them.
-/
namespace Verif.Elab
open Types (Name Kind DataKind Ptr Heap R kindLevel)
open Compile (Tc)

/-! ### The rules -/

/-- The names of the fields, in order. -/
def Tagged.names (t : Tagged) : List Name := t.toList.map (·.1)

/-- The names of the variables of a let, in order. -/
def Binds.names (b : Binds) : List Name := b.toList.map (·.name)

mutual
/-- The names are used as the language says, in an expression within which exactly the variables `Γ`
are bound outside. -/
def WF (Γ : List VarName) : Expr → Prop
  | .typeOf e => WF Γ e
  | .var x => .normal x ∈ Γ
  | .letE bs body => bs.names.Nodup ∧ WFBinds Γ (bs.names.map .normal ++ Γ) bs ∧ WF (bs.names.map .normal ++ Γ) body
  | .dataType _ fields => fields.names.Nodup ∧ WFTagged Γ fields
  | .dataAccess object _ => WF Γ object
  | .structImplicit args => args.names.Nodup ∧ WFTagged Γ args
  | .structCopy src args => WF Γ src ∧ args.names.Nodup ∧ WFTagged Γ args
  | .unionValue type _ arg => WF Γ type ∧ WF Γ arg
  | .select condition choices default => WF Γ condition ∧ choices.names.Nodup ∧ WFTagged Γ choices ∧ WFDefault Γ default
  | .funcType arg rtype => WF Γ arg ∧ WF Γ rtype
  | .func x type body => WF Γ type ∧ WF (.normal x :: Γ) body
  | .polyValue x kind body => x.isType = true ∧ kindLevel kind = 1 ∧ WF (.normal x :: Γ) body
  | .polyApply poly arg => WF Γ poly ∧ WF Γ arg
  | .list func args => WF Γ func ∧ WFExprs Γ args
  | .literal func _ => WF Γ func
  | .modulePath path => .module path ∈ Γ
  | .packageType _ => True
  | .abstractCast package target value => WF Γ package ∧ WF Γ target ∧ WF Γ value
  | .abstractAccess value => WF Γ value
  | .apply misc args _ => WF Γ misc ∧ WFExprs Γ args
def WFExprs (Γ : List VarName) : Exprs → Prop
  | .nil => True
  | .cons e es => WF Γ e ∧ WFExprs Γ es
def WFTagged (Γ : List VarName) : Tagged → Prop
  | .nil => True
  | .cons _ e rest => WF Γ e ∧ WFTagged Γ rest
/-- The types do not see the variables of the let, the definitions do. -/
def WFBinds (Γ Δ : List VarName) : Binds → Prop
  | .nil => True
  | .kind _ _ e rest => WF Δ e ∧ WFBinds Γ Δ rest
  | .type t _ e rest => WF Γ t ∧ WF Δ e ∧ WFBinds Γ Δ rest
def WFDefault (Γ : List VarName) : Default → Prop
  | .none => True
  | .some e => WF Γ e
end

/-! ### Lists -/

theorem WFExprs_of {Γ : List VarName} : (es : Exprs) → (∀ e ∈ es.toList, WF Γ e) → WFExprs Γ es
  | .nil, _ => trivial
  | .cons e es, h => ⟨h e (by simp [Exprs.toList]), WFExprs_of es fun e' he => h e' (by simp [Exprs.toList, he])⟩

theorem WFTagged_of {Γ : List VarName} : (es : Tagged) → (∀ e ∈ es.toList.map (·.2), WF Γ e) → WFTagged Γ es
  | .nil, _ => trivial
  | .cons x e es, h => ⟨h e (by simp [Tagged.toList]), WFTagged_of es fun e' he => h e' (by simp only [Tagged.toList, List.map_cons]; exact List.mem_cons_of_mem _ he)⟩

theorem WFBinds_of {Γ Δ : List VarName} : (bs : Binds) → (∀ b ∈ bs.toList, WF Δ b.expr ∧ ∀ t, b.ann = .inr t → WF Γ t) → WFBinds Γ Δ bs
  | .nil, _ => trivial
  | .kind k x e rest, h => ⟨(h ⟨.inl k, x, e⟩ (by simp [Binds.toList])).1, WFBinds_of rest fun b hb => h b (by simp [Binds.toList, hb])⟩
  | .type t x e rest, h =>
    ⟨(h ⟨.inr t, x, e⟩ (by simp [Binds.toList])).2 t rfl, (h ⟨.inr t, x, e⟩ (by simp [Binds.toList])).1, WFBinds_of rest fun b hb => h b (by simp [Binds.toList, hb])⟩

theorem WFDefault_of {Γ : List VarName} : (d : Default) → (∀ e, d.toOption = some e → WF Γ e) → WFDefault Γ d
  | .none, _ => trivial
  | .some e, h => h e rfl

/-! ### States -/

/-- The variables bound in the scopes are among `Γ`. -/
structure Ready (Γ : List VarName) (s : S) : Prop where
  ne : s.scopes ≠ []
  inv : Inv s.scopes
  vis : ∀ x ∈ vis s.scopes, x ∈ Γ
  heap : ∃ H, HGood H s.heap

theorem Ready.step {Γ : List VarName} {s s' : S} (h : Ready Γ s) (hs : Step s s') : Ready Γ s' :=
  ⟨fun e => h.ne (by have := hs.ext; rw [e] at this; generalize s.scopes = l at this; cases this; rfl), hs.inv h.inv, by rw [hs.ext.vis]; exact h.vis, h.heap.imp fun H hH => hs.heap H hH⟩

theorem Ready.pres {Γ : List VarName} {α : Type} {m : TM α} {s s' : S} {a : α} (h : Ready Γ s) (hm : Pres m) (e : m s = .ok (s', a)) : Ready Γ s' :=
  h.step (hm _ _ _ e)

/-- What the function accepts obeys the rules. -/
def Sound {α : Type} (rec : Expr → TM (Option α)) : Prop := ∀ Γ e s s' a, Ready Γ s → rec e s = .ok (s', some a) → WF Γ e

section
variable {n : Nat} {rec : Rec} {recT : RecT}

/-- A new scope for types. -/
theorem Ready.phantom {Γ : List VarName} {s : S} (h : Ready Γ s) : Ready Γ { s with scopes := initScope none [] :: s.scopes } :=
  ⟨by simp, ⟨⟨fun _ => rfl, by simp [initScope]⟩, h.inv⟩, by
    simp only [Elab.vis, initScope, argVars]; simpa using h.vis, h.heap⟩

theorem exprForType_sound (hE : Sound rec) : Sound (exprForType rec) := by
  intro Γ e s s' a hs h
  unfold exprForType at h
  obtain ⟨s1, _, h1, h⟩ := TM.bind_ok.mp h
  obtain ⟨s2, r, h2, h⟩ := TM.bind_ok.mp h
  obtain ⟨s3, _, _, h⟩ := TM.bind_ok.mp h
  obtain ⟨_, h⟩ := TM.pure_ok.mp h
  cases h1
  cases r with
  | none => cases h
  | some r => exact hE Γ e _ _ _ hs.phantom h2

theorem exprAsType_sound (hE : Sound rec) : Sound (exprAsType rec) := by
  intro Γ e s s' a hs h
  unfold exprAsType at h
  obtain ⟨s1, r, h1, h⟩ := TM.bind_ok.mp h
  cases r with
  | none => cases (TM.pure_ok.mp h).2
  | some r => exact exprForType_sound hE Γ e _ _ _ hs h1

theorem typeAsExpr_sound (hT : Sound recT) : Sound (typeAsExpr recT) := by
  intro Γ e s s' a hs h
  unfold typeAsExpr at h
  obtain ⟨s1, r, h1, h⟩ := TM.bind_ok.mp h
  cases r with
  | none => cases (TM.pure_ok.mp h).2
  | some r => exact hT Γ e _ _ _ hs h1

theorem tcVar_sound {Γ : List VarName} {x : VarName} {s s' : S} {a : Ptr × Tc} (hs : Ready Γ s) (h : tcVar x s = .ok (s', some a)) : x ∈ Γ := by
  unfold tcVar at h
  obtain ⟨s1, r, h1, h⟩ := TM.bind_ok.mp h
  unfold lookup at h1
  cases hg : getVar x false s.scopes with
  | none =>
    rw [hg] at h1
    cases h1
    cases x with
    | normal x => cases (TM.pure_ok.mp h).2
    | module p => exact (TM.crash_ok.mp h).elim
  | some r => exact hs.vis x (getVar_vis (v := r.1) (σ' := r.2) hs.inv hg)

theorem tcEach_sound {Γ : List VarName} (pE : ∀ e, Pres (rec e)) (hE : Sound rec) : (es : List Expr) → {s s' : S} → {rs : List (Option (Ptr × Tc))} → {as : List (Ptr × Tc)} →
    Ready Γ s → tcEach rec es s = .ok (s', rs) → allSome rs = some as → ∀ e ∈ es, WF Γ e
  | [], _, _, _, _, _, _, _ => by simp
  | e :: es, s, s', rs, as, hs, h, ha => by
    unfold tcEach at h
    obtain ⟨s1, r, h1, h⟩ := TM.bind_ok.mp h
    obtain ⟨s2, rs', h2, h⟩ := TM.bind_ok.mp h
    obtain ⟨_, rfl⟩ := TM.pure_ok.mp h
    cases r with
    | none => simp [allSome] at ha
    | some r =>
      simp only [allSome, Option.map_eq_some_iff] at ha
      obtain ⟨as', ha, _⟩ := ha
      intro e' he
      rcases List.mem_cons.mp he with rfl | he
      · exact hE Γ _ _ _ _ hs h1
      · exact tcEach_sound pE hE es (hs.pres (pE _) h1) h2 ha e' he

theorem allSome_reverse {α : Type} {rs : List (Option α)} (h : (allSome rs.reverse).isSome) : (allSome rs).isSome := by
  have key : ∀ rs : List (Option α), (allSome rs).isSome ↔ ∀ r ∈ rs, r.isSome := by
    intro rs
    induction rs with
    | nil => simp [allSome]
    | cons r rs ih => cases r <;> simp [allSome, ih]
  rw [key] at h ⊢
  intro r hr
  exact h r (List.mem_reverse.mpr hr)

theorem tcStruct_sound {Γ : List VarName} (pE : ∀ e, Pres (rec e)) (hE : Sound rec) {args : List (Name × Expr)} {s s' : S} {a : Ptr × Tc}
    (hs : Ready Γ s) (h : tcStruct n rec args s = .ok (s', some a)) : (args.map (·.1)).Nodup ∧ ∀ e ∈ args.map (·.2), WF Γ e := by
  unfold tcStruct at h
  obtain ⟨s1, rs, h1, h⟩ := TM.bind_ok.mp h
  obtain ⟨s2, ok, h2, h⟩ := TM.bind_ok.mp h
  cases ha : allSome rs.reverse with
  | none => rw [ha] at h; cases (TM.pure_ok.mp h).2
  | some as =>
    rw [ha] at h
    simp only at h
    split at h
    · cases (TM.pure_ok.mp h).2
    · rename_i hd
      simp only [Bool.not_eq_true, Bool.or_eq_false_iff] at hd
      refine ⟨nodup_of_dupNames hd.2, ?_⟩
      obtain ⟨as', ha'⟩ := Option.isSome_iff_exists.mp (allSome_reverse (rs := rs) (by rw [ha]; rfl))
      intro e he
      exact tcEach_sound pE hE _ hs h1 ha' e (List.mem_reverse.mpr he)

/-- The arguments of a copy are given in the order of the fields. -/
theorem copyLoop_sub : (fs : List (Name × Ptr)) → {args : List (Name × Option (Ptr × Tc))} → {s s' : S} → {fl : Compile.Flds} →
    copyLoop n fs args s = .ok (s', (fl, true)) → (args.map (·.1)).Sublist (fs.map (·.1))
  | [], args, s, s', fl, h => by
    unfold copyLoop at h
    obtain ⟨_, h⟩ := TM.pure_ok.mp h
    cases args with
    | nil => simp
    | cons a args => simp at h
  | (x, ft) :: fs, [], s, s', fl, h => by simp
  | (x, ft) :: fs, (y, r) :: args, s, s', fl, h => by
    unfold copyLoop at h
    split at h
    · rename_i hn
      cases r with
      | none => exact (TM.crash_ok.mp h).elim
      | some r =>
        obtain ⟨s1, eq, _, h⟩ := TM.bind_ok.mp h
        obtain ⟨s2, q, h2, h⟩ := TM.bind_ok.mp h
        obtain ⟨_, h⟩ := TM.pure_ok.mp h
        simp only [Prod.mk.injEq] at h
        have hq : q.2 = true := (Bool.and_eq_true_iff.mp h.2.symm).2
        obtain ⟨q1, q2⟩ := q
        subst hq
        rw [namesEqual_iff] at hn
        subst hn
        simp only [List.map_cons]
        exact (copyLoop_sub fs h2).cons_cons _
    · obtain ⟨s2, q, h2, h⟩ := TM.bind_ok.mp h
      obtain ⟨_, h⟩ := TM.pure_ok.mp h
      simp only [Prod.mk.injEq] at h
      obtain ⟨q1, q2⟩ := q
      have hq : q2 = true := h.2.symm
      subst hq
      have := copyLoop_sub fs h2
      simp only [List.map_cons] at this ⊢
      exact this.cons _

theorem Ready.fields {Γ : List VarName} {s : S} {p : Ptr} {dt : DataKind} {fs : List (Name × Ptr)} (hs : Ready Γ s)
    (h : Types.get s.heap p = .ok (.data dt fs)) : (fs.map (·.1)).Nodup := by
  obtain ⟨H, hH⟩ := hs.heap
  exact nodup_of_dupNames (hH.good _ _ (get_ok.mp h))

theorem zip_names {α : Type} (xs : List Name) (rs : List α) (h : rs.length = xs.length) : (xs.zip rs).map (·.1) = xs := by
  rw [List.map_fst_zip]; omega

theorem tcCopy_sound {Γ : List VarName} (pE : ∀ e, Pres (rec e)) (hE : Sound rec) {src : Expr} {args : List (Name × Expr)} {s s' : S} {a : Ptr × Tc}
    (hs : Ready Γ s) (h : tcCopy n rec src args s = .ok (s', some a)) : WF Γ src ∧ (args.map (·.1)).Nodup ∧ ∀ e ∈ args.map (·.2), WF Γ e := by
  unfold tcCopy at h
  obtain ⟨s1, r, h1, h⟩ := TM.bind_ok.mp h
  cases r with
  | none => cases (TM.pure_ok.mp h).2
  | some r =>
    refine ⟨hE Γ _ _ _ _ hs h1, ?_⟩
    have hs1 := hs.pres (pE _) h1
    obtain ⟨s2, nt, h2, h⟩ := TM.bind_ok.mp h
    have hs2 := hs1.pres (Quiet.normalType n r.1).pres h2
    obtain ⟨nd, h3, h⟩ := TM.readH_bind.mp h
    split at h
    · rename_i fields
      obtain ⟨s4, rs, h4, h⟩ := TM.bind_ok.mp h
      obtain ⟨s5, q, h5, h⟩ := TM.bind_ok.mp h
      obtain ⟨q1, q2⟩ := q
      simp only at h
      split at h
      · cases (TM.pure_ok.mp h).2
      · rename_i hd
        simp only [Bool.not_eq_true, Bool.or_eq_false_iff, Bool.not_eq_eq_eq_not, Bool.not_false] at hd
        obtain ⟨hd, hd2⟩ := hd
        subst hd
        have hsub := copyLoop_sub fields h5
        rw [zip_names _ _ (by simp [tcEach_length _ h4])] at hsub
        refine ⟨hsub.nodup (hs2.fields h3), ?_⟩
        obtain ⟨as', ha'⟩ := Option.isSome_iff_exists.mp (allSome_reverse (rs := rs) (by simpa using hd2))
        intro e he
        exact tcEach_sound pE hE _ hs2 h4 ha' e (List.mem_reverse.mpr he)
    · cases (TM.pure_ok.mp h).2

theorem tcUnion_sound {Γ : List VarName} (hE : Sound rec) (pT : ∀ e, Quiet (recT e)) (hT : Sound recT) {type arg : Expr} {field : Name} {s s' : S} {a : Ptr × Tc}
    (hs : Ready Γ s) (h : tcUnion n rec recT type field arg s = .ok (s', some a)) : WF Γ type ∧ WF Γ arg := by
  unfold tcUnion at h
  obtain ⟨s1, r, h1, h⟩ := TM.bind_ok.mp h
  cases r with
  | none => cases (TM.pure_ok.mp h).2
  | some t =>
    refine ⟨hT Γ _ _ _ _ hs h1, ?_⟩
    have hs1 := hs.pres (pT _).pres h1
    obtain ⟨s2, nt, h2, h⟩ := TM.bind_ok.mp h
    have hs2 := hs1.pres (Quiet.depoly n t).pres h2
    obtain ⟨nd, h3, h⟩ := TM.readH_bind.mp h
    split at h
    · rename_i fields
      cases hf : findField field fields 0 with
      | none => rw [hf] at h; cases (TM.pure_ok.mp h).2
      | some tf =>
        rw [hf] at h
        simp only at h
        obtain ⟨s4, r, h4, h⟩ := TM.bind_ok.mp h
        cases r with
        | none => cases (TM.pure_ok.mp h).2
        | some r => exact hE Γ _ _ _ _ hs2 h4
    · cases (TM.pure_ok.mp h).2

/-- The choices of a select are given in the order of the fields. -/
theorem selLoop_sound {Γ : List VarName} (pE : ∀ e, Pres (rec e)) (hE : Sound rec) {hd : Bool} : (fs : List (Name × Ptr)) → {i : Nat} → {cs : List (Name × Expr)} → {rt : Option Ptr} → {s s' : S} → {q : SelRes} →
    Ready Γ s → selLoop n rec hd fs i cs rt s = .ok (s', q) → q.error = false → (cs.map (·.1)).Sublist (fs.map (·.1)) ∧ ∀ e ∈ cs.map (·.2), WF Γ e
  | [], i, cs, rt, s, s', q, hs, h, hq => by
    unfold selLoop at h
    obtain ⟨_, rfl⟩ := TM.pure_ok.mp h
    cases cs with
    | nil => simp
    | cons c cs => simp at hq
  | (x, _) :: fs, i, [], rt, s, s', q, hs, h, hq => by simp
  | (x, _) :: fs, i, (y, e) :: cs, rt, s, s', q, hs, h, hq => by
    unfold selLoop at h
    split at h
    · rename_i hn
      rw [namesEqual_iff] at hn
      subst hn
      obtain ⟨s1, r, h1, h⟩ := TM.bind_ok.mp h
      have hs1 := hs.pres (pE _) h1
      have done : ∀ {s2 s3 rt' q'}, r.isSome → Ready Γ s2 → selLoop n rec hd fs (i + 1) cs rt' s2 = .ok (s3, q') → q'.error = false →
          (((y, e) :: cs).map (·.1)).Sublist (((y, ‹Ptr›) :: fs).map (·.1)) ∧ ∀ e' ∈ ((y, e) :: cs).map (·.2), WF Γ e' := by
        intro s2 s3 rt' q' hr hs2 h2 hq'
        obtain ⟨g1, g2⟩ := selLoop_sound pE hE fs hs2 h2 hq'
        obtain ⟨r, rfl⟩ := Option.isSome_iff_exists.mp hr
        simp only [List.map_cons, List.mem_cons, forall_eq_or_imp]
        exact ⟨g1.cons_cons _, hE Γ _ _ _ _ hs h1, g2⟩
      cases r with
      | none =>
        simp only at h
        obtain ⟨s2, q', h2, h⟩ := TM.bind_ok.mp h
        obtain ⟨_, rfl⟩ := TM.pure_ok.mp h
        simp at hq
      | some r =>
        cases rt with
        | none =>
          simp only at h
          obtain ⟨s2, q', h2, h⟩ := TM.bind_ok.mp h
          obtain ⟨_, rfl⟩ := TM.pure_ok.mp h
          exact done rfl hs1 h2 hq
        | some rt =>
          simp only at h
          obtain ⟨eq, _, h⟩ := TM.readH_bind.mp h
          obtain ⟨s2, q', h2, h⟩ := TM.bind_ok.mp h
          obtain ⟨_, rfl⟩ := TM.pure_ok.mp h
          simp only [Bool.or_eq_false_iff] at hq
          exact done rfl hs1 h2 hq.1
    · obtain ⟨s2, q', h2, h⟩ := TM.bind_ok.mp h
      obtain ⟨_, rfl⟩ := TM.pure_ok.mp h
      have hq' : q'.error = false := by
        split at hq
        · exact hq
        · simp at hq
      obtain ⟨g1, g2⟩ := selLoop_sound pE hE fs hs h2 hq'
      simp only [List.map_cons] at g1 ⊢
      exact ⟨g1.cons _, g2⟩

theorem tcSelect_sound {Γ : List VarName} (pE : ∀ e, Pres (rec e)) (hE : Sound rec) {c : Expr} {cs : List (Name × Expr)} {d : Option Expr} {s s' : S} {a : Ptr × Tc}
    (hs : Ready Γ s) (h : tcSelect n rec c cs d s = .ok (s', some a)) :
    WF Γ c ∧ (cs.map (·.1)).Nodup ∧ (∀ e ∈ cs.map (·.2), WF Γ e) ∧ ∀ e, d = some e → WF Γ e := by
  unfold tcSelect at h
  obtain ⟨s1, r, h1, h⟩ := TM.bind_ok.mp h
  cases r with
  | none => cases (TM.pure_ok.mp h).2
  | some r =>
    refine ⟨hE Γ _ _ _ _ hs h1, ?_⟩
    have hs1 := hs.pres (pE _) h1
    obtain ⟨s2, nt, h2, h⟩ := TM.bind_ok.mp h
    have hs2 := hs1.pres (Quiet.normalType n r.1).pres h2
    obtain ⟨nd, h3, h⟩ := TM.readH_bind.mp h
    split at h
    · rename_i fields
      obtain ⟨s4, dr, h4, h⟩ := TM.bind_ok.mp h
      obtain ⟨s5, q, h5, h⟩ := TM.bind_ok.mp h
      have hs4 : Ready Γ s4 := by
        cases d with
        | none => obtain ⟨rfl, _⟩ := TM.pure_ok.mp h4; exact hs2
        | some e => exact hs2.pres (pE _) h4
      split at h
      · cases (TM.pure_ok.mp h).2
      · rename_i hq
        simp only [Bool.not_eq_true, Bool.or_eq_false_iff, Bool.and_eq_false_iff] at hq
        obtain ⟨g1, g2⟩ := selLoop_sound pE hE fields hs4 h5 hq.1
        refine ⟨g1.nodup (hs2.fields h3), g2, ?_⟩
        rintro e rfl
        cases dr with
        | none => simp at hq
        | some dr => exact hE Γ _ _ _ _ hs2 h4
    · cases (TM.pure_ok.mp h).2

theorem tcFunc_sound {Γ : List VarName} (hE : Sound rec) (pT : ∀ e, Quiet (recT e)) (hT : Sound recT) {x : Name} {type body : Expr} {s s' : S} {a : Ptr × Tc}
    (hs : Ready Γ s) (h : tcFunc rec recT x type body s = .ok (s', some a)) : WF Γ type ∧ WF (.normal x :: Γ) body := by
  unfold tcFunc at h
  obtain ⟨s1, r, h1, h⟩ := TM.bind_ok.mp h
  cases r with
  | none => cases (TM.pure_ok.mp h).2
  | some t =>
    refine ⟨hT Γ _ _ _ _ hs h1, ?_⟩
    have hs1 := hs.pres (pT _).pres h1
    obtain ⟨s2, _, h2, h⟩ := TM.bind_ok.mp h
    obtain ⟨s3, r, h3, h⟩ := TM.bind_ok.mp h
    obtain ⟨s4, sc, h4, h⟩ := TM.bind_ok.mp h
    cases h2
    cases r with
    | none => cases (TM.pure_ok.mp h).2
    | some r =>
      refine hE _ _ _ _ _ ?_ h3
      refine Ready.mk (by simp) (show Inv (_ :: _) from ⟨?_, hs1.inv⟩) ?_ (by exact hs1.heap)
      · unfold CapOk
        simp only [initScope]
        cases hsc : s1.scopes with
        | nil => exact absurd hsc hs1.ne
        | cons p rest => exact ⟨⟨p, rest, rfl, .nil⟩, by simp⟩
      · simp only [Elab.vis, initScope, argVars]
        simp only [List.map_nil, List.nil_append, List.reverse_cons, List.reverse_nil, List.map_cons, List.singleton_append, List.mem_cons]
        rintro y (rfl | hy)
        · exact .inl rfl
        · exact .inr (hs1.vis y hy)

theorem tcPoly_sound {Γ : List VarName} (hE : Sound rec) {x : Name} {k : Kind} {body : Expr} {s s' : S} {a : Ptr × Tc}
    (hs : Ready Γ s) (h : tcPoly n rec x k body s = .ok (s', some a)) : x.isType = true ∧ kindLevel k = 1 ∧ WF (.normal x :: Γ) body := by
  unfold tcPoly at h
  split at h
  · cases (TM.pure_ok.mp h).2
  · rename_i hk
    split at h
    · cases (TM.pure_ok.mp h).2
    · rename_i hx
      refine ⟨by simpa using hx, by simpa using hk, ?_⟩
      obtain ⟨s1, argT, h1, h⟩ := TM.bind_ok.mp h
      have hs1 := hs.pres (Quiet.pres (.liftH (newVarType_good _))) h1
      obtain ⟨v, _, h⟩ := TM.readH_bind.mp h
      cases v with
      | none => exact (TM.crash_ok.mp h).elim
      | some v =>
        obtain ⟨s2, _, h2, h⟩ := TM.bind_ok.mp h
        obtain ⟨s3, r, h3, h⟩ := TM.bind_ok.mp h
        obtain ⟨s4, _, h4, h⟩ := TM.bind_ok.mp h
        cases r with
        | none => cases (TM.pure_ok.mp h).2
        | some r =>
          obtain ⟨sc, rest, e, rfl, _⟩ := onScope_ok.mp h2
          refine hE _ _ _ _ _ ?_ h3
          refine Ready.mk (by simp) ?_ ?_ (by exact hs1.heap)
          · have := hs1.inv
            rw [e] at this
            exact ⟨this.1.vars rfl rfl, this.2⟩
          · have := hs1.vis
            rw [e] at this
            simp only [Elab.vis, List.map_cons, List.cons_append, List.mem_cons] at this ⊢
            rintro y (rfl | hy)
            · exact .inl rfl
            · exact .inr (this y hy)

theorem tcPolyApply_sound {Γ : List VarName} (pE : ∀ e, Pres (rec e)) (hE : Sound rec) {poly arg : Expr} {s s' : S} {a : Ptr × Tc}
    (hs : Ready Γ s) (h : tcPolyApply n rec poly arg s = .ok (s', some a)) : WF Γ poly ∧ WF Γ arg := by
  unfold tcPolyApply at h
  obtain ⟨s1, p, h1, h⟩ := TM.bind_ok.mp h
  obtain ⟨s2, t, h2, h⟩ := TM.bind_ok.mp h
  cases p with
  | none => cases (TM.pure_ok.mp h).2
  | some p =>
    cases t with
    | none => cases (TM.pure_ok.mp h).2
    | some t => exact ⟨hE Γ _ _ _ _ hs h1, exprForType_sound hE Γ _ _ _ _ (hs.pres (pE _) h1) h2⟩

theorem tcList_sound {Γ : List VarName} (pE : ∀ e, Pres (rec e)) (hE : Sound rec) {f : Expr} {args : List Expr} {s s' : S} {a : Ptr × Tc}
    (hs : Ready Γ s) (h : tcList n rec f args s = .ok (s', some a)) : WF Γ f ∧ ∀ e ∈ args, WF Γ e := by
  unfold tcList at h
  obtain ⟨s1, r, h1, h⟩ := TM.bind_ok.mp h
  cases r with
  | none => cases (TM.pure_ok.mp h).2
  | some r =>
    refine ⟨hE Γ _ _ _ _ hs h1, ?_⟩
    have hs1 := hs.pres (pE _) h1
    obtain ⟨s2, nt, h2, h⟩ := TM.bind_ok.mp h
    have hs2 := hs1.pres (Quiet.depoly n r.1).pres h2
    obtain ⟨nd, h3, h⟩ := TM.readH_bind.mp h
    split at h
    · obtain ⟨el, h4, h⟩ := TM.readH_bind.mp h
      cases el with
      | none => cases (TM.pure_ok.mp h).2
      | some el =>
        obtain ⟨s5, rs, h5, h⟩ := TM.bind_ok.mp h
        cases ha : allSome rs with
        | none => rw [ha] at h; cases (TM.pure_ok.mp h).2
        | some as => exact tcEach_sound pE hE _ hs2 h5 ha
    · cases (TM.pure_ok.mp h).2

theorem tcLiteral_sound {Γ : List VarName} (hE : Sound rec) {f : Expr} {w : List Char} {s s' : S} {a : Ptr × Tc}
    (hs : Ready Γ s) (h : tcLiteral n rec f w s = .ok (s', some a)) : WF Γ f := by
  unfold tcLiteral at h
  obtain ⟨s1, r, h1, h⟩ := TM.bind_ok.mp h
  cases r with
  | none => cases (TM.pure_ok.mp h).2
  | some r => exact hE Γ _ _ _ _ hs h1

theorem tcAccess_sound {Γ : List VarName} (hE : Sound rec) {o : Expr} {x : Name} {s s' : S} {a : Ptr × Tc}
    (hs : Ready Γ s) (h : tcAccess n rec o x s = .ok (s', some a)) : WF Γ o := by
  unfold tcAccess at h
  obtain ⟨s1, r, h1, h⟩ := TM.bind_ok.mp h
  cases r with
  | none => cases (TM.pure_ok.mp h).2
  | some r => exact hE Γ _ _ _ _ hs h1

theorem tcAbstractAccess_sound {M : List Name} {Γ : List VarName} (hE : Sound rec) {o : Expr} {s s' : S} {a : Ptr × Tc}
    (hs : Ready Γ s) (h : tcAbstractAccess M n rec o s = .ok (s', some a)) : WF Γ o := by
  unfold tcAbstractAccess at h
  obtain ⟨s1, r, h1, h⟩ := TM.bind_ok.mp h
  cases r with
  | none => cases (TM.pure_ok.mp h).2
  | some r => exact hE Γ _ _ _ _ hs h1

theorem tcCast_sound {M : List Name} {Γ : List VarName} (hE : Sound rec) (pT : ∀ e, Quiet (recT e)) (hT : Sound recT) {p t v : Expr} {s s' : S} {a : Ptr × Tc}
    (hs : Ready Γ s) (h : tcCast M n rec recT p t v s = .ok (s', some a)) : WF Γ p ∧ WF Γ t ∧ WF Γ v := by
  unfold tcCast at h
  obtain ⟨s1, r, h1, h⟩ := TM.bind_ok.mp h
  cases r with
  | none => cases (TM.pure_ok.mp h).2
  | some pt =>
    refine ⟨hT Γ _ _ _ _ hs h1, ?_⟩
    have hs1 := hs.pres (pT _).pres h1
    obtain ⟨s2, nt, h2, h⟩ := TM.bind_ok.mp h
    have hs2 := hs1.pres (Quiet.normalType n pt).pres h2
    obtain ⟨nd, h3, h⟩ := TM.readH_bind.mp h
    split at h
    · obtain ⟨s4, r, h4, h⟩ := TM.bind_ok.mp h
      cases r with
      | none => cases (TM.pure_ok.mp h).2
      | some tt =>
        have hs4 := hs2.pres (pT _).pres h4
        obtain ⟨s5, r, h5, h⟩ := TM.bind_ok.mp h
        cases r with
        | none => cases (TM.pure_ok.mp h).2
        | some r => exact ⟨hT Γ _ _ _ _ hs2 h4, hE Γ _ _ _ _ hs4 h5⟩
    · cases (TM.pure_ok.mp h).2

theorem tcApply_sound {M : List Name} {Γ : List VarName} (pE : ∀ e, Pres (rec e)) (hE : Sound rec) {f : Expr} {args : List Expr} {b : Bool} {s s' : S} {a : Ptr × Tc}
    (hs : Ready Γ s) (h : tcApply M n rec f args b s = .ok (s', some a)) : WF Γ f ∧ ∀ e ∈ args, WF Γ e := by
  unfold tcApply at h
  obtain ⟨s1, r, h1, h⟩ := TM.bind_ok.mp h
  have hs1 := hs.pres (pE _) h1
  obtain ⟨s2, rs, h2, h⟩ := TM.bind_ok.mp h
  cases r with
  | none => cases (TM.pure_ok.mp h).2
  | some r =>
    cases ha : allSome rs with
    | none => rw [ha] at h; cases (TM.pure_ok.mp h).2
    | some as => exact ⟨hE Γ _ _ _ _ hs h1, tcEach_sound pE hE _ hs1 h2 ha⟩

theorem dataFields_sound {Γ : List VarName} (pT : ∀ e, Quiet (recT e)) (hT : Sound recT) : (fs : List (Name × Expr)) → {prev : List Name} → {s s' : S} → {r : List (Name × Ptr)} →
    Ready Γ s → dataFields n recT prev fs s = .ok (s', some r) → ∀ e ∈ fs.map (·.2), WF Γ e
  | [], _, _, _, _, _, _ => by simp
  | (x, e) :: fs, prev, s, s', r, hs, h => by
    unfold dataFields at h
    obtain ⟨s1, t, h1, h⟩ := TM.bind_ok.mp h
    cases t with
    | none => cases (TM.pure_ok.mp h).2
    | some t =>
      have hs1 := hs.pres (pT _).pres h1
      obtain ⟨s2, ok, h2, h⟩ := TM.bind_ok.mp h
      have hs2 := hs1.pres (checkNameSpace_quiet _ _ _).pres h2
      split at h
      · cases (TM.pure_ok.mp h).2
      · split at h
        · cases (TM.pure_ok.mp h).2
        · obtain ⟨s3, q, h3, h⟩ := TM.bind_ok.mp h
          cases q with
          | none => cases (TM.pure_ok.mp h).2
          | some q =>
            simp only [List.map_cons, List.mem_cons, forall_eq_or_imp]
            exact ⟨hT Γ _ _ _ _ hs h1, dataFields_sound pT hT fs hs2 h3⟩

theorem tcFuncType_sound {Γ : List VarName} (pT : ∀ e, Quiet (recT e)) (hT : Sound recT) {p q : Expr} {s s' : S} {a : Ptr}
    (hs : Ready Γ s) (h : tcFuncType recT p q s = .ok (s', some a)) : WF Γ p ∧ WF Γ q := by
  unfold tcFuncType at h
  obtain ⟨s1, x, h1, h⟩ := TM.bind_ok.mp h
  have hs1 := hs.pres (pT _).pres h1
  obtain ⟨s2, y, h2, h⟩ := TM.bind_ok.mp h
  cases x with
  | none => cases (TM.pure_ok.mp h).2
  | some x =>
    cases y with
    | none => cases (TM.pure_ok.mp h).2
    | some y => exact ⟨hT Γ _ _ _ _ hs h1, hT Γ _ _ _ _ hs1 h2⟩

/-! ### Let -/

theorem bindTypes_sound {Γ : List VarName} (pT : ∀ e, Quiet (recT e)) (hT : Sound recT) : (bs : List Binding) → {prev : List Name} → {s s' : S} → {ts : List Ptr} →
    Ready Γ s → bindTypes n recT prev bs s = .ok (s', some ts) →
      (∀ b ∈ bs, ∀ t, b.ann = .inr t → WF Γ t) ∧ (bs.map (·.name)).Nodup ∧ ∀ b ∈ bs, b.name ∉ prev
  | [], _, _, _, _, _, _ => by simp
  | b :: bs, prev, s, s', ts, hs, h => by
    unfold bindTypes at h
    obtain ⟨s1, t, h1, h⟩ := TM.bind_ok.mp h
    obtain ⟨s2, ok, h2, h⟩ := TM.bind_ok.mp h
    obtain ⟨s3, q, h3, h⟩ := TM.bind_ok.mp h
    cases t with
    | none => cases (TM.pure_ok.mp h).2
    | some t =>
      cases q with
      | none => cases (TM.pure_ok.mp h).2
      | some q =>
        obtain ⟨_, h⟩ := TM.pure_ok.mp h
        split at h
        · rename_i hok
          simp only [Bool.and_eq_true, Bool.not_eq_true', List.any_eq_false] at hok
          have hs1 : Ready Γ s1 ∧ ∀ e, b.ann = .inr e → WF Γ e := by
            cases hb : b.ann with
            | inl k =>
              rw [hb] at h1
              simp only at h1
              obtain ⟨s0, t0, h0, h1⟩ := TM.bind_ok.mp h1
              obtain ⟨rfl, _⟩ := TM.pure_ok.mp h1
              exact ⟨hs.pres (Quiet.pres (.liftH (newVarType_good _))) h0, by simp⟩
            | inr e =>
              rw [hb] at h1
              refine ⟨hs.pres (pT e).pres h1, ?_⟩
              intro e' he; cases he
              exact hT Γ _ _ _ _ hs h1
          have hs2 := hs1.1.pres (checkNameSpace_quiet _ _ _).pres h2
          obtain ⟨g1, g2, g3⟩ := bindTypes_sound pT hT bs hs2 h3
          refine ⟨?_, ?_, ?_⟩
          · simp only [List.mem_cons, forall_eq_or_imp]
            exact ⟨hs1.2, g1⟩
          · simp only [List.map_cons, List.nodup_cons]
            refine ⟨fun hm => ?_, g2⟩
            obtain ⟨b', hb', e⟩ := List.mem_map.mp hm
            exact g3 b' hb' (by rw [e]; exact List.mem_cons_self)
          · simp only [List.mem_cons, forall_eq_or_imp]
            refine ⟨fun hm => hok.2 _ hm (namesEqual_iff.mpr rfl), fun b' hb' hm => g3 b' hb' (List.mem_cons_of_mem _ hm)⟩
        · cases h

theorem bindDefs_sound {Γ : List VarName} (pE : ∀ e, Pres (rec e)) (hE : Sound rec) : (bs : List Binding) → {ts : List Ptr} → {s s' : S} → {ds : List (Ptr × Tc)} →
    ts.length = bs.length → Ready Γ s → bindDefs n rec bs ts s = .ok (s', some ds) → ∀ b ∈ bs, WF Γ b.expr
  | [], _, _, _, _, _, _, _ => by simp
  | b :: bs, [], _, _, _, hl, _, _ => by simp at hl
  | b :: bs, t :: ts, s, s', ds, hl, hs, h => by
    unfold bindDefs at h
    obtain ⟨s1, r, h1, h⟩ := TM.bind_ok.mp h
    cases r with
    | none => cases (TM.pure_ok.mp h).2
    | some r =>
      have hs1 := hs.pres (pE _) h1
      obtain ⟨s2, ok, h2, h⟩ := TM.bind_ok.mp h
      have hs2 : Ready Γ s2 := by
        cases hb : b.ann with
        | inr e => rw [hb] at h2; exact hs1.pres (Quiet.readH _).pres h2
        | inl k => rw [hb] at h2; exact hs1.pres (Quiet.pres (Quiet.bind (Quiet.readH _) fun _ => .pure _)) h2
      split at h
      · cases (TM.pure_ok.mp h).2
      · obtain ⟨s3, q, h3, h⟩ := TM.bind_ok.mp h
        cases q with
        | none => cases (TM.pure_ok.mp h).2
        | some q =>
          simp only [List.mem_cons, forall_eq_or_imp]
          exact ⟨hE Γ _ _ _ _ hs h1, bindDefs_sound pE hE bs (by simpa using hl) hs2 h3⟩

theorem letInner_sound {Γ : List VarName} (pE : ∀ e, Pres (rec e)) (hE : Sound rec) {bs : List Binding} {ts : List Ptr} {body : Expr} {s s' : S} {a : Ptr × Tc}
    (hl : ts.length = bs.length) (hs : Ready Γ s) (h : letInner n rec bs ts body s = .ok (s', some a)) : (∀ b ∈ bs, WF Γ b.expr) ∧ WF Γ body := by
  unfold letInner at h
  obtain ⟨s1, ds, h1, h⟩ := TM.bind_ok.mp h
  cases ds with
  | none => cases (TM.pure_ok.mp h).2
  | some ds =>
    refine ⟨bindDefs_sound pE hE bs hl hs h1, ?_⟩
    have hs1 := hs.pres (bindDefs_pres pE bs ts) h1
    obtain ⟨s2, _, h2, h⟩ := TM.bind_ok.mp h
    have hs2 := hs1.pres (anyUsed_pres _) h2
    obtain ⟨s3, ts', h3, h⟩ := TM.bind_ok.mp h
    have hs3 := hs2.pres (bindAssign_quiet n bs ts _).pres h3
    obtain ⟨s4, _, h4, h⟩ := TM.bind_ok.mp h
    have hs4 := hs3.pres (setTypes_pres _) h4
    obtain ⟨s5, v, h5, h⟩ := TM.bind_ok.mp h
    have hs5 := hs4.pres (anyVacuous_quiet n ts').pres h5
    split at h
    · cases (TM.pure_ok.mp h).2
    · obtain ⟨s6, r, h6, h⟩ := TM.bind_ok.mp h
      cases r with
      | none => cases (TM.pure_ok.mp h).2
      | some r => exact hE Γ _ _ _ _ hs5 h6

theorem letVars_names : (i : Nat) → (xs : List Name) → (ts : List Ptr) → ∀ v ∈ letVars i xs ts, ∃ x ∈ xs, v.name = .normal x
  | _, [], _, v, h => by simp [letVars] at h
  | _, _ :: _, [], v, h => by simp [letVars] at h
  | i, x :: xs, t :: ts, v, h => by
    simp only [letVars, List.mem_cons] at h
    rcases h with rfl | h
    · exact ⟨x, by simp, rfl⟩
    · obtain ⟨y, hy, e⟩ := letVars_names (i + 1) xs ts v h
      exact ⟨y, List.mem_cons_of_mem _ hy, e⟩

theorem tcLet_sound {Γ : List VarName} (pE : ∀ e, Pres (rec e)) (hE : Sound rec) (pT : ∀ e, Quiet (recT e)) (hT : Sound recT) {bs : List Binding} {body : Expr} {s s' : S} {a : Ptr × Tc}
    (hs : Ready Γ s) (h : tcLet n rec recT bs body s = .ok (s', some a)) :
    (bs.map (·.name)).Nodup ∧ (∀ b ∈ bs, WF ((bs.map (·.name)).map .normal ++ Γ) b.expr ∧ ∀ t, b.ann = .inr t → WF Γ t) ∧
      WF ((bs.map (·.name)).map .normal ++ Γ) body := by
  unfold tcLet at h
  obtain ⟨s0, r, h0, h⟩ := TM.bind_ok.mp h
  cases r with
  | none => cases (TM.pure_ok.mp h).2
  | some ts =>
    have hl := bindTypes_length bs [] h0
    obtain ⟨g1, g2, _⟩ := bindTypes_sound pT hT bs hs h0
    have hs0 := hs.pres (bindTypes_quiet pT bs []).pres h0
    have hm := letInner_pres (n := n) pE bs ts body
    cases hsc : s0.scopes with
    | nil => exact absurd hsc hs0.ne
    | cons sc rest =>
      obtain ⟨s1, s2, sc2, rest2, e1, h2, _, _⟩ := let_frame hm hl hsc h
      have hr : Ready ((bs.map (·.name)).map .normal ++ Γ) s1 := by
        subst e1
        refine ⟨by simp, ?_, ?_, hs0.heap⟩
        · have := hs0.inv
          rw [hsc] at this
          exact ⟨this.1.vars rfl rfl, this.2⟩
        · have := hs0.vis
          rw [hsc] at this
          simp only [Elab.vis] at this ⊢
          intro y hy
          rw [List.map_append, List.append_assoc, List.mem_append] at hy
          rcases hy with hy | hy
          · obtain ⟨v, hv, rfl⟩ := List.mem_map.mp hy
            obtain ⟨x, hx, e⟩ := letVars_names _ _ _ v (List.mem_reverse.mp hv)
            rw [e]
            exact List.mem_append_left _ (List.mem_map_of_mem hx)
          · exact List.mem_append_right _ (this y hy)
      obtain ⟨g3, g4⟩ := letInner_sound pE hE hl hr h2
      exact ⟨g2, fun b hb => ⟨g3 b hb, g1 b hb⟩, g4⟩

end

/-- Whatever the type checker accepts obeys the rules. -/
theorem tc_sound (M : List Name) : (n : Nat) → Sound (tcExpr M n) ∧ Sound (tcType M n)
  | 0 => ⟨fun Γ e s s' a _ h => by simp [tcExpr] at h, fun Γ e s s' a _ h => by simp [tcType] at h⟩
  | n + 1 => by
    obtain ⟨hE, hT⟩ := tc_sound M n
    obtain ⟨pE, pT⟩ := tc_pres M n
    constructor
    · intro Γ e s s' a hs h
      cases e <;> simp only [tcExpr] at h
      case typeOf e => exact typeAsExpr_sound hT Γ _ _ _ _ hs h
      case var x => exact tcVar_sound hs h
      case letE bs body =>
        obtain ⟨h1, h2, h3⟩ := tcLet_sound pE hE pT hT hs h
        exact ⟨h1, WFBinds_of bs h2, h3⟩
      case dataType => exact typeAsExpr_sound hT Γ _ _ _ _ hs h
      case dataAccess => simp only [WF]; exact tcAccess_sound hE hs h
      case structImplicit args =>
        obtain ⟨h1, h2⟩ := tcStruct_sound pE hE hs h
        exact ⟨h1, WFTagged_of args h2⟩
      case structCopy src args =>
        obtain ⟨h1, h2, h3⟩ := tcCopy_sound pE hE hs h
        exact ⟨h1, h2, WFTagged_of args h3⟩
      case unionValue => exact tcUnion_sound hE pT hT hs h
      case select c cs d =>
        obtain ⟨h1, h2, h3, h4⟩ := tcSelect_sound pE hE hs h
        exact ⟨h1, h2, WFTagged_of cs h3, WFDefault_of d h4⟩
      case funcType => exact typeAsExpr_sound hT Γ _ _ _ _ hs h
      case func => exact tcFunc_sound hE pT hT hs h
      case polyValue => exact tcPoly_sound hE hs h
      case polyApply => exact tcPolyApply_sound pE hE hs h
      case list f args =>
        obtain ⟨h1, h2⟩ := tcList_sound pE hE hs h
        exact ⟨h1, WFExprs_of args h2⟩
      case literal => simp only [WF]; exact tcLiteral_sound hE hs h
      case modulePath => exact tcVar_sound hs h
      case packageType => trivial
      case abstractCast => exact tcCast_sound hE pT hT hs h
      case abstractAccess => simp only [WF]; exact tcAbstractAccess_sound hE hs h
      case apply f args b =>
        obtain ⟨h1, h2⟩ := tcApply_sound pE hE hs h
        exact ⟨h1, WFExprs_of args h2⟩
    · intro Γ e s s' a hs h
      cases e <;> simp only [tcType] at h
      case typeOf e => simp only [WF]; exact exprForType_sound hE Γ _ _ _ _ hs h
      case dataType dt fs =>
        obtain ⟨s1, r, h1, h⟩ := TM.bind_ok.mp h
        cases r with
        | none => cases (TM.pure_ok.mp h).2
        | some r =>
          obtain ⟨g1, g2, _⟩ := dataFields_names fs.toList [] h1
          rw [g1] at g2
          exact ⟨nodup_of_dupNames g2, WFTagged_of fs (dataFields_sound pT hT _ hs h1)⟩
      case funcType => exact tcFuncType_sound pT hT hs h
      case packageType => trivial
      all_goals exact exprAsType_sound hE Γ _ _ _ _ hs h

theorem tcModule_sound {n : Nat} {m : Module} {deps : List Ptr} {h h' : Heap} {r : Ptr × Tc} (hh : ∃ H, HGood H h)
    (ht : tcModule n m deps h = .ok (h', some r)) : WF (m.deps.map .module) m.value := by
  unfold tcModule at ht
  obtain ⟨⟨s, r'⟩, h1, ht⟩ := R.bind_ok.mp ht
  cases ht
  refine (tc_sound m.path n).1 _ _ _ _ _ ?_ h1
  refine ⟨by simp, ⟨⟨fun _ => rfl, by simp [initScope]⟩, trivial⟩, ?_, hh⟩
  intro x hx
  simp only [vis, initScope, List.map_nil, List.nil_append, List.append_nil, List.mem_map, List.mem_reverse] at hx
  obtain ⟨v, hv, rfl⟩ := hx
  obtain ⟨j, d, hd, e, _⟩ := argVars_mem hv
  rw [e]
  exact List.mem_map_of_mem (List.mem_of_getElem? hd)

theorem tcModule_heap {n : Nat} {m : Module} {deps : List Ptr} {h h' : Heap} {r : Option (Ptr × Tc)} (hh : ∃ H, HGood H h)
    (ht : tcModule n m deps h = .ok (h', r)) : ∃ H, HGood H h' := by
  unfold tcModule at ht
  obtain ⟨⟨s, r'⟩, h1, ht⟩ := R.bind_ok.mp ht
  cases ht
  exact hh.imp fun H hH => ((tc_pres m.path n).1 _ _ _ _ h1).heap H hH

theorem tcModules_sound {n : Nat} : (ms : List Module) → {done : List Module} → {types : List (Option Ptr)} → {h : Heap} → {rs : List (Option Tc)} → {tcs : List Tc} →
    (∃ H, HGood H h) → tcModules n done types ms h = .ok rs → allSome rs = some tcs →
    ∀ (i : Nat) (m : Module), ms[i]? = some m → WF (m.deps.map .module) m.value ∧ ∀ d ∈ m.deps, ∃ m' ∈ done ++ ms.take i, m'.path = d
  | [], _, _, _, _, _, _, _, _ => by simp
  | m :: ms, done, types, h, rs, tcs, hh, ht, ha => by
    unfold tcModules at ht
    obtain ⟨⟨h1, r⟩, hr, ht⟩ := R.bind_ok.mp ht
    obtain ⟨rs', hrs, ht⟩ := R.bind_ok.mp ht
    obtain rfl := R.pure_ok.mp ht
    cases r with
    | none => simp [allSome] at ha
    | some r =>
      simp only [Option.map_some, allSome, Option.map_eq_some_iff] at ha
      obtain ⟨tcs', ha, _⟩ := ha
      cases hd : depTypes done types m.deps with
      | none => rw [hd] at hr; cases hr
      | some deps =>
        rw [hd] at hr
        simp only at hr
        have hh1 := tcModule_heap hh hr
        intro i m' hm
        cases i with
        | zero =>
          simp only [List.getElem?_cons_zero, Option.some.injEq] at hm
          subst hm
          refine ⟨tcModule_sound hh hr, ?_⟩
          intro d hdm
          obtain ⟨_, is, _, hall⟩ := depTypes_ok _ hd
          obtain ⟨i, _, hi⟩ := hall.mem_left hdm
          obtain ⟨m', h2, h3, _⟩ := findModule_lt hi
          exact ⟨m', by simpa using List.mem_of_getElem? h2, h3⟩
        | succ i =>
          have := tcModules_sound ms hh1 hrs ha i m' (by simpa using hm)
          simpa using this

/-- **C63.** In a program that type checks, in every expression at every depth of every module: the
variables of a let, the fields of a struct value, of a struct or union type, of a copy and the
choices of a select have different names, type parameters are named as types, every variable is
bound by something around it and every module referred to is a dependency of the module, which
comes before it in the program. -/
theorem C63_names {n : Nat} {program : List Module} {tcs : List Tc} (h : tcProgram n program = .ok (some tcs)) :
    ∀ (i : Nat) (m : Module), program[i]? = some m →
      WF (m.deps.map .module) m.value ∧ ∀ d ∈ m.deps, ∃ m' ∈ program.take i, m'.path = d := by
  unfold tcProgram at h
  obtain ⟨rs, h1, h⟩ := R.bind_ok.mp h
  have h2 := R.pure_ok.mp h
  have := tcModules_sound program (done := []) ⟨[], HGood.refl (by simp)⟩ h1 h2
  simpa using this

namespace Example

example : WF [.module [vn "Lib"]] main.value := (C63_names checked 1 main rfl).1

/-- `@ Unit@ = *(); @ Bool@ = …; Bool@ x = e, Bool@ x = e; x` is never accepted. -/
example (e body : Expr) (n : Nat) (tcs : List Tc) :
    tcProgram n [⟨[vn "M"], [], withTypes (.letE (.type (.var (tn "Bool")) (vn "x") e (.type (.var (tn "Bool")) (vn "x") e .nil)) body)⟩] ≠ .ok (some tcs) := by
  intro h
  have := (C63_names h 0 _ rfl).1
  simp [withTypes, WF, Binds.names, Binds.toList] at this

/-- Nor is a function that uses a variable of a caller. -/
example (n : Nat) (tcs : List Tc) : tcProgram n [⟨[vn "M"], [], withTypes (.func (vn "x") (.var (tn "Bool")) (.var (vn "y")))⟩] ≠ .ok (some tcs) := by
  intro h
  have := (C63_names h 0 _ rfl).1
  simp [withTypes, WF, WFBinds, WFTagged, Tagged.names, Tagged.toList, Binds.names, Binds.toList, tn, vn] at this

end Example

end Verif.Elab
