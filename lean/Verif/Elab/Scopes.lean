import Verif.Elab.Heap
import Verif.Util
/-
Lookup of variables in nested scopes.
-/
namespace Verif.Elab
open Types
open Compile (Var Tc Tcs Flds Brs)

theorem namesEqual_iff {a b : Name} : namesEqual a b = true ↔ a = b := by
  cases a; cases b
  simp only [namesEqual, Bool.and_eq_true, decide_eq_true_eq, Name.mk.injEq]
  exact And.comm

theorem pathsEqual_iff : {a b : List Name} → (pathsEqual a b = true ↔ a = b)
  | [], [] => by simp [pathsEqual]
  | [], _ :: _ => by simp [pathsEqual]
  | _ :: _, [] => by simp [pathsEqual]
  | x :: xs, y :: ys => by
    simp only [pathsEqual, Bool.and_eq_true, namesEqual_iff, pathsEqual_iff (a := xs) (b := ys), List.cons.injEq]

theorem varNamesEqual_iff {a b : VarName} : varNamesEqual a b = true ↔ a = b := by
  cases a <;> cases b <;> simp [varNamesEqual, namesEqual_iff, pathsEqual_iff]

/-- The first variable of that name. -/
def first (x : VarName) (vs : List V) : Option V := vs.find? fun v => decide (v.name = x)

theorem first_cons {x : VarName} {v : V} {vs : List V} : first x (v :: vs) = if v.name = x then some v else first x vs := by
  simp only [first, List.find?_cons]
  by_cases h : v.name = x <;> simp [h]

theorem first_name {x : VarName} {v : V} : {vs : List V} → first x vs = some v → v.name = x
  | [], h => by simp [first] at h
  | w :: vs, h => by
    rw [first_cons] at h
    split at h
    · cases h; assumption
    · exact first_name h

theorem first_append {x : VarName} {vs ws : List V} : first x (vs ++ ws) = (first x vs).or (first x ws) := by
  simp [first, List.find?_append]

/-- The same variable, perhaps used by now. -/
structure VExt (v v' : V) : Prop where
  name : v'.name = v.name
  var : v'.var = v.var
  used : v.used = true → v'.used = true

theorem VExt.refl (v : V) : VExt v v := ⟨rfl, rfl, id⟩
theorem VExt.trans {a b c : V} (h : VExt a b) (h' : VExt b c) : VExt a c :=
  ⟨h'.name.trans h.name, h'.var.trans h.var, fun u => h'.used (h.used u)⟩

theorem All2.refl {α : Type} {R : α → α → Prop} (h : ∀ a, R a a) : (as : List α) → All2 R as as
  | [] => .nil
  | a :: as => .cons (h a) (All2.refl h as)

theorem All2.trans {α : Type} {R : α → α → Prop} (h : ∀ a b c, R a b → R b c → R a c) : {as bs cs : List α} → All2 R as bs → All2 R bs cs → All2 R as cs
  | _, _, _, .nil, .nil => .nil
  | _, _, _, .cons h1 h2, .cons h3 h4 => .cons (h _ _ _ h1 h3) (All2.trans h h2 h4)

theorem first_ext {x : VarName} {vs vs' : List V} (h : All2 VExt vs vs') :
    (first x vs = none → first x vs' = none) ∧ (∀ v, first x vs = some v → ∃ v', first x vs' = some v' ∧ VExt v v') := by
  induction h with
  | nil => exact ⟨id, fun v h => by simp [first] at h⟩
  | cons hv _ ih =>
    rw [first_cons, first_cons, hv.name]
    split
    · exact ⟨fun h => (by cases h), fun v h => by cases h; exact ⟨_, rfl, hv⟩⟩
    · exact ih

/-- The same scope after more lookups. -/
structure ScExt (a b : Scope) : Prop where
  locals : All2 VExt a.locals b.locals
  args : All2 VExt a.args b.args
  statics : ∃ st more, b.statics = st ++ more ∧ All2 VExt a.statics st
  allocated : b.allocated = a.allocated
  captured : (a.captured = none ∧ b.captured = none) ∨ ∃ c more, a.captured = some c ∧ b.captured = some (c ++ more)

theorem ScExt.refl (a : Scope) : ScExt a a :=
  ⟨All2.refl VExt.refl _, All2.refl VExt.refl _, ⟨a.statics, [], by simp, All2.refl VExt.refl _⟩, rfl, by
    cases h : a.captured with
    | none => exact .inl ⟨rfl, rfl⟩
    | some c => exact .inr ⟨c, [], rfl, by simp⟩⟩

theorem All2.split_append {α : Type} {R : α → α → Prop} : {as bs cs : List α} → All2 R (as ++ bs) cs → ∃ cs1 cs2, cs = cs1 ++ cs2 ∧ All2 R as cs1 ∧ All2 R bs cs2
  | [], _, cs, h => ⟨[], cs, rfl, .nil, h⟩
  | _ :: _, _, _, .cons h1 h2 => by
    obtain ⟨c1, c2, rfl, h3, h4⟩ := All2.split_append h2
    exact ⟨_ :: c1, c2, rfl, .cons h1 h3, h4⟩

theorem ScExt.trans {a b c : Scope} (h : ScExt a b) (h' : ScExt b c) : ScExt a c := by
  refine ⟨All2.trans (R := VExt) (fun _ _ _ h h' => VExt.trans h h') h.locals h'.locals, All2.trans (R := VExt) (fun _ _ _ h h' => VExt.trans h h') h.args h'.args, ?_, h'.allocated.trans h.allocated, ?_⟩
  · obtain ⟨st, more, e, hs⟩ := h.statics
    obtain ⟨st', more', e', hs'⟩ := h'.statics
    rw [e] at hs'
    obtain ⟨c1, c2, rfl, h1, h2⟩ := All2.split_append hs'
    exact ⟨c1, c2 ++ more', by rw [e']; simp, All2.trans (R := VExt) (fun _ _ _ h h' => VExt.trans h h') hs h1⟩
  · rcases h.captured with ⟨h1, h2⟩ | ⟨c, m, h1, h2⟩
    · rcases h'.captured with ⟨h3, h4⟩ | ⟨c', m', h3, h4⟩
      · exact .inl ⟨h1, h4⟩
      · rw [h2] at h3; cases h3
    · rcases h'.captured with ⟨h3, h4⟩ | ⟨c', m', h3, h4⟩
      · rw [h2] at h3; cases h3
      · rw [h2] at h3; cases h3
        exact .inr ⟨c, m ++ m', h1, by rw [h4]; simp⟩

/-- The same scopes after more lookups in the first: lookups from a scope that collects no captures
leave its parents alone. -/
inductive Ext : List Scope → List Scope → Prop
  | nil : Ext [] []
  | phantom {a b rest} : a.captured = none → ScExt a b → Ext (a :: rest) (b :: rest)
  | live {a b rest rest'} : a.captured ≠ none → ScExt a b → Ext rest rest' → Ext (a :: rest) (b :: rest')

theorem Ext.refl : (l : List Scope) → Ext l l
  | [] => .nil
  | sc :: rest => by
    cases h : sc.captured with
    | none => exact .phantom h (.refl sc)
    | some c => exact .live (by simp [h]) (.refl sc) (Ext.refl rest)

theorem ScExt.captured_none {a b : Scope} (h : ScExt a b) : b.captured = none ↔ a.captured = none := by
  rcases h.captured with ⟨h1, h2⟩ | ⟨c, m, h1, h2⟩ <;> simp [h1, h2]

theorem Ext.trans {a b c : List Scope} (h : Ext a b) (h' : Ext b c) : Ext a c := by
  induction h generalizing c with
  | nil => exact h'
  | phantom h1 h2 =>
    cases h' with
    | phantom h3 h4 => exact .phantom h1 (h2.trans h4)
    | live h3 _ _ => exact absurd (h2.captured_none.mpr h1) h3
  | live h1 h2 _ ih =>
    cases h' with
    | phantom h3 h4 => exact absurd (h2.captured_none.mp h3) h1
    | live h3 h4 h5 => exact .live h1 (h2.trans h4) (ih h5)

/-- The variables of a scope in the order of lookup. -/
def Scope.vars (sc : Scope) : List V := sc.locals ++ sc.args ++ sc.statics

/-- In that scope the name is the variable `c`, and it is used. -/
def FirstIs (sc : Scope) (x : VarName) (c : Var) : Prop := ∃ v, first x sc.vars = some v ∧ v.var = some c ∧ v.used = true

theorem FirstIs.ext {a b : Scope} {x : VarName} {c : Var} (h : FirstIs a x c) (he : ScExt a b) : FirstIs b x c := by
  obtain ⟨v, h1, h2, h3⟩ := h
  obtain ⟨st, more, e, hs⟩ := he.statics
  obtain ⟨v', h4, h5⟩ := (first_ext (x := x) ((he.locals.append he.args).append hs)).2 v h1
  refine ⟨v', ?_, by rw [h5.var]; exact h2, h5.used h3⟩
  simp only [Scope.vars, e]
  rw [← List.append_assoc, first_append, h4]; rfl

/-- The names that are bound in the scopes, other than by capturing. -/
def vis : List Scope → List VarName
  | [] => []
  | sc :: rest => sc.locals.map (·.name) ++ (sc.args.map (·.name) ++ vis rest)

theorem All2.names {vs vs' : List V} (h : All2 VExt vs vs') : vs'.map (·.name) = vs.map (·.name) := by
  induction h with
  | nil => rfl
  | cons hv _ ih => simp [hv.name, ih]

theorem Ext.vis {a b : List Scope} (h : Ext a b) : vis b = vis a := by
  induction h with
  | nil => rfl
  | phantom _ h => simp only [Elab.vis, All2.names h.locals, All2.names h.args]
  | live _ h _ ih => simp only [Elab.vis, All2.names h.locals, All2.names h.args, ih]

/-- The captured variables of a scope are what its static variables are in the parent. -/
def CapOk (sc : Scope) (rest : List Scope) : Prop :=
  match sc.captured with
  | none => (rest = [] → sc.statics = []) ∧ ∀ v ∈ sc.statics, v.name ∈ vis rest
  | some cs => (∃ p rest', rest = p :: rest' ∧ All2 (fun v c => FirstIs p v.name c) sc.statics cs) ∧
      ∀ (i : Nat) (v : V), sc.statics[i]? = some v → v.var = some (.static i) ∧ v.used = true

/-- All scopes are such. -/
def Inv : List Scope → Prop
  | [] => True
  | sc :: rest => CapOk sc rest ∧ Inv rest

/-- Scopes of code that is run: only the outermost, that of the module, collects no captures. -/
def Live : List Scope → Prop
  | [] => False
  | sc :: rest => (rest = [] ∧ sc.captured = none) ∨ (sc.captured ≠ none ∧ Live rest)

theorem Live.ext {a b : List Scope} (h : Ext a b) : Live a → Live b := by
  induction h with
  | nil => exact id
  | phantom h1 h2 =>
    rintro (⟨h3, h4⟩ | ⟨h3, h4⟩)
    · exact .inl ⟨h3, h2.captured_none.mpr h1⟩
    · exact absurd h1 h3
  | live h1 h2 h3 ih =>
    rintro (⟨h4, h5⟩ | ⟨h4, h5⟩)
    · exact absurd h5 h1
    · exact .inr ⟨fun h => h1 (h2.captured_none.mp h), ih h5⟩

theorem useFirst_spec {x : VarName} {ph : Bool} : {vs vs' : List V} → {v : V} → useFirst x ph vs = some (v, vs') →
    All2 VExt vs vs' ∧ (ph = true → vs' = vs) ∧ first x vs' = some v ∧ (∃ v0, first x vs = some v0 ∧ v0.var = v.var) ∧
      (ph = false → v.var.isSome → v.used = true)
  | [], _, _, h => by simp [useFirst] at h
  | w :: vs, vs', v, h => by
    simp only [useFirst] at h
    split at h
    · rename_i hn
      rw [varNamesEqual_iff] at hn
      simp only [Option.some.injEq, Prod.mk.injEq] at h
      obtain ⟨hv, hvs⟩ := h
      have hname : v.name = w.name := by subst hv; split <;> rfl
      have hvar : v.var = w.var := by subst hv; split <;> rfl
      have hused : w.used = true → v.used = true := by subst hv; split <;> simp
      rw [hv] at hvs
      subst hvs
      refine ⟨.cons ⟨hname, hvar, hused⟩ (All2.refl VExt.refl _), ?_, ?_, ⟨w, ?_, hvar.symm⟩, ?_⟩
      · intro hp; subst hp; simp at hv; rw [hv]
      · rw [first_cons, if_pos (by rw [hname, hn])]
      · rw [first_cons, if_pos hn.symm]
      · intro hp hs
        rw [hvar] at hs
        subst hp; subst hv; simp [hs]
    · rename_i hn
      have hn : ¬ w.name = x := fun e => hn (varNamesEqual_iff.mpr e.symm)
      cases hu : useFirst x ph vs with
      | none => rw [hu] at h; simp at h
      | some r =>
        obtain ⟨v1, vs1⟩ := r
        rw [hu] at h; simp at h
        obtain ⟨rfl, rfl⟩ := h
        obtain ⟨h1, h2, h3, ⟨v0, h4, h4'⟩, h5⟩ := useFirst_spec hu
        refine ⟨.cons (.refl _) h1, fun hp => by rw [h2 hp], ?_, ⟨v0, ?_, h4'⟩, h5⟩
        · rw [first_cons, if_neg hn]; exact h3
        · rw [first_cons, if_neg hn]; exact h4

theorem useFirst_none {x : VarName} {ph : Bool} : {vs : List V} → (useFirst x ph vs = none ↔ first x vs = none)
  | [] => by simp [useFirst, first]
  | w :: vs => by
    simp only [useFirst]
    rw [first_cons]
    by_cases hn : w.name = x
    · rw [if_pos (varNamesEqual_iff.mpr hn.symm), if_pos hn]; simp
    · rw [if_neg (fun e => hn (varNamesEqual_iff.mp e).symm), if_neg hn]
      simp [useFirst_none]

theorem Inv.live_rest {sc : Scope} {rest rest' : List Scope} (h : CapOk sc rest) (he : Ext rest rest') : CapOk sc rest' := by
  unfold CapOk at *
  split
  · rename_i hc
    rw [hc] at h
    refine ⟨?_, by rw [he.vis]; exact h.2⟩
    intro hr; subst hr
    cases he; exact h.1 rfl
  · rename_i cs hc
    rw [hc] at h
    simp only at h
    obtain ⟨⟨p, rest1, rfl, h1⟩, h2⟩ := h
    refine ⟨?_, h2⟩
    cases he with
    | phantom _ hsc => exact ⟨_, _, rfl, h1.mono fun _ _ hf => hf.ext hsc⟩
    | live _ hsc _ => exact ⟨_, _, rfl, h1.mono fun _ _ hf => hf.ext hsc⟩

theorem CapOk.vars {sc sc' : Scope} {rest : List Scope} (h : CapOk sc rest) (h1 : sc'.statics = sc.statics) (h2 : sc'.captured = sc.captured) : CapOk sc' rest := by
  unfold CapOk at *
  rw [h1, h2]; exact h

theorem Scope.ext_locals {sc : Scope} {vs : List V} (h : All2 VExt sc.locals vs) : ScExt sc { sc with locals := vs } := by
  have := ScExt.refl sc
  exact ⟨h, this.args, this.statics, rfl, this.captured⟩

theorem Scope.ext_args {sc : Scope} {vs : List V} (h : All2 VExt sc.args vs) : ScExt sc { sc with args := vs } := by
  have := ScExt.refl sc
  exact ⟨this.locals, h, this.statics, rfl, this.captured⟩

theorem Scope.ext_statics {sc : Scope} {vs : List V} (h : All2 VExt sc.statics vs) : ScExt sc { sc with statics := vs } := by
  have := ScExt.refl sc
  exact ⟨this.locals, this.args, ⟨vs, [], by simp, h⟩, rfl, this.captured⟩

theorem Ext.head {sc sc' : Scope} {rest : List Scope} (h : ScExt sc sc') : Ext (sc :: rest) (sc' :: rest) := by
  cases hc : sc.captured with
  | none => exact .phantom hc h
  | some c => exact .live (by simp [hc]) h (.refl rest)

theorem All2.map_left {α β γ : Type} {R : α → β → Prop} {S : γ → β → Prop} {f : α → γ → Prop} : {as : List α} → {bs : List β} → {cs : List γ} → All2 R as bs → All2 f as cs →
    (∀ a b c, R a b → f a c → S c b) → All2 S cs bs
  | _, _, _, .nil, .nil, _ => .nil
  | _, _, _, .cons h1 h2, .cons h3 h4, h => .cons (h _ _ _ h1 h3) (All2.map_left h2 h4 h)

theorem CapOk.statics {sc : Scope} {vs : List V} {rest : List Scope} (h : CapOk sc rest) (hv : All2 VExt sc.statics vs) : CapOk { sc with statics := vs } rest := by
  unfold CapOk at *
  simp only
  split
  · rename_i hc
    rw [hc] at h
    refine ⟨?_, ?_⟩
    · intro hr
      have := h.1 hr
      simp only [this] at hv
      cases hv; rfl
    · intro v hvm
      have : v.name ∈ vs.map (·.name) := List.mem_map_of_mem hvm
      rw [All2.names hv] at this
      obtain ⟨w, hw, e⟩ := List.mem_map.mp this
      rw [← e]; exact h.2 w hw
  · rename_i cs hc
    rw [hc] at h
    simp only at h
    obtain ⟨⟨p, rest1, rfl, h1⟩, h2⟩ := h
    refine ⟨⟨p, rest1, rfl, All2.map_left h1 hv fun a b c hab hac => by rw [hac.name]; exact hab⟩, ?_⟩
    intro i v hi
    have hl := hv.length_eq
    obtain ⟨hi1, hi2⟩ := List.getElem?_eq_some_iff.mp hi
    have := hv.get i (by omega) hi1
    have h3 := h2 i _ (List.getElem?_eq_getElem (by omega : i < sc.statics.length))
    rw [hi2] at this
    exact ⟨by rw [this.var]; exact h3.1, this.used h3.2⟩

theorem first_mem {x : VarName} {v : V} {vs : List V} (h : first x vs = some v) : v ∈ vs := List.mem_of_find?_eq_some h

/-- All variables of the first scope have names that are bound. -/
theorem Inv.vars_vis : {sc : Scope} → {rest : List Scope} → Inv (sc :: rest) → ∀ v ∈ sc.vars, v.name ∈ vis (sc :: rest)
  | sc, rest, ⟨hi, hr⟩, v, hv => by
    simp only [vis, List.mem_append]
    simp only [Scope.vars, List.mem_append] at hv
    rcases hv with (hv | hv) | hv
    · exact .inl (List.mem_map_of_mem hv)
    · exact .inr (.inl (List.mem_map_of_mem hv))
    · refine .inr (.inr ?_)
      unfold CapOk at hi
      cases hc : sc.captured with
      | none => rw [hc] at hi; exact hi.2 v hv
      | some cs =>
        rw [hc] at hi
        obtain ⟨⟨p, rest', rfl, h1⟩, _⟩ := hi
        obtain ⟨c, _, w, hw, _⟩ := h1.mem_left hv
        rw [← first_name hw]
        exact Inv.vars_vis hr w (first_mem hw)

/-- What is found is bound. -/
theorem getVar_vis {x : VarName} : {σ σ' : List Scope} → {ph : Bool} → {v : V} → Inv σ → getVar x ph σ = some (v, σ') → x ∈ vis σ
  | [], _, _, _, _, h => by simp [getVar] at h
  | sc :: rest, σ', ph, v, hi, h => by
    have hf : ∀ w, first x sc.vars = some w → x ∈ vis (sc :: rest) := fun w hw => by
      rw [← first_name hw]; exact hi.vars_vis w (first_mem hw)
    simp only [getVar] at h
    cases hl : first x sc.vars with
    | some w => exact hf w hl
    | none =>
      simp only [Scope.vars, first_append, Option.or_eq_none_iff] at hl
      obtain ⟨⟨h1, h2⟩, h3⟩ := hl
      rw [useFirst_none.mpr h1, useFirst_none.mpr h2, useFirst_none.mpr h3] at h
      simp only at h
      cases hg : getVar x (sc.captured.isNone || ph) rest with
      | none => rw [hg] at h; cases h
      | some r =>
        simp only [vis, List.mem_append]
        exact .inr (.inr (getVar_vis (σ' := r.2) (v := r.1) hi.2 hg))

/-- The effect of a lookup. -/
theorem getVar_ext {x : VarName} : {σ σ' : List Scope} → {ph : Bool} → {v : V} → getVar x ph σ = some (v, σ') →
    Ext σ σ' ∧ (Inv σ → Inv σ') ∧ (ph = true → σ' = σ) ∧ v.name = x ∧
      (ph = false → ∀ c, v.var = some c → ∃ sc rest, σ' = sc :: rest ∧ FirstIs sc x c)
  | [], _, _, _, h => by simp [getVar] at h
  | sc :: rest, σ', ph, v, h => by
    simp only [getVar] at h
    cases hl : useFirst x ph sc.locals with
    | some r =>
      obtain ⟨v1, vs⟩ := r
      rw [hl] at h; cases h
      obtain ⟨h1, h2, h3, h4, h5⟩ := useFirst_spec hl
      refine ⟨.head (Scope.ext_locals h1), fun hi => ⟨hi.1.vars rfl rfl, hi.2⟩, fun hp => by rw [h2 hp], first_name h3, ?_⟩
      intro hp c hc
      exact ⟨_, _, rfl, v, by simp only [Scope.vars]; rw [List.append_assoc, first_append, h3]; rfl, hc, h5 hp (by simp [hc])⟩
    | none =>
    rw [hl] at h
    rw [useFirst_none] at hl
    simp only at h
    cases ha : useFirst x ph sc.args with
    | some r =>
      obtain ⟨v1, vs⟩ := r
      rw [ha] at h; cases h
      obtain ⟨h1, h2, h3, h4, h5⟩ := useFirst_spec ha
      refine ⟨.head (Scope.ext_args h1), fun hi => ⟨hi.1.vars rfl rfl, hi.2⟩, fun hp => by rw [h2 hp], first_name h3, ?_⟩
      intro hp c hc
      exact ⟨_, _, rfl, v, by simp only [Scope.vars]; rw [List.append_assoc, first_append, first_append, hl, h3]; rfl, hc, h5 hp (by simp [hc])⟩
    | none =>
    rw [ha] at h
    rw [useFirst_none] at ha
    simp only at h
    cases hs : useFirst x ph sc.statics with
    | some r =>
      obtain ⟨v1, vs⟩ := r
      rw [hs] at h; cases h
      obtain ⟨h1, h2, h3, h4, h5⟩ := useFirst_spec hs
      refine ⟨.head (Scope.ext_statics h1), fun hi => ⟨hi.1.statics h1, hi.2⟩, fun hp => by rw [h2 hp], first_name h3, ?_⟩
      intro hp c hc
      exact ⟨_, _, rfl, v, by simp only [Scope.vars]; rw [List.append_assoc, first_append, first_append, hl, ha, h3]; rfl, hc, h5 hp (by simp [hc])⟩
    | none =>
    rw [hs] at h
    rw [useFirst_none] at hs
    simp only at h
    cases hg : getVar x (sc.captured.isNone || ph) rest with
    | none => rw [hg] at h; cases h
    | some r =>
      obtain ⟨v1, rest1⟩ := r
      rw [hg] at h
      simp only at h
      obtain ⟨h1, h2, h3, h4, h5⟩ := getVar_ext hg
      have hext0 : Ext (sc :: rest) (sc :: rest1) := by
        cases hc : sc.captured with
        | none => rw [h3 (by simp [hc])]; exact .refl _
        | some c => exact .live (by simp [hc]) (.refl sc) h1
      have hother : v = v1 → σ' = sc :: rest1 → (ph = true ∨ v1.var = none) → 
          Ext (sc :: rest) σ' ∧ (Inv (sc :: rest) → Inv σ') ∧ (ph = true → σ' = sc :: rest) ∧ v.name = x ∧
          (ph = false → ∀ c, v.var = some c → ∃ sc rest, σ' = sc :: rest ∧ FirstIs sc x c) := by
        rintro rfl rfl ho
        refine ⟨hext0, fun hi => ⟨Inv.live_rest hi.1 h1, h2 hi.2⟩, fun hp => by rw [h3 (by simp [hp])], h4, ?_⟩
        intro hp c hc
        rcases ho with ho | ho
        · rw [hp] at ho; cases ho
        · rw [hc] at ho; cases ho
      cases ph with
      | true => simp only at h; cases h; exact hother rfl rfl (.inl rfl)
      | false =>
        cases hvar : v1.var with
        | none => rw [hvar] at h; simp only at h; cases h; exact hother rfl rfl (.inr hvar)
        | some var =>
          rw [hvar] at h; simp only at h; cases h
          have hsc : ScExt sc { sc with
              statics := sc.statics ++ [⟨v1.name, v1.type, true, some (.static sc.statics.length)⟩],
              captured := sc.captured.map (· ++ [var]) } := by
            have := ScExt.refl sc
            refine ⟨this.locals, this.args, ⟨sc.statics, _, rfl, All2.refl VExt.refl _⟩, rfl, ?_⟩
            cases hc : sc.captured with
            | none => exact .inl ⟨rfl, rfl⟩
            | some c => exact .inr ⟨c, [var], rfl, rfl⟩
          refine ⟨?_, ?_, fun hp => (by cases hp), h4, ?_⟩
          · cases hc : sc.captured with
            | none =>
              rw [h3 (by simp [hc])]
              rw [hc] at hsc
              exact .phantom hc hsc
            | some c => rw [hc] at hsc; exact .live (by simp [hc]) hsc h1
          · rintro ⟨hi1, hi2⟩
            refine ⟨?_, h2 hi2⟩
            have hi1' := Inv.live_rest hi1 h1
            unfold CapOk at hi1' ⊢
            cases hc : sc.captured with
            | none =>
              rw [hc] at hi1'
              simp only [Option.map_none]
              refine ⟨?_, ?_⟩
              · intro hr; subst hr
                cases h1 with
                | nil => simp [getVar] at hg
              · intro w hw
                rcases List.mem_append.mp hw with hw | hw
                · exact hi1'.2 w hw
                · simp only [List.mem_singleton] at hw
                  subst hw
                  simp only [h4, h1.vis]
                  exact getVar_vis hi2 hg
            | some cs =>
              rw [hc] at hi1'
              simp only [Option.map_some] at hi1' ⊢
              obtain ⟨⟨p, rest2, rfl, h6⟩, h7⟩ := hi1'
              obtain ⟨sc2, rest3, h8, h9⟩ := h5 (by simp [hc]) var hvar
              cases h8
              refine ⟨⟨p, rest2, rfl, h6.append (.cons (by simp only [h4]; exact h9) .nil)⟩, ?_⟩
              intro i w hi
              by_cases hlt : i < sc.statics.length
              · rw [List.getElem?_append_left hlt] at hi; exact h7 i w hi
              · rw [List.getElem?_append_right (by omega)] at hi
                have : i - sc.statics.length = 0 := by
                  rcases Nat.eq_zero_or_pos (i - sc.statics.length) with h | h
                  · exact h
                  · rw [List.getElem?_eq_none (by simp; omega)] at hi; cases hi
                rw [this] at hi
                simp at hi; subst hi
                exact ⟨by simp; omega, rfl⟩
          · intro _ c hc
            simp only [Option.some.injEq] at hc
            subst hc
            refine ⟨_, _, rfl, ⟨v1.name, v1.type, true, some (.static sc.statics.length)⟩, ?_, rfl, rfl⟩
            simp only [Scope.vars]
            rw [first_append, first_append, first_append, hl, ha, hs, first_cons, if_pos h4]; rfl

/-! ### The types of the names in scope -/

/-- The names in scope with their types, the innermost first. -/
def ctx : List Scope → List (VarName × Ptr)
  | [] => []
  | sc :: rest => (sc.locals ++ sc.args).map (fun v => (v.name, v.type)) ++ ctx rest

/-- The type of the innermost variable of that name. -/
def typeIn (Γ : List (VarName × Ptr)) (x : VarName) : Option Ptr := (Γ.find? fun b => decide (b.1 = x)).map (·.2)

/-- The static variables of a scope have the types that the variables they stand for have. -/
def Stat : List Scope → Prop
  | [] => True
  | sc :: rest => (∀ v ∈ sc.statics, typeIn (ctx rest) v.name = some v.type) ∧ Stat rest

theorem typeIn_cons {x y : VarName} {t : Ptr} {Γ : List (VarName × Ptr)} : typeIn ((y, t) :: Γ) x = if y = x then some t else typeIn Γ x := by
  simp only [typeIn, List.find?_cons]
  by_cases h : y = x <;> simp [h]

theorem typeIn_append {x : VarName} {Γ Δ : List (VarName × Ptr)} : typeIn (Γ ++ Δ) x = (typeIn Γ x).or (typeIn Δ x) := by
  simp only [typeIn, List.find?_append]
  cases List.find? (fun b => decide (b.1 = x)) Γ <;> simp

theorem typeIn_first {x : VarName} : (vs : List V) → typeIn (vs.map fun v => (v.name, v.type)) x = (first x vs).map (·.type)
  | [] => by simp [typeIn, first]
  | v :: vs => by
    simp only [List.map_cons, typeIn_cons, first_cons, typeIn_first vs]
    split <;> rfl

theorem useFirst_types {x : VarName} {ph : Bool} : {vs vs' : List V} → {v : V} → useFirst x ph vs = some (v, vs') →
    vs'.map (fun v => (v.name, v.type)) = vs.map (fun v => (v.name, v.type))
  | [], _, _, h => by simp [useFirst] at h
  | w :: vs, vs', v, h => by
    simp only [useFirst] at h
    split at h
    · simp only [Option.some.injEq, Prod.mk.injEq] at h
      obtain ⟨hv, hvs⟩ := h
      have hn : v.name = w.name := by subst hv; split <;> rfl
      have ht : v.type = w.type := by subst hv; split <;> rfl
      rw [hv] at hvs
      subst hvs
      simp [hn, ht]
    · cases hu : useFirst x ph vs with
      | none => rw [hu] at h; simp at h
      | some r =>
        obtain ⟨v1, vs1⟩ := r
        rw [hu] at h; simp at h
        obtain ⟨rfl, rfl⟩ := h
        simp [useFirst_types hu]

/-- A lookup finds the innermost variable, with its type. -/
theorem getVar_types {x : VarName} : {σ σ' : List Scope} → {ph : Bool} → {v : V} → getVar x ph σ = some (v, σ') →
    ctx σ' = ctx σ ∧ (Stat σ → Stat σ' ∧ typeIn (ctx σ) x = some v.type)
  | [], _, _, _, h => by simp [getVar] at h
  | sc :: rest, σ', ph, v, h => by
    simp only [getVar] at h
    have mem : ∀ {vs vs' : List V} {v : V}, vs'.map (fun v => (v.name, v.type)) = vs.map (fun v => (v.name, v.type)) → v ∈ vs' → ∃ w ∈ vs, w.name = v.name ∧ w.type = v.type := by
      intro vs vs' v e hv
      have : (v.name, v.type) ∈ vs.map (fun v => (v.name, v.type)) := by rw [← e]; exact List.mem_map.mpr ⟨v, hv, rfl⟩
      obtain ⟨w, hw, e⟩ := List.mem_map.mp this
      simp only [Prod.mk.injEq] at e
      exact ⟨w, hw, e.1, e.2⟩
    have val : ∀ {vs vs' : List V} {v : V}, useFirst x ph vs = some (v, vs') → typeIn (vs.map fun v => (v.name, v.type)) x = some v.type := by
      intro vs vs' v hu
      rw [← useFirst_types hu, typeIn_first, (useFirst_spec hu).2.2.1]; rfl
    have none : ∀ {vs : List V}, first x vs = none → typeIn (vs.map fun v => (v.name, v.type)) x = none := by
      intro vs hu
      rw [typeIn_first, hu]; rfl
    cases hl : useFirst x ph sc.locals with
    | some r =>
      obtain ⟨v1, vs⟩ := r
      rw [hl] at h; cases h
      refine ⟨by simp only [ctx, List.map_append, useFirst_types hl], fun hs => ⟨⟨hs.1, hs.2⟩, ?_⟩⟩
      simp only [ctx, List.map_append, List.append_assoc]
      rw [typeIn_append, val hl]; rfl
    | none =>
    rw [hl] at h
    rw [useFirst_none] at hl
    simp only at h
    cases ha : useFirst x ph sc.args with
    | some r =>
      obtain ⟨v1, vs⟩ := r
      rw [ha] at h; cases h
      refine ⟨by simp only [ctx, List.map_append, useFirst_types ha], fun hs => ⟨⟨hs.1, hs.2⟩, ?_⟩⟩
      simp only [ctx, List.map_append, List.append_assoc]
      rw [typeIn_append, none hl, typeIn_append, val ha]; rfl
    | none =>
    rw [ha] at h
    rw [useFirst_none] at ha
    simp only at h
    have miss : typeIn (ctx (sc :: rest)) x = typeIn (ctx rest) x := by
      simp only [ctx, List.map_append, List.append_assoc]
      rw [typeIn_append, none hl, typeIn_append, none ha]; rfl
    rw [miss]
    cases hs : useFirst x ph sc.statics with
    | some r =>
      obtain ⟨v1, vs⟩ := r
      rw [hs] at h; cases h
      refine ⟨rfl, fun hst => ⟨⟨fun w hw => ?_, hst.2⟩, ?_⟩⟩
      · obtain ⟨w', h1, h2, h3⟩ := mem (useFirst_types hs) hw
        rw [← h2, ← h3]; exact hst.1 w' h1
      · have h3 := (useFirst_spec hs).2.2.1
        obtain ⟨w', h1, h2, h4⟩ := mem (useFirst_types hs) (List.mem_of_find?_eq_some h3)
        rw [← h4, ← first_name h3, ← h2]; exact hst.1 w' h1
    | none =>
    rw [hs] at h
    simp only at h
    cases hg : getVar x (sc.captured.isNone || ph) rest with
    | none => rw [hg] at h; cases h
    | some r =>
      obtain ⟨v1, rest1⟩ := r
      rw [hg] at h
      simp only at h
      obtain ⟨h1, h2⟩ := getVar_types hg
      have hn := (getVar_ext hg).2.2.2.1
      have same : v = v1 → σ' = sc :: rest1 → ctx σ' = ctx (sc :: rest) ∧ (Stat (sc :: rest) → Stat σ' ∧ typeIn (ctx rest) x = some v.type) := by
        rintro rfl rfl
        exact ⟨by simp only [ctx, h1], fun hst => ⟨⟨by rw [h1]; exact hst.1, (h2 hst.2).1⟩, (h2 hst.2).2⟩⟩
      cases ph with
      | true => simp only at h; cases h; exact same rfl rfl
      | false =>
        cases hvar : v1.var with
        | none => rw [hvar] at h; simp only at h; cases h; exact same rfl rfl
        | some var =>
          rw [hvar] at h; simp only at h; cases h
          refine ⟨by simp only [ctx, h1], fun hst => ⟨⟨fun w hw => ?_, (h2 hst.2).1⟩, (h2 hst.2).2⟩⟩
          rw [h1]
          rcases List.mem_append.mp hw with hw | hw
          · exact hst.1 w hw
          · simp only [List.mem_singleton] at hw
            subst hw
            show typeIn (ctx rest) v1.name = some v1.type
            rw [hn]; exact (h2 hst.2).2

end Verif.Elab
