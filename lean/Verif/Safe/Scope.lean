import Verif.Safe.Heap
/-
The types of the variables in scope.
-/
namespace Verif.Elab
open Types
open Compile (Var Tc Tcs Flds Brs)

/-- A local variable has a value for code that uses it. -/
def mask (v : V) : Option Ptr := if v.used then some v.type else none

/-- The types of the variables of a scope. -/
def tenv (sc : Scope) : TEnv := ⟨sc.statics.map (·.type), sc.args.reverse.map (·.type), sc.locals.reverse.map mask⟩

/-- The same variable, perhaps used by now. -/
structure VSame (v v' : V) : Prop where
  name : v'.name = v.name
  type : v'.type = v.type
  var : v'.var = v.var
  used : v.used = true → v'.used = true

theorem VSame.refl (v : V) : VSame v v := ⟨rfl, rfl, rfl, id⟩
theorem VSame.trans {a b c : V} (h : VSame a b) (h' : VSame b c) : VSame a c :=
  ⟨h'.name.trans h.name, h'.type.trans h.type, h'.var.trans h.var, fun u => h'.used (h.used u)⟩

theorem vsames_trans {as bs cs : List V} (h : All2 VSame as bs) (h' : All2 VSame bs cs) : All2 VSame as cs :=
  All2.trans (R := VSame) (fun _ _ _ h h' => VSame.trans h h') h h'

/-- The same scope after more lookups. -/
structure ScSame (a b : Scope) : Prop where
  locals : All2 VSame a.locals b.locals
  args : All2 VSame a.args b.args
  statics : ∃ st more, b.statics = st ++ more ∧ All2 VSame a.statics st
  allocated : b.allocated = a.allocated
  captured : b.captured.isSome = a.captured.isSome

theorem ScSame.refl (a : Scope) : ScSame a a :=
  ⟨All2.refl VSame.refl _, All2.refl VSame.refl _, ⟨a.statics, [], by simp, All2.refl VSame.refl _⟩, rfl, rfl⟩

theorem ScSame.trans {a b c : Scope} (h : ScSame a b) (h' : ScSame b c) : ScSame a c := by
  refine ⟨vsames_trans h.locals h'.locals, vsames_trans h.args h'.args, ?_, h'.allocated.trans h.allocated, h'.captured.trans h.captured⟩
  obtain ⟨st, more, e, hs⟩ := h.statics
  obtain ⟨st', more', e', hs'⟩ := h'.statics
  rw [e] at hs'
  obtain ⟨c1, c2, rfl, h1, h2⟩ := All2.split_append hs'
  exact ⟨c1, c2 ++ more', by rw [e']; simp, vsames_trans hs h1⟩

theorem all2_getElem? {α β : Type} {R : α → β → Prop} {as : List α} {bs : List β} (h : All2 R as bs) {i : Nat} {a : α} (ha : as[i]? = some a) : ∃ b, bs[i]? = some b ∧ R a b := by
  obtain ⟨h1, rfl⟩ := List.getElem?_eq_some_iff.mp ha
  have h2 : i < bs.length := by rw [← h.length_eq]; exact h1
  exact ⟨bs[i], List.getElem?_eq_getElem h2, h.get i h1 h2⟩

theorem all2_getElem?_right {α β : Type} {R : α → β → Prop} {as : List α} {bs : List β} (h : All2 R as bs) {i : Nat} {b : β} (hb : bs[i]? = some b) : ∃ a, as[i]? = some a ∧ R a b := by
  obtain ⟨h1, rfl⟩ := List.getElem?_eq_some_iff.mp hb
  have h2 : i < as.length := by rw [h.length_eq]; exact h1
  exact ⟨as[i], List.getElem?_eq_getElem h2, h.get i h2 h1⟩

theorem ScSame.le {a b : Scope} (h : ScSame a b) : TEnv.Le (tenv a) (tenv b) := by
  refine ⟨fun v S hv => ?_, by simp [tenv, h.locals.length_eq]⟩
  cases v with
  | static i =>
    simp only [TEnv.get, tenv, List.getElem?_map, Option.map_eq_some_iff] at hv ⊢
    obtain ⟨w, h1, h2⟩ := hv
    obtain ⟨st, more, e, hs⟩ := h.statics
    obtain ⟨w', h3, h4⟩ := all2_getElem? hs h1
    refine ⟨w', ?_, by rw [h4.type]; exact h2⟩
    rw [e, List.getElem?_append_left (List.getElem?_eq_some_iff.mp h3).1]; exact h3
  | arg i =>
    simp only [TEnv.get, tenv, List.getElem?_map, Option.map_eq_some_iff] at hv ⊢
    obtain ⟨w, h1, h2⟩ := hv
    obtain ⟨w', h3, h4⟩ := all2_getElem? h.args.reverse h1
    exact ⟨w', h3, by rw [h4.type]; exact h2⟩
  | loc i =>
    simp only [TEnv.get, tenv, List.getElem?_map] at hv ⊢
    cases h1 : a.locals.reverse[i]? with
    | none => rw [h1] at hv; cases hv
    | some w =>
      rw [h1] at hv
      obtain ⟨w', h3, h4⟩ := all2_getElem? h.locals.reverse h1
      rw [h3]
      simp only [Option.map_some, Option.join_some, mask] at hv ⊢
      cases hu : w.used with
      | false => rw [hu] at hv; cases hv
      | true => rw [hu] at hv; rw [h4.used hu, h4.type]; exact hv

/-- The scopes of the current code. -/
structure ScOk (L : Nat) (sc : Scope) (rest : List Scope) : Prop where
  locals : ∀ (i : Nat) v, sc.locals.reverse[i]? = some v → v.var = some (.loc i)
  args : ∀ (i : Nat) v, sc.args.reverse[i]? = some v → v.var = some (.arg i)
  statics : ∀ (i : Nat) v, sc.statics[i]? = some v → v.var = some (.static i)
  allocated : sc.allocated = sc.locals.length
  types : ∀ v, v ∈ sc.vars → v.type < L
  link : ∀ cs, sc.captured = some cs → ∃ p rest', rest = p :: rest' ∧ All2 (fun v c => (tenv p).get c = some v.type) sc.statics cs

def ScsOk (L : Nat) : List Scope → Prop
  | [] => True
  | sc :: rest => ScOk L sc rest ∧ ScsOk L rest

theorem ScOk.mono {L L' : Nat} {sc : Scope} {rest : List Scope} (h : ScOk L sc rest) (hl : L ≤ L') : ScOk L' sc rest :=
  ⟨h.locals, h.args, h.statics, h.allocated, fun v hv => Nat.lt_of_lt_of_le (h.types v hv) hl, h.link⟩

theorem ScsOk.mono {L L' : Nat} (hl : L ≤ L') : {σ : List Scope} → ScsOk L σ → ScsOk L' σ
  | [], _ => trivial
  | _ :: _, h => ⟨h.1.mono hl, ScsOk.mono hl h.2⟩

/-- The scope is unchanged, its parents were used. -/
theorem ScOk.rest {L : Nat} {sc : Scope} {rest rest' : List Scope} (h : ScOk L sc rest) (hr : All2 ScSame rest rest') : ScOk L sc rest' := by
  refine ⟨h.locals, h.args, h.statics, h.allocated, h.types, fun cs hc => ?_⟩
  obtain ⟨p, r, rfl, h1⟩ := h.link cs hc
  cases hr with
  | cons h2 _ => exact ⟨_, _, rfl, h1.mono fun v c hv => h2.le.get _ _ hv⟩

/-- Variables of the scope are marked. -/
theorem ScOk.same {L : Nat} {sc sc' : Scope} {rest : List Scope} (h : ScOk L sc rest) (h1 : All2 VSame sc.locals sc'.locals) (h2 : All2 VSame sc.args sc'.args)
    (h3 : All2 VSame sc.statics sc'.statics) (h4 : sc'.allocated = sc.allocated) (h5 : sc'.captured = sc.captured) : ScOk L sc' rest := by
  refine ⟨fun i v hv => ?_, fun i v hv => ?_, fun i v hv => ?_, ?_, fun v hv => ?_, fun cs hc => ?_⟩
  · obtain ⟨w, hw, hs⟩ := all2_getElem?_right h1.reverse hv
    rw [hs.var]; exact h.locals i w hw
  · obtain ⟨w, hw, hs⟩ := all2_getElem?_right h2.reverse hv
    rw [hs.var]; exact h.args i w hw
  · obtain ⟨w, hw, hs⟩ := all2_getElem?_right h3 hv
    rw [hs.var]; exact h.statics i w hw
  · rw [h4, h.allocated, h1.length_eq]
  · obtain ⟨w, hw, hs⟩ := ((h1.append h2).append h3).mem_right hv
    rw [hs.type]; exact h.types w hw
  · rw [h5] at hc
    obtain ⟨p, r, e, h6⟩ := h.link cs hc
    exact ⟨p, r, e, All2.map_left h6 h3 fun a b c hab hac => by rw [hac.type]; exact hab⟩

theorem useFirst_same {x : VarName} {ph : Bool} : {vs vs' : List V} → {v : V} → useFirst x ph vs = some (v, vs') →
    All2 VSame vs vs' ∧ (∃ i : Nat, vs'[i]? = some v) ∧ (ph = false → v.var.isSome → v.used = true)
  | [], _, _, h => by simp [useFirst] at h
  | w :: vs, vs', v, h => by
    simp only [useFirst] at h
    split at h
    · rename_i hn
      simp only [Option.some.injEq, Prod.mk.injEq] at h
      obtain ⟨hv, hvs⟩ := h
      have hs : VSame w v := by subst hv; split <;> exact ⟨rfl, rfl, rfl, by simp⟩
      rw [hv] at hvs
      subst hvs
      refine ⟨.cons hs (All2.refl VSame.refl _), ⟨0, rfl⟩, ?_⟩
      intro hp hi
      rw [hs.var] at hi
      subst hp; subst hv; simp [hi]
    · cases hu : useFirst x ph vs with
      | none => rw [hu] at h; simp at h
      | some r =>
        obtain ⟨v1, vs1⟩ := r
        rw [hu] at h; simp at h
        obtain ⟨rfl, rfl⟩ := h
        obtain ⟨h1, ⟨i, h2⟩, h3⟩ := useFirst_same hu
        exact ⟨.cons (.refl _) h1, ⟨i + 1, h2⟩, h3⟩

theorem reverse_get {α : Type} {l : List α} {i : Nat} {a : α} (h : l[i]? = some a) : l.reverse[l.length - 1 - i]? = some a := by
  obtain ⟨h1, h2⟩ := List.getElem?_eq_some_iff.mp h
  rw [List.getElem?_reverse (by omega)]
  rw [show l.length - 1 - (l.length - 1 - i) = i by omega]; exact h

theorem tenv_local {L : Nat} {sc : Scope} {rest : List Scope} (h : ScOk L sc rest) {i : Nat} {v : V} (hv : sc.locals[i]? = some v) :
    ∃ c, v.var = some c ∧ (v.used = true → (tenv sc).get c = some v.type) := by
  have := reverse_get hv
  refine ⟨_, h.locals _ _ this, fun hu => ?_⟩
  simp only [TEnv.get, tenv, List.getElem?_map, this]
  simp [mask, hu]

theorem tenv_arg {L : Nat} {sc : Scope} {rest : List Scope} (h : ScOk L sc rest) {i : Nat} {v : V} (hv : sc.args[i]? = some v) :
    ∃ c, v.var = some c ∧ (tenv sc).get c = some v.type := by
  have := reverse_get hv
  refine ⟨_, h.args _ _ this, ?_⟩
  simp only [TEnv.get, tenv, List.getElem?_map, this]
  simp

theorem tenv_static {L : Nat} {sc : Scope} {rest : List Scope} (h : ScOk L sc rest) {i : Nat} {v : V} (hv : sc.statics[i]? = some v) :
    ∃ c, v.var = some c ∧ (tenv sc).get c = some v.type := by
  refine ⟨_, h.statics _ _ hv, ?_⟩
  simp only [TEnv.get, tenv, List.getElem?_map, hv]
  simp

theorem scSames_refl (σ : List Scope) : All2 ScSame σ σ := All2.refl ScSame.refl _

/-- A lookup finds a variable and its type. -/
theorem getVar_same {x : VarName} {L : Nat} : {σ σ' : List Scope} → {ph : Bool} → {v : V} → getVar x ph σ = some (v, σ') → ScsOk L σ →
    All2 ScSame σ σ' ∧ ScsOk L σ' ∧ v.type < L ∧ ∃ c, v.var = some c ∧ (ph = false → ∃ sc rest, σ' = sc :: rest ∧ (tenv sc).get c = some v.type)
  | [], _, _, _, h, _ => by simp [getVar] at h
  | sc :: rest, σ', ph, v, h, hok => by
    obtain ⟨hsc, hrest⟩ := hok
    have refl := fun vs : List V => All2.refl VSame.refl vs
    simp only [getVar] at h
    cases hl : useFirst x ph sc.locals with
    | some r =>
      obtain ⟨v1, vs⟩ := r
      rw [hl] at h; cases h
      obtain ⟨h1, ⟨i, h2⟩, h3⟩ := useFirst_same hl
      have hsc' : ScOk L { sc with locals := vs } rest := hsc.same h1 (refl _) (refl _) rfl rfl
      obtain ⟨c, hc, hg⟩ := tenv_local hsc' (i := i) h2
      refine ⟨.cons ⟨h1, refl _, ⟨sc.statics, [], by simp, refl _⟩, rfl, rfl⟩ (scSames_refl _), ⟨hsc', hrest⟩, ?_, c, hc, fun hp => ⟨_, _, rfl, hg (h3 hp (by simp [hc]))⟩⟩
      exact hsc'.types _ (by simp [Scope.vars, List.mem_of_getElem? h2])
    | none =>
    rw [hl] at h
    simp only at h
    cases ha : useFirst x ph sc.args with
    | some r =>
      obtain ⟨v1, vs⟩ := r
      rw [ha] at h; cases h
      obtain ⟨h1, ⟨i, h2⟩, h3⟩ := useFirst_same ha
      have hsc' : ScOk L { sc with args := vs } rest := hsc.same (refl _) h1 (refl _) rfl rfl
      obtain ⟨c, hc, hg⟩ := tenv_arg hsc' (i := i) h2
      refine ⟨.cons ⟨refl _, h1, ⟨sc.statics, [], by simp, refl _⟩, rfl, rfl⟩ (scSames_refl _), ⟨hsc', hrest⟩, ?_, c, hc, fun hp => ⟨_, _, rfl, hg⟩⟩
      exact hsc'.types _ (by simp [Scope.vars, List.mem_of_getElem? h2])
    | none =>
    rw [ha] at h
    simp only at h
    cases hs : useFirst x ph sc.statics with
    | some r =>
      obtain ⟨v1, vs⟩ := r
      rw [hs] at h; cases h
      obtain ⟨h1, ⟨i, h2⟩, h3⟩ := useFirst_same hs
      have hsc' : ScOk L { sc with statics := vs } rest := hsc.same (refl _) (refl _) h1 rfl rfl
      obtain ⟨c, hc, hg⟩ := tenv_static hsc' (i := i) h2
      refine ⟨.cons ⟨refl _, refl _, ⟨vs, [], by simp, h1⟩, rfl, rfl⟩ (scSames_refl _), ⟨hsc', hrest⟩, ?_, c, hc, fun hp => ⟨_, _, rfl, hg⟩⟩
      exact hsc'.types _ (by simp [Scope.vars, List.mem_of_getElem? h2])
    | none =>
    rw [hs] at h
    simp only at h
    cases hg : getVar x (sc.captured.isNone || ph) rest with
    | none => rw [hg] at h; cases h
    | some r =>
      obtain ⟨v1, rest1⟩ := r
      rw [hg] at h
      simp only at h
      obtain ⟨h1, h2, h3, c, h4, h5⟩ := getVar_same hg hrest
      have hsc1 := hsc.rest h1
      cases ph with
      | true =>
        simp only at h; cases h
        exact ⟨.cons (.refl _) h1, ⟨hsc1, h2⟩, h3, c, h4, fun hp => (by cases hp)⟩
      | false =>
        rw [h4] at h
        simp only at h; cases h
        refine ⟨.cons ⟨refl _, refl _, ⟨sc.statics, _, rfl, refl _⟩, rfl, by cases sc.captured <;> rfl⟩ h1, ⟨?_, h2⟩, h3, _, rfl, fun _ => ⟨_, _, rfl, by simp [TEnv.get, tenv]⟩⟩
        refine ⟨hsc1.locals, hsc1.args, ?_, hsc1.allocated, ?_, ?_⟩
        · intro i w hi
          simp only at hi
          by_cases hlt : i < sc.statics.length
          · rw [List.getElem?_append_left hlt] at hi; exact hsc1.statics i w hi
          · rw [List.getElem?_append_right (by omega)] at hi
            have : i - sc.statics.length = 0 := by
              rcases Nat.eq_zero_or_pos (i - sc.statics.length) with h | h
              · exact h
              · rw [List.getElem?_eq_none (by simp; omega)] at hi; cases hi
            rw [this] at hi
            simp at hi; subst hi
            simp; omega
        · intro w hw
          simp only [Scope.vars, List.mem_append, List.mem_singleton] at hw
          rcases hw with (hw | hw) | (hw | hw)
          · exact hsc1.types w (by simp [Scope.vars, hw])
          · exact hsc1.types w (by simp [Scope.vars, hw])
          · exact hsc1.types w (by simp [Scope.vars, hw])
          · subst hw; exact h3
        · intro cs hc
          simp only [Option.map_eq_some_iff] at hc
          obtain ⟨cs0, hc0, rfl⟩ := hc
          obtain ⟨p, r, rfl, h6⟩ := hsc1.link cs0 hc0
          obtain ⟨sc2, r2, e, h7⟩ := h5 (by simp [hc0])
          cases e
          exact ⟨_, _, rfl, h6.append (.cons h7 .nil)⟩

end Verif.Elab
