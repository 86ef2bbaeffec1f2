import Verif.Safe.Types
import Verif.Compile.EvalLemmas
/-
Types for the output of the type checker, and for values.  Types are read in a heap `H` in which all
packages are transparent.
-/
namespace Verif.Elab
open Types
open Compile (Var Tc Tcs Flds Brs Val St Res SFn SVal SRes Env unwrap)

/-- The types of the variables. -/
structure TEnv where
  statics : List Ptr
  args : List Ptr
  locals : List (Option Ptr)

def TEnv.get (E : TEnv) : Var → Option Ptr
  | .static i => E.statics[i]?
  | .arg i => E.args[i]?
  | .loc i => (E.locals[i]?).join

def TEnv.push (E : TEnv) (ls : List (Option Ptr)) : TEnv := { E with locals := E.locals ++ ls }

/-- `t` is the type of lists of `e`. -/
def IsList (H : Heap) (t e : Ptr) : Prop :=
  ∃ x1 x2 c z y1 y2 tail, IsNode H t (.data .union [(x1, c), (x2, z)]) ∧ IsNode H c (.data .struct [(y1, e), (y2, tail)]) ∧
    IsNode H z (.data .struct []) ∧ SameType H [] tail t

mutual
/-- An expression has a type. -/
def TcTy (H : Heap) : TEnv → Tc → Ptr → Prop
  | _, .typeVal, T => ∃ x, IsNode H T (.type x)
  | E, .var v, T => ∃ S, E.get v = some S ∧ SameType H [] S T
  | E, .letE r ds b, T => ∃ Ts Ts', TcsTy H (E.push (Ts.map fun t => if r then some t else none)) ds Ts ∧ All2 (SameType H []) Ts Ts' ∧
      TcTy H (E.push (Ts'.map some)) b T
  | E, .struct fs, T => ∃ fields, IsNode H T (.data .struct fields) ∧ TcsTy H E fs (fields.map (·.2))
  | E, .copy src fs, T => ∃ S fields, TcTy H E src S ∧ IsNode H S (.data .struct fields) ∧ SameType H [] S T ∧ FldsTy H E fs (fields.map (·.2))
  | E, .union tag a, T => ∃ fields x S, IsNode H T (.data .union fields) ∧ fields[tag]? = some (x, S) ∧ TcTy H E a S
  | E, .select c nt bs d, T => ∃ C fields, fields.length = nt ∧ TcTy H E c C ∧ IsNode H C (.data .union fields) ∧ BrsTy H E bs T ∧ TcTy H E d T
  | E, .access isUnion o i, T => ∃ O fields x S, TcTy H E o O ∧ IsNode H O (.data (if isUnion then .union else .struct) fields) ∧
      fields[i]? = some (x, S) ∧ SameType H [] S T
  | E, .func sc b, T => ∃ a r a0 r0 Ss, IsNode H T (.func a r) ∧ SameType H [] a a0 ∧ SameType H [] r0 r ∧
      All2 (fun v S => E.get v = some S) sc Ss ∧ TcTy H ⟨Ss, [a0], []⟩ b r0
  | E, .apply f a, T => ∃ F A R, TcTy H E f F ∧ IsNode H F (.func A R) ∧ TcTy H E a A ∧ SameType H [] R T
  | E, .list is, T => ∃ L e, IsList H L e ∧ SameType H [] L T ∧ TcsTy H E is (List.replicate is.length e)
  | _, .literal ls, T => ∃ L e fields, IsList H L e ∧ SameType H [] L T ∧ IsNode H e (.data .union fields) ∧
      ∀ l ∈ ls, ∃ x S, fields[l]? = some (x, S) ∧ IsNode H S (.data .struct [])
def TcsTy (H : Heap) : TEnv → Tcs → List Ptr → Prop
  | _, .nil, Ts => Ts = []
  | E, .cons t ts, Ts => ∃ T Ts', Ts = T :: Ts' ∧ TcTy H E t T ∧ TcsTy H E ts Ts'
def FldsTy (H : Heap) : TEnv → Flds → List Ptr → Prop
  | _, .nil, Ts => Ts = []
  | E, .keep fs, Ts => ∃ T Ts', Ts = T :: Ts' ∧ FldsTy H E fs Ts'
  | E, .set t fs, Ts => ∃ T Ts', Ts = T :: Ts' ∧ TcTy H E t T ∧ FldsTy H E fs Ts'
def BrsTy (H : Heap) : TEnv → Brs → Ptr → Prop
  | _, .nil, _ => True
  | E, .cons _ t bs, T => TcTy H E t T ∧ BrsTy H E bs T
end

theorem TcsTy.length {H E} : {ts : Tcs} → {Ts : List Ptr} → TcsTy H E ts Ts → Ts.length = ts.length
  | .nil, _, h => by simp only [TcsTy] at h; subst h; rfl
  | .cons t ts, _, h => by
    simp only [TcsTy] at h
    obtain ⟨T, Ts', rfl, _, h⟩ := h
    simp [Compile.Tcs.length, TcsTy.length h]

theorem All2.right_trans {α β γ : Type} {R : α → β → Prop} {S : β → γ → Prop} {Q : α → γ → Prop} (h : ∀ a b c, R a b → S b c → Q a c) : {as : List α} → {bs : List β} → {cs : List γ} →
    All2 R as bs → All2 S bs cs → All2 Q as cs
  | _, _, _, .nil, .nil => .nil
  | _, _, _, .cons h1 h2, .cons h3 h4 => .cons (h _ _ _ h1 h3) (All2.right_trans h h2 h4)

mutual
/-- The type of an expression may be replaced by the same type. -/
theorem TcTy.conv {H : Heap} : (t : Tc) → {E : TEnv} → {T T' : Ptr} → TcTy H E t T → SameType H [] T T' → TcTy H E t T'
  | .typeVal, E, T, T', h, hs => by
    simp only [TcTy] at h ⊢
    obtain ⟨x, h⟩ := h
    exact same_type hs h
  | .var v, E, T, T', h, hs => by
    simp only [TcTy] at h ⊢
    obtain ⟨S, h1, h2⟩ := h
    exact ⟨S, h1, h2.trans hs⟩
  | .letE r ds b, E, T, T', h, hs => by
    simp only [TcTy] at h ⊢
    obtain ⟨Ts, Ts', h1, h2, h3⟩ := h
    exact ⟨Ts, Ts', h1, h2, TcTy.conv b h3 hs⟩
  | .struct fs, E, T, T', h, hs => by
    simp only [TcTy] at h ⊢
    obtain ⟨fields, h1, h2⟩ := h
    obtain ⟨gs, h3, h4⟩ := same_data hs h1
    refine ⟨gs, h3, TcsTy.conv fs h2 ?_⟩
    clear h1 h2 h3
    induction h4 with
    | nil => exact .nil
    | cons h _ ih => exact .cons h.2 ih
  | .copy src fs, E, T, T', h, hs => by
    simp only [TcTy] at h ⊢
    obtain ⟨S, fields, h1, h2, h3, h4⟩ := h
    exact ⟨S, fields, h1, h2, h3.trans hs, h4⟩
  | .union tag a, E, T, T', h, hs => by
    simp only [TcTy] at h ⊢
    obtain ⟨fields, x, S, h1, h2, h3⟩ := h
    obtain ⟨gs, h4, h5⟩ := same_data hs h1
    obtain ⟨hlt, h2⟩ := List.getElem?_eq_some_iff.mp h2
    have hlt' : tag < gs.length := by rw [← h5.length_eq]; exact hlt
    have := h5.get tag hlt hlt'
    rw [h2] at this
    exact ⟨gs, (gs[tag]).1, (gs[tag]).2, h4, List.getElem?_eq_getElem hlt', TcTy.conv a h3 this.2⟩
  | .select c nt bs d, E, T, T', h, hs => by
    simp only [TcTy] at h ⊢
    obtain ⟨C, fields, h0, h1, h2, h3, h4⟩ := h
    exact ⟨C, fields, h0, h1, h2, BrsTy.conv bs h3 hs, TcTy.conv d h4 hs⟩
  | .access isUnion o i, E, T, T', h, hs => by
    simp only [TcTy] at h ⊢
    obtain ⟨O, fields, x, S, h1, h2, h3, h4⟩ := h
    exact ⟨O, fields, x, S, h1, h2, h3, h4.trans hs⟩
  | .func sc b, E, T, T', h, hs => by
    simp only [TcTy] at h ⊢
    obtain ⟨a, r, a0, r0, Ss, h1, h2, h3, h4, h5⟩ := h
    obtain ⟨a', r', h6, h7, h8⟩ := same_func hs h1
    exact ⟨a', r', a0, r0, Ss, h6, h7.symm.trans h2, h3.trans h8, h4, h5⟩
  | .apply f a, E, T, T', h, hs => by
    simp only [TcTy] at h ⊢
    obtain ⟨F, A, R, h1, h2, h3, h4⟩ := h
    exact ⟨F, A, R, h1, h2, h3, h4.trans hs⟩
  | .list is, E, T, T', h, hs => by
    simp only [TcTy] at h ⊢
    obtain ⟨L, e, h1, h2, h3⟩ := h
    exact ⟨L, e, h1, h2.trans hs, h3⟩
  | .literal ls, E, T, T', h, hs => by
    simp only [TcTy] at h ⊢
    obtain ⟨L, e, fields, h1, h2, h3⟩ := h
    exact ⟨L, e, fields, h1, h2.trans hs, h3⟩
theorem TcsTy.conv {H : Heap} : (ts : Tcs) → {E : TEnv} → {Ts Ts' : List Ptr} → TcsTy H E ts Ts → All2 (SameType H []) Ts Ts' → TcsTy H E ts Ts'
  | .nil, E, Ts, Ts', h, hs => by
    simp only [TcsTy] at h ⊢
    subst h; cases hs; rfl
  | .cons t ts, E, Ts, Ts', h, hs => by
    simp only [TcsTy] at h ⊢
    obtain ⟨T, Ts1, rfl, h1, h2⟩ := h
    cases hs with
    | cons hs1 hs2 => exact ⟨_, _, rfl, TcTy.conv t h1 hs1, TcsTy.conv ts h2 hs2⟩
theorem BrsTy.conv {H : Heap} : (bs : Brs) → {E : TEnv} → {T T' : Ptr} → BrsTy H E bs T → SameType H [] T T' → BrsTy H E bs T'
  | .nil, E, T, T', _, _ => by simp only [BrsTy]
  | .cons _ t bs, E, T, T', h, hs => by
    simp only [BrsTy] at h ⊢
    exact ⟨TcTy.conv t h.1 hs, BrsTy.conv bs h.2 hs⟩
end

/-- More variables may be used. -/
structure TEnv.Le (E E' : TEnv) : Prop where
  get : ∀ v S, E.get v = some S → E'.get v = some S
  locals : E'.locals.length = E.locals.length

theorem TEnv.Le.refl (E : TEnv) : TEnv.Le E E := ⟨fun _ _ h => h, rfl⟩
theorem TEnv.Le.trans {a b c : TEnv} (h : TEnv.Le a b) (h' : TEnv.Le b c) : TEnv.Le a c :=
  ⟨fun v S e => h'.get v S (h.get v S e), h'.locals.trans h.locals⟩

theorem TEnv.Le.push {E E' : TEnv} (h : TEnv.Le E E') (ls : List (Option Ptr)) : TEnv.Le (E.push ls) (E'.push ls) := by
  refine ⟨fun v S hv => ?_, by simp [TEnv.push, h.locals]⟩
  cases v with
  | static i => exact h.get (.static i) S hv
  | arg i => exact h.get (.arg i) S hv
  | loc i =>
    simp only [TEnv.get, TEnv.push] at hv ⊢
    by_cases hi : i < E.locals.length
    · rw [List.getElem?_append_left hi] at hv
      rw [List.getElem?_append_left (by rw [h.locals]; exact hi)]
      exact h.get (.loc i) S hv
    · rw [List.getElem?_append_right (by omega)] at hv
      rw [List.getElem?_append_right (by rw [h.locals]; omega), h.locals]
      exact hv

mutual
theorem TcTy.mono {H : Heap} : (t : Tc) → {E E' : TEnv} → {T : Ptr} → TEnv.Le E E' → TcTy H E t T → TcTy H E' t T
  | .typeVal, E, E', T, he, h => by simp only [TcTy] at h ⊢; exact h
  | .var v, E, E', T, he, h => by
    simp only [TcTy] at h ⊢
    obtain ⟨S, h1, h2⟩ := h
    exact ⟨S, he.get _ _ h1, h2⟩
  | .letE r ds b, E, E', T, he, h => by
    simp only [TcTy] at h ⊢
    obtain ⟨Ts, Ts', h1, h2, h3⟩ := h
    exact ⟨Ts, Ts', TcsTy.mono ds (he.push _) h1, h2, TcTy.mono b (he.push _) h3⟩
  | .struct fs, E, E', T, he, h => by
    simp only [TcTy] at h ⊢
    obtain ⟨fields, h1, h2⟩ := h
    exact ⟨fields, h1, TcsTy.mono fs he h2⟩
  | .copy src fs, E, E', T, he, h => by
    simp only [TcTy] at h ⊢
    obtain ⟨S, fields, h1, h2, h3, h4⟩ := h
    exact ⟨S, fields, TcTy.mono src he h1, h2, h3, FldsTy.mono fs he h4⟩
  | .union tag a, E, E', T, he, h => by
    simp only [TcTy] at h ⊢
    obtain ⟨fields, x, S, h1, h2, h3⟩ := h
    exact ⟨fields, x, S, h1, h2, TcTy.mono a he h3⟩
  | .select c nt bs d, E, E', T, he, h => by
    simp only [TcTy] at h ⊢
    obtain ⟨C, fields, h0, h1, h2, h3, h4⟩ := h
    exact ⟨C, fields, h0, TcTy.mono c he h1, h2, BrsTy.mono bs he h3, TcTy.mono d he h4⟩
  | .access isUnion o i, E, E', T, he, h => by
    simp only [TcTy] at h ⊢
    obtain ⟨O, fields, x, S, h1, h2⟩ := h
    exact ⟨O, fields, x, S, TcTy.mono o he h1, h2⟩
  | .func sc b, E, E', T, he, h => by
    simp only [TcTy] at h ⊢
    obtain ⟨a, r, a0, r0, Ss, h1, h2, h3, h4, h5⟩ := h
    exact ⟨a, r, a0, r0, Ss, h1, h2, h3, h4.mono fun v S hv => he.get v S hv, h5⟩
  | .apply f a, E, E', T, he, h => by
    simp only [TcTy] at h ⊢
    obtain ⟨F, A, R, h1, h2, h3, h4⟩ := h
    exact ⟨F, A, R, TcTy.mono f he h1, h2, TcTy.mono a he h3, h4⟩
  | .list is, E, E', T, he, h => by
    simp only [TcTy] at h ⊢
    obtain ⟨L, e, h1, h2, h3⟩ := h
    exact ⟨L, e, h1, h2, TcsTy.mono is he h3⟩
  | .literal ls, E, E', T, he, h => by simp only [TcTy] at h ⊢; exact h
theorem TcsTy.mono {H : Heap} : (ts : Tcs) → {E E' : TEnv} → {Ts : List Ptr} → TEnv.Le E E' → TcsTy H E ts Ts → TcsTy H E' ts Ts
  | .nil, E, E', Ts, he, h => by simp only [TcsTy] at h ⊢; exact h
  | .cons t ts, E, E', Ts, he, h => by
    simp only [TcsTy] at h ⊢
    obtain ⟨T, Ts1, rfl, h1, h2⟩ := h
    exact ⟨_, _, rfl, TcTy.mono t he h1, TcsTy.mono ts he h2⟩
theorem FldsTy.mono {H : Heap} : (ts : Flds) → {E E' : TEnv} → {Ts : List Ptr} → TEnv.Le E E' → FldsTy H E ts Ts → FldsTy H E' ts Ts
  | .nil, E, E', Ts, he, h => by simp only [FldsTy] at h ⊢; exact h
  | .keep fs, E, E', Ts, he, h => by
    simp only [FldsTy] at h ⊢
    obtain ⟨T, Ts1, rfl, h2⟩ := h
    exact ⟨_, _, rfl, FldsTy.mono fs he h2⟩
  | .set t ts, E, E', Ts, he, h => by
    simp only [FldsTy] at h ⊢
    obtain ⟨T, Ts1, rfl, h1, h2⟩ := h
    exact ⟨_, _, rfl, TcTy.mono t he h1, FldsTy.mono ts he h2⟩
theorem BrsTy.mono {H : Heap} : (bs : Brs) → {E E' : TEnv} → {T : Ptr} → TEnv.Le E E' → BrsTy H E bs T → BrsTy H E' bs T
  | .nil, E, E', T, _, _ => by simp only [BrsTy]
  | .cons _ t bs, E, E', T, he, h => by
    simp only [BrsTy] at h ⊢
    exact ⟨TcTy.mono t he h.1, BrsTy.mono bs he h.2⟩
end

/-! ### Values -/

/-- `F` takes arguments of these types, one at a time, and gives `T`. -/
inductive Arrows (H : Heap) : Ptr → List Ptr → Ptr → Prop where
  | nil {F T} : SameType H [] F T → Arrows H F [] T
  | cons {F A A' R As T} : IsNode H F (.func A' R) → SameType H [] A A' → Arrows H R As T → Arrows H F (A :: As) T

theorem Arrows.snoc {H : Heap} {F As G A R T} (h : Arrows H F As G) (hG : IsNode H G (.func A R)) (hR : SameType H [] R T) : Arrows H F (As ++ [A]) T := by
  induction h with
  | nil hs =>
    obtain ⟨A', R', h1, h2, h3⟩ := same_func hs.symm hG
    exact .cons h1 h2 (.nil (h3.symm.trans hR))
  | cons h1 h2 _ ih => exact .cons h1 h2 (ih hG)

theorem Arrows.conv {H : Heap} {F As G T} (h : Arrows H F As G) (hs : SameType H [] G T) : Arrows H F As T := by
  induction h with
  | nil h => exact .nil (h.trans hs)
  | cons h1 h2 _ ih => exact .cons h1 h2 (ih hs)

/-- A function type of at least so many arguments. -/
def Takes (H : Heap) : Nat → Ptr → Prop
  | 0, _ => True
  | n + 1, T => ∃ A R, IsNode H T (.func A R) ∧ Takes H n R

theorem Takes.conv {H : Heap} : (n : Nat) → {T T' : Ptr} → Takes H n T → SameType H [] T T' → Takes H n T'
  | 0, _, _, _, _ => trivial
  | n + 1, _, _, ⟨A, R, h1, h2⟩, hs => by
    obtain ⟨A', R', h3, h4, h5⟩ := same_func hs h1
    exact ⟨A', R', h3, h2.conv n h5⟩

/-- What there is outside of the program: functions implemented in C with their numbers of arguments and their types, and what they return. -/
class Natives where
  sig : Nat → Nat → Ptr → Prop
  answer : List Compile.Call → Compile.Reply

section
variable [N : Natives]

/-- A value has a type; `Γ` are the types of the references. -/
inductive VT (H : Heap) (Γ : List Ptr) : SVal → Ptr → Prop where
  | type {T x} : IsNode H T (.type x) → VT H Γ .type T
  | struct {vs T fields} : IsNode H T (.data .struct fields) → vs.length = fields.length →
      (∀ (i : Nat) v f, vs[i]? = some v → fields[i]? = some f → VT H Γ v f.2) → VT H Γ (.struct vs) T
  | union {tag v T fields x S} : IsNode H T (.data .union fields) → fields[tag]? = some (x, S) → VT H Γ v S → VT H Γ (.union tag v) T
  | ref {r S T} : Γ[r]? = some S → SameType H [] S T → VT H Γ (.ref r) T
  | fn {body vs T a r a0 r0 Ss} : IsNode H T (.func a r) → SameType H [] a a0 → SameType H [] r0 r → vs.length = Ss.length →
      (∀ (i : Nat) v S, vs[i]? = some v → Ss[i]? = some S → VT H Γ v S) → TcTy H ⟨Ss, [a0], []⟩ body r0 → VT H Γ (.fn (.clo body vs)) T
  | native {op more vs T0 Ss T} : N.sig op (vs.length + (more + 1)) T0 → Arrows H T0 Ss T → Takes H (more + 1) T → vs.length = Ss.length →
      (∀ (i : Nat) v S, vs[i]? = some v → Ss[i]? = some S → VT H Γ v S) → VT H Γ (.fn (.native op more vs)) T

theorem VT.conv {H Γ v T} (h : VT H Γ v T) : ∀ {T'}, SameType H [] T T' → VT H Γ v T' := by
  induction h with
  | type h =>
    intro T' hs
    obtain ⟨x, h⟩ := same_type hs h
    exact .type h
  | @struct vs T fields h hl hv ih =>
    intro T' hs
    obtain ⟨gs, h3, h4⟩ := same_data hs h
    refine .struct h3 (hl.trans h4.length_eq) fun i v g hi hg => ?_
    obtain ⟨hlt, hg'⟩ := List.getElem?_eq_some_iff.mp hg
    have hlt' : i < fields.length := by rw [h4.length_eq]; exact hlt
    have := h4.get i hlt' hlt
    rw [hg'] at this
    exact ih i v _ hi (List.getElem?_eq_getElem hlt') this.2
  | @union tag v T fields x S h hf hv ih =>
    intro T' hs
    obtain ⟨gs, h3, h4⟩ := same_data hs h
    obtain ⟨hlt, hf'⟩ := List.getElem?_eq_some_iff.mp hf
    have hlt' : tag < gs.length := by rw [← h4.length_eq]; exact hlt
    have := h4.get tag hlt hlt'
    rw [hf'] at this
    exact .union h3 (x := (gs[tag]).1) (S := (gs[tag]).2) (List.getElem?_eq_getElem hlt') (ih this.2)
  | ref h1 h2 => intro T' hs; exact .ref h1 (h2.trans hs)
  | fn h1 h2 h3 h4 h5 h6 =>
    intro T' hs
    obtain ⟨a', r', h7, h8, h9⟩ := same_func hs h1
    exact .fn h7 (h8.symm.trans h2) (h3.trans h9) h4 h5 h6
  | native h1 h2 h3 h4 h5 =>
    intro T' hs
    exact .native h1 (h2.conv hs) (h3.conv _ hs) h4 h5

theorem VT.more {H Γ v T} (h : VT H Γ v T) {Γ'} (hp : Γ <+: Γ') : VT H Γ' v T := by
  induction h with
  | type h => exact .type h
  | struct h hl _ ih => exact .struct h hl ih
  | union h hf _ ih => exact .union h hf ih
  | ref h1 h2 =>
    refine .ref ?_ h2
    obtain ⟨x, rfl⟩ := hp
    rw [List.getElem?_append_left (List.getElem?_eq_some_iff.mp h1).1]; exact h1
  | fn h1 h2 h3 h4 _ h6 ih => exact .fn h1 h2 h3 h4 ih h6
  | native h1 h2 h3 h4 _ ih => exact .native h1 h2 h3 h4 ih

/-! ### References -/

/-- How many references have a value. -/
def asg {F} (refs : List (Option (Val F))) : Nat := refs.countP (·.isSome)

theorem asg_le {F} (refs : List (Option (Val F))) : asg refs ≤ refs.length := List.countP_le_length

theorem unwrap_more {F} {refs : List (Option (Val F))} : (n m : Nat) → n ≤ m → {v u : Val F} → unwrap refs n v = some u → unwrap refs m v = some u
  | 0, _, _, v, u, h => by simp [unwrap] at h
  | n + 1, m + 1, hm, v, u, h => by
    cases v with
    | ref r =>
      simp only [unwrap] at h ⊢
      split at h
      · exact unwrap_more n m (by omega) h
      · exact h
      · cases h
    | _ => simp only [unwrap] at h ⊢; exact h

/-- It is no reference that has a value. -/
def Ended {F} (refs : List (Option (Val F))) (u : Val F) : Prop := ∀ r, u = .ref r → refs[r]? = some none

theorem unwrap_ended {F} {refs : List (Option (Val F))} : (n : Nat) → {v u : Val F} → unwrap refs n v = some u → Ended refs u
  | 0, v, u, h => by simp [unwrap] at h
  | n + 1, v, u, h => by
    cases v with
    | ref r =>
      simp only [unwrap] at h
      split at h
      · exact unwrap_ended n h
      · rename_i h1; cases h; intro r' e; cases e; exact h1
      · cases h
    | _ => simp only [unwrap] at h; cases h; intro r e; cases e

theorem Ended.unwrap {F} {refs : List (Option (Val F))} {u : Val F} (h : Ended refs u) (n : Nat) : Compile.unwrap refs (n + 1) u = some u := by
  cases u with
  | ref r => simp [Compile.unwrap, h r rfl]
  | _ => rfl

theorem unwrap_set {F} {refs : List (Option (Val F))} {i : Nat} {u : Val F} (hi : refs[i]? = some none) (hu : Ended refs u) (hne : u ≠ .ref i) :
    (n : Nat) → {v w : Val F} → unwrap refs n v = some w → ∃ w', unwrap (refs.set i (some u)) (n + 1) v = some w'
  | 0, v, w, h => by simp [unwrap] at h
  | n + 1, v, w, h => by
    have hend : Ended (refs.set i (some u)) u := by
      intro r e
      have := hu r e
      have hri : i ≠ r := by rintro rfl; exact hne e
      rw [List.getElem?_set_ne hri]; exact this
    cases v with
    | ref r =>
      by_cases hr : r = i
      · subst hr
        have hlt := (List.getElem?_eq_some_iff.mp hi).1
        refine ⟨u, ?_⟩
        simp only [unwrap, List.getElem?_set_self hlt]
        exact hend.unwrap n
      · simp only [unwrap] at h
        rw [unwrap, List.getElem?_set_ne (fun e => hr e.symm)]
        split at h
        · rename_i v' hv'
          exact unwrap_set hi hu hne n h
        · exact ⟨_, rfl⟩
        · cases h
    | _ => exact ⟨_, rfl⟩

theorem asg_set {F} {refs : List (Option (Val F))} {i : Nat} {u : Val F} (hi : refs[i]? = some none) : asg (refs.set i (some u)) = asg refs + 1 := by
  unfold asg
  induction refs generalizing i with
  | nil => simp at hi
  | cons x xs ih =>
    cases i with
    | zero =>
      simp at hi; subst hi
      simp
    | succ i =>
      simp at hi
      simp only [List.set_cons_succ, List.countP_cons, ih hi]
      omega

/-- The references have values of their types. -/
structure StoreOk (H : Heap) (Γ : List Ptr) (refs : List (Option SVal)) : Prop where
  len : Γ.length = refs.length
  ty : ∀ (r : Nat) v T, refs[r]? = some (some v) → Γ[r]? = some T → VT H Γ v T
  ends : ∀ v, (∀ r, v = .ref r → r < refs.length) → ∃ u, unwrap refs (asg refs + 1) v = some u

theorem VT.inRange {H Γ v T} (h : VT H Γ v T) : ∀ r, v = .ref r → r < Γ.length := by
  rintro r rfl
  cases h with
  | ref h1 _ => exact (List.getElem?_eq_some_iff.mp h1).1

theorem unwrap_ty {H Γ refs} (hs : StoreOk H Γ refs) : (n : Nat) → {v u : SVal} → {T : Ptr} → VT H Γ v T → unwrap refs n v = some u → VT H Γ u T
  | 0, v, u, T, _, h => by simp [unwrap] at h
  | n + 1, v, u, T, hv, h => by
    cases v with
    | ref r =>
      simp only [unwrap] at h
      cases hv with
      | ref h1 h2 =>
        split at h
        · rename_i v' hv'
          exact unwrap_ty hs n ((hs.ty r v' _ hv' h1).conv h2) h
        · cases h; exact .ref h1 h2
        · cases h
    | _ => simp only [unwrap] at h; cases h; exact hv

theorem StoreOk.unwrap {H Γ refs} (hs : StoreOk H Γ refs) {v : SVal} {T : Ptr} (hv : VT H Γ v T) :
    ∃ u, Compile.unwrap refs (refs.length + 1) v = some u ∧ VT H Γ u T ∧ Ended refs u := by
  obtain ⟨u, hu⟩ := hs.ends v (by have := hv.inRange; rw [hs.len] at this; exact this)
  have h1 := unwrap_more _ (refs.length + 1) (by have := asg_le refs; omega) hu
  exact ⟨u, h1, unwrap_ty hs _ hv h1, unwrap_ended _ h1⟩

theorem StoreOk.new {H Γ refs} (hs : StoreOk H Γ refs) (Ts : List Ptr) : StoreOk H (Γ ++ Ts) (refs ++ List.replicate Ts.length none) := by
  have hcount : asg (refs ++ List.replicate Ts.length (none : Option SVal)) = asg refs := by
    unfold asg
    rw [List.countP_append, List.countP_replicate]; simp
  refine ⟨by simp [hs.len], ?_, ?_⟩
  · intro r v T h1 h2
    by_cases hr : r < refs.length
    · rw [List.getElem?_append_left hr] at h1
      rw [List.getElem?_append_left (by rw [hs.len]; exact hr)] at h2
      exact (hs.ty r v T h1 h2).more (List.prefix_append _ _)
    · rw [List.getElem?_append_right (by omega), List.getElem?_replicate] at h1
      split at h1 <;> cases h1
  · intro v hv
    rw [hcount]
    have key : ∀ n (v : SVal) u, Compile.unwrap refs n v = some u → Compile.unwrap (refs ++ List.replicate Ts.length none) n v = some u := by
      intro n
      induction n with
      | zero => intro v u h; simp [Compile.unwrap] at h
      | succ n ih =>
        intro v u h
        cases v with
        | ref r =>
          simp only [Compile.unwrap] at h ⊢
          have hr : r < refs.length := by
            rcases Nat.lt_or_ge r refs.length with hr | hr
            · exact hr
            · rw [List.getElem?_eq_none hr] at h; cases h
          rw [List.getElem?_append_left hr]
          split at h
          · rename_i v' hv'; rw [hv']; exact ih _ _ h
          · rename_i hv'; rw [hv']; exact h
          · cases h
        | _ => simp only [Compile.unwrap] at h ⊢; exact h
    by_cases hin : ∀ r, v = .ref r → r < refs.length
    · obtain ⟨u, hu⟩ := hs.ends v hin
      exact ⟨u, key _ _ _ hu⟩
    · simp only [not_forall] at hin
      obtain ⟨r, rfl, hr⟩ := hin
      have := hv r rfl
      refine ⟨.ref r, ?_⟩
      simp only [Compile.unwrap]
      rw [List.getElem?_append_right (by omega), List.getElem?_replicate, if_pos (by simp at this; omega)]

theorem StoreOk.set {H Γ refs} (hs : StoreOk H Γ refs) {i : Nat} {u : SVal} {T : Ptr} (hi : refs[i]? = some none) (hT : Γ[i]? = some T) (hu : Ended refs u)
    (hne : u ≠ .ref i) (hv : VT H Γ u T) : StoreOk H Γ (refs.set i (some u)) := by
  refine ⟨by simp [hs.len], ?_, ?_⟩
  · intro r v T' h1 h2
    by_cases hr : i = r
    · subst hr
      rw [List.getElem?_set_self (List.getElem?_eq_some_iff.mp hi).1] at h1
      cases h1
      rw [hT] at h2; cases h2
      exact hv
    · rw [List.getElem?_set_ne hr] at h1
      exact hs.ty r v T' h1 h2
  · intro v hin
    rw [asg_set hi]
    obtain ⟨w, hw⟩ := hs.ends v (by simpa using hin)
    exact unwrap_set hi hu hne _ hw

end
end Verif.Elab
