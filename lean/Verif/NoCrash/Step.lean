import Verif.NoCrash.Ends
/-
Steps of the type checker that do not crash.
-/
namespace Verif.NoCrash
open Types Elab
open Compile (Var Tc)

/-! ### Scopes -/

def nt (v : V) : VarName × Ptr := (v.name, v.type)

/-- The types of all variables. -/
def ScIn (G : Ptr → Prop) (σ : List Scope) : Prop := ∀ sc ∈ σ, ∀ v ∈ sc.vars, G v.type

/-- The same variables with the same types; more variables may have been captured. -/
inductive Rel : List Scope → List Scope → Prop where
  | nil : Rel [] []
  | cons {a b : Scope} {σ σ' : List Scope} : b.locals.map nt = a.locals.map nt → b.args.map nt = a.args.map nt →
      (∀ G : Ptr → Prop, ScIn G σ → (∀ v ∈ a.statics, G v.type) → ∀ v ∈ b.statics, G v.type) → Rel σ σ' → Rel (a :: σ) (b :: σ')

theorem Rel.refl : (σ : List Scope) → Rel σ σ
  | [] => .nil
  | _ :: σ => .cons rfl rfl (fun _ _ h => h) (Rel.refl σ)

theorem types_of_nt {a b : List V} (h : b.map nt = a.map nt) {G : Ptr → Prop} (ha : ∀ v ∈ a, G v.type) : ∀ v ∈ b, G v.type := by
  intro v hv
  have : nt v ∈ a.map nt := by rw [← h]; exact List.mem_map.mpr ⟨v, hv, rfl⟩
  obtain ⟨w, hw, e⟩ := List.mem_map.mp this
  have : w.type = v.type := congrArg Prod.snd e
  rw [← this]
  exact ha w hw

theorem Rel.scIn {σ σ' : List Scope} (h : Rel σ σ') {G : Ptr → Prop} (hG : ScIn G σ) : ScIn G σ' := by
  induction h with
  | nil => exact hG
  | @cons a b σ σ' h1 h2 h3 _ ih =>
    have hr : ScIn G σ := fun sc hsc => hG sc (by simp [hsc])
    have ha := hG a (by simp)
    intro sc hsc v hv
    rcases List.mem_cons.mp hsc with rfl | hsc
    · simp only [Scope.vars, List.mem_append] at hv
      rcases hv with (hv | hv) | hv
      · exact types_of_nt h1 (fun v hv => ha v (by simp [Scope.vars, hv])) v hv
      · exact types_of_nt h2 (fun v hv => ha v (by simp [Scope.vars, hv])) v hv
      · exact h3 G hr (fun v hv => ha v (by simp [Scope.vars, hv])) v hv
    · exact ih hr sc hsc v hv

theorem Rel.trans {a b c : List Scope} (h : Rel a b) (h' : Rel b c) : Rel a c := by
  induction h generalizing c with
  | nil => exact h'
  | cons h1 h2 h3 hr ih =>
    cases h' with
    | cons g1 g2 g3 gr => exact .cons (g1.trans h1) (g2.trans h2) (fun G hG hs => g3 G (hr.scIn hG) (h3 G hG hs)) (ih gr)

theorem Rel.ne {a b : List Scope} (h : Rel a b) (ha : a ≠ []) : b ≠ [] := by
  cases h with
  | nil => exact ha
  | cons => simp

/-- The module is an argument of one of the scopes. -/
def HasMod (p : List Name) (σ : List Scope) : Prop := ∃ sc ∈ σ, VarName.module p ∈ sc.args.map (·.name)

theorem Rel.hasMod {a b : List Scope} (h : Rel a b) {p : List Name} (hp : HasMod p a) : HasMod p b := by
  induction h with
  | nil => exact hp
  | @cons a b σ σ' _ h2 _ _ ih =>
    obtain ⟨sc, h3, h4⟩ := hp
    rcases List.mem_cons.mp h3 with rfl | h3
    · refine ⟨b, by simp, ?_⟩
      have : b.args.map (·.name) = sc.args.map (·.name) := by
        have := congrArg (List.map Prod.fst) h2
        simpa [List.map_map, Function.comp_def, nt] using this
      rw [this]
      exact h4
    · obtain ⟨x, hx, hy⟩ := ih ⟨sc, h3, h4⟩
      exact ⟨x, by simp [hx], hy⟩

theorem useFirst_nt {x : VarName} {ph : Bool} {vs vs' : List V} {v : V} (h : useFirst x ph vs = some (v, vs')) : vs'.map nt = vs.map nt ∧ v ∈ vs' := by
  obtain ⟨h1, ⟨i, h2⟩, -⟩ := useFirst_same h
  refine ⟨?_, List.mem_of_getElem? h2⟩
  clear h h2
  induction h1 with
  | nil => rfl
  | cons hs _ ih => simp [ih, nt, hs.name, hs.type]

theorem getVar_rel {x : VarName} : {σ σ' : List Scope} → {ph : Bool} → {v : V} → getVar x ph σ = some (v, σ') →
    Rel σ σ' ∧ ∀ G, ScIn G σ → G v.type
  | [], _, _, _, h => by simp [getVar] at h
  | sc :: rest, σ', ph, v, h => by
    simp only [getVar] at h
    cases hl : useFirst x ph sc.locals with
    | some r =>
      obtain ⟨v1, vs⟩ := r
      rw [hl] at h; cases h
      obtain ⟨h1, h2⟩ := useFirst_nt hl
      exact ⟨.cons h1 rfl (fun _ _ h => h) (.refl _), fun G hG => types_of_nt h1 (fun v hv => hG sc (by simp) v (by simp [Scope.vars, hv])) v h2⟩
    | none =>
    rw [hl] at h
    simp only at h
    cases ha : useFirst x ph sc.args with
    | some r =>
      obtain ⟨v1, vs⟩ := r
      rw [ha] at h; cases h
      obtain ⟨h1, h2⟩ := useFirst_nt ha
      exact ⟨.cons rfl h1 (fun _ _ h => h) (.refl _), fun G hG => types_of_nt h1 (fun v hv => hG sc (by simp) v (by simp [Scope.vars, hv])) v h2⟩
    | none =>
    rw [ha] at h
    simp only at h
    cases hs : useFirst x ph sc.statics with
    | some r =>
      obtain ⟨v1, vs⟩ := r
      rw [hs] at h; cases h
      obtain ⟨h1, h2⟩ := useFirst_nt hs
      exact ⟨.cons rfl rfl (fun G _ h => types_of_nt h1 h) (.refl _), fun G hG => types_of_nt h1 (fun v hv => hG sc (by simp) v (by simp [Scope.vars, hv])) v h2⟩
    | none =>
    rw [hs] at h
    simp only at h
    cases hg : getVar x (sc.captured.isNone || ph) rest with
    | none => rw [hg] at h; cases h
    | some r =>
      obtain ⟨v1, rest1⟩ := r
      rw [hg] at h
      simp only at h
      obtain ⟨h1, h2⟩ := getVar_rel hg
      have same : Rel (sc :: rest) (sc :: rest1) ∧ ∀ G, ScIn G (sc :: rest) → G v1.type :=
        ⟨.cons rfl rfl (fun _ _ h => h) h1, fun G hG => h2 G fun sc hsc => hG sc (by simp [hsc])⟩
      cases ph with
      | true => simp only at h; cases h; exact same
      | false =>
        cases hv : v1.var with
        | none => rw [hv] at h; simp only at h; cases h; exact same
        | some c =>
          rw [hv] at h
          simp only at h; cases h
          refine ⟨.cons rfl rfl (fun G hG hs v hv => ?_) h1, fun G hG => h2 G fun sc hsc => hG sc (by simp [hsc])⟩
          simp only [List.mem_append, List.mem_singleton] at hv
          rcases hv with hv | rfl
          · exact hs v hv
          · exact h2 G hG

theorem getVar_mod {p : List Name} : {σ : List Scope} → (ph : Bool) → HasMod p σ → getVar (.module p) ph σ ≠ none
  | [], _, h => by obtain ⟨_, h, _⟩ := h; cases h
  | sc :: rest, ph, h => by
    simp only [getVar]
    cases hl : useFirst (.module p) ph sc.locals with
    | some r => simp
    | none =>
    cases ha : useFirst (.module p) ph sc.args with
    | some r => simp
    | none =>
    cases hs : useFirst (.module p) ph sc.statics with
    | some r => simp
    | none =>
    simp only
    obtain ⟨x, hx, hm⟩ := h
    rcases List.mem_cons.mp hx with rfl | hx
    · rw [useFirst_none, Elab.first, List.find?_eq_none] at ha
      obtain ⟨v, hv, e⟩ := List.mem_map.mp hm
      exact absurd e (by simpa using ha v hv)
    · cases hg : getVar (.module p) (sc.captured.isNone || ph) rest with
      | none => exact absurd hg (getVar_mod _ ⟨x, hx, hm⟩)
      | some r =>
        simp only
        split <;> simp

/-! ### Steps -/

/-- Comparing costs. -/
macro "cost" : tactic => `(tactic| first | omega | (simp only [List.map_cons, List.sum_cons]; omega))

/-- A state in which an expression that refers to the modules of `D` can be checked. -/
structure Ready (D : List (List Name)) (s : S) : Prop where
  pre : Pre s.heap
  types : ScIn (Fin s.heap) s.scopes
  ne : s.scopes ≠ []
  mods : ∀ p ∈ D, HasMod p s.scopes

/-- The step does not crash, ends if there is fuel for `c` more types, adds at most that many types, leaves the variables, and has a result for which `Q` holds. -/
def Does {α : Type} (n c : Nat) (s : S) (m : TM α) (Q : S → α → Prop) : Prop :=
  m s ≠ .fail ∧ (m s = .more → n < need (s.heap.length + c)) ∧
    ∀ s' a, m s = .ok (s', a) → s'.heap.length ≤ s.heap.length + c ∧ Pre s'.heap ∧ s.heap <+: s'.heap ∧ Rel s.scopes s'.scopes ∧ Q s' a

theorem Ready.next {D : List (List Name)} {s s' : S} (h : Ready D s) (h1 : Pre s'.heap) (h2 : s.heap <+: s'.heap) (h3 : Rel s.scopes s'.scopes) : Ready D s' :=
  ⟨h1, fun sc hsc v hv => (h3.scIn h.types sc hsc v hv).prefix h.pre h2, h3.ne h.ne, fun p hp => h3.hasMod (h.mods p hp)⟩

section
variable {α β : Type} {D : List (List Name)} {s : S} {n c : Nat}

theorem Does.bind {c1 : Nat} {m : TM α} {f : α → TM β} {Q : S → α → Prop} {Q' : S → β → Prop} (hs : Ready D s) (hm : Does n c1 s m Q)
    (hf : ∀ s' a, Ready D s' → s.heap <+: s'.heap → Q s' a → Does n (c - c1) s' (f a) Q') (hc : c1 ≤ c := by cost) : Does n c s (m >>= f) Q' := by
  obtain ⟨h1, h2, h3⟩ := hm
  cases hr : m s with
  | fail => exact absurd hr h1
  | more =>
    have : (m >>= f) s = .more := by show (m s).bind _ = _; rw [hr]; rfl
    exact ⟨by rw [this]; simp, fun _ => Nat.lt_of_lt_of_le (h2 hr) (need_mono (by omega)), by rw [this]; intro _ _ h; cases h⟩
  | ok x =>
    obtain ⟨s1, a⟩ := x
    obtain ⟨g5, g1, g2, g3, g4⟩ := h3 s1 a hr
    have : (m >>= f) s = f a s1 := by show (m s).bind _ = _; rw [hr]; rfl
    obtain ⟨k1, k2, k3⟩ := hf s1 a (hs.next g1 g2 g3) g2 g4
    refine ⟨by rw [this]; exact k1, fun hb => ?_, fun s' b hb => ?_⟩
    · rw [this] at hb
      exact Nat.lt_of_lt_of_le (k2 hb) (need_mono (by omega))
    · rw [this] at hb
      obtain ⟨q5, q1, q2, q3, q4⟩ := k3 s' b hb
      exact ⟨by omega, q1, g2.trans q2, g3.trans q3, q4⟩

theorem Does.weaken {c' : Nat} {m : TM α} {Q : S → α → Prop} (h : Does n c' s m Q) (hc : c' ≤ c := by cost) : Does n c s m Q :=
  ⟨h.1, fun e => Nat.lt_of_lt_of_le (h.2.1 e) (need_mono (by omega)), fun s' a e => by
    obtain ⟨h5, h1, h2, h3, h4⟩ := h.2.2 s' a e
    exact ⟨by omega, h1, h2, h3, h4⟩⟩

theorem Does.ok {m : TM α} {s' : S} {a : α} {Q : S → α → Prop} (h : m s = .ok (s', a)) (h1 : Pre s'.heap) (h2 : s.heap <+: s'.heap) (h3 : Rel s.scopes s'.scopes)
    (h4 : s'.heap.length ≤ s.heap.length + c) (hq : Q s' a) : Does n c s m Q :=
  ⟨by rw [h]; simp, (by rw [h]; intro e; cases e), fun s2 b e => by rw [h] at e; cases e; exact ⟨h4, h1, h2, h3, hq⟩⟩

theorem Does.pure {a : α} {Q : S → α → Prop} (hs : Ready D s) (h : Q s a) : Does n c s (Pure.pure a : TM α) Q :=
  .ok rfl hs.pre List.prefix_rfl (.refl _) (by omega) h

theorem Does.mono {m : TM α} {Q Q' : S → α → Prop} (h : Does n c s m Q) (hQ : ∀ s' a, Pre s'.heap → s.heap <+: s'.heap → Q s' a → Q' s' a) : Does n c s m Q' :=
  ⟨h.1, h.2.1, fun s' a e => by
    obtain ⟨h5, h1, h2, h3, h4⟩ := h.2.2 s' a e
    exact ⟨h5, h1, h2, h3, hQ s' a h1 h2 h4⟩⟩

theorem Does.readH {f : Heap → R α} {Q : S → α → Prop} (hs : Ready D s) (hm : f s.heap = .more → n < need s.heap.length) (h : f s.heap = .more ∨ ∃ a, f s.heap = .ok a ∧ Q s a) :
    Does n c s (readH f) Q := by
  rcases h with h | ⟨a, h, hq⟩
  · have : Elab.readH f s = .more := by show R.bind _ _ = _; rw [h]; rfl
    exact ⟨by rw [this]; simp, fun _ => Nat.lt_of_lt_of_le (hm h) (need_mono (by omega)), by rw [this]; intro _ _ h; cases h⟩
  · exact .ok (s' := s) (by show R.bind _ _ = _; rw [h]; rfl) hs.pre List.prefix_rfl (.refl _) (by omega) hq

theorem Does.liftH {f : Heap → R (Heap × α)} {Q : S → α → Prop} (hs : Ready D s) (hm : f s.heap = .more → n < need s.heap.length) (h : f s.heap = .more ∨ ∃ a, f s.heap = .ok (s.heap, a) ∧ Q s a) :
    Does n c s (liftH f) Q := by
  rcases h with h | ⟨a, h, hq⟩
  · have : Elab.liftH f s = .more := by show R.bind _ _ = _; rw [h]; rfl
    exact ⟨by rw [this]; simp, fun _ => Nat.lt_of_lt_of_le (hm h) (need_mono (by omega)), by rw [this]; intro _ _ h; cases h⟩
  · exact .ok (s' := s) (by show R.bind _ _ = _; rw [h]; rfl) hs.pre List.prefix_rfl (.refl _) (by omega) hq

theorem Does.alloc {nd : Node} {Q : S → Ptr → Prop} (hs : Ready D s) (hn : NodeIn s.heap nd) (hv : ∀ k v, nd ≠ .var k v)
    (hk : ∀ c ∈ kids nd, Fin s.heap c)
    (hq : ∀ s' p, s.heap <+: s'.heap → Fin s'.heap p → s'.heap[p]? = some nd → Q s' p) : Does n 1 s (alloc nd) Q :=
  .ok (s' := { s with heap := (new s.heap nd).1 }) (a := (new s.heap nd).2) rfl (hs.pre.new hn (fun k v e => absurd e (hv k v))) (new_prefix _ _) (.refl _) (by simp [Types.new])
    (hq _ _ (new_prefix _ _) (Fin.new hs.pre hk (fun k w => hv k _)) (new_get _ _))

theorem Does.more {Q : S → α → Prop} : Does 0 c s (fun _ => .more) Q := ⟨by simp, fun _ => by have := need_ge (s.heap.length + c); omega, by intro _ _ h; cases h⟩

/-- One call deeper. -/
theorem Does.deeper {m : TM α} {Q : S → α → Prop} (h : Does n c s m Q) : Does (n + 1) (c + 1) s m Q := by
  refine ⟨h.1, fun e => ?_, fun s' a e => ?_⟩
  · have h1 := h.2.1 e
    have h2 := need_succ (s.heap.length + c)
    have : s.heap.length + (c + 1) = s.heap.length + c + 1 := by omega
    rw [this]
    omega
  · obtain ⟨h5, h1, h2, h3, h4⟩ := h.2.2 s' a e
    exact ⟨by omega, h1, h2, h3, h4⟩

/-- Reading a type. -/
theorem Does.get {p : Ptr} {Q : S → Node → Prop} (hs : Ready D s) (hp : Fin s.heap p) (h : ∀ n, s.heap[p]? = some n → Q s n) : Does n 0 s (Elab.readH (Types.get · p)) Q := by
  obtain ⟨n, h1, h2⟩ := get_tame (Fin.tame hs.pre) hp
  exact .readH hs (by rw [h1]; intro e; cases e) (.inr ⟨n, h1, h n h2⟩)

/-- Normal forms. -/
theorem Does.normal {t : Ptr} (hs : Ready D s) (ht : Fin s.heap t) :
    Does n 0 s (Elab.liftH (normalType n · t)) fun s' p => Fin s'.heap p ∧ NormalTo s'.heap p t := by
  refine .liftH hs (fun e => need_gt (by have := normalType_more (Fin.tame hs.pre).mono ht e; omega)) ?_
  rcases normalType_tame (Fin.tame hs.pre) n ht with e | ⟨p, e, hp⟩
  · exact .inl e
  · exact .inr ⟨p, e, ht.norm hs.pre hp, hp⟩

theorem Does.depoly {t : Ptr} (hs : Ready D s) (ht : Fin s.heap t) :
    Does n 0 s (Elab.liftH (Elab.depoly n · t)) fun s' x => x.2 = [] ∧ Fin s'.heap x.1 ∧ NormalTo s'.heap x.1 t := by
  refine .liftH hs (fun e => need_gt (by have := depoly_more (Fin.tame hs.pre) ht e; omega)) ?_
  rcases depoly_tame (Fin.tame hs.pre) n ht with e | ⟨p, e, hp⟩
  · exact .inl e
  · exact .inr ⟨(p, []), e, rfl, ht.norm hs.pre hp, hp⟩

theorem Does.equal {a b : Ptr} (hs : Ready D s) (ha : Fin s.heap a) (hb : Fin s.heap b) :
    Does n 0 s (Elab.readH (fbleTypesEqual n · a b)) fun _ _ => True := by
  refine .readH hs (fun e => fbleTypesEqual_more (Fin.tame hs.pre) ha hb e) ?_
  rcases fbleTypesEqual_tame (Fin.tame hs.pre) n ha hb with e | ⟨p, e⟩
  · exact .inl e
  · exact .inr ⟨p, e, trivial⟩

theorem Does.kind {t : Ptr} (hs : Ready D s) (ht : Fin s.heap t) :
    Does n 0 s (Elab.readH (getKind n · t)) fun s' k => ∃ l, k = .basic l ∧ ∃ w, Chain s'.heap l t w := by
  refine .readH hs (fun e => need_lt (getKind_more hs.pre n ht.lt e) ht.lt) ?_
  rcases getKind_tame hs.pre n ht.lt with e | ⟨l, e, w, hw⟩
  · exact .inl e
  · exact .inr ⟨_, e, l, rfl, w, hw⟩

theorem Does.space {x : Name} {t : Ptr} (hs : Ready D s) (ht : Fin s.heap t) : Does n 0 s (checkNameSpace n x t) fun _ _ => True := by
  refine .readH hs (fun e => ?_) ?_
  · rcases bind_more e with e | ⟨_, _, e⟩
    · exact need_lt (getKind_more hs.pre n ht.lt e) ht.lt
    · cases e
  rcases getKind_tame hs.pre n ht.lt with e | ⟨l, e, w, hw⟩
  · exact .inl (by rw [e]; rfl)
  · exact .inr ⟨_, by rw [e]; rfl, trivial⟩

theorem Does.value {t : Ptr} (hs : Ready D s) (ht : Fin s.heap t) : Does n 0 s (Elab.readH (valueOfType · t)) fun s' o => ∀ u, o = some u → Fin s'.heap u := by
  obtain ⟨nd, h1, h2⟩ := get_tame (Fin.tame hs.pre) ht
  refine .readH hs (fun e => ?_) (.inr ?_)
  · rcases bind_more e with e | ⟨nd, -, e⟩
    · rw [h1] at e; cases e
    · cases nd <;> cases e
  cases nd with
  | type u => exact ⟨some u, by rw [valueOfType, h1]; rfl, fun w e => by cases e; exact ht.kid hs.pre h2 (by simp [kids, Node.children])⟩
  | _ => exact ⟨none, by rw [valueOfType, h1]; rfl, fun w e => by cases e⟩

theorem Does.list {t : Ptr} (hs : Ready D s) (ht : Fin s.heap t) : Does n 0 s (Elab.readH (listElementType n · t)) fun s' o => ∀ u, o = some u → Fin s'.heap u := by
  refine .readH hs (fun e => listElementType_more (Fin.tame hs.pre) ht e) ?_
  rcases listElementType_tame (Fin.tame hs.pre) n ht with e | e | ⟨u, e, hu⟩
  · exact .inl e
  · exact .inr ⟨_, e, fun w h => by cases h⟩
  · exact .inr ⟨_, e, fun w h => by cases h; exact hu⟩

/-- Without variables to infer, `TypeInferArgs` compares. -/
theorem Does.infer {ex ac : List Ptr} {poly : Ptr × Tc} (hs : Ready D s) (he : ∀ a ∈ ex, Fin s.heap a) (ha : ∀ a ∈ ac, Fin s.heap a) :
    Does n 0 s (typeInferArgs n [] ex ac poly) fun _ o => ∀ x, o = some x → x = poly := by
  unfold typeInferArgs
  split
  · exact .pure hs (by simp)
  · refine Does.bind hs (Q := fun _ x => x.1 = []) (c1 := 0) (.liftH hs (fun e => inferLoop_more (Fin.tame hs.pre) ex ac he ha e) ?_) ?_
    · rcases inferLoop_tame (Fin.tame hs.pre) n ex ac he ha with e | ⟨b, e⟩
      · exact .inl e
      · exact .inr ⟨([], b), e, rfl⟩
    · rintro s' ⟨vars, ok⟩ hs' hp rfl
      simp only
      split
      · exact .pure hs' (by simp)
      · exact .pure hs' (fun x e => by cases e; rfl)

end

/-- What is said about the result of checking an expression. -/
abbrev Good (s : S) (r : Option (Ptr × Tc)) : Prop := ∀ x, r = some x → Fin s.heap x.1

/-- What is said about the result of checking a type. -/
abbrev GoodT (s : S) (r : Option Ptr) : Prop := ∀ t, r = some t → Fin s.heap t

/-- The expression is checked without a crash. -/
def Fine (n c : Nat) (D : List (List Name)) (m : TM (Option (Ptr × Tc))) : Prop := ∀ s, Ready D s → Does n c s m Good
def FineT (n c : Nat) (D : List (List Name)) (m : TM (Option Ptr)) : Prop := ∀ s, Ready D s → Does n c s m GoodT

end Verif.NoCrash
