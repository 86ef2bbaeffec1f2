import Verif.NoCrash.Step
import Verif.Safe.Check
/-
The cases of the type checker, but for `let`, do not crash.
-/
namespace Verif.NoCrash
open Types Elab
open Compile (Var Tc)

section
variable {α β : Type} {D : List (List Name)} {s : S} {n c : Nat} {rec : Rec} {recT : RecT} {M : List Name} {W : Expr → Nat}

theorem allSome_mem : {rs : List (Option α)} → {xs : List α} → allSome rs = some xs → ∀ x ∈ xs, some x ∈ rs
  | [], xs, h => by cases h; simp
  | none :: _, _, h => by cases h
  | some a :: rs, xs, h => by
    simp only [allSome, Option.map_eq_some_iff] at h
    obtain ⟨ys, h1, rfl⟩ := h
    intro x hx
    rcases List.mem_cons.mp hx with rfl | hx
    · simp
    · simp [allSome_mem h1 x hx]

theorem Does.keep {m : TM α} {Q : S → α → Prop} (hs : Ready D s) {t : Ptr} (ht : Fin s.heap t) (h : Does n c s m Q) : Does n c s m fun s' a => Fin s'.heap t ∧ Q s' a :=
  h.mono fun _ _ _ hp hq => ⟨ht.prefix hs.pre hp, hq⟩

theorem Ready.keep {s' : S} (hs : Ready D s) {t : Ptr} (ht : Fin s.heap t) (hp : s.heap <+: s'.heap) : Fin s'.heap t := ht.prefix hs.pre hp

/-! ### Variables -/

theorem lookup_does {x : VarName} (hs : Ready D s) : Does n 0 s (lookup x) fun s' o => (∀ v, o = some v → Fin s'.heap v.type) ∧ ∀ p ∈ D, x = .module p → o ≠ none := by
  unfold lookup
  cases hg : getVar x false s.scopes with
  | none =>
    refine .ok (s' := s) (a := none) (by simp only [hg]) hs.pre List.prefix_rfl (.refl _) (by omega) ⟨by simp, fun p hp hx => ?_⟩
    subst hx
    exact absurd hg (getVar_mod _ (hs.mods p hp))
  | some r =>
    obtain ⟨v, σ⟩ := r
    obtain ⟨h1, h2⟩ := getVar_rel hg
    exact .ok (s' := { s with scopes := σ }) (a := some v) (by simp only [hg]) hs.pre List.prefix_rfl h1 (by simp) ⟨fun v e => by cases e; exact h2 _ hs.types, by simp⟩

theorem tcVar_fine {x : VarName} (hx : ∀ p, x = .module p → p ∈ D) : Fine n 0 D (tcVar x) := by
  intro s hs
  unfold tcVar
  refine (lookup_does hs).bind hs fun s' o hs' hp hq => ?_
  cases o with
  | none =>
    cases x with
    | normal y => exact .pure hs' (by simp)
    | module p => exact absurd rfl (hq.2 p (hx p rfl) rfl)
  | some v =>
    have hv := hq.1 v rfl
    simp only
    split
    · exact .pure hs' fun x e => by cases e; exact hv
    · exact .pure hs' fun x e => by cases e; exact hv

/-! ### Scopes -/

theorem Ready.push {sc : Scope} (hs : Ready D s) (hsc : ∀ v ∈ sc.vars, Fin s.heap v.type) : Ready D { s with scopes := sc :: s.scopes } := by
  refine ⟨hs.pre, ?_, by simp, fun p hp => ?_⟩
  · intro c hc v hv
    rcases List.mem_cons.mp hc with rfl | hc
    · exact hsc v hv
    · exact hs.types c hc v hv
  · obtain ⟨c, h1, h2⟩ := hs.mods p hp
    exact ⟨c, by simp [h1], h2⟩

/-- Checking in a new scope. -/
theorem Does.inScope {c1 : Nat} {m : TM α} {f : α → Scope → TM β} {Q : S → α → Prop} {Q' : S → β → Prop} {sc : Scope} (hs : Ready D s) (hsc : ∀ v ∈ sc.vars, Fin s.heap v.type)
    (hm : ∀ s, Ready D s → Does n c1 s m Q) (hQ : ∀ h σ σ' a, Q ⟨h, σ⟩ a → Q ⟨h, σ'⟩ a)
    (hf : ∀ s' a sc', Ready D s' → s.heap <+: s'.heap → Q s' a → Does n (c - c1) s' (f a sc') Q') (hc : c1 ≤ c := by cost) :
    Does n c s (do pushScope sc; let r ← m; let c ← popScope; f r c) Q' := by
  have hs1 := hs.push hsc
  obtain ⟨h1, h2, h3⟩ := hm _ hs1
  have e1 : (do pushScope sc; let r ← m; let c ← popScope; f r c : TM β) s = (m { s with scopes := sc :: s.scopes }).bind fun x => (popScope x.1).bind fun y => f x.2 y.2 y.1 := rfl
  cases hr : m { s with scopes := sc :: s.scopes } with
  | fail => exact absurd hr h1
  | more =>
    rw [hr] at e1
    refine ⟨by rw [e1]; simp [R.bind], fun _ => Nat.lt_of_lt_of_le (h2 hr) (need_mono ?_), by rw [e1]; intro _ _ h; cases h⟩
    show s.heap.length + c1 ≤ s.heap.length + c
    omega
  | ok x =>
    obtain ⟨s1, a⟩ := x
    obtain ⟨g5, g1, g2, g3, g4⟩ := h3 s1 a hr
    simp only at g2 g3 g5
    obtain ⟨hh, σ⟩ := s1
    cases g3 with
    | @cons _ b _ σ' _ _ _ gr =>
      rw [hr] at e1
      have e2 : (do pushScope sc; let r ← m; let c ← popScope; f r c : TM β) s = f a b ⟨hh, σ'⟩ := e1
      have hs2 : Ready D ⟨hh, σ'⟩ := hs.next g1 g2 gr
      obtain ⟨k1, k2, k3⟩ := hf ⟨hh, σ'⟩ a b hs2 g2 (hQ _ _ _ _ g4)
      simp only at g5 k2 k3
      refine ⟨by rw [e2]; exact k1, fun hc => ?_, fun s' c hc => ?_⟩
      · rw [e2] at hc
        exact Nat.lt_of_lt_of_le (k2 hc) (need_mono (by omega))
      · rw [e2] at hc
        obtain ⟨q5, q1, q2, q3, q4⟩ := k3 s' c hc
        exact ⟨by omega, q1, g2.trans q2, gr.trans q3, q4⟩

theorem exprForType_fine {e : Expr} (h : Fine n (W e) D (rec e)) : FineT n (W e) D (exprForType rec e) := by
  intro s hs
  unfold exprForType
  refine Does.inScope (Q := Good) hs (by simp [initScope, argVars, Scope.vars]) h (fun _ _ _ _ h => h) ?_
  intro s' r sc' hs' hp hq
  refine .pure hs' ?_
  intro t ht
  cases r with
  | none => cases ht
  | some x => cases ht; exact hq x rfl

theorem exprAsType_fine {e : Expr} (h : Fine n (W e) D (rec e)) : FineT n (W e) D (exprAsType rec e) := by
  intro s hs
  unfold exprAsType
  refine (exprForType_fine h s hs).bind hs fun s' r hs' hp hq => ?_
  cases r with
  | none => exact .pure hs' (by simp [GoodT])
  | some t => exact (Does.value hs' (hq t rfl)).weaken

theorem typeAsExpr_fine {e : Expr} (h : FineT n (W e) D (recT e)) : Fine n (W e + 1) D (typeAsExpr recT e) := by
  intro s hs
  unfold typeAsExpr
  refine (h s hs).bind hs fun s' r hs' hp hq => ?_
  cases r with
  | none => exact .pure hs' (by simp)
  | some t =>
    have ht := hq t rfl
    refine Does.bind hs' (Q := fun s p => Fin s.heap p) (.alloc hs' ht.lt (by simp) (by simpa [kids, Node.children] using ht) (fun _ _ _ h _ => h)) ?_
    intro s2 p hs2 hp2 hq2
    exact .pure hs2 fun x e => by cases e; exact hq2

theorem tcFuncType_fine {a r : Expr} (ha : FineT n (W a) D (recT a)) (hr : FineT n (W r) D (recT r)) : FineT n (W a + W r + 1) D (tcFuncType recT a r) := by
  intro s hs
  unfold tcFuncType
  refine (ha s hs).bind hs fun s1 r1 hs1 hp1 hq1 => ?_
  refine (hr s1 hs1).bind hs1 fun s2 r2 hs2 hp2 hq2 => ?_
  cases r1 with
  | none => exact .pure hs2 (by simp [GoodT])
  | some t1 =>
    cases r2 with
    | none => exact .pure hs2 (by simp [GoodT])
    | some t2 =>
      have h1 := hs1.keep (hq1 t1 rfl) hp2
      have h2 := hq2 t2 rfl
      refine Does.bind hs2 (Q := fun s p => Fin s.heap p) (.alloc hs2 ⟨h1.lt, h2.lt⟩ (by simp) ?_ (fun _ _ _ h _ => h)) ?_
      · intro c hc
        simp only [kids, Node.children, List.mem_cons, List.not_mem_nil, or_false] at hc
        rcases hc with rfl | rfl
        · exact h1
        · exact h2
      · intro s3 p hs3 hp3 hq3
        exact .pure hs3 fun x e => by cases e; exact hq3

theorem dataFields_fine : (fs : List (Name × Expr)) → (prev : List Name) → (∀ f ∈ fs, FineT n (W f.2) D (recT f.2)) → ∀ s, Ready D s →
    Does n ((fs.map fun f => W f.2).sum) s (dataFields n recT prev fs) fun s' r => ∀ l, r = some l → ∀ f ∈ l, Fin s'.heap f.2
  | [], _, _, s, hs => .pure hs (by simp)
  | (x, e) :: fs, prev, hf, s, hs => by
    unfold dataFields
    refine (hf (x, e) (by simp) s hs).bind hs fun s1 r1 hs1 hp1 hq1 => ?_
    cases r1 with
    | none => exact .pure hs1 (by simp)
    | some t =>
      have ht := hq1 t rfl
      refine (Does.space hs1 ht).bind hs1 fun s2 ok hs2 hp2 _ => ?_
      split
      · exact .pure hs2 (by simp)
      split
      · exact .pure hs2 (by simp)
      · refine (dataFields_fine fs (x :: prev) (fun f h => hf f (by simp [h])) s2 hs2).bind hs2 fun s3 r3 hs3 hp3 hq3 => ?_
        cases r3 with
        | none => exact .pure hs3 (by simp)
        | some l =>
          refine .pure hs3 ?_
          rintro l' e
          cases e
          intro f hfl
          rcases List.mem_cons.mp hfl with rfl | hfl
          · exact hs1.keep ht (hp2.trans hp3)
          · exact hq3 l rfl f hfl

theorem dataType_fine {dt : DataKind} {fs : List (Name × Expr)} (hf : ∀ f ∈ fs, FineT n (W f.2) D (recT f.2)) : FineT n ((fs.map fun f => W f.2).sum + 1) D (do
      match ← dataFields n recT [] fs with
      | none => return none
      | some fs => some <$> alloc (.data dt fs)) := by
  intro s hs
  refine (dataFields_fine fs [] hf s hs).bind hs fun s1 r1 hs1 hp1 hq1 => ?_
  cases r1 with
  | none => exact .pure hs1 (by simp [GoodT])
  | some l =>
    have hl := hq1 l rfl
    refine Does.bind hs1 (Q := fun s p => Fin s.heap p) (.alloc hs1 (fun f hf => (hl f hf).lt) (by simp) ?_ (fun _ _ _ h _ => h)) ?_
    · intro c hc
      obtain ⟨f, hf, rfl⟩ := List.mem_map.mp hc
      exact hl f hf
    · intro s3 p hs3 hp3 hq3
      exact .pure hs3 fun x e => by cases e; exact hq3

theorem package_fine {path : List Name} : FineT n 1 D (some <$> alloc (.package path true)) := by
  intro s hs
  refine Does.bind hs (Q := fun s p => Fin s.heap p) (.alloc hs rfl (by simp) (by simp [kids, Node.children]) (fun _ _ _ h _ => h)) ?_
  intro s3 p hs3 hp3 hq3
  exact .pure hs3 fun x e => by cases e; exact hq3

/-! ### Arguments -/

theorem tcEach_does : (es : List Expr) → (∀ e ∈ es, Fine n (W e) D (rec e)) → ∀ s, Ready D s → Does n ((es.map W).sum) s (tcEach rec es) fun s' rs => rs.length = es.length ∧ ∀ x, some x ∈ rs → Fin s'.heap x.1
  | [], _, s, hs => .pure hs (by simp)
  | e :: es, he, s, hs => by
    unfold tcEach
    refine (he e (by simp) s hs).bind hs fun s1 r hs1 hp1 hq1 => ?_
    refine (tcEach_does es (fun e h => he e (by simp [h])) s1 hs1).bind hs1 fun s2 rs hs2 hp2 hq2 => ?_
    refine .pure hs2 ⟨by simp [hq2.1], fun x hx => ?_⟩
    rcases List.mem_cons.mp hx with rfl | hx
    · exact hs1.keep (hq1 x rfl) hp2
    · exact hq2.2 x hx

theorem checkNames_does : (rs : List (Name × Option (Ptr × Tc))) → ∀ s, Ready D s → (∀ r ∈ rs, ∀ x, r.2 = some x → Fin s.heap x.1) → Does n (0) s (checkNames n rs) fun _ _ => True
  | [], s, hs, _ => .pure hs trivial
  | (y, none) :: rs, s, hs, h => by
    unfold checkNames
    refine (checkNames_does rs s hs (fun r hr => h r (by simp [hr]))).bind hs fun s1 r hs1 hp1 _ => ?_
    exact .pure hs1 trivial
  | (y, some (t, tc)) :: rs, s, hs, h => by
    unfold checkNames
    refine (Does.space hs (h (y, some (t, tc)) (by simp) _ rfl)).bind hs fun s1 ok hs1 hp1 _ => ?_
    refine (checkNames_does rs s1 hs1 (fun r hr x hx => hs.keep (h r (by simp [hr]) x hx) hp1)).bind hs1 fun s2 r hs2 hp2 _ => ?_
    exact .pure hs2 trivial

theorem tcStruct_fine {args : List (Name × Expr)} (he : ∀ a ∈ args, Fine n (W a.2) D (rec a.2)) : Fine n ((args.map fun a => W a.2).sum + 1) D (tcStruct n rec args) := by
  intro s hs
  unfold tcStruct
  have hsum : ((args.map (·.2)).reverse.map W).sum = (args.map fun a => W a.2).sum := by
    rw [List.map_reverse, List.sum_reverse, List.map_map]; rfl
  refine (tcEach_does (W := W) (args.map (·.2)).reverse (fun e h => by
    obtain ⟨a, ha, rfl⟩ := List.mem_map.mp (List.mem_reverse.mp h)
    exact he a ha) s hs).bind hs fun s1 rs hs1 hp1 hq1 => ?_
  refine (checkNames_does _ s1 hs1 ?_).bind hs1 fun s2 ok hs2 hp2 _ => ?_
  · intro r hr x hx
    have := (List.of_mem_zip hr).2
    rw [hx] at this
    exact hq1.2 x (List.mem_reverse.mp this)
  · cases ha : allSome rs.reverse with
    | none => exact .pure hs2 (by simp)
    | some xs =>
      simp only
      split
      · exact .pure hs2 (by simp)
      · have hf : ∀ x ∈ xs, Fin s2.heap x.1 := fun x hx => hs1.keep (hq1.2 x (List.mem_reverse.mp (allSome_mem ha x hx))) hp2
        have hz : ∀ f ∈ (args.map (·.1)).zip (xs.map (·.1)), Fin s2.heap f.2 := by
          intro f hf'
          obtain ⟨x, hx, e⟩ := List.mem_map.mp (List.of_mem_zip hf').2
          rw [← e]
          exact hf x hx
        refine Does.bind hs2 (Q := fun s p => Fin s.heap p) (.alloc hs2 (fun f hf' => (hz f hf').lt) (by simp) ?_ (fun _ _ _ h _ => h)) ?_
        · intro c hc
          obtain ⟨f, hf', rfl⟩ := List.mem_map.mp hc
          exact hz f hf'
        · intro s3 p hs3 hp3 hq3
          exact .pure hs3 fun x e => by cases e; exact hq3

/-! ### Unions -/

theorem field_fin {dt : DataKind} {fs : List (Name × Ptr)} {p : Ptr} (hs : Ready D s) (hp : Fin s.heap p) (hg : s.heap[p]? = some (.data dt fs)) : ∀ f ∈ fs, Fin s.heap f.2 :=
  fun f hf => hp.kid hs.pre hg (List.mem_map.mpr ⟨f, hf, rfl⟩)

theorem findField_mem {x : Name} {fs : List (Name × Ptr)} {i tag : Nat} {t : Ptr} (h : findField x fs i = some (tag, t)) : ∃ y, (y, t) ∈ fs := by
  obtain ⟨y, h1, h2⟩ := findField_get fs i h
  exact ⟨y, List.mem_of_getElem? h2⟩

theorem tcUnion_fine {type : Expr} {field : Name} {arg : Expr} (ht : FineT n (W type) D (recT type)) (ha : Fine n (W arg) D (rec arg)) : Fine n (W type + W arg) D (tcUnion n rec recT type field arg) := by
  intro s hs
  unfold tcUnion
  refine (ht s hs).bind hs fun s1 r hs1 hp1 hq1 => ?_
  cases r with
  | none => exact .pure hs1 (by simp)
  | some t =>
    have hft := hq1 t rfl
    refine (Does.depoly hs1 hft).bind hs1 ?_
    rintro s2 ⟨ut, vars⟩ hs2 hp2 ⟨rfl, hu, -⟩
    simp only
    refine (Does.get hs2 hu (Q := fun s nd => s.heap[ut]? = some nd) (fun _ h => h)).bind hs2 fun s3 nd hs3 hp3 hg => ?_
    have hu3 := hs2.keep hu hp3
    split
    · rename_i fields
      cases hff : findField field fields 0 with
      | none => exact .pure hs3 (by simp)
      | some x =>
        obtain ⟨tag, ft⟩ := x
        obtain ⟨y, hy⟩ := findField_mem hff
        have hfin := field_fin hs3 hu3 hg _ hy
        simp only
        refine (ha s3 hs3).bind hs3 fun s4 r4 hs4 hp4 hq4 => ?_
        cases r4 with
        | none => exact .pure hs4 (by simp)
        | some x =>
          obtain ⟨argT, argTc⟩ := x
          have h4 := hq4 _ rfl
          refine (Does.infer hs4 (by simpa using hs3.keep hfin hp4) (by simpa using h4)).bind hs4 fun s5 r5 hs5 hp5 hq5 => ?_
          cases r5 with
          | none => exact .pure hs5 (by simp)
          | some x =>
            have := hq5 x rfl
            subst this
            refine .pure hs5 fun x e => ?_
            cases e
            exact hs1.keep hft (hp2.trans (hp3.trans (hp4.trans hp5)))
    · exact .pure hs3 (by simp)

/-- The result of the loop over the choices. -/
structure SelOk (s : S) (hd : Bool) (cs : List (Name × Expr)) (rt : Option Ptr) (q : SelRes) : Prop where
  type : ∀ t, q.rtype = some t → Fin s.heap t
  had : rt.isSome → q.rtype.isSome
  used : q.error = false → q.defaultUsed = true → hd = true
  some : q.error = false → cs ≠ [] → q.rtype.isSome ∧ q.branches ≠ []

theorem selLoop_does {hd : Bool} : (fs : List (Name × Ptr)) → (i : Nat) → (cs : List (Name × Expr)) → (rt : Option Ptr) → (∀ c ∈ cs, Fine n (W c.2) D (rec c.2)) → ∀ s, Ready D s →
    (∀ t, rt = some t → Fin s.heap t) → Does n ((cs.map fun a => W a.2).sum) s (selLoop n rec hd fs i cs rt) fun s' q => SelOk s' hd cs rt q
  | [], i, cs, rt, _, s, hs, ht => by
    unfold selLoop
    exact .pure hs ⟨ht, id, fun _ h => (by cases h), fun he hc => (by simp [hc] at he)⟩
  | (x, ft) :: fs, i, [], rt, hc, s, hs, ht => by
    unfold selLoop
    refine (selLoop_does fs (i + 1) [] rt hc s hs ht).bind hs fun s1 q hs1 hp1 hq => ?_
    refine .pure hs1 ?_
    split
    · exact ⟨hq.type, hq.had, fun _ _ => by assumption, fun _ h => absurd rfl h⟩
    · exact ⟨hq.type, hq.had, fun h => by simp at h, fun _ h => absurd rfl h⟩
  | (x, ft) :: fs, i, (y, e) :: cs, rt, hc, s, hs, ht => by
    unfold selLoop
    split
    · refine (hc (y, e) (by simp) s hs).bind hs fun s1 r hs1 hp1 hq1 => ?_
      have ht1 : ∀ t, rt = some t → Fin s1.heap t := fun t h => hs.keep (ht t h) hp1
      have hc' : ∀ c ∈ cs, Fine n (W c.2) D (rec c.2) := fun c h => hc c (by simp [h])
      cases r with
      | none =>
        refine (selLoop_does fs (i + 1) cs rt hc' s1 hs1 ht1).bind hs1 fun s2 q hs2 hp2 hq => ?_
        exact .pure hs2 ⟨hq.type, hq.had, fun h => by simp at h, fun h => by simp at h⟩
      | some z =>
        obtain ⟨t, tc⟩ := z
        have htt := hq1 _ rfl
        cases rt with
        | none =>
          refine (selLoop_does fs (i + 1) cs (some t) hc' s1 hs1 (fun u h => by cases h; exact htt)).bind hs1 fun s2 q hs2 hp2 hq => ?_
          exact .pure hs2 ⟨hq.type, by simp, hq.used, fun _ _ => ⟨hq.had (by simp), by simp⟩⟩
        | some rt =>
          refine (Does.equal hs1 (ht1 rt rfl) htt).bind hs1 fun s2 eq hs2 hp2 _ => ?_
          refine (selLoop_does fs (i + 1) cs (some rt) hc' s2 hs2 (fun u h => by cases h; exact hs1.keep (ht1 rt rfl) hp2)).bind hs2 fun s3 q hs3 hp3 hq => ?_
          refine .pure hs3 ⟨hq.type, fun _ => hq.had (by simp), fun h1 h2 => hq.used ?_ h2, fun _ _ => ⟨hq.had (by simp), by simp⟩⟩
          simp only [Bool.or_eq_false_iff] at h1
          exact h1.1
    · refine (selLoop_does fs (i + 1) ((y, e) :: cs) rt hc s hs ht).bind hs fun s1 q hs1 hp1 hq => ?_
      refine .pure hs1 ?_
      split
      · exact ⟨hq.type, hq.had, fun _ _ => by assumption, hq.some⟩
      · exact ⟨hq.type, hq.had, fun h => by simp at h, fun h => by simp at h⟩

theorem tcSelect_fine {c : Expr} {cs : List (Name × Expr)} {d : Option Expr} (hc : Fine n (W c) D (rec c)) (hcs : ∀ c ∈ cs, Fine n (W c.2) D (rec c.2)) (hd : ∀ e, d = some e → Fine n (W e) D (rec e)) (hne : cs ≠ []) :
    Fine n (W c + (cs.map fun a => W a.2).sum + d.elim 0 W) D (tcSelect n rec c cs d) := by
  intro s hs
  unfold tcSelect
  refine (hc s hs).bind hs fun s1 r hs1 hp1 hq1 => ?_
  cases r with
  | none => exact .pure hs1 (by simp)
  | some z =>
    obtain ⟨ct, ctc⟩ := z
    refine (Does.normal hs1 (hq1 _ rfl)).bind hs1 fun s2 nt hs2 hp2 hq2 => ?_
    refine (Does.get hs2 hq2.1 (Q := fun s nd => s.heap[nt]? = some nd) (fun _ h => h)).bind hs2 fun s3 nd hs3 hp3 hg => ?_
    split
    · refine Does.bind hs3 (c1 := d.elim 0 W) (Q := fun s' r => Good s' r) ?_ fun s4 dr hs4 hp4 hq4 => ?_
      · cases d with
        | none => exact .pure hs3 (by simp)
        | some e => exact hd e rfl s3 hs3
      · refine (selLoop_does _ 0 cs (dr.map (·.1)) hcs s4 hs4 ?_).bind hs4 fun s5 q hs5 hp5 hq => ?_
        · intro t ht
          cases dr with
          | none => cases ht
          | some x => cases ht; exact hq4 x rfl
        · split
          · exact .pure hs5 (by simp)
          · rename_i hcond
            simp only [Bool.or_eq_true, Bool.and_eq_true, not_or, Bool.not_eq_true, not_and] at hcond
            obtain ⟨h1, h2⟩ := hq.some hcond.1 hne
            cases hrt : q.rtype with
            | none => rw [hrt] at h1; cases h1
            | some rt =>
              simp only
              split
              · rename_i hdu
                have := hq.used hcond.1 hdu
                cases dr with
                | none => exact absurd (hcond.2 this) (by simp)
                | some x => exact .pure hs5 fun x e => by cases e; exact hq.type rt hrt
              · cases hl : q.branches.getLast? with
                | none => exact absurd (List.getLast?_eq_none_iff.mp hl) h2
                | some x => exact .pure hs5 fun x e => by cases e; exact hq.type rt hrt
    · exact .pure hs3 (by simp)

/-! ### Functions -/

theorem tcFunc_fine {x : Name} {type body : Expr} (ht : FineT n (W type) D (recT type)) (hb : Fine n (W body) D (rec body)) : Fine n (W type + W body + 1) D (tcFunc rec recT x type body) := by
  intro s hs
  unfold tcFunc
  refine (ht s hs).bind hs fun s1 r hs1 hp1 hq1 => ?_
  cases r with
  | none => exact .pure hs1 (by simp)
  | some argT =>
    have ha := hq1 _ rfl
    refine Does.inScope (Q := Good) hs1 (by simpa [initScope, argVars, Scope.vars] using ha) hb (fun _ _ _ _ h => h) ?_
    intro s2 r2 sc' hs2 hp2 hq2
    cases r2 with
    | none => exact .pure hs2 (by simp)
    | some z =>
      obtain ⟨t, tc⟩ := z
      have h1 := hs1.keep ha hp2
      have h2 := hq2 _ rfl
      refine Does.bind hs2 (Q := fun s p => Fin s.heap p) (.alloc hs2 ⟨h1.lt, h2.lt⟩ (by simp) ?_ (fun _ _ _ h _ => h)) ?_
      · intro c hc
        simp only [kids, Node.children, List.mem_cons, List.not_mem_nil, or_false] at hc
        rcases hc with rfl | rfl
        · exact h1
        · exact h2
      · intro s3 p hs3 hp3 hq3
        exact .pure hs3 fun x e => by cases e; exact hq3

/-! ### Types applied to types -/

theorem polyApply_does {poly : Ptr × Tc} {a : Ptr} (hs : Ready D s) (hp : Fin s.heap poly.1) (ha : Fin s.heap a) : Does n (2) s (polyApply n poly a) Good := by
  unfold polyApply
  refine (Does.kind hs hp).bind hs ?_
  rintro s1 k hs1 hp1 ⟨l, rfl, -⟩
  simp only
  refine (Does.value hs1 (hs.keep hp hp1)).bind hs1 fun s2 o hs2 hp2 hq2 => ?_
  cases o with
  | none => exact .pure hs2 (by simp)
  | some pv =>
    refine (Does.normal hs2 (hq2 pv rfl)).bind hs2 fun s3 pk hs3 hp3 hq3 => ?_
    refine (Does.get hs3 hq3.1 (Q := fun s nd => s.heap[pk]? = some nd) (fun _ h => h)).bind hs3 fun s4 nd hs4 hp4 hg => ?_
    split
    · rename_i path o
      refine (Does.value hs4 (hs.keep ha (hp1.trans (hp2.trans (hp3.trans hp4))))).bind hs4 fun s5 o5 hs5 hp5 hq5 => ?_
      cases o5 with
      | none => exact .pure hs5 (by simp)
      | some arg =>
        have hg5 := prefix_node hp5 hg
        have ho : o = true := hs5.pre.nodes _ _ hg5
        subst ho
        have hpk : Fin s5.heap pk := hs3.keep hq3.1 (hp4.trans hp5)
        have harg := hq5 arg rfl
        refine Does.bind hs5 (Q := fun s p => Fin s.heap p) (.alloc hs5 ⟨harg.lt, path, hg5⟩ (by simp) ?_ (fun _ _ _ h _ => h)) ?_
        · intro c hc
          simp only [kids, Node.children, List.mem_cons, List.not_mem_nil, or_false] at hc
          rcases hc with rfl | rfl
          · exact hpk
          · exact harg
        · intro s6 p hs6 hp6 hq6
          refine Does.bind hs6 (Q := fun s p => Fin s.heap p) (.alloc hs6 hq6.lt (by simp) (by simpa [kids, Node.children] using hq6) (fun _ _ _ h _ => h)) ?_
          intro s7 p7 hs7 hp7 hq7
          exact .pure hs7 fun x e => by cases e; exact hq7
    · exact .pure hs4 (by simp)

theorem tcPolyApply_fine {p a : Expr} (hp : Fine n (W p) D (rec p)) (ha : Fine n (W a) D (rec a)) : Fine n (W p + W a + 2) D (tcPolyApply n rec p a) := by
  intro s hs
  unfold tcPolyApply
  refine (hp s hs).bind hs fun s1 r1 hs1 hp1 hq1 => ?_
  refine (exprForType_fine ha s1 hs1).bind hs1 fun s2 r2 hs2 hp2 hq2 => ?_
  cases r1 with
  | none => exact .pure hs2 (by simp)
  | some x =>
    cases r2 with
    | none => exact .pure hs2 (by simp)
    | some y => exact (polyApply_does hs2 (hs1.keep (hq1 x rfl) hp2) (hq2 y rfl)).weaken

/-! ### Lists and literals -/

theorem func_fin {p a r : Ptr} (hs : Ready D s) (hp : Fin s.heap p) (hg : s.heap[p]? = some (.func a r)) : Fin s.heap a ∧ Fin s.heap r :=
  ⟨hp.kid hs.pre hg (by simp [kids, Node.children]), hp.kid hs.pre hg (by simp [kids, Node.children])⟩

theorem tcList_fine {f : Expr} {args : List Expr} (hf : Fine n (W f) D (rec f)) (ha : ∀ e ∈ args, Fine n (W e) D (rec e)) : Fine n (W f + (args.map W).sum) D (tcList n rec f args) := by
  intro s hs
  unfold tcList
  refine (hf s hs).bind hs fun s1 r hs1 hp1 hq1 => ?_
  cases r with
  | none => exact .pure hs1 (by simp)
  | some z =>
    obtain ⟨ft0, ftc⟩ := z
    have hft0 : Fin s1.heap ft0 := hq1 _ rfl
    refine (Does.depoly hs1 hft0).bind hs1 ?_
    rintro s2 ⟨ft, vars⟩ hs2 hp2 ⟨rfl, hu, hn⟩
    simp only
    refine (Does.get hs2 hu (Q := fun s nd => s.heap[ft]? = some nd) (fun _ h => h)).bind hs2 fun s3 nd hs3 hp3 hg => ?_
    split
    · rename_i argT rt
      have hu3 := hs2.keep hu hp3
      refine (Does.list hs3 (func_fin hs3 hu3 hg).1).bind hs3 fun s4 o hs4 hp4 hq4 => ?_
      cases o with
      | none => exact .pure hs4 (by simp)
      | some elem =>
        have he := hq4 elem rfl
        refine (tcEach_does args ha s4 hs4).bind hs4 fun s5 rs hs5 hp5 hq5 => ?_
        cases hal : allSome rs with
        | none => exact .pure hs5 (by simp)
        | some xs =>
          simp only
          refine (Does.infer hs5 (fun a h => ?_) (fun a h => ?_)).bind hs5 fun s6 r6 hs6 hp6 hq6 => ?_
          · obtain ⟨x, -, rfl⟩ := List.mem_map.mp h
            exact hs4.keep he hp5
          · obtain ⟨x, hx, rfl⟩ := List.mem_map.mp h
            exact hq5.2 x (allSome_mem hal x hx)
          · cases r6 with
            | none => exact .pure hs6 (by simp)
            | some x =>
              have := hq6 x rfl
              subst this
              simp only
              have hpre : s2.heap <+: s6.heap := hp3.trans (hp4.trans (hp5.trans hp6))
              refine (Does.normal hs6 (hs1.keep hft0 (hp2.trans hpre))).bind hs6 fun s7 it hs7 hp7 hq7 => ?_
              have hit : it = ft := NormalTo.unique hq7.2 (NormalTo.prefix (hpre.trans hp7) hn)
              subst hit
              refine (Does.get hs7 hq7.1 (Q := fun s nd => s.heap[it]? = some nd) (fun _ h => h)).bind hs7 fun s8 nd hs8 hp8 hg8 => ?_
              have := prefix_node (hp4.trans (hp5.trans (hp6.trans (hp7.trans hp8)))) hg
              rw [this] at hg8
              cases hg8
              have hr := (func_fin hs8 (hs7.keep hq7.1 hp8) this).2
              exact .pure hs8 fun x e => by cases e; exact hr
    · exact .pure hs3 (by simp)

theorem matchLoop_lt {w : List Char} : (fs : List (Name × Ptr)) → (j : Nat) → (best : Nat × Nat) → (total : Nat) → j + fs.length = total → (best.1 = 0 ∨ best.2 < total) →
    (matchLoop w fs j best).1 = 0 ∨ (matchLoop w fs j best).2 < total
  | [], _, _, _, _, h => h
  | (x, t) :: fs, j, best, total, hl, h => by
    unfold matchLoop
    simp only [List.length_cons] at hl
    split
    · exact matchLoop_lt fs (j + 1) _ total (by omega) (.inr (by show j < total; omega))
    · exact matchLoop_lt fs (j + 1) _ total (by omega) h

theorem letters_does {unit : Ptr} {fields : List (Name × Ptr)} : (k : Nat) → (w : List Char) → ∀ s, Ready D s → Fin s.heap unit → (∀ f ∈ fields, Fin s.heap f.2) →
    Does n (0) s (letters n unit fields k w) fun _ _ => True
  | 0, w, s, hs, _, _ => .pure hs trivial
  | k + 1, w, s, hs, hu, hf => by
    unfold letters
    split
    · exact .pure hs trivial
    · simp only
      split
      · exact .pure hs trivial
      · rename_i hb
        have := matchLoop_lt (w := w) fields 0 (0, 0) fields.length (by simp) (.inl rfl)
        have hlt : (matchLoop w fields 0 (0, 0)).2 < fields.length := this.resolve_left hb
        rw [List.getElem?_eq_getElem hlt]
        cases hx : fields[(matchLoop w fields 0 (0, 0)).2] with
        | mk y ft =>
          have hft : Fin s.heap ft := by
            have : (y, ft) ∈ fields := by rw [← hx]; exact List.getElem_mem _
            exact hf _ this
          simp only
          refine (Does.equal hs hu hft).bind hs fun s1 eq hs1 hp1 _ => ?_
          split
          · exact .pure hs1 trivial
          · refine (letters_does k _ s1 hs1 (hs.keep hu hp1) (fun f h => hs.keep (hf f h) hp1)).bind hs1 fun s2 r hs2 hp2 _ => ?_
            split <;> exact .pure hs2 trivial

theorem tcLiteral_fine {f : Expr} {w : List Char} (hf : Fine n (W f) D (rec f)) : Fine n (W f + 1) D (tcLiteral n rec f w) := by
  intro s hs
  unfold tcLiteral
  refine (hf s hs).bind hs fun s1 r hs1 hp1 hq1 => ?_
  cases r with
  | none => exact .pure hs1 (by simp)
  | some z =>
    obtain ⟨ft, ftc⟩ := z
    refine (Does.normal hs1 (hq1 _ rfl)).bind hs1 fun s2 nt hs2 hp2 hq2 => ?_
    refine (Does.get hs2 hq2.1 (Q := fun s nd => s.heap[nt]? = some nd) (fun _ h => h)).bind hs2 fun s3 nd hs3 hp3 hg => ?_
    split
    · rename_i argT rt
      obtain ⟨h1, h2⟩ := func_fin hs3 (hs2.keep hq2.1 hp3) hg
      refine (Does.list hs3 h1).bind hs3 fun s4 o hs4 hp4 hq4 => ?_
      cases o with
      | none => exact .pure hs4 (by simp)
      | some elem =>
        refine (Does.normal hs4 (hq4 _ rfl)).bind hs4 fun s5 et hs5 hp5 hq5 => ?_
        refine (Does.get hs5 hq5.1 (Q := fun s nd => s.heap[et]? = some nd) (fun _ h => h)).bind hs5 fun s6 nd hs6 hp6 hg6 => ?_
        split
        · rename_i fields
          have hfl := field_fin hs6 (hs5.keep hq5.1 hp6) hg6
          refine Does.bind hs6 (Q := fun s p => Fin s.heap p) (.alloc hs6 (by simp [NodeIn]) (by simp) (by simp [kids, Node.children]) (fun _ _ _ h _ => h)) ?_
          intro s7 p hs7 hp7 hq7
          refine (letters_does _ _ s7 hs7 hq7 (fun f h => hs6.keep (hfl f h) hp7)).bind hs7 fun s8 o hs8 hp8 _ => ?_
          cases o with
          | none => exact .pure hs8 (by simp)
          | some ls =>
            refine .pure hs8 fun x e => ?_
            cases e
            exact hs3.keep h2 (hp4.trans (hp5.trans (hp6.trans (hp7.trans hp8))))
        · exact .pure hs6 (by simp)
    · exact .pure hs3 (by simp)

/-! ### Abstract types -/

theorem castEqual_does {p a b : Ptr} {path : List Name} (hs : Ready D s) (hg : s.heap[p]? = some (.package path true)) (ha : Fin s.heap a) (hb : Fin s.heap b) :
    Does n (0) s (readH (castEqual n p a b)) fun _ _ => True := by
  have hget : Types.get s.heap p = .ok (.package path true) := by rw [Types.get, hg]
  have hne : ∀ (q : Nat) nd, (s.heap.set p (.package path false))[q]? = some nd → s.heap[q]? = some nd ∨ (q = p ∧ nd = .package path false) := by
    intro q nd h
    by_cases hq : p = q
    · subst hq
      rw [List.getElem?_set_self (node_lt hg)] at h
      cases h
      exact .inr ⟨rfl, rfl⟩
    · rw [List.getElem?_set_ne hq] at h
      exact .inl h
  have hne' : ∀ (q : Nat) nd, s.heap[q]? = some nd → (s.heap.set p (.package path false))[q]? = some nd ∨ (nd = .package path true ∧ q = p) := by
    intro q nd h
    by_cases hq : p = q
    · subst hq
      rw [hg] at h
      cases h
      exact .inr ⟨rfl, rfl⟩
    · exact .inl (by rw [List.getElem?_set_ne hq]; exact h)
  have tm := Fin.tame hs.pre
  have key : Tame (s.heap.set p (.package path false)) (Fin s.heap) := by
    refine ⟨⟨?_, ?_, ?_, ?_, ?_, ?_⟩, ?_⟩
    · intro t ht
      obtain ⟨nd, hn⟩ := tm.mono.node ht
      rcases hne' t nd hn with h | ⟨-, rfl⟩
      · exact ⟨nd, h⟩
      · exact ⟨_, List.getElem?_set_self (node_lt hg)⟩
    · intro t x y ht h
      rcases hne t _ h with h | ⟨-, h⟩
      · exact tm.mono.noPoly ht h
      · cases h
    · intro t x y ht h
      rcases hne t _ h with h | ⟨-, h⟩
      · exact tm.mono.noApply ht h
      · cases h
    · intro t nd c ht h hc
      rcases hne t _ h with h | ⟨-, rfl⟩
      · exact tm.mono.child ht h hc
      · simp [Node.children] at hc
    · intro t k v ht h
      rcases hne t _ h with h | ⟨-, h⟩
      · exact tm.mono.value ht h
      · cases h
    · intro t q u ht h
      rcases hne t _ h with h | ⟨-, h⟩
      · obtain ⟨path', o, h'⟩ := tm.mono.package ht h
        rcases hne' q _ h' with h | ⟨-, rfl⟩
        · exact ⟨_, _, h⟩
        · exact ⟨_, _, List.getElem?_set_self (node_lt hg)⟩
      · cases h
    · intro t ht
      obtain ⟨q, hq⟩ := tm.ends t ht
      refine ⟨q, ?_⟩
      clear ht
      induction hq with
      | here h hv =>
        rename_i nd
        rcases hne' _ _ h with h | ⟨-, e⟩
        · exact .here h hv
        · exact .here (n := .package path false) (by rw [e]; exact List.getElem?_set_self (node_lt hg)) (by simp)
      | value h _ ih =>
        rcases hne' _ _ h with h | ⟨e, -⟩
        · exact .value h ih
        · cases e
  have e0 : castEqual n p a b s.heap = fbleTypesEqual n (s.heap.set p (.package path false)) a b := by
    rw [castEqual, hget]; rfl
  refine .readH hs (fun e => ?_) ?_
  · have := fbleTypesEqual_more key ha hb (e0.symm.trans e)
    rwa [List.length_set] at this
  rcases fbleTypesEqual_tame key n ha hb with e | ⟨r, e⟩
  · exact .inl (e0.trans e)
  · exact .inr ⟨r, e0.trans e, trivial⟩

theorem tcCast_fine {package target value : Expr} (hp : FineT n (W package) D (recT package)) (ht : FineT n (W target) D (recT target)) (hv : Fine n (W value) D (rec value)) : Fine n (W package + W target + W value) D (tcCast M n rec recT package target value) := by
  intro s hs
  unfold tcCast
  refine (hp s hs).bind hs fun s1 r hs1 hp1 hq1 => ?_
  cases r with
  | none => exact .pure hs1 (by simp)
  | some pt =>
    refine (Does.normal hs1 (hq1 _ rfl)).bind hs1 fun s2 p hs2 hp2 hq2 => ?_
    refine (Does.get hs2 hq2.1 (Q := fun s nd => s.heap[p]? = some nd) (fun _ h => h)).bind hs2 fun s3 nd hs3 hp3 hg => ?_
    split
    · rename_i path o
      have ho : o = true := hs3.pre.nodes _ _ hg
      subst ho
      refine (ht s3 hs3).bind hs3 fun s4 r4 hs4 hp4 hq4 => ?_
      cases r4 with
      | none => exact .pure hs4 (by simp)
      | some t =>
        refine (hv s4 hs4).bind hs4 fun s5 r5 hs5 hp5 hq5 => ?_
        cases r5 with
        | none => exact .pure hs5 (by simp)
        | some x =>
          obtain ⟨vt, vtc⟩ := x
          simp only
          have h4 := hs4.keep (hq4 t rfl) hp5
          split
          · exact .pure hs5 (by simp)
          · refine (castEqual_does hs5 (prefix_node (hp4.trans hp5) hg) h4 (hq5 _ rfl)).bind hs5 fun s6 b hs6 hp6 _ => ?_
            split
            · refine .pure hs6 fun x e => ?_
              cases e
              exact hs5.keep h4 hp6
            · exact .pure hs6 (by simp)
    · exact .pure hs3 (by simp)

theorem tcAbstractAccess_fine {value : Expr} (hv : Fine n (W value) D (rec value)) : Fine n (W value) D (tcAbstractAccess M n rec value) := by
  intro s hs
  unfold tcAbstractAccess
  refine (hv s hs).bind hs fun s1 r hs1 hp1 hq1 => ?_
  cases r with
  | none => exact .pure hs1 (by simp)
  | some z =>
    obtain ⟨vt, vtc⟩ := z
    refine (Does.normal hs1 (hq1 _ rfl)).bind hs1 fun s2 a hs2 hp2 hq2 => ?_
    refine (Does.get hs2 hq2.1 (Q := fun s nd => s.heap[a]? = some nd) (fun _ h => h)).bind hs2 fun s3 nd hs3 hp3 hg => ?_
    split
    · rename_i p t
      have ha := hs2.keep hq2.1 hp3
      have hpf : Fin s3.heap p := ha.kid hs3.pre hg (by simp [kids, Node.children])
      have htf : Fin s3.heap t := ha.kid hs3.pre hg (by simp [kids, Node.children])
      refine (Does.get hs3 hpf (Q := fun s nd => s.heap[p]? = some nd) (fun _ h => h)).bind hs3 fun s4 nd hs4 hp4 hg4 => ?_
      obtain ⟨path, hpk⟩ := (hs3.pre.nodes _ _ hg).2
      have := prefix_node hp4 hpk
      rw [this] at hg4
      cases hg4
      simp only
      split
      · exact .pure hs4 (by simp)
      · refine .pure hs4 fun x e => ?_
        cases e
        exact hs3.keep htf hp4
    · exact .pure hs3 (by simp)

/-! ### Access and application -/

theorem tcAccess_fine {o : Expr} {field : Name} (ho : Fine n (W o) D (rec o)) : Fine n (W o) D (tcAccess n rec o field) := by
  intro s hs
  unfold tcAccess
  refine (ho s hs).bind hs fun s1 r hs1 hp1 hq1 => ?_
  cases r with
  | none => exact .pure hs1 (by simp)
  | some z =>
    obtain ⟨ot, otc⟩ := z
    refine (Does.normal hs1 (hq1 _ rfl)).bind hs1 fun s2 a hs2 hp2 hq2 => ?_
    refine (Does.get hs2 hq2.1 (Q := fun s nd => s.heap[a]? = some nd) (fun _ h => h)).bind hs2 fun s3 nd hs3 hp3 hg => ?_
    split
    · rename_i dt fields
      cases hff : findField field fields 0 with
      | none => exact .pure hs3 (by simp)
      | some x =>
        obtain ⟨tag, ft⟩ := x
        obtain ⟨y, hy⟩ := findField_mem hff
        have := field_fin hs3 (hs2.keep hq2.1 hp3) hg _ hy
        exact .pure hs3 fun x e => by cases e; exact this
    · exact .pure hs3 (by simp)

theorem applyLoop_does : (args : List (Ptr × Tc)) → (r : Ptr × Tc) → ∀ s, Ready D s → Fin s.heap r.1 → (∀ a ∈ args, Fin s.heap a.1) → Does n (0) s (applyLoop n r args) Good
  | [], r, s, hs, hr, _ => .pure hs fun x e => by cases e; exact hr
  | a :: args, r, s, hs, hr, ha => by
    unfold applyLoop
    refine (Does.depoly hs hr).bind hs ?_
    rintro s2 ⟨ft, vars⟩ hs2 hp2 ⟨rfl, hu, hn⟩
    simp only
    refine (Does.get hs2 hu (Q := fun s nd => s.heap[ft]? = some nd) (fun _ h => h)).bind hs2 fun s3 nd hs3 hp3 hg => ?_
    split
    · rename_i argT rt
      have hu3 := hs2.keep hu hp3
      refine (Does.infer hs3 (by simpa using (func_fin hs3 hu3 hg).1) (by simpa using hs.keep (ha a (by simp)) (hp2.trans hp3))).bind hs3 fun s6 r6 hs6 hp6 hq6 => ?_
      cases r6 with
      | none => exact .pure hs6 (by simp)
      | some x =>
        have := hq6 x rfl
        subst this
        obtain ⟨pt, ptc⟩ := x
        simp only
        refine (Does.normal hs6 (hs.keep hr (hp2.trans (hp3.trans hp6)))).bind hs6 fun s7 it hs7 hp7 hq7 => ?_
        have hit : it = ft := NormalTo.unique hq7.2 (NormalTo.prefix (hp3.trans (hp6.trans hp7)) hn)
        subst hit
        refine (Does.get hs7 hq7.1 (Q := fun s nd => s.heap[it]? = some nd) (fun _ h => h)).bind hs7 fun s8 nd hs8 hp8 hg8 => ?_
        have := prefix_node (hp6.trans (hp7.trans hp8)) hg
        rw [this] at hg8
        cases hg8
        exact applyLoop_does args _ s8 hs8 (func_fin hs8 (hs7.keep hq7.1 hp8) this).2 (fun b hb => hs.keep (ha b (by simp [hb])) (hp2.trans (hp3.trans (hp6.trans (hp7.trans hp8)))))
    · exact .pure hs3 (by simp)

theorem applyType_does {misc : Ptr × Tc} {vtype : Ptr} {args : List (Ptr × Tc)} (hs : Ready D s) (hm : Fin s.heap misc.1) (hv : Fin s.heap vtype) (ha : ∀ a ∈ args, Fin s.heap a.1) :
    Does n (1) s (applyType M n misc vtype args) Good := by
  unfold applyType
  refine (Does.normal hs hv).bind hs fun s2 vn hs2 hp2 hq2 => ?_
  refine (Does.get hs2 hq2.1 (Q := fun s nd => s.heap[vn]? = some nd) (fun _ h => h)).bind hs2 fun s3 nd hs3 hp3 hg => ?_
  split
  · rename_i path o
    have ho : o = true := hs3.pre.nodes _ _ hg
    subst ho
    split
    · rename_i a
      split
      · exact .pure hs3 (by simp)
      · have h1 := hs2.keep hq2.1 hp3
        have h2 := hs.keep (ha a (by simp)) (hp2.trans hp3)
        refine Does.bind hs3 (Q := fun s p => Fin s.heap p) (.alloc hs3 ⟨h2.lt, path, hg⟩ (by simp) ?_ (fun _ _ _ h _ => h)) ?_
        · intro c hc
          simp only [kids, Node.children, List.mem_cons, List.not_mem_nil, or_false] at hc
          rcases hc with rfl | rfl
          · exact h1
          · exact h2
        · intro s6 p hs6 hp6 hq6
          exact .pure hs6 fun x e => by cases e; exact hq6
    · exact .pure hs3 (by simp)
  · have hp23 := hp2.trans hp3
    have hv3 := hs.keep hv hp23
    refine (Does.depoly hs3 hv3).bind hs3 ?_
    rintro s4 ⟨st, vars⟩ hs4 hp4 ⟨rfl, hu, hn⟩
    simp only
    refine (Does.get hs4 hu (Q := fun s nd => s.heap[st]? = some nd) (fun _ h => h)).bind hs4 fun s5 nd hs5 hp5 hg5 => ?_
    have hpre := hp23.trans (hp4.trans hp5)
    split
    · rename_i fields
      have hfl := field_fin hs5 (hs4.keep hu hp5) hg5
      refine (Does.infer hs5 (fun t h => ?_) (fun t h => ?_)).bind hs5 fun s6 r6 hs6 hp6 hq6 => ?_
      · obtain ⟨f, hf, rfl⟩ := List.mem_map.mp h
        exact hfl f hf
      · obtain ⟨f, hf, rfl⟩ := List.mem_map.mp h
        exact hs.keep (ha f hf) hpre
      · cases r6 with
        | none => exact .pure hs6 (by simp)
        | some x =>
          have := hq6 x rfl
          subst this
          refine .pure hs6 fun x e => ?_
          cases e
          exact hs.keep hv (hpre.trans hp6)
    · exact (applyLoop_does args misc s5 hs5 (hs.keep hm hpre) (fun a h => hs.keep (ha a h) hpre)).weaken

theorem tcApply_fine {misc : Expr} {args : List Expr} {b : Bool} (hm : Fine n (W misc) D (rec misc)) (ha : ∀ e ∈ args, Fine n (W e) D (rec e)) : Fine n (W misc + (args.map W).sum + 1) D (tcApply M n rec misc args b) := by
  intro s hs
  unfold tcApply
  refine (hm s hs).bind hs fun s1 r hs1 hp1 hq1 => ?_
  refine (tcEach_does args ha s1 hs1).bind hs1 fun s2 rs hs2 hp2 hq2 => ?_
  cases r with
  | none => exact .pure hs2 (by simp)
  | some m =>
    have hm2 := hs1.keep (hq1 m rfl) hp2
    cases hal : allSome rs with
    | none => exact .pure hs2 (by simp)
    | some xs =>
      have hxs : ∀ a ∈ xs, Fin s2.heap a.1 := fun a h => hq2.2 a (allSome_mem hal a h)
      simp only
      refine (Does.normal hs2 hm2).bind hs2 fun s3 nm hs3 hp3 hq3 => ?_
      refine (Does.get hs3 hq3.1 (Q := fun s nd => s.heap[nm]? = some nd) (fun _ h => h)).bind hs3 fun s4 nd hs4 hp4 hg => ?_
      have hpre := hp3.trans hp4
      have hl := applyLoop_does (n := n) xs m s4 hs4 (hs2.keep hm2 hpre) (fun a h => hs2.keep (hxs a h) hpre)
      split
      · rename_i vt
        split
        · exact hl.weaken
        · exact (applyType_does hs4 (hs2.keep hm2 hpre) ((hs3.keep hq3.1 hp4).kid hs4.pre hg (by simp [kids, Node.children])) (fun a h => hs2.keep (hxs a h) hpre)).weaken
      · exact hl.weaken

end
end Verif.NoCrash
