import Verif.NoCrash.Check
import Verif.Safe.Let2
/-
Let does not crash the type checker.
-/
namespace Verif.NoCrash
open Types Elab
open Compile (Var Tc)

/-! ### Any step -/

/-- The step does not crash, ends if there is fuel for `c` more types, adds at most that many types, and `P` holds for its result. -/
def Runs {α : Type} (n c : Nat) (s : S) (m : TM α) (P : S → α → Prop) : Prop :=
  m s ≠ .fail ∧ (m s = .more → n < need (s.heap.length + c)) ∧ ∀ s' a, m s = .ok (s', a) → s'.heap.length ≤ s.heap.length + c ∧ P s' a

theorem Runs.bind {n c c1 : Nat} {α β : Type} {s : S} {m : TM α} {f : α → TM β} {P : S → α → Prop} {Q : S → β → Prop} (hm : Runs n c1 s m P) (hf : ∀ s' a, P s' a → Runs n (c - c1) s' (f a) Q)
    (hc : c1 ≤ c := by cost) : Runs n c s (m >>= f) Q := by
  obtain ⟨h1, h2, h3⟩ := hm
  cases hr : m s with
  | fail => exact absurd hr h1
  | more =>
    have : (m >>= f) s = .more := by show (m s).bind _ = _; rw [hr]; rfl
    exact ⟨by rw [this]; simp, fun _ => Nat.lt_of_lt_of_le (h2 hr) (need_mono (by omega)), by rw [this]; intro _ _ h; cases h⟩
  | ok x =>
    obtain ⟨s1, a⟩ := x
    have : (m >>= f) s = f a s1 := by show (m s).bind _ = _; rw [hr]; rfl
    obtain ⟨g1, g2⟩ := h3 s1 a hr
    obtain ⟨k1, k2, k3⟩ := hf s1 a g2
    refine ⟨by rw [this]; exact k1, fun hb => ?_, fun s' b hb => ?_⟩
    · rw [this] at hb
      exact Nat.lt_of_lt_of_le (k2 hb) (need_mono (by omega))
    · rw [this] at hb
      obtain ⟨q1, q2⟩ := k3 s' b hb
      exact ⟨by omega, q2⟩

theorem Runs.ok {n c : Nat} {α : Type} {s s' : S} {a : α} {m : TM α} {P : S → α → Prop} (h : m s = .ok (s', a)) (hl : s'.heap.length ≤ s.heap.length + c) (hp : P s' a) : Runs n c s m P :=
  ⟨by rw [h]; simp, (by rw [h]; intro e; cases e), fun _ _ e => by rw [h] at e; cases e; exact ⟨hl, hp⟩⟩

theorem Runs.pure {n c : Nat} {α : Type} {s : S} {a : α} {P : S → α → Prop} (h : P s a) : Runs n c s (Pure.pure a : TM α) P :=
  .ok rfl (by omega) h

theorem Runs.mono {n c : Nat} {α : Type} {s : S} {m : TM α} {P Q : S → α → Prop} (h : Runs n c s m P) (hq : ∀ s' a, P s' a → Q s' a) : Runs n c s m Q :=
  ⟨h.1, h.2.1, fun s' a e => ⟨(h.2.2 s' a e).1, hq s' a (h.2.2 s' a e).2⟩⟩

section
variable {D : List (List Name)} {n c : Nat} {rec : Rec} {recT : RecT} {W : Expr → Nat}

/-! ### The types of the bindings -/

theorem wrapType_fin : (l : Nat) → {h : Heap} → {t v : Ptr} → {l0 : Nat} → TypeChain h l0 t v → Fin h t → Pre h →
    Pre (wrapType l h t).1 ∧ h <+: (wrapType l h t).1 ∧ TypeChain (wrapType l h t).1 (l + l0) (wrapType l h t).2 v ∧ Fin (wrapType l h t).1 (wrapType l h t).2 ∧
      (wrapType l h t).1.length = h.length + l
  | 0, h, t, v, l0, hc, ht, hm => ⟨hm, List.prefix_rfl, by simpa [wrapType] using hc, ht, rfl⟩
  | l + 1, h, t, v, l0, hc, ht, hm => by
    rw [wrapType]
    obtain ⟨g1, g2, g3, g4, g5⟩ := wrapType_fin l (h := (new h (.type t)).1) (t := (new h (.type t)).2) (v := v) (l0 := l0 + 1) (.succ (new_get _ _) (hc.ends (.prefix (new_prefix _ _))))
      (Fin.new hm (by simpa [kids, Node.children] using ht) (by simp)) (hm.new ht.lt (by simp))
    exact ⟨g1, (new_prefix _ _).trans g2, by rw [show l + 1 + l0 = l + (l0 + 1) by omega]; exact g3, g4, by rw [g5]; simp [Types.new]; omega⟩

theorem newVarType_fin {h : Heap} (hm : Pre h) (l : Nat) : ∃ h' t v, newVarType h (.basic l) = .ok (h', t) ∧ Pre h' ∧ h <+: h' ∧ Fin h' t ∧
    TypeChain h' l t v ∧ h'[v]? = some (.var (.basic 0) none) ∧ h.length ≤ v ∧ h'.length = h.length + l + 1 := by
  have hn : NodeIn h (.var (.basic 0) none) := ⟨⟨_, rfl⟩, by simp⟩
  have hm1 := hm.new hn (by intro k v e; cases e; simp)
  obtain ⟨g1, g2, g3, g4, g5⟩ := wrapType_fin l (h := (new h (.var (.basic 0) none)).1) (t := (new h (.var (.basic 0) none)).2) .zero (Fin.new hm (by simp [kids, Node.children]) (by simp)) hm1
  refine ⟨_, _, (new h (.var (.basic 0) none)).2, ?_, g1, (new_prefix _ _).trans g2, g4, by simpa using g3, prefix_node g2 (new_get _ _), by simp [Types.new], by rw [g5]; simp [Types.new]; omega⟩
  have : levelAdjusted (.basic l) (-(l : Int)) = .ok (.basic 0) := by
    simp only [levelAdjusted]
    rw [if_pos (by omega), show ((l : Int) + -(l : Int)).toNat = 0 by omega]
  rw [newVarType]
  simp only [kindLevel, this]
  rfl

/-- What the type of a binding costs. -/
def annCost (W : Expr → Nat) (b : Binding) : Nat :=
  match b.ann with
  | .inl k => kindLevel k + 1
  | .inr e => W e

theorem bindTypes_does : (bs : List Binding) → (prev : List Name) → (∀ b ∈ bs, ∀ e, b.ann = .inr e → FineT n (W e) D (recT e)) → ∀ s, Ready D s →
    Does n (bs.map (annCost W)).sum s (bindTypes n recT prev bs) fun s' r => ∀ ts, r = some ts → (∃ vs, BTs s'.heap s.heap.length bs ts vs) ∧ ∀ t ∈ ts, Fin s'.heap t
  | [], prev, _, s, hs => by
    unfold bindTypes
    exact .pure hs fun ts e => by cases e; exact ⟨⟨[], .nil⟩, by simp⟩
  | b :: bs, prev, hT, s, hs => by
    unfold bindTypes
    have first : Does n (annCost W b) s (match b.ann with
        | .inl k => do
          let t ← liftH (newVarType · (.basic (kindLevel k)))
          return some t
        | .inr e => recT e : TM (Option Ptr)) fun s' o => ∀ t, o = some t → Fin s'.heap t ∧
          ((∃ k v, b.ann = .inl k ∧ TypeChain s'.heap (kindLevel k) t v ∧ s'.heap[v]? = some (.var (.basic 0) none) ∧ s.heap.length ≤ v) ∨ ∃ e, b.ann = .inr e) := by
      cases ha : b.ann with
      | inl k =>
        simp only
        obtain ⟨h', t, v, h1, h2, h3, h4, h5, h6, h7, h8⟩ := newVarType_fin hs.pre (kindLevel k)
        have : (do let t ← liftH (newVarType · (.basic (kindLevel k))); return some t : TM (Option Ptr)) s = .ok ({ s with heap := h' }, some t) := by
          show ((newVarType s.heap (.basic (kindLevel k))).bind _).bind _ = _
          rw [h1]; rfl
        refine .ok this h2 h3 (.refl _) ?_ fun t e => by cases e; exact ⟨h4, .inl ⟨k, v, rfl, h5, h6, h7⟩⟩
        simp only [annCost, ha, h8]
        omega
      | inr e =>
        simp only
        refine ((hT b (by simp) e ha s hs).mono fun s' o _ _ h t e => ⟨h t e, .inr ⟨_, rfl⟩⟩).weaken ?_
        simp only [annCost, ha]
        omega
    refine first.bind hs fun s1 o hs1 hp1 hq1 => ?_
    refine Does.bind hs1 (c1 := 0) (Q := fun _ _ => True) ?_ fun s2 ok hs2 hp2 _ => ?_
    · cases o with
      | none => exact .pure hs1 trivial
      | some t => exact .space hs1 (hq1 t rfl).1
    refine (bindTypes_does bs (b.name :: prev) (fun b hb => hT b (by simp [hb])) s2 hs2).bind hs2 fun s3 o3 hs3 hp3 hq3 => ?_
    cases o with
    | none => exact .pure hs3 (by simp)
    | some t =>
      cases o3 with
      | none => exact .pure hs3 (by simp)
      | some ts =>
        refine .pure hs3 fun ts' e => ?_
        split at e
        · cases e
          obtain ⟨q1, q2⟩ := hq1 t rfl
          obtain ⟨⟨vs, q3⟩, q4⟩ := hq3 ts rfl
          have hp13 := hp2.trans hp3
          refine ⟨?_, ?_⟩
          · rcases q2 with ⟨k, v, ha, h5, h6, h7⟩ | ⟨e, ha⟩
            · refine ⟨v :: vs, .var ha (h5.ends (.prefix hp13)) (prefix_node hp13 h6) h7 ?_ (q3.prefix List.prefix_rfl (hp1.trans hp2).length_le)⟩
              intro hv
              have h8 := q3.ge v hv
              have h9 := prefix_lt hp2 (node_lt h6)
              omega
            · exact ⟨vs, .typ ha (prefix_lt hp13 q1.lt) (q3.prefix List.prefix_rfl (hp1.trans hp2).length_le)⟩
          · simp only [List.mem_cons, forall_eq_or_imp]
            exact ⟨hs1.keep q1 hp13, q4⟩
        · cases e

/-! ### The values of the bindings -/

/-- The values have the kinds that are given. -/
inductive DefsFin (h : Heap) : List Binding → List Ptr → Prop where
  | nil : DefsFin h [] []
  | cons {b bs d ds} : Fin h d → (∀ k, b.ann = .inl k → ∃ w, Chain h (kindLevel k) d w) → DefsFin h bs ds → DefsFin h (b :: bs) (d :: ds)

theorem Chain.prefix {h h' : Heap} (hp : h <+: h') {l : Nat} {t w : Ptr} (hc : Chain h l t w) : Chain h' l t w := by
  obtain ⟨nd, h1, h2⟩ := hc.last
  exact ⟨hc.chain.ends (.prefix hp), nd, prefix_node hp h1, h2⟩

theorem bindDefs_does : (bs : List Binding) → (ts : List Ptr) → ts.length = bs.length → (∀ b ∈ bs, Fine n (W b.expr) D (rec b.expr)) → ∀ s, Ready D s → (∀ t ∈ ts, Fin s.heap t) →
    Does n (bs.map fun b => W b.expr).sum s (bindDefs n rec bs ts) fun s' r => ∀ ds, r = some ds → DefsFin s'.heap bs (ds.map (·.1))
  | [], [], _, _, s, hs, _ => by
    unfold bindDefs
    exact .pure hs fun ds e => by cases e; exact .nil
  | b :: bs, t :: ts, hl, hb, s, hs, ht => by
    unfold bindDefs
    refine (hb b (by simp) s hs).bind hs fun s1 r hs1 hp1 hq1 => ?_
    cases r with
    | none => exact .pure hs1 (by simp)
    | some x =>
      obtain ⟨dt, tc⟩ := x
      have hd : Fin s1.heap dt := hq1 _ rfl
      simp only
      have kind : Does n 0 s1 (match b.ann with
          | .inr _ => readH (fbleTypesEqual n · t dt)
          | .inl k => do
            let actual ← readH (getKind n · dt)
            return kindsEqual k actual : TM Bool) fun s' ok => ok = true → ∀ k, b.ann = .inl k → ∃ w, Chain s'.heap (kindLevel k) dt w := by
        cases ha : b.ann with
        | inl k =>
          simp only
          refine (Does.kind hs1 hd).bind hs1 ?_
          rintro s2 k' hs2 hp2 ⟨l, rfl, w, hw⟩
          refine .pure hs2 fun ok k1 e => ?_
          cases e
          cases k with
          | poly => simp [kindsEqual] at ok
          | basic l' =>
            simp only [kindsEqual, beq_iff_eq] at ok
            subst ok
            exact ⟨w, hw⟩
        | inr e =>
          simp only
          exact (Does.equal hs1 (hs.keep (ht t (by simp)) hp1) hd).mono fun _ _ _ _ _ _ k e => by cases e
      refine kind.bind hs1 fun s2 ok hs2 hp2 hq2 => ?_
      cases ok with
      | false => exact .pure hs2 (by simp)
      | true =>
        simp only [Bool.not_true, Bool.false_eq_true, if_false]
        refine (bindDefs_does bs ts (by simpa using hl) (fun b h => hb b (by simp [h])) s2 hs2 (fun t' ht' => hs.keep (ht t' (by simp [ht'])) (hp1.trans hp2))).bind hs2 fun s3 r3 hs3 hp3 hq3 => ?_
        cases r3 with
        | none => exact .pure hs3 (by simp)
        | some ds =>
          refine .pure hs3 fun ds' e => ?_
          cases e
          refine .cons (hs1.keep hd (hp2.trans hp3)) (fun k ha => ?_) (hq3 ds rfl)
          obtain ⟨w, hw⟩ := hq2 rfl k ha
          exact ⟨w, hw.prefix hp3⟩

/-! ### Assignment -/

theorem Chain.fin {h : Heap} (hm : Pre h) {l : Nat} {t w : Ptr} (hc : TypeChain h l t w) (ht : Fin h t) : Fin h w := by
  induction hc with
  | zero => exact ht
  | succ hg _ ih => exact ih (ht.kid hm hg (by simp [kids, Node.children]))

theorem set_prePre {h : Heap} (hm : Pre h) {v w : Ptr} {k0 : Kind} (hv : h[v]? = some (.var k0 none)) (hw : w < h.length) (hnt : ∀ u, h[w]? ≠ some (.type u)) :
    Pre (h.set v (.var (.basic 0) (some w))) := by
  have other : ∀ (p : Nat) u, (h.set v (.var (.basic 0) (some w)))[p]? = some (.type u) → h[p]? = some (.type u) := by
    intro p u hg
    by_cases e : v = p
    · subst e
      rw [List.getElem?_set_self (node_lt hv)] at hg
      cases hg
    · rwa [List.getElem?_set_ne e] at hg
  refine ⟨set_pre hm.nodes hv hw, fun p k u hg => ?_, fun p u hg => hm.order p u (other p u hg), fun p k x hg u hu => ?_⟩
  · by_cases e : v = p
    · subst e
      rw [List.getElem?_set_self (node_lt hv)] at hg
      cases hg
      rfl
    · rw [List.getElem?_set_ne e] at hg
      exact hm.kinds p k u hg
  · have hu := other x u hu
    by_cases e : v = p
    · subst e
      rw [List.getElem?_set_self (node_lt hv)] at hg
      cases hg
      exact hnt u hu
    · rw [List.getElem?_set_ne e] at hg
      exact hm.vals p k x hg u hu

theorem assignVar_fin {h : Heap} (hm : Pre h) {l : Nat} {t v : Ptr} {k0 : Kind} (hc : TypeChain h l t v) (hv : h[v]? = some (.var k0 none)) {n : Nat} {d w : Ptr} (hw : Chain h l d w) :
    assignVarType n h t d = .more ∨ assignVarType n h t d = .ok (h.set v (.var (.basic 0) (some w))) := by
  induction hc generalizing n d with
  | @zero v =>
    cases n with
    | zero => exact .inl rfl
    | succ n =>
      obtain ⟨hc, nd, hg, hl⟩ := hw
      cases hc
      rw [assignVarType]
      have : Types.get h v = .ok (.var k0 none) := by rw [Types.get, hv]
      rw [this]
      simp only [bind_ok]
      rcases getKind_tame hm n (node_lt hg) with e | ⟨l, e, w', hw'⟩
      · exact .inl (by rw [e]; rfl)
      · have : l = 0 := by
          cases hw'.chain with
          | zero => rfl
          | succ hg' _ => rw [hg] at hg'; cases hg'; exact absurd rfl (hl _)
        subst this
        exact .inr (by rw [e]; rfl)
  | @succ l t u v hg _ ih =>
    cases n with
    | zero => exact .inl rfl
    | succ n =>
      obtain ⟨hc, hl⟩ := hw
      cases hc with
      | @succ _ _ du _ hgd hcd =>
        rw [assignVarType]
        have e1 : Types.get h t = .ok (.type u) := by rw [Types.get, hg]
        have e2 : Types.get h d = .ok (.type du) := by rw [Types.get, hgd]
        rw [e1]
        simp only [bind_ok]
        rw [e2]
        exact ih hv ⟨hcd, hl⟩

/-- What the assignment of types to the variables of a let does. -/
structure Assign (h0 h h' : Heap) (vs ts ds ts' : List Ptr) : Prop where
  pre : Pre h'
  length : h'.length = h.length
  ends : Ends h h'
  other : ∀ p, p ∉ vs → h'[p]? = h[p]?
  vals : ∀ v ∈ vs, ∃ w, h'[v]? = some (.var (.basic 0) (some w)) ∧ Fin h0 w
  gets : ∀ v ∈ vs, ∃ t ∈ ts', Gets h' t v
  types : ∀ t ∈ ts', t ∈ ts ∨ t ∈ ds
  lens : ts'.length = ts.length

theorem Chain.ends {h h' : Heap} (hE : Ends h h') {l : Nat} {t w : Ptr} (hc : Chain h l t w) : Chain h' l t w := by
  obtain ⟨nd, h1, h2⟩ := hc.last
  obtain ⟨n', g1, g2⟩ := hE _ _ h1
  refine ⟨hc.chain.ends hE, n', g1, fun u e => ?_⟩
  subst e
  rcases g2 with rfl | ⟨_, _, _, _, g⟩ | ⟨_, _, _, g⟩
  · exact h2 _ rfl
  · cases g
  · cases g

theorem Chain.not_type {h : Heap} {l : Nat} {t w : Ptr} (hc : Chain h l t w) : ∀ u, h[w]? ≠ some (.type u) := by
  obtain ⟨nd, h1, h2⟩ := hc.last
  intro u hu
  rw [hu] at h1
  cases h1
  exact h2 u rfl

theorem chain_lt {h : Heap} {l : Nat} {t v : Ptr} {nd : Node} (hc : TypeChain h l t v) (hv : h[v]? = some nd) : t < h.length := by
  cases hc with
  | zero => exact node_lt hv
  | succ hg _ => exact node_lt hg

theorem bindAssign_runs {h0 : Heap} (hm0 : Pre h0) {L : Nat} : (bs : List Binding) → {ts vs ds : List Ptr} → {s : S} → BTs s.heap L bs ts vs → DefsFin h0 bs ds → Ends h0 s.heap → Pre s.heap →
    s.heap.length = h0.length →
    Runs n 0 s (bindAssign n bs ts ds) fun s' ts' => s'.scopes = s.scopes ∧ Assign h0 s.heap s'.heap vs ts ds ts'
  | [], ts, vs, ds, s, hb, hd, hE, hm, hl => by
    cases hb
    cases hd
    unfold bindAssign
    exact .pure ⟨rfl, hm, rfl, .refl _, fun _ _ => rfl, by simp, by simp, by simp, rfl⟩
  | b :: bs, _, _, _, s, hb, hd, hE, hm, hl => by
    cases hd with
    | @cons _ _ d ds hd1 hd2 hd3 =>
      cases hb with
      | @var _ k _ t ts v vs k0 h1 h2 h3 h4 h5 hb =>
        unfold bindAssign
        rw [h1]
        simp only
        obtain ⟨w, hw⟩ := hd2 k h1
        have fw : Fin h0 w := Chain.fin hm0 hw.chain hd1
        have hwl : w < s.heap.length := by rw [hl]; exact fw.lt
        have dlt : (d : Nat) < s.heap.length := by rw [hl]; exact hd1.lt
        have tlt : (t : Nat) < s.heap.length := chain_lt h2 h3
        let h1' := s.heap.set v (.var (.basic 0) (some w))
        have hE1 : Ends s.heap h1' := set_ends (k := .basic 0) (w := some w) h3
        have first : Runs n 0 s (do
            let _ ← liftH (fun h => do return (← assignVarType n h t d, ()))
            return if kindLevel k = 0 then d else t : TM Ptr) fun s' t' => s' = { s with heap := h1' } ∧ t' = if kindLevel k = 0 then d else t := by
          rcases assignVar_fin hm h2 h3 (n := n) (hw.ends hE) with e | e
          · have : (do
              let _ ← liftH (fun h => do return (← assignVarType n h t d, ()))
              return if kindLevel k = 0 then d else t : TM Ptr) s = .more := by
              show ((R.bind (assignVarType n s.heap t d) _).bind _).bind _ = _
              rw [e]; rfl
            refine ⟨by rw [this]; simp, fun _ => ?_, by rw [this]; intro _ _ h; cases h⟩
            exact need_lt2 (assignVarType_more hm n tlt dlt e) tlt
          · refine Runs.ok (s' := { s with heap := h1' }) (a := if kindLevel k = 0 then d else t) ?_ (by simp [h1']) ⟨rfl, rfl⟩
            show ((R.bind (assignVarType n s.heap t d) _).bind _).bind _ = _
            rw [e]; rfl
        refine first.bind ?_
        rintro s1 t1 ⟨rfl, rfl⟩
        have hset : h1'[v]? = some (.var (.basic 0) (some w)) := List.getElem?_set_self (node_lt h3)
        have hoth : ∀ p, p ≠ v → h1'[p]? = s.heap[p]? := by intro p hp; exact List.getElem?_set_ne (Ne.symm hp)
        have hlen : h1'.length = s.heap.length := by simp [h1']
        refine (bindAssign_runs hm0 bs (s := { s with heap := h1' }) (hb.set h3 h5) hd3 (hE.trans hE1) (set_prePre hm h3 hwl (hw.ends hE).not_type) (hlen.trans hl)).bind ?_
        rintro s2 ts2 ⟨k1, k2⟩
        refine .pure ⟨k1, k2.pre, k2.length.trans hlen, hE1.trans k2.ends, ?_, ?_, ?_, ?_, by simp [k2.lens]⟩
        · intro p hp
          simp only [List.mem_cons, not_or] at hp
          exact (k2.other p hp.2).trans (hoth p hp.1)
        · simp only [List.mem_cons, forall_eq_or_imp]
          exact ⟨⟨w, (k2.other v h5).trans hset, fw⟩, k2.vals⟩
        · simp only [List.mem_cons, forall_eq_or_imp, exists_eq_or_imp]
          refine ⟨.inl ?_, fun v' hv' => .inr (k2.gets v' hv')⟩
          refine Gets.ends k2.ends ?_
          split
          · rename_i hk
            have hc := hw.chain
            rw [hk] at hc
            cases hc
            exact .inl ⟨_, hset⟩
          · rename_i hk
            refine .inr ⟨kindLevel k - 1, ?_⟩
            rw [show kindLevel k - 1 + 1 = kindLevel k by omega]
            exact h2.ends hE1
        · simp only [List.mem_cons, forall_eq_or_imp]
          refine ⟨?_, fun t' ht' => ?_⟩
          · split
            · exact .inr (.inl rfl)
            · exact .inl (.inl rfl)
          · rcases k2.types t' ht' with h | h
            · exact .inl (.inr h)
            · exact .inr (.inr h)
      | @typ _ e _ t ts vs h1 h2 hb =>
        unfold bindAssign
        rw [h1]
        simp only
        refine (Runs.pure (c := 0) (P := fun s' t' => s' = s ∧ t' = t) ⟨rfl, rfl⟩).bind ?_
        rintro s1 t1 ⟨rfl, rfl⟩
        refine (bindAssign_runs hm0 bs hb hd3 hE hm hl).bind ?_
        rintro s2 ts2 ⟨k1, k2⟩
        refine .pure ⟨k1, k2.pre, k2.length, k2.ends, k2.other, k2.vals, ?_, ?_, by simp [k2.lens]⟩
        · intro v hv
          obtain ⟨t', ht, hg⟩ := k2.gets v hv
          exact ⟨t', by simp [ht], hg⟩
        · simp only [List.mem_cons, forall_eq_or_imp, true_or, true_and]
          intro t' ht'
          rcases k2.types t' ht' with h | h
          · exact .inl (.inr h)
          · exact .inr (.inr h)

/-! ### Vacuous types -/

theorem stripType_runs {h : Heap} (hm : Pre h) : (n : Nat) → (o : Option Ptr) → (∀ t, o = some t → t < h.length) →
    stripType n h o = .more ∨ ∃ o', stripType n h o = .ok (h, o') ∧ ∀ t, o' = some t → t < h.length
  | 0, _, _ => .inl rfl
  | n + 1, none, _ => .inr ⟨none, rfl, by simp⟩
  | n + 1, some t, ht => by
    have ht := ht t rfl
    have hg := List.getElem?_eq_getElem ht
    have hget : get h t = .ok h[t] := by rw [Types.get, hg]
    rw [stripType, hget]
    simp only [bind_ok]
    have same : ∃ o', (R.ok (h, some t) : R (Heap × Option Ptr)) = .ok (h, o') ∧ ∀ t, o' = some t → t < h.length := ⟨some t, rfl, by intro u e; cases e; exact ht⟩
    cases hnd : h[t] with
    | type u =>
      simp only
      have hu : u < h.length := by have := hm.nodes _ _ hg; rw [hnd] at this; exact this
      rcases normal_same hm n (N := []) hu with e | e | ⟨p, e, hp⟩
      · exact .inl (by rw [e]; rfl)
      · rw [e]; exact stripType_runs hm n none (by simp)
      · rw [e]; exact stripType_runs hm n (some p) (by intro t e; cases e; exact hp)
    | _ => exact .inr same

theorem stripPoly_runs {h : Heap} (hm : Pre h) (n : Nat) (o : Option Ptr) (ht : ∀ t, o = some t → t < h.length) :
    stripPoly n h o = .more ∨ ∃ o', stripPoly n h o = .ok (h, o') := by
  cases n with
  | zero => exact .inl rfl
  | succ n =>
    cases o with
    | none => exact .inr ⟨none, rfl⟩
    | some t =>
      have ht := ht t rfl
      have hg := List.getElem?_eq_getElem ht
      have hget : get h t = .ok h[t] := by rw [Types.get, hg]
      rw [stripPoly, hget]
      simp only [bind_ok]
      cases hnd : h[t] with
      | poly => have := hm.nodes _ _ hg; rw [hnd] at this; exact this.elim
      | _ => exact .inr ⟨some t, rfl⟩

theorem vacuous_runs {h : Heap} (hm : Pre h) (n : Nat) {t : Ptr} (ht : t < h.length) : typeIsVacuous n h t = .more ∨ ∃ b, typeIsVacuous n h t = .ok (h, b) := by
  rw [typeIsVacuous]
  have next : ∀ o : Option Ptr, (∀ t, o = some t → t < h.length) → R.bind (stripType n h o) (fun x => R.bind (stripPoly n x.1 x.2) fun y => R.ok (y.1, y.2.isNone)) = .more ∨
      ∃ b, R.bind (stripType n h o) (fun x => R.bind (stripPoly n x.1 x.2) fun y => R.ok (y.1, y.2.isNone)) = .ok (h, b) := by
    intro o ho
    rcases stripType_runs hm n o ho with e | ⟨o', e, ho'⟩
    · exact .inl (by rw [e]; rfl)
    · rw [e]
      rcases stripPoly_runs hm n o' ho' with e | ⟨o2, e⟩
      · exact .inl (by simp only [R.bind]; rw [e])
      · exact .inr ⟨o2.isNone, by simp only [R.bind]; rw [e]⟩
  rcases normal_same hm n (N := []) ht with e | e | ⟨p, e, hp⟩
  · exact .inl (by rw [e]; rfl)
  · rw [e]; exact next none (by simp)
  · rw [e]; exact next (some p) (by intro t e; cases e; exact hp)

theorem vacuous_more {h : Heap} (hm : Pre h) {n : Nat} {t : Nat} (ht : t < h.length) (he : typeIsVacuous n h t = .more) : n < need h.length := by
  rw [typeIsVacuous] at he
  have poly : ∀ o : Option Ptr, (∀ t, o = some t → t < h.length) → stripPoly n h o = .more → n < need h.length := by
    intro o ho he
    cases n with
    | zero => exact need_gt (by omega)
    | succ n =>
      cases o with
      | none => cases he
      | some t =>
        have ht := ho t rfl
        have hg := List.getElem?_eq_getElem ht
        have hget : get h t = .ok h[t] := by rw [Types.get, hg]
        rw [stripPoly, hget] at he
        simp only [bind_ok] at he
        cases hnd : h[t] with
        | poly => have := hm.nodes _ _ hg; rw [hnd] at this; exact this.elim
        | _ => rw [hnd] at he; cases he
  have next : ∀ o : Option Ptr, (∀ t, o = some t → t < h.length) → R.bind (stripType n h o) (fun x => R.bind (stripPoly n x.1 x.2) fun y => R.ok (y.1, y.2.isNone)) = .more → n < need h.length := by
    intro o ho he
    rcases bind_more (x := stripType n h o) he with he | ⟨x, hx, he⟩
    · cases o with
      | none =>
        cases n with
        | zero => exact need_gt (by omega)
        | succ n => cases he
      | some t =>
        exact need_lt2 (stripType_more hm n (ho t rfl) he) (ho t rfl)
    · rcases stripType_runs hm n o ho with e | ⟨o', e, ho'⟩
      · rw [e] at hx; cases hx
      · rw [e] at hx
        cases hx
        rcases bind_more (x := stripPoly n h o') he with he | ⟨x, hx, he⟩
        · exact poly o' ho' he
        · cases he
  rcases normal_same hm n (N := []) ht with e | e | ⟨p, e, hp⟩
  · have := normal_more hm.nodes.mono0 n ht List.nodup_nil (by simp) e
    simp only [List.length_nil] at this
    exact need_gt (by omega)
  · rw [e] at he; exact next none (by simp) he
  · rw [e] at he; exact next (some p) (by intro t e; cases e; exact hp) he

theorem anyVacuous_runs : (ts : List Ptr) → {s : S} → Pre s.heap → (∀ t ∈ ts, t < s.heap.length) →
    Runs n 0 s (anyVacuous n ts) fun s' b => s' = s ∧ (b = false → ∀ t ∈ ts, ∀ v, Gets s.heap t v → ∃ p, NormalTo s.heap p v) := by
  intro ts s hm ht
  have key : anyVacuous n ts s ≠ .fail ∧ (anyVacuous n ts s = .more → n < need s.heap.length) := by
    induction ts with
    | nil => unfold anyVacuous; exact ⟨(by intro h; cases h), (by intro h; cases h)⟩
    | cons t ts ih =>
      unfold anyVacuous
      obtain ⟨h2, h3⟩ := ih (fun t h => ht t (by simp [h]))
      show ((typeIsVacuous n s.heap t).bind _).bind _ ≠ _ ∧ (((typeIsVacuous n s.heap t).bind _).bind _ = _ → _)
      rcases vacuous_runs hm n (ht t (by simp)) with e | ⟨b, e⟩
      · exact ⟨by rw [e]; simp [R.bind], fun _ => vacuous_more hm (ht t (by simp)) e⟩
      · rw [e]
        show (anyVacuous n ts s).bind _ ≠ _ ∧ ((anyVacuous n ts s).bind _ = _ → _)
        cases hr : anyVacuous n ts s with
        | fail => exact absurd hr h2
        | more => exact ⟨by simp [R.bind], fun _ => h3 hr⟩
        | ok x => exact ⟨(by intro h; cases h), (by intro h; cases h)⟩
  refine ⟨key.1, key.2, fun s' b h => ?_⟩
  obtain ⟨e, h'⟩ := anyVacuous_ok ts hm.nodes ht h
  exact ⟨by rw [e]; omega, e, h'⟩

end
end Verif.NoCrash
