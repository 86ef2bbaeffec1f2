import Verif.NoCrash.Let
/-
Let does not crash the type checker: all of it.
-/
namespace Verif.NoCrash
open Types Elab
open Compile (Var Tc)

/-! ### The variables of a let -/

theorem pushLocals_run : (xs : List Name) → (ts : List Ptr) → {s : S} → s.scopes ≠ [] → ∃ s', pushLocals xs ts s = .ok (s', ())
  | [], ts, s, _ => ⟨s, by unfold pushLocals; rfl⟩
  | x :: xs, [], s, _ => ⟨s, by unfold pushLocals; rfl⟩
  | x :: xs, t :: ts, s, hs => by
    unfold pushLocals
    cases hsc : s.scopes with
    | nil => exact absurd hsc hs
    | cons sc rest =>
      have : pushLocal (.normal x) t s = .ok ({ s with scopes := { sc with locals := ⟨.normal x, t, false, some (.loc sc.allocated)⟩ :: sc.locals, allocated := sc.allocated + 1 } :: rest }, ()) := by
        unfold pushLocal onScope; rw [hsc]
      obtain ⟨s', h⟩ := pushLocals_run xs ts (s := { s with scopes := { sc with locals := ⟨.normal x, t, false, some (.loc sc.allocated)⟩ :: sc.locals, allocated := sc.allocated + 1 } :: rest }) (by simp)
      exact ⟨s', by show (pushLocal (.normal x) t s).bind _ = _; rw [this]; exact h⟩

theorem popLocals_run : (k : Nat) → {s : S} → {sc : Scope} → {rest : List Scope} → s.scopes = sc :: rest →
    ∃ a, popLocals k s = .ok ({ s with scopes := { sc with locals := sc.locals.drop k, allocated := a } :: rest }, ())
  | 0, s, sc, rest, hs => ⟨sc.allocated, by unfold popLocals; cases s; cases hs; rfl⟩
  | k + 1, s, sc, rest, hs => by
    unfold popLocals
    show ∃ a, (popLocal s).bind _ = _
    have : ∃ a, popLocal s = .ok ({ s with scopes := { sc with locals := sc.locals.drop 1, allocated := a } :: rest }, ()) := by
      unfold popLocal onScope
      rw [hs]
      simp only
      cases hl : sc.locals with
      | nil => exact ⟨sc.allocated, by cases sc; cases hl; rfl⟩
      | cons v vs => exact ⟨_, rfl⟩
    obtain ⟨a, h⟩ := this
    obtain ⟨b, h'⟩ := popLocals_run k (s := { s with scopes := { sc with locals := sc.locals.drop 1, allocated := a } :: rest }) rfl
    refine ⟨b, ?_⟩
    rw [h]
    show popLocals k _ = _
    rw [h', List.drop_drop, Nat.add_comm 1 k]

/-- Without the first `k` variables, the scopes are like `sc` and `rest`. -/
def Popped (sc : Scope) (rest : List Scope) (k : Nat) (σ : List Scope) : Prop :=
  ∃ sc' rest', σ = sc' :: rest' ∧ (sc'.locals.drop k).map nt = sc.locals.map nt ∧ sc'.args.map nt = sc.args.map nt ∧
    (∀ G : Ptr → Prop, ScIn G rest → (∀ v ∈ sc.statics, G v.type) → ∀ v ∈ sc'.statics, G v.type) ∧ Rel rest rest' ∧ k ≤ sc'.locals.length

theorem Popped.rel {sc : Scope} {rest : List Scope} {k : Nat} {σ σ' : List Scope} (h : Popped sc rest k σ) (hr : Rel σ σ') : Popped sc rest k σ' := by
  obtain ⟨sc1, rest1, rfl, h1, h2, h3, h4, h5⟩ := h
  cases hr with
  | @cons _ b _ σ' g1 g2 g3 g4 =>
    have hl : b.locals.length = sc1.locals.length := by simpa using congrArg List.length g1
    refine ⟨b, σ', rfl, ?_, g2.trans h2, fun G hG hs => g3 G (h4.scIn hG) (h3 G hG hs), h4.trans g4, by omega⟩
    rw [List.map_drop, g1, ← List.map_drop, h1]

theorem retype_drop : (ts : List Ptr) → (vs : List V) → (retype ts vs).drop ts.length = vs.drop ts.length
  | [], vs => by simp [retype]
  | _ :: _, [] => by simp [retype]
  | t :: ts, v :: vs => by simpa [retype] using retype_drop ts vs

theorem retype_length : (ts : List Ptr) → (vs : List V) → (retype ts vs).length = vs.length
  | [], vs => by simp [retype]
  | _ :: _, [] => by simp [retype]
  | t :: ts, v :: vs => by simpa [retype] using retype_length ts vs

theorem retype_mem : (ts : List Ptr) → (vs : List V) → ∀ v ∈ retype ts vs, v.type ∈ ts ∨ v ∈ vs.drop ts.length
  | [], vs, v, h => .inr (by simpa [retype] using h)
  | _ :: _, [], v, h => by simp [retype] at h
  | t :: ts, w :: vs, v, h => by
    simp only [retype, List.mem_cons] at h
    rcases h with rfl | h
    · exact .inl (by simp)
    · rcases retype_mem ts vs v h with h | h
      · exact .inl (by simp [h])
      · exact .inr (by simpa using h)

/-! ### Types after the assignment -/

theorem BTs.vars {h : Heap} {L : Nat} {bs ts vs} (hb : BTs h L bs ts vs) : ∀ v ∈ vs, ∃ k, h[v]? = some (.var k none) := by
  induction hb with
  | nil => simp
  | var _ _ h3 _ _ _ ih =>
    simp only [List.mem_cons, forall_eq_or_imp]
    exact ⟨⟨_, h3⟩, ih⟩
  | typ _ _ _ ih => exact ih

theorem Assign.fin {h h' : Heap} {vs ts ds ts' : List Ptr} (hm : Pre h) (ha : Assign h h h' vs ts ds ts') (hv : ∀ v ∈ vs, ∃ k, h[v]? = some (.var k none))
    (hvac : ∀ t ∈ ts', ∀ v, Gets h' t v → ∃ p, NormalTo h' p v) {t : Ptr} (ht : Fin h t) : Fin h' t := by
  have closed : ∀ u, Reach h' t u → Fin h u := by
    intro u hu
    induction hu with
    | refl => exact ht
    | @step u n c _ hg hc ih =>
      by_cases hm' : u ∈ vs
      · obtain ⟨w, h1, h2⟩ := ha.vals u hm'
        rw [h1] at hg
        cases hg
        simp only [kids, List.mem_singleton] at hc
        subst hc
        exact h2
      · rw [ha.other u hm'] at hg
        exact ih.kid hm hg hc
  refine ⟨by rw [ha.length]; exact ht.lt, fun u hu => ?_⟩
  obtain ⟨p, hp⟩ := (closed u hu).ends u .refl
  clear hu
  induction hp with
  | here hg hn =>
    by_cases hm' : p ∈ vs
    · obtain ⟨t', h1, h2⟩ := ha.gets p hm'
      exact hvac t' h1 p h2
    · exact ⟨p, .here (by rw [ha.other p hm']; exact hg) hn⟩
  | @value u k v hg _ ih =>
    obtain ⟨q, hq⟩ := ih
    refine ⟨q, .value (k := k) ?_ hq⟩
    rw [ha.other u ?_]
    · exact hg
    · intro hm'
      obtain ⟨k', h1⟩ := hv u hm'
      rw [hg] at h1
      cases h1

section
variable {D : List (List Name)} {n : Nat} {rec : Rec} {recT : RecT} {W : Expr → Nat}

theorem Popped.mods {sc : Scope} {rest : List Scope} {k : Nat} {σ : List Scope} (h : Popped sc rest k σ) {p : List Name} (hp : HasMod p (sc :: rest)) : HasMod p σ := by
  obtain ⟨sc1, rest1, rfl, h1, h2, h3, h4, h5⟩ := h
  have : Rel (sc :: rest) ({ sc1 with locals := sc1.locals.drop k } :: rest1) := .cons h1 h2 h3 h4
  obtain ⟨x, hx, hy⟩ := this.hasMod hp
  rcases List.mem_cons.mp hx with rfl | hx
  · exact ⟨sc1, by simp, hy⟩
  · exact ⟨x, by simp [hx], hy⟩

/-- The part of a let for which its variables are in scope. -/
theorem letInner_runs {bs : List Binding} {body : Expr} (hbs : ∀ b ∈ bs, Fine n (W b.expr) D (rec b.expr)) (hbody : Fine n (W body) D (rec body)) {L : Nat} {ts vs : List Ptr} {s : S} (hs : Ready D s)
    (hb : BTs s.heap L bs ts vs) (ht : ∀ t ∈ ts, Fin s.heap t) {sc : Scope} {rest : List Scope} (hsc : Popped sc rest bs.length s.scopes) (hmods : ∀ p ∈ D, HasMod p (sc :: rest)) :
    Runs n ((bs.map fun b => W b.expr).sum + W body) s (letInner n rec bs ts body) fun s' r => Pre s'.heap ∧ (∀ p : Nat, p < L → p < s.heap.length → s'.heap[p]? = s.heap[p]?) ∧ Popped sc rest bs.length s'.scopes ∧ Good s' r := by
  unfold letInner
  refine Runs.bind (bindDefs_does bs ts hb.length hbs s hs ht) ?_
  rintro s1 r ⟨hm1, hp1, hr1, hq1⟩
  have keep1 : ∀ p : Nat, p < L → p < s.heap.length → s1.heap[p]? = s.heap[p]? := fun p _ h => by
    rw [prefix_node hp1 (List.getElem?_eq_getElem h), List.getElem?_eq_getElem h]
  have pop1 := hsc.rel hr1
  cases r with
  | none => exact .pure ⟨hm1, keep1, pop1, by simp⟩
  | some ds =>
    simp only
    have hs1 := hs.next hm1 hp1 hr1
    have hd := hq1 ds rfl
    have hb1 := hb.prefix hp1 (Nat.le_refl _)
    obtain ⟨sc1, rest1, hsc1, g1, g2, g3, g4, g5⟩ := pop1
    refine Runs.bind (c1 := 0) (P := fun s' _ => s' = s1) ?_ ?_
    · refine Runs.ok (s' := s1) (a := (sc1.locals.take bs.length).any (·.used)) ?_ (by omega) rfl
      unfold anyUsed onScope
      rw [hsc1]
      simp only
      rw [← hsc1]
    intro s1' recursive e
    rw [e]
    refine (bindAssign_runs hm1 bs hb1 hd (.refl _) hm1 rfl).bind ?_
    rintro s2 ts' ⟨e2, as⟩
    have hl : ts'.length = bs.length := by rw [as.lens, hb.length]
    refine Runs.bind (c1 := 0) (P := fun s' _ => s' = { s2 with scopes := { sc1 with locals := retype ts'.reverse sc1.locals } :: rest1 }) ?_ ?_
    · refine Runs.ok (a := ()) ?_ (by simp) rfl
      unfold setTypes onScope
      rw [e2, hsc1]
    rintro s3 _ rfl
    have ht' : ∀ t ∈ ts', Fin s1.heap t := by
      intro t h
      rcases as.types t h with h | h
      · exact hs.keep (ht t h) hp1
      · clear as hq1
        have : ∀ {bs ds}, DefsFin s1.heap bs ds → ∀ t ∈ ds, Fin s1.heap t := by
          intro bs ds h
          induction h with
          | nil => simp
          | cons h1 _ _ ih => simp only [List.mem_cons, forall_eq_or_imp]; exact ⟨h1, ih⟩
        exact this hd t h
    have keep2 : ∀ p : Nat, p < L → p < s.heap.length → s2.heap[p]? = s.heap[p]? := by
      intro p h h'
      rw [as.other p (fun hv => Nat.lt_irrefl _ (Nat.lt_of_lt_of_le h (hb.ge p hv)))]
      exact keep1 p h h'
    have pop3 : Popped sc rest bs.length ({ sc1 with locals := retype ts'.reverse sc1.locals } :: rest1) := by
      refine ⟨_, _, rfl, ?_, g2, g3, g4, by simpa [retype_length] using g5⟩
      simp only
      rw [← hl, ← List.length_reverse, retype_drop, List.length_reverse, hl]
      exact g1
    refine (anyVacuous_runs ts' (s := { s2 with scopes := { sc1 with locals := retype ts'.reverse sc1.locals } :: rest1 }) as.pre (fun t h => by simp only; rw [as.length]; exact (ht' t h).lt)).bind ?_
    rintro s3 vac ⟨rfl, hvac⟩
    cases vac with
    | true => exact .pure ⟨as.pre, keep2, pop3, by simp⟩
    | false =>
      simp only [Bool.false_eq_true, if_false]
      have fin : ∀ {t}, Fin s1.heap t → Fin s2.heap t := fun h => as.fin hm1 (BTs.vars hb1) (hvac rfl) h
      have hs3 : Ready D { s2 with scopes := { sc1 with locals := retype ts'.reverse sc1.locals } :: rest1 } := by
        refine ⟨as.pre, ?_, by simp, fun p hp => pop3.mods (hmods p hp)⟩
        have hty := hs1.types
        rw [hsc1] at hty
        intro x hx v hv
        simp only [List.mem_cons] at hx
        rcases hx with rfl | hx
        · simp only [Scope.vars, List.mem_append] at hv
          rcases hv with (hv | hv) | hv
          · rcases retype_mem _ _ v hv with h | h
            · exact fin (ht' _ (by simpa using h))
            · exact fin (hty sc1 (by simp) v (by simp [Scope.vars, List.mem_of_mem_drop h]))
          · exact fin (hty sc1 (by simp) v (by simp [Scope.vars, hv]))
          · exact fin (hty sc1 (by simp) v (by simp [Scope.vars, hv]))
        · exact fin (hty x (by simp [hx]) v hv)
      refine Runs.bind (hbody _ hs3) ?_
      rintro s4 r ⟨hm4, hp4, hr4, hq4⟩
      have keep4 : ∀ p : Nat, p < L → p < s.heap.length → s4.heap[p]? = s.heap[p]? := by
        intro p h h'
        have h2 := keep2 p h h'
        rw [List.getElem?_eq_getElem h'] at h2 ⊢
        exact prefix_node hp4 h2
      have pop4 := pop3.rel hr4
      cases r with
      | none => exact .pure ⟨hm4, keep4, pop4, by simp⟩
      | some x =>
        obtain ⟨t, tc⟩ := x
        exact .pure ⟨hm4, keep4, pop4, fun x e => by cases e; exact hq4 (t, tc) rfl⟩

theorem tcLet_fine {bs : List Binding} {body : Expr} (hT : ∀ b ∈ bs, ∀ e, b.ann = .inr e → FineT n (W e) D (recT e)) (hbs : ∀ b ∈ bs, Fine n (W b.expr) D (rec b.expr)) (hbody : Fine n (W body) D (rec body)) :
    Fine n ((bs.map (annCost W)).sum + (bs.map fun b => W b.expr).sum + W body) D (tcLet n rec recT bs body) := by
  intro s hs
  unfold tcLet
  show Runs _ _ _ _ _
  refine Runs.bind (bindTypes_does bs [] hT s hs) ?_
  rintro s0 r ⟨hm0, hp0, hr0, hq0⟩
  have hs0 := hs.next hm0 hp0 hr0
  cases r with
  | none => exact .pure ⟨hm0, hp0, hr0, by simp⟩
  | some ts =>
    simp only
    obtain ⟨⟨vs, hb⟩, ht⟩ := hq0 ts rfl
    have hlen : (bs.map (·.name)).length = ts.length := by simp [hb.length]
    cases hsc : s0.scopes with
    | nil => exact absurd hsc hs0.ne
    | cons sc rest =>
      obtain ⟨s1, e1⟩ := pushLocals_run (bs.map (·.name)) ts hs0.ne
      have hs1 := pushLocals_ok _ _ hlen hsc e1
      refine Runs.bind (Runs.ok (c := 0) (P := fun s' _ => s' = s1) e1 (by rw [hs1]; simp) rfl) ?_
      rintro s1' _ e
      subst e
      have heap1 : s1'.heap = s0.heap := by rw [hs1]
      have pop1 : Popped sc rest bs.length s1'.scopes := by
        rw [hs1]
        refine ⟨_, _, rfl, ?_, rfl, fun _ _ h => h, .refl _, by simp [letVars_length _ _ _ hlen]⟩
        have : ((letVars sc.allocated (bs.map (·.name)) ts).reverse).length = bs.length := by simp [letVars_length _ _ _ hlen]
        simp only
        rw [← this, List.drop_left]
      have hmods := hs0.mods
      rw [hsc] at hmods
      have ready1 : Ready D s1' := by
        refine ⟨by rw [heap1]; exact hm0, ?_, by rw [hs1]; simp, fun p hp => pop1.mods (hmods p hp)⟩
        have hty := hs0.types
        rw [hsc] at hty
        rw [heap1, hs1]
        intro x hx v hv
        simp only [List.mem_cons] at hx
        rcases hx with rfl | hx
        · simp only [Scope.vars, List.mem_append, List.mem_reverse] at hv
          rcases hv with ((hv | hv) | hv) | hv
          · refine ht _ ?_
            have : v.type ∈ (letVars sc.allocated (bs.map (·.name)) ts).map (·.type) := List.mem_map.mpr ⟨v, hv, rfl⟩
            rwa [letVars_types _ _ _ hlen] at this
          · exact hty sc (by simp) v (by simp [Scope.vars, hv])
          · exact hty sc (by simp) v (by simp [Scope.vars, hv])
          · exact hty sc (by simp) v (by simp [Scope.vars, hv])
        · exact hty x (by simp [hx]) v hv
      refine Runs.bind (letInner_runs hbs hbody ready1 (by rw [heap1]; exact hb) (by rw [heap1]; exact ht) pop1 hmods) ?_
      rintro s2 r ⟨hm2, keep2, pop2, hq2⟩
      obtain ⟨sc2, rest2, hsc2, g1, g2, g3, g4, g5⟩ := pop2
      obtain ⟨a, e3⟩ := popLocals_run bs.length hsc2
      refine Runs.bind (Runs.ok (c := 0) (P := fun s' _ => s' = { s2 with scopes := { sc2 with locals := sc2.locals.drop bs.length, allocated := a } :: rest2 }) e3 (by simp) rfl) ?_
      rintro s3 _ rfl
      refine .pure ⟨hm2, ?_, ?_, hq2⟩
      · simp only
        rw [List.prefix_iff_getElem?]
        intro i hi
        rw [keep2 i hi (by rw [heap1]; exact prefix_lt hp0 hi), heap1]
        exact prefix_node hp0 (List.getElem?_eq_getElem hi)
      · refine hr0.trans ?_
        rw [hsc]
        exact .cons g1 g2 g3 g4

end
end Verif.NoCrash
